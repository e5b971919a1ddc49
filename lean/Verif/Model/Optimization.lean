import Verif.Model.Py
import Verif.Model.PyFloat
import Verif.Model.Bayesian
import Mathlib.Analysis.Real.Sqrt
import Mathlib.Data.Fintype.Sum
import Mathlib.Algebra.BigOperators.Group.Finset.Basic

/-! # Model of `pyvallocation/optimization.py`

Every optimiser assembles a conic programme and hands it to CVXOPT.  The assembly is modelled row by row; the solver is a
parameter that answers `some x` for status `"optimal"`.  Decision vectors are indexed by sum types instead of positions: a
block of columns of the code is a summand. -/

namespace PyV.Opt

open PyV Matrix

/-- A row `a x` with right-hand side `b`. -/
abbrev Row (V : Type) := (V → ℝ) × ℝ

/-- The argument of a CVXOPT call: minimise `1/2 x'Px + c'x` subject to `G x <= h` (`lin`), second-order cones (`soc`, each a
list of rows `(g, h)` with slack `h - g x`) and `A x = b` (`eq`). -/
structure Prog (V : Type) where
  P : V → V → ℝ
  c : V → ℝ
  lin : List (Row V)
  soc : List (List (Row V))
  eq : List (Row V)

/-- `g x`. -/
def dot {V : Type} [Fintype V] (g x : V → ℝ) : ℝ := ∑ v, g v * x v

/-- A CVXOPT call (`solvers.qp`, `solvers.lp`, `solvers.conelp`): `some x` when the status is `"optimal"`. -/
abbrev Solver := (V : Type) → Fintype V → Prog V → Option (V → ℝ)

/-- `_assert_optimal` (optimization.py:274-283). -/
def assertOptimal {α : Type} : Option α → Except PyErr α
  | some x => .ok x
  | none => .error .runtimeError

/-- User constraints `G w <= h` and `A w = b`; `none` when the matrix is `None` (optimization.py:241-261). -/
structure User (N : ℕ) where
  G : Option (List (Row (Fin N)))
  A : Option (List (Row (Fin N)))

/-- `np.isclose(a, b)` with the default tolerances. -/
noncomputable def isclose (a b : ℝ) : Prop := |a - b| ≤ 1 / 10 ^ 8 + 1 / 10 ^ 5 * |b|

/-- `np.linspace(a, b, num)[k]`. -/
noncomputable def linspace (a b : ℝ) (num k : ℕ) : ℝ := a + k * ((b - a) / ((num : ℝ) - 1))

/-- Solve for every target of the list, stopping at the first exception (a list comprehension). -/
def mapTargets {α : Type} (fn : ℝ → Except PyErr α) : List ℝ → Except PyErr (List α)
  | [] => .ok []
  | t :: ts =>
    match fn t with
    | .error e => .error e
    | .ok a =>
      match mapTargets fn ts with
      | .error e => .error e
      | .ok l => .ok (a :: l)

/-- `_FrontierMixin._frontier` (optimization.py:307-332): the columns. -/
noncomputable def frontier {N : ℕ} (first : Fin N → ℝ) (fn : ℝ → Except PyErr (Fin N → ℝ)) (num : ℕ) (mean : Fin N → ℝ)
    (maxRet : ℝ) : Except PyErr (List (Fin N → ℝ)) := by
  classical
  exact
    let minRet := dot mean first
    if num < 2 ∨ isclose minRet maxRet then .ok [first]
    else
      match mapTargets fn ((List.range (num - 1)).map (fun k => linspace minRet maxRet num (k + 1))) with
      | .error e => .error e
      | .ok cols => .ok (first :: cols)

/-! ## Mean-variance -/

/-- State of a `MeanVariance` object. -/
structure MV (N : ℕ) where
  mean : Fin N → ℝ
  cov : Fin N → Fin N → ℝ
  P : Fin N → Fin N → ℝ
  q : Fin N → ℝ
  user : User N

/-- `_quadratic_turnover` (optimization.py:115-131). -/
def quadraticTurnover {N : ℕ} (P : Fin N → Fin N → ℝ) (q w0 lam : Fin N → ℝ) : (Fin N → Fin N → ℝ) × (Fin N → ℝ) :=
  (fun i j => P i j + 2 * (if i = j then lam i else 0), fun i => q i - 2 * (lam i * w0 i))

/-- `MeanVariance.__init__` (optimization.py:369-398): costs count only together with initial weights. -/
def mvInit {N : ℕ} (mean : Fin N → ℝ) (cov : Fin N → Fin N → ℝ) (user : User N) (w0 costs : Option (Fin N → ℝ)) : MV N :=
  let P : Fin N → Fin N → ℝ := fun i j => 2 * cov i j
  let q : Fin N → ℝ := fun _ => 0
  let Pq := match w0, costs with
    | some w, some l => quadraticTurnover P q w l
    | _, _ => (P, q)
  ⟨mean, cov, Pq.1, Pq.2, user⟩

/-- `G, h` with the optional target row `-mean x <= -target` appended (optimization.py:410-415). -/
def withTarget {N : ℕ} (user : User N) (mean : Fin N → ℝ) (target : Option ℝ) : List (Row (Fin N)) :=
  (user.G.getD []) ++ (match target with | none => [] | some t => [(fun i => -(mean i), -t)])

/-- The QP of `MeanVariance._solve_target` (optimization.py:410-416). -/
def mvProg {N : ℕ} (m : MV N) (target : Option ℝ) : Prog (Fin N) :=
  ⟨m.P, m.q, withTarget m.user m.mean target, [], m.user.A.getD []⟩

/-- The retry with a ridge (optimization.py:417-422). -/
noncomputable def mvRidge {N : ℕ} (m : MV N) : Fin N → Fin N → ℝ :=
  fun i j => m.P i j + (if i = j then max (1 / 10 ^ 8) (1 / 10 ^ 8 * (∑ k, m.P k k) / max (N : ℝ) 1) else 0)

/-- `MeanVariance._solve_target` (optimization.py:403-424). -/
noncomputable def mvSolve (solver : Solver) {N : ℕ} (m : MV N) (target : Option ℝ) : Except PyErr (Fin N → ℝ) :=
  match solver _ inferInstance (mvProg m target) with
  | some x => .ok x
  | none => assertOptimal (solver _ inferInstance { mvProg m target with P := mvRidge m })

/-- `_max_expected_return` (optimization.py:285-295) for a programme with the given constraint rows: minus the optimal value of
`-mean x`. -/
def maxReturn (solver : Solver) {V : Type} [Fintype V] (meanRow : V → ℝ) (lin eq : List (Row V)) : Except PyErr ℝ :=
  match solver V inferInstance ⟨fun _ _ => 0, fun v => -(meanRow v), lin, [], eq⟩ with
  | some x => .ok (-(dot (fun v => -(meanRow v)) x))
  | none => .error .runtimeError

/-- The test of its inequalities with which `cvxopt.solvers.lp` begins: `None` is not a matrix (`TypeError`), and there has to be a row. -/
def lpInequalities {V : Type} (G : Option (List (Row V))) : Except PyErr (List (Row V)) :=
  match G with
  | none => .error .typeError
  | some [] => .error .valueError
  | some (r :: l) => .ok (r :: l)

/-- `MeanVariance.efficient_frontier` (optimization.py:428-441); the return LP (285-295) needs an inequality. -/
noncomputable def mvFrontier (solver : Solver) {N : ℕ} (m : MV N) (num : ℕ) : Except PyErr (List (Fin N → ℝ)) :=
  match mvSolve solver m none with
  | .error e => .error e
  | .ok first =>
    match lpInequalities m.user.G with
    | .error e => .error e
    | .ok G =>
      match maxReturn solver m.mean G (m.user.A.getD []) with
      | .error e => .error e
      | .ok r => frontier first (fun t => mvSolve solver m (some t)) num m.mean r

/-- `OptimizationResult` (optimization.py:163-175). -/
structure Result (N : ℕ) where
  w : Fin N → ℝ
  ret : ℝ
  risk : ℝ

/-- The programme of `max_sharpe` (optimization.py:462-500): equalities with a non-zero right-hand side are dropped, all
inequalities get right-hand side zero. -/
noncomputable def sharpeProg {N : ℕ} (m : MV N) (rf : ℝ) : Prog (Fin N) := by
  classical
  exact
    { P := fun i j => 2 * m.cov i j
      c := fun _ => 0
      lin := (m.user.G.getD []).map (fun r => (r.1, 0))
      soc := []
      eq := (fun i => m.mean i - rf, 1) ::
        ((m.user.A.getD []).filter (fun r => decide (|r.2| ≤ 1 / 10 ^ 12))).map (fun r => (r.1, 0)) }

/-- `MeanVariance.max_sharpe` (optimization.py:443-513). -/
noncomputable def maxSharpe (solver : Solver) {N : ℕ} (m : MV N) (rf : ℝ) : Except PyErr (Result N) := by
  classical
  exact
    match solver _ inferInstance (sharpeProg m rf) with
    | none => .error .infeasible
    | some y =>
      let s := ∑ i, y i
      if |s| < 1 / 10 ^ 12 then .error .infeasible
      else
        let w : Fin N → ℝ := fun i => y i / s
        .ok ⟨w, dot m.mean w, Real.sqrt (∑ i, ∑ j, w i * m.cov i j * w j)⟩

/-! ## Mean-CVaR -/

/-- Decision vector `[w | c | xi | extra]` of the CVaR programme; `E` is empty, or the two trade blocks with costs. -/
abbrev CV (N T : ℕ) (E : Type) := Fin N ⊕ (Unit ⊕ (Fin T ⊕ E))

/-- A row given by its blocks (`np.concatenate(..., axis=1)`). -/
def blocks {N T : ℕ} {E : Type} (w : Fin N → ℝ) (c : ℝ) (xi : Fin T → ℝ) (e : E → ℝ) : CV N T E → ℝ :=
  Sum.elim w (Sum.elim (fun _ => c) (Sum.elim xi e))

/-- Arguments of `MeanCVaR.__init__`. -/
structure CvArgs (N T : ℕ) where
  R : Fin T → Fin N → ℝ
  p : Fin T → ℝ
  alpha : ℝ
  user : User N
  w0 : Option (Fin N → ℝ)
  costs : Option (Fin N → ℝ)

/-- `p @ R` (optimization.py:582). -/
def cvMean {N T : ℕ} (a : CvArgs N T) : Fin N → ℝ := fun i => ∑ t, a.p t * a.R t i

/-- Objective, inequality and user-equality rows (optimization.py:584-643), without the target row, for trade variables `E`
with objective coefficients `cost` and non-negativity rows for the members of `nonneg`; `trade` are the trade equalities. -/
noncomputable def cvBase {N T : ℕ} {E : Type} [DecidableEq E] (a : CvArgs N T) (cost : E → ℝ) (nonneg : List E)
    (trade : List (Row (CV N T E))) : Prog (CV N T E) :=
  { P := fun _ _ => 0
    c := blocks (fun _ => 0) 1 (fun t => a.p t / a.alpha) cost
    lin :=
      (List.finRange T).map (fun t => (blocks (fun i => -(a.R t i)) (-1) (fun s => if s = t then -1 else 0) (fun _ => 0), 0)) ++
      (List.finRange T).map (fun t => (blocks (fun _ => 0) 0 (fun s => if s = t then -1 else 0) (fun _ => 0), 0)) ++
      nonneg.map (fun e => (blocks (fun _ => 0) 0 (fun _ => 0) (fun f => if f = e then -1 else 0), 0)) ++
      (a.user.G.getD []).map (fun r => (blocks r.1 0 (fun _ => 0) (fun _ => 0), r.2))
    soc := []
    eq := (a.user.A.getD []).map (fun r => (blocks r.1 0 (fun _ => 0) (fun _ => 0), r.2)) ++ trade }

/-- Trade equalities `w - u+ + u- = w0` of `_linear_turnover_blocks` (optimization.py:134-158). -/
def tradeRows {N T : ℕ} (w0 : Fin N → ℝ) : List (Row (CV N T (Fin N ⊕ Fin N))) :=
  (List.finRange N).map (fun i =>
    (blocks (fun j => if j = i then 1 else 0) 0 (fun _ => 0)
      (Sum.elim (fun j => if j = i then -1 else 0) (fun j => if j = i then 1 else 0)), w0 i))

/-- The programme with proportional costs. -/
noncomputable def cvCosts {N T : ℕ} (a : CvArgs N T) (w0 costs : Fin N → ℝ) : Prog (CV N T (Fin N ⊕ Fin N)) :=
  cvBase a (Sum.elim costs costs) ((List.finRange N).map Sum.inl ++ (List.finRange N).map Sum.inr) (tradeRows w0)

/-- The programme without costs. -/
noncomputable def cvPlain {N T : ℕ} (a : CvArgs N T) : Prog (CV N T Empty) := cvBase a (fun e => e.elim) [] []

/-- The target row appended by `_solve_target` (optimization.py:655-660): `-mean w <= -target`. -/
def addTarget {N T : ℕ} {E : Type} (mean : Fin N → ℝ) (target : Option ℝ) (pr : Prog (CV N T E)) : Prog (CV N T E) :=
  match target with
  | none => pr
  | some t => { pr with lin := pr.lin ++ [(blocks (fun i => -(mean i)) 0 (fun _ => 0) (fun _ => 0), -t)] }

/-- `MeanCVaR._solve_target` (optimization.py:650-663): the weights block of the solution. -/
noncomputable def cvSolve (solver : Solver) {N T : ℕ} (a : CvArgs N T) (target : Option ℝ) : Except PyErr (Fin N → ℝ) :=
  match a.w0, a.costs with
  | some w0, some costs =>
    match solver _ inferInstance (addTarget (cvMean a) target (cvCosts a w0 costs)) with
    | some x => .ok (fun i => x (Sum.inl i))
    | none => .error .runtimeError
  | _, _ =>
    match solver _ inferInstance (addTarget (cvMean a) target (cvPlain a)) with
    | some x => .ok (fun i => x (Sum.inl i))
    | none => .error .runtimeError

/-- `_max_expected_return` on the extended programme: `expected_row` is the mean padded with zeros (optimization.py:263-271). -/
noncomputable def cvMaxReturn (solver : Solver) {N T : ℕ} (a : CvArgs N T) : Except PyErr ℝ :=
  match a.w0, a.costs with
  | some w0, some costs =>
    maxReturn solver (blocks (cvMean a) 0 (fun _ => 0) (fun _ => 0)) (cvCosts a w0 costs).lin (cvCosts a w0 costs).eq
  | _, _ => maxReturn solver (blocks (cvMean a) 0 (fun _ => 0) (fun _ => 0)) (cvPlain a).lin (cvPlain a).eq

/-- `MeanCVaR.efficient_frontier` (optimization.py:667-679). -/
noncomputable def cvFrontier (solver : Solver) {N T : ℕ} (a : CvArgs N T) (num : ℕ) : Except PyErr (List (Fin N → ℝ)) :=
  match cvSolve solver a none with
  | .error e => .error e
  | .ok first =>
    match cvMaxReturn solver a with
    | .error e => .error e
    | .ok r => frontier first (fun t => cvSolve solver a (some t)) num (cvMean a) r

/-! ## Robust mean optimiser -/

/-- Arguments of `RobustOptimizer.__init__`. -/
structure RobArgs (N : ℕ) where
  mean : Fin N → ℝ
  S : Matrix (Fin N) (Fin N) ℝ
  user : User N
  w0 : Option (Fin N → ℝ)
  costs : Option (Fin N → ℝ)

/-- The conic programme of `_solve_socp` without costs (optimization.py:859-928): `[w | t]`, penalty on `t`, cone
`(t, L w)`, optional cap on `t`. -/
noncomputable def robProg {N : ℕ} (a : RobArgs N) (L : Matrix (Fin N) (Fin N) ℝ) (penalty : ℝ) (capSq : Option ℝ) :
    Prog (Fin N ⊕ Unit) :=
  { P := fun _ _ => 0
    c := Sum.elim (fun i => -(a.mean i)) (fun _ => penalty)
    lin := (a.user.G.getD []).map (fun r => (Sum.elim r.1 (fun _ => 0), r.2)) ++
      (match capSq with | none => [] | some s => [(Sum.elim (fun _ => 0) (fun _ => 1), Real.sqrt s)])
    soc := [(Sum.elim (fun _ => 0) (fun _ => -1), 0) ::
      (List.finRange N).map (fun k => (Sum.elim (fun i => -(L k i)) (fun _ => 0), 0))]
    eq := (a.user.A.getD []).map (fun r => (Sum.elim r.1 (fun _ => 0), r.2)) }

/-- `_solve_socp` (optimization.py:854-937).  With costs the objective is built by
`np.hstack((-mean, penalty, (costs, costs)))`, whose third entry is a two-dimensional array: NumPy raises `ValueError`. -/
noncomputable def robSolve (solver : Solver) {N : ℕ} (a : RobArgs N) (L : Matrix (Fin N) (Fin N) ℝ) (penalty : ℝ)
    (capSq : Option ℝ) : Except PyErr (Result N) :=
  match a.w0, a.costs with
  | some _, some _ => .error .valueError
  | _, _ =>
    match solver _ inferInstance (robProg a L penalty capSq) with
    | none => .error .runtimeError
    | some x => .ok ⟨fun i => x (Sum.inl i), dot a.mean (fun i => x (Sum.inl i)), x (Sum.inr ())⟩

/-- `RobustOptimizer(...).solve_lambda_variant(lam)` (optimization.py:770-815). -/
noncomputable def robLambda (solver : Solver) (factor : Bayes.Factor) {N : ℕ} (a : RobArgs N) (lam : ℝ) :
    Except PyErr (Result N) := by
  classical
  exact
    match (Bayes.cholSquare factor a.S).result with
    | .error e => .error e
    | .ok L => if lam < 0 then .error .valueError else robSolve solver a L lam none

/-- `RobustOptimizer(...).solve_gamma_variant(gamma_mu, gamma_sigma_sq)` (optimization.py:817-826). -/
noncomputable def robGamma (solver : Solver) (factor : Bayes.Factor) {N : ℕ} (a : RobArgs N) (gammaMu gammaSigmaSq : ℝ) :
    Except PyErr (Result N) := by
  classical
  exact
    match (Bayes.cholSquare factor a.S).result with
    | .error e => .error e
    | .ok L =>
      if gammaMu < 0 ∨ gammaSigmaSq < 0 then .error .valueError else robSolve solver a L gammaMu (some gammaSigmaSq)

/-- `RobustOptimizer(...).efficient_frontier(lambdas)` (optimization.py:828-849): the results of the `lambda` variant in the order
of the penalties, from which the returned lists of returns and radii and the columns of the weight matrix are read.  The first
failing penalty raises; `np.column_stack([])` raises `ValueError` when no penalty is given. -/
noncomputable def robFrontier (solver : Solver) (factor : Bayes.Factor) {N : ℕ} (a : RobArgs N) (lams : List ℝ) :
    Except PyErr (List (Result N)) :=
  match (Bayes.cholSquare factor a.S).result with
  | .error e => .error e
  | .ok _ =>
    match mapE (robLambda solver factor a) lams with
    | .error e => .error e
    | .ok res => if res.isEmpty then .error .valueError else .ok res

/-! ## Relaxed risk parity -/

/-- The four scalar decision variables after `x` and `zeta`. -/
inductive Sc where
  | psi | gamma | rho | q
  deriving DecidableEq

instance : Fintype Sc := ⟨{.psi, .gamma, .rho, .q}, by intro s; cases s <;> simp⟩

/-- Decision vector `[x | zeta | psi, gamma, rho, q]` (optimization.py:1040-1050). -/
abbrev RV (n : ℕ) := Fin n ⊕ (Fin n ⊕ Sc)

/-- A row given by its blocks. -/
def rblocks {n : ℕ} (x z : Fin n → ℝ) (s : Sc → ℝ) : RV n → ℝ := Sum.elim x (Sum.elim z s)

/-- Unit coefficient. -/
def unit {α : Type} [DecidableEq α] (a : α) (v : ℝ) : α → ℝ := fun b => if b = a then v else 0

/-- Arguments of `RelaxedRiskParity` after `__init__` (optimization.py:970-1020): `cov` symmetrised, `chol` its factor, `budgets`
normalised. -/
structure Rrp (n : ℕ) where
  mean : Fin n → ℝ
  cov : Matrix (Fin n) (Fin n) ℝ
  chol : Matrix (Fin n) (Fin n) ℝ
  budgets : Fin n → ℝ
  user : User n

/-- Risk budgets (optimization.py:1008-1020). -/
noncomputable def rrpBudgets {n : ℕ} (rb : Option (Fin n → ℝ)) : Except PyErr (Fin n → ℝ) := by
  classical
  exact
    match rb with
    | none => .ok (fun _ => 1 / (n : ℝ))
    | some b =>
      if ∃ i, b i ≤ 0 then .error .valueError
      else if isclose (∑ i, b i) 1 then .ok b
      else .ok (fun i => b i / ∑ j, b j)

/-- `RelaxedRiskParity.__init__` (optimization.py:970-1020); dimensions agree by typing. -/
noncomputable def rrpInit (factor : Bayes.Factor) {n : ℕ} (mean : Fin n → ℝ) (cov : Matrix (Fin n) (Fin n) ℝ) (user : User n)
    (rb : Option (Fin n → ℝ)) : Except PyErr (Rrp n) :=
  match (Bayes.cholSquare factor (Bayes.symPart cov)).result with
  | .error e => .error e
  | .ok L =>
    match rrpBudgets rb with
    | .error e => .error e
    | .ok b => .ok ⟨mean, Bayes.symPart cov, L, b, user⟩

/-- `np.allclose(row, ones, atol=1e-8, rtol=1e-8)` for some user equality row (optimization.py:1081-1086). -/
noncomputable def hasBudgetRow {n : ℕ} (A : List (Row (Fin n))) : Prop :=
  ∃ r ∈ A, ∀ i, |r.1 i - 1| ≤ 1 / 10 ^ 8 + 1 / 10 ^ 8

/-- The conic programme of `RelaxedRiskParity.solve` (optimization.py:1062-1196). -/
noncomputable def rrpProg {n : ℕ} (a : Rrp n) (lam : ℝ) (target : Option ℝ) : Prog (RV n) := by
  classical
  exact
    { P := fun _ _ => 0
      c := rblocks (fun _ => 0) (fun _ => 0) (fun s => if s = .psi then 1 else if s = .gamma then -1 else 0)
      eq :=
        (List.finRange n).map (fun i => (rblocks (fun j => -(a.cov i j)) (unit i 1) (fun _ => 0), 0)) ++
        (if hasBudgetRow (a.user.A.getD []) then [] else [(rblocks (fun _ => 1) (fun _ => 0) (fun _ => 0), 1)]) ++
        (a.user.A.getD []).map (fun r => (rblocks r.1 (fun _ => 0) (fun _ => 0), r.2))
      lin :=
        (List.finRange n).map (fun i => (rblocks (unit i (-1)) (fun _ => 0) (fun _ => 0), 0)) ++
        (List.finRange n).map (fun i => (rblocks (fun _ => 0) (unit i (-1)) (fun _ => 0), 0)) ++
        [(rblocks (fun _ => 0) (fun _ => 0) (unit .psi (-1)), 0), (rblocks (fun _ => 0) (fun _ => 0) (unit .gamma (-1)), 0),
          (rblocks (fun _ => 0) (fun _ => 0) (unit .rho (-1)), 0)] ++
        (a.user.G.getD []).map (fun r => (rblocks r.1 (fun _ => 0) (fun _ => 0), r.2)) ++
        (match target with | none => [] | some t => [(rblocks (fun i => -(a.mean i)) (fun _ => 0) (fun _ => 0), -t)])
      soc :=
        [(rblocks (fun _ => 0) (fun _ => 0) (unit .q (-1)), 0) ::
          (List.finRange n).map (fun k => (rblocks (fun i => -(a.chol k i)) (fun _ => 0) (fun _ => 0), 0)),
         [(rblocks (fun _ => 0) (fun _ => 0) (unit .psi (-(Real.sqrt n))), 0),
          (rblocks (fun _ => 0) (fun _ => 0) (unit .q (-1)), 0),
          (rblocks (fun _ => 0) (fun _ => 0) (unit .rho (-(Real.sqrt n))), 0)]] ++
        (if 0 < lam then
          [(rblocks (fun _ => 0) (fun _ => 0) (unit .rho (-1)), 0) ::
            (List.finRange n).map (fun k =>
              (rblocks (unit k (-(Real.sqrt lam * Real.sqrt (max (a.cov k k) 0)))) (fun _ => 0) (fun _ => 0), 0))]
         else []) ++
        (List.finRange n).map (fun i =>
          [(rblocks (unit i (-1)) (unit i (-1)) (fun _ => 0), 0),
           (rblocks (fun _ => 0) (fun _ => 0) (unit .gamma (-(2 * Real.sqrt (a.budgets i)))), 0),
           (rblocks (unit i (-1)) (unit i 1) (fun _ => 0), 0)]) }

/-- Equalities of the return LP (optimization.py:1289-1293): the budget row is used only when there are no user equalities. -/
def rrpLpEq {n : ℕ} (u : User n) : List (Row (Fin n)) := match u.A with | none => [(fun _ => 1, 1)] | some A => A

/-- `_max_linear_return` (optimization.py:1263-1304). -/
noncomputable def rrpMaxReturn (solver : Solver) {n : ℕ} (a : Rrp n) : Except PyErr ℝ :=
  maxReturn solver a.mean
    ((a.user.G.getD []) ++ (List.finRange n).map (fun i => (unit i (-1), 0)))
    (rrpLpEq a.user)

/-- Target clip (optimization.py:1055-1060). -/
noncomputable def rrpClip (target maxRet : ℝ) (minTarget : Option ℝ) : ℝ := by
  classical
  exact
    let tol := max (1 / 10 ^ 8) (1 / 10 ^ 3 * |maxRet|)
    let t := if maxRet - tol ≤ target then maxRet - tol else target
    match minTarget with
    | none => t
    | some m => max t m

/-- `RelaxedRiskParityResult` (optimization.py:177-213). -/
structure RrpResult (n : ℕ) where
  w : Fin n → ℝ
  marginal : Fin n → ℝ
  psi : ℝ
  gamma : ℝ
  rho : ℝ
  objective : ℝ
  target : Option ℝ
  maxReturn : Option ℝ

/-- The solver call and unpacking (optimization.py:1198-1222). -/
noncomputable def rrpFinish (solver : Solver) {n : ℕ} (a : Rrp n) (lam : ℝ) (target maxRet : Option ℝ) :
    Except PyErr (RrpResult n) :=
  match solver _ inferInstance (rrpProg a lam target) with
  | none => .error .runtimeError
  | some x => .ok
      { w := fun i => x (Sum.inl i)
        marginal := fun i => x (Sum.inr (Sum.inl i))
        psi := x (Sum.inr (Sum.inr .psi))
        gamma := x (Sum.inr (Sum.inr .gamma))
        rho := x (Sum.inr (Sum.inr .rho))
        objective := x (Sum.inr (Sum.inr .psi)) - x (Sum.inr (Sum.inr .gamma))
        target := target
        maxReturn := maxRet }

/-- `RelaxedRiskParity.solve` (optimization.py:1025-1222) for a finite target. -/
noncomputable def rrpSolve (solver : Solver) {n : ℕ} (a : Rrp n) (lam : ℝ) (target minTarget : Option ℝ) :
    Except PyErr (RrpResult n) := by
  classical
  exact
    if lam < 0 then .error .valueError
    else
      match target with
      | none => rrpFinish solver a lam none none
      | some t =>
        match rrpMaxReturn solver a with
        | .error e => .error e
        | .ok r => rrpFinish solver a lam (some (rrpClip t r minTarget)) (some r)

end PyV.Opt
