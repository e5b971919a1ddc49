import Verif.Model.Distribution
import Verif.Model.Frontier
import Verif.Model.Optimization
import Verif.Model.Validation
import Verif.Model.Risk

/-! # Model of `PortfolioWrapper` (portfolioapi.py:694-2041)

The wrapper's methods compose the distribution, the constraint builder and the optimisers modelled elsewhere.  Log messages,
Series names and asset labels of the results are not modelled. -/

namespace PyV.Api

open PyV Matrix

/-! ## `from_moments` -/

/-- The covariance argument as a square array of finite numbers with its labels.  An array that is not square and two-dimensional is
rejected by `ensure_psd_matrix` (validation.py:40-41); a non-finite entry fails all of its tests (validation.py:20, 26, 57). -/
structure Square where
  n : ℕ
  A : Matrix (Fin n) (Fin n) ℝ
  labels : Option ((Fin n → String) × (Fin n → String))

/-- Read a grid as a square matrix. -/
noncomputable def squareGrid (g : Grid) (labels : Option ((Fin g.rows → String) × (Fin g.cols → String))) : Except PyErr Square := by
  classical
  exact
    if h : g.cols = g.rows then
      if ∀ i j, (g.e i j).isFinite = true then
        .ok ⟨g.rows, Matrix.of (fun i j => (g.e i (j.cast h.symm)).val),
          labels.map (fun l => (l.1, fun j => l.2 (j.cast h.symm)))⟩
      else .error .valueError
    else .error .valueError

/-- `cov.to_numpy()` or `np.asarray(cov)` (portfolioapi.py:838). -/
noncomputable def squareOf : GridArg → Except PyErr Square
  | .frame g i c => squareGrid g (some (i, c))
  | .array g => squareGrid g none
  | .notMatrix => .error .valueError

/-- The array, or the DataFrame with the labels of the argument (portfolioapi.py:840-841, projection.py:93-107). -/
def asGrid {n : ℕ} (labels : Option ((Fin n → String) × (Fin n → String))) (e : Fin n → Fin n → PyFloat ℝ) : GridArg :=
  match labels with
  | none => .array ⟨n, n, e⟩
  | some l => .frame ⟨n, n, e⟩ l.1 l.2

/-- NumPy broadcasting of a vector of length `m` against one of length `n`. -/
def broadcast (m n : ℕ) : Option ℕ := if m = n then some n else if m = 1 then some n else if n = 1 then some m else none

/-- `exp(mu + d/2) - 1` (projection.py:124-125) in floating point. -/
noncomputable def logMean (m : PyFloat ℝ) (d : ℝ) : PyFloat ℝ :=
  match m with
  | .fin x => .fin (Real.exp (x + 1 / 2 * d) - 1)
  | .nan => .nan
  | .posInf => .posInf
  | .negInf => .fin (-1)

/-- `exp(mu_i + mu_j + (d_i + d_j + 2 c_ij)/2) - exp(mu_i + d_i/2) exp(mu_j + d_j/2)` (projection.py:127-130) in floating point: with
an infinite positive mean the difference is `inf - inf` or has a NaN operand. -/
noncomputable def logCov (mi mj : PyFloat ℝ) (di dj c : ℝ) : PyFloat ℝ :=
  match mi, mj with
  | .fin x, .fin y => .fin (Real.exp (x + y + 1 / 2 * (di + dj + 2 * c)) - Real.exp (x + 1 / 2 * di) * Real.exp (y + 1 / 2 * dj))
  | .fin _, .negInf => .fin 0
  | .negInf, .fin _ => .fin 0
  | .negInf, .negInf => .fin 0
  | _, _ => .nan

/-- Position `i` of a vector of length `m` broadcast to a longer one. -/
def bidx (m : ℕ) (i : ℕ) : ℕ := if m = 1 then 0 else i

/-- Entry of a matrix at broadcast positions. -/
def bget {n : ℕ} (A : Matrix (Fin n) (Fin n) ℝ) (i j : ℕ) : ℝ :=
  if h : bidx n i < n ∧ bidx n j < n then A ⟨_, h.1⟩ ⟨_, h.2⟩ else 0

/-- `log2simple(mu, cov)` with its labels (projection.py:110-132): a Series (DataFrame) result must keep the length of its
template. -/
noncomputable def logArgs (mu : VecArg) {n : ℕ} (A : Matrix (Fin n) (Fin n) ℝ)
    (labels : Option ((Fin n → String) × (Fin n → String))) : Except PyErr DistArgs :=
  let v := mu.vals
  let m := v.length
  match broadcast m n with
  | none => .error .valueError
  | some k =>
    let mean : List (PyFloat ℝ) := (List.finRange k).map (fun i : Fin k => logMean (v.getD (bidx m i) .nan) (bget A i i))
    let e : Fin k → Fin k → PyFloat ℝ := fun i j =>
      logCov (v.getD (bidx m i) .nan) (v.getD (bidx m j) .nan) (bget A i i) (bget A j j) (bget A i j)
    match mu with
    | .series l =>
      if k ≠ m then .error .valueError
      else
        match labels with
        | none => .ok { mu := some (.series ((l.map Prod.fst).zip mean)), cov := some (.array ⟨k, k, e⟩) }
        | some lb =>
          if h : n = k then
            .ok { mu := some (.series ((l.map Prod.fst).zip mean)),
                  cov := some (.frame ⟨k, k, e⟩ (fun i => lb.1 (i.cast h.symm)) (fun i => lb.2 (i.cast h.symm))) }
          else .error .valueError
    | .array _ =>
      match labels with
      | none => .ok { mu := some (.array mean), cov := some (.array ⟨k, k, e⟩) }
      | some lb =>
        if h : n = k then
          .ok { mu := some (.array mean),
                cov := some (.frame ⟨k, k, e⟩ (fun i => lb.1 (i.cast h.symm)) (fun i => lb.2 (i.cast h.symm))) }
        else .error .valueError

/-- `PortfolioWrapper.from_moments` up to the distribution (portfolioapi.py:807-850): any `return_type` other than `"log"` is treated
as simple. -/
noncomputable def fromMoments (mu : VecArg) (cov : GridArg) (returnType : String) : Except PyErr Dist :=
  match squareOf cov with
  | .error e => .error e
  | .ok s =>
    match Valid.ensurePsd s.A Valid.defaultJitter with
    | .error e => .error e
    | .ok P =>
      if returnType = "log" then
        match logArgs mu P s.labels with
        | .error e => .error e
        | .ok a => mkDist a
      else mkDist { mu := some mu, cov := some (asGrid s.labels (fun i j => .fin (P i j))) }

/-! ## The wrapper -/

/-- `TransactionCosts` (portfolioapi.py:230-241), each vector flattened by `ravel`. -/
structure Costs where
  w0 : List ℝ
  impact : Option (List ℝ)
  prop : Option (List ℝ)

/-- `initial_weights`, `market_impact_costs`, `proportional_costs` as attributes. -/
structure CostState where
  w0 : Option (List ℝ)
  impact : Option (List ℝ)
  prop : Option (List ℝ)

/-- State of a `PortfolioWrapper` (portfolioapi.py:736-748). -/
structure Wrapper (N : ℕ) where
  mu : Option (Fin N → ℝ)
  cov : Option (Matrix (Fin N) (Fin N) ℝ)
  scen : Option (Scen N)
  mats : Con.Matrices (Int.toNat (N : ℤ)) ℝ
  costs : CostState
  isLog : Bool
  unc : Option (Matrix (Fin N) (Fin N) ℝ)

/-- The shape test of one optional cost vector (portfolioapi.py:1125-1138). -/
def costLenOk (N : ℕ) (v : Option (List ℝ)) : Bool :=
  match v with
  | none => true
  | some l => decide (l.length = N)

/-- `_apply_transaction_costs` (portfolioapi.py:1114-1139). -/
def applyCosts (N : ℕ) (c : Option Costs) : Except PyErr CostState :=
  match c with
  | none => .ok ⟨none, none, none⟩
  | some c =>
    if c.w0.length ≠ N then .error .valueError
    else if costLenOk N c.impact && costLenOk N c.prop then .ok ⟨some c.w0, c.impact, c.prop⟩
    else .error .valueError

/-- `PortfolioWrapper.__init__` (portfolioapi.py:712-749). -/
noncomputable def mkWrapper (d : Dist) (constraints : Option (Con.Spec ℝ)) (costs : Option Costs) (longOnly : Bool)
    (total : Option (PyFloat ℝ)) (bounds : Option (Con.Bounds ℝ)) : Except PyErr (Wrapper d.N) :=
  match Fr.setupConstraints d.N constraints longOnly total bounds with
  | .error e => .error e
  | .ok m =>
    match applyCosts d.N costs with
    | .error e => .error e
    | .ok c => .ok ⟨d.mu, d.cov, d.scen, m, c, false, none⟩

/-- `from_robust_posterior` (portfolioapi.py:892-959) on the posterior's arrays: `h` is `annualization_factor`; `s_mu` comes from
`mean_uncertainty_cov_log`, which multiplies by `h^2` (bayesian.py:662-664). -/
noncomputable def fromRobustPosterior {n : ℕ} (mu : Fin n → ℝ) (sigma sMu : Matrix (Fin n) (Fin n) ℝ) (h : ℝ)
    (constraints : Option (Con.Spec ℝ)) (costs : Option Costs) (longOnly : Bool) (total : Option (PyFloat ℝ))
    (bounds : Option (Con.Bounds ℝ)) : Except PyErr (Σ N, Wrapper N) :=
  match fromMoments (.array (List.ofFn (fun i => .fin (mu i * h)))) (.array ⟨n, n, fun i j => .fin (sigma i j * h)⟩) "simple" with
  | .error e => .error e
  | .ok d =>
    match mkWrapper d constraints costs longOnly total bounds with
    | .error e => .error e
    | .ok w => .ok ⟨d.N, { w with isLog := true, unc := some (Matrix.of (fun i j =>
        if h' : (i : ℕ) < n ∧ (j : ℕ) < n then sMu ⟨i, h'.1⟩ ⟨j, h'.2⟩ * h ^ 2 else 0)) }⟩

/-- `G w <= h`, `A w = b` as rows with right-hand sides. -/
def toUser {N : ℕ} (m : Con.Matrices (Int.toNat (N : ℤ)) ℝ) : Opt.User N :=
  ⟨match m.G, m.h with | some g, some h => some (g.zip h) | _, _ => none,
   match m.A, m.b with | some a, some b => some (a.zip b) | _, _ => none⟩

/-- `_resolve_constraints` (portfolioapi.py:1141-1176), constraint part. -/
noncomputable def Wrapper.user {N : ℕ} (w : Wrapper N) (constraints : Option (Con.Spec ℝ)) : Except PyErr (Opt.User N) :=
  match Fr.resolveConstraints N w.mats constraints with
  | .error e => .error e
  | .ok m => .ok (toUser m)

/-- `_resolve_constraints` (portfolioapi.py:1166-1174), cost part: per-call vectors are flattened and not tested. -/
def Wrapper.resolveCosts {N : ℕ} (w : Wrapper N) (costs : Option Costs) : CostState :=
  match costs with
  | some c => ⟨some c.w0, c.impact, c.prop⟩
  | none => w.costs

/-- `_report_mu_cov` (portfolioapi.py:756-766). -/
noncomputable def Wrapper.report {N : ℕ} (w : Wrapper N) (mu : Fin N → ℝ) (cov : Matrix (Fin N) (Fin N) ℝ) :
    (Fin N → ℝ) × (Fin N → Fin N → ℝ) :=
  if w.isLog then Proj.log2simple mu (fun i j => cov i j) else (mu, fun i j => cov i j)

/-- A list as a vector of length `N`. -/
def vecOf (N : ℕ) (l : List ℝ) : Fin N → ℝ := fun i => l.getD i 0

/-- `MeanVariance(mu, cov, G, h, A, b, initial_weights, market_impact_costs)` for cost vectors of any length
(optimization.py:393-398, `_quadratic_turnover` 115-131).  Vectors of length one broadcast: the scalar is added to every entry of
`P` and of `q`.  Other lengths raise `ValueError`, except for a single asset, where CVXOPT rejects the enlarged `P`. -/
noncomputable def mvOf {N : ℕ} (mu : Fin N → ℝ) (cov : Fin N → Fin N → ℝ) (u : Opt.User N) (c : CostState) :
    Except PyErr (Opt.MV N) :=
  match c.w0, c.impact with
  | some w0, some l =>
    if w0.length ≠ l.length then .error .valueError
    else if l.length = N then .ok (Opt.mvInit mu cov u (some (vecOf N w0)) (some (vecOf N l)))
    else if l.length = 1 then
      .ok ⟨mu, cov, fun i j => 2 * cov i j + 2 * l.getD 0 0, fun _ => 0 - 2 * (l.getD 0 0 * w0.getD 0 0), u⟩
    else if N = 1 then .error .typeError
    else .error .valueError
  | _, _ => .ok (Opt.mvInit mu cov u none none)

/-- `MeanCVaR(R, p, alpha, G, h, A, b, initial_weights, proportional_costs)` for cost vectors of any length: vectors of a wrong common
length make the blocks of the programme inconsistent and CVXOPT raises `TypeError` (optimization.py:584-643). -/
noncomputable def cvOf {N T : ℕ} (R : Fin T → Fin N → ℝ) (p : Fin T → ℝ) (alpha : ℝ) (u : Opt.User N) (c : CostState) :
    Except PyErr (Opt.CvArgs N T) :=
  match c.w0, c.prop with
  | some w0, some l =>
    if w0.length ≠ l.length then .error .valueError
    else if l.length = N then .ok ⟨R, p, alpha, u, some (vecOf N w0), some (vecOf N l)⟩
    else .error .typeError
  | _, _ => .ok ⟨R, p, alpha, u, none, none⟩

/-- `RobustOptimizer(mu, S, G, h, A, b, initial_weights, proportional_costs)`: with both cost vectors every call raises
`ValueError`, whatever their lengths (optimization.py:798-799 and the objective of `_solve_socp`). -/
noncomputable def robOf {N : ℕ} (mu : Fin N → ℝ) (S : Matrix (Fin N) (Fin N) ℝ) (u : Opt.User N) (c : CostState) : Opt.RobArgs N :=
  ⟨mu, S, u, c.w0.map (vecOf N), c.prop.map (vecOf N)⟩

/-- `_require_mu_cov` (portfolioapi.py:767-770). -/
def Wrapper.moments {N : ℕ} (w : Wrapper N) : Except PyErr ((Fin N → ℝ) × Matrix (Fin N) (Fin N) ℝ) :=
  match w.mu, w.cov with
  | some m, some c => .ok (m, c)
  | _, _ => .error .valueError

/-- A `PortfolioFrontier` with its number of columns. -/
structure AnyFrontier (N : ℕ) where
  M : ℕ
  f : Fr.Frontier String ℝ N M

/-- Sorting routines for every length (`np.argsort`). -/
abbrev Argsort := (T : ℕ) → (Fin T → ℝ) → Equiv.Perm (Fin T)

/-- Volatility `sqrt(w' C w)`. -/
noncomputable def vol {N : ℕ} (C : Fin N → Fin N → ℝ) (w : Fin N → ℝ) : ℝ := Real.sqrt (∑ i, ∑ j, w i * C i j * w j)

/-- `mu @ w`. -/
def retOf {N : ℕ} (mu w : Fin N → ℝ) : ℝ := ∑ i, mu i * w i

/-- `_cvar_overlay` (portfolioapi.py:772-788): the absolute CVaR at 95% of every column; an exception removes the overlay. -/
noncomputable def overlay (argsort : Argsort) {N : ℕ} (w : Wrapper N) (cols : List (Fin N → ℝ)) :
    List (String × (Fin cols.length → ℝ)) :=
  match w.scen with
  | none => []
  | some s =>
    match mapE (fun x => Risk.portfolioCvar (argsort s.T) x s.R (some s.p) (some (95 / 100)) false) cols with
    | .error _ => []
    | .ok l => [("CVaR (95%)", fun j => |l.getD j 0|)]

/-- `variance_frontier` (portfolioapi.py:1290-1331); a negative `num_portfolios` behaves as 0. -/
noncomputable def Wrapper.varianceFrontier (solver : Opt.Solver) (argsort : Argsort) {N : ℕ} (w : Wrapper N) (num : ℕ)
    (constraints : Option (Con.Spec ℝ)) (costs : Option Costs) : Except PyErr (AnyFrontier N) :=
  match w.moments with
  | .error e => .error e
  | .ok (mu, cov) =>
    match w.user constraints with
    | .error e => .error e
    | .ok u =>
      match mvOf mu (fun i j => cov i j) u (w.resolveCosts costs) with
      | .error e => .error e
      | .ok m =>
        match Opt.mvFrontier solver m num with
        | .error e => .error e
        | .ok cols =>
          let r := w.report mu cov
          .ok ⟨cols.length,
            { weights := fun i j => cols.get j i
              returns := fun j => retOf r.1 (cols.get j)
              risks := fun j => vol r.2 (cols.get j)
              riskMeasure := "Volatility"
              alternates := overlay argsort w cols }⟩

/-- `except RuntimeError: raise InfeasibleOptimizationError` (portfolioapi.py:1602-1605, 1658-1661). -/
def asInfeasible {α : Type} : Except PyErr α → Except PyErr α
  | .error .runtimeError => .error .infeasible
  | r => r

/-- `min_variance_at_return` (portfolioapi.py:1566-1619). -/
noncomputable def Wrapper.minVarianceAtReturn (solver : Opt.Solver) {N : ℕ} (w : Wrapper N) (target : ℝ)
    (constraints : Option (Con.Spec ℝ)) (costs : Option Costs) : Except PyErr (Opt.Result N) :=
  match w.moments with
  | .error e => .error e
  | .ok (mu, cov) =>
    match w.user constraints with
    | .error e => .error e
    | .ok u =>
      match mvOf mu (fun i j => cov i j) u (w.resolveCosts costs) with
      | .error e => .error e
      | .ok m =>
        match asInfeasible (Opt.mvSolve solver m (some target)) with
        | .error e => .error e
        | .ok x =>
          let r := w.report mu cov
          .ok ⟨x, retOf r.1 x, vol r.2 x⟩

/-! ## CVaR methods -/

/-- `rng.multivariate_normal(mu, cov, n)` with `np.random.default_rng(seed)`. -/
abbrev Sim := (N : ℕ) → (Fin N → ℝ) → Matrix (Fin N) (Fin N) ℝ → (n : ℕ) → Option ℤ → Fin n → Fin N → ℝ

/-- `_scenario_inputs` (portfolioapi.py:1178-1239) with the default 5000 simulations: scenarios, probabilities, expected returns.
Stored probabilities are non-negative with a positive sum by construction of the distribution; they are divided by their sum
when it is not close to one. -/
noncomputable def Wrapper.scenarioInputs (sim : Sim) {N : ℕ} (w : Wrapper N) (seed : Option ℤ) :
    Except PyErr (Scen N × (Fin N → ℝ)) := by
  classical
  exact
    match w.scen with
    | none =>
      match w.mu, w.cov with
      | some mu, some cov =>
        let x := sim N mu cov 5000 seed
        .ok (⟨5000, fun t i => if w.isLog then Real.exp (x t i) - 1 else x t i, fun _ => 1 / 5000⟩, (w.report mu cov).1)
      | _, _ => .error .valueError
    | some s =>
      let tot := ∑ t, s.p t
      if (∃ t, s.p t < 0) ∨ tot ≤ 0 then .error .valueError
      else
        let p : Fin s.T → ℝ := if Opt.isclose tot 1 then s.p else fun t => s.p t / tot
        .ok (⟨s.T, s.R, p⟩,
          match w.mu with
          | none => fun i => ∑ t, s.R t i * p t
          | some mu => match w.isLog, w.cov with
            | true, some cov => (w.report mu cov).1
            | _, _ => mu)

/-- `np.cov(scenarios.T, aweights=probs, bias=True)` (portfolioapi.py:1378). -/
noncomputable def scenCov {N T : ℕ} (R : Fin T → Fin N → ℝ) (p : Fin T → ℝ) : Fin N → Fin N → ℝ :=
  let m : Fin N → ℝ := fun i => (∑ t, p t * R t i) / ∑ t, p t
  fun i j => (∑ t, p t * ((R t i - m i) * (R t j - m j))) / ∑ t, p t

/-- `cvar_frontier` (portfolioapi.py:1333-1423).  With a single asset `np.cov` returns a scalar and the volatility overlay is
skipped. -/
noncomputable def Wrapper.cvarFrontier (solver : Opt.Solver) (argsort : Argsort) (sim : Sim) {N : ℕ} (w : Wrapper N) (num : ℕ)
    (alpha : ℝ) (seed : Option ℤ) (constraints : Option (Con.Spec ℝ)) (costs : Option Costs) (enforce : Bool) :
    Except PyErr (AnyFrontier N) :=
  match w.scenarioInputs sim seed with
  | .error e => .error e
  | .ok (s, mu) =>
    match w.user constraints with
    | .error e => .error e
    | .ok u =>
      match cvOf s.R s.p alpha u (w.resolveCosts costs) with
      | .error e => .error e
      | .ok a =>
        match Opt.cvFrontier solver a num with
        | .error e => .error e
        | .ok cols =>
          match mapE (fun x => Risk.portfolioCvar (argsort s.T) x s.R (some s.p) (some (1 - alpha)) false) cols with
          | .error e => .error e
          | .ok cv =>
            let f := Fr.cvarFrontier (argsort cols.length) mu (fun i j => cols.get j i) (fun j => cv.getD j 0)
              (fun j => vol (scenCov s.R s.p) (cols.get j)) enforce
            .ok ⟨cols.length, if N = 1 then { f with alternates := f.alternates.tail } else f⟩

/-- `min_cvar_at_return` (portfolioapi.py:1621-1675). -/
noncomputable def Wrapper.minCvarAtReturn (solver : Opt.Solver) (argsort : Argsort) (sim : Sim) {N : ℕ} (w : Wrapper N)
    (target alpha : ℝ) (seed : Option ℤ) (constraints : Option (Con.Spec ℝ)) (costs : Option Costs) :
    Except PyErr (Opt.Result N) :=
  match w.scenarioInputs sim seed with
  | .error e => .error e
  | .ok (s, mu) =>
    match w.user constraints with
    | .error e => .error e
    | .ok u =>
      match cvOf s.R s.p alpha u (w.resolveCosts costs) with
      | .error e => .error e
      | .ok a =>
        match asInfeasible (Opt.cvSolve solver a (some target)) with
        | .error e => .error e
        | .ok x =>
          match Risk.portfolioCvar (argsort s.T) x s.R (some s.p) (some (1 - alpha)) false with
          | .error e => .error e
          | .ok c => .ok ⟨x, retOf mu x, |c|⟩

/-! ## Robust methods -/

/-- A column of a swept frontier: its parameter and the solution. -/
structure Column (N : ℕ) where
  lam : ℝ
  w : Fin N → ℝ
  ret : ℝ
  risk : ℝ

/-- The penalty grid (portfolioapi.py:1471-1489). -/
noncomputable def lambdaGrid (num : ℤ) (maxLam : ℝ) (lambdas : Option (List ℝ)) : Except PyErr (List ℝ) := by
  classical
  exact
    match lambdas with
    | some l => if l = [] then .error .valueError else if ∃ x ∈ l, x < 0 then .error .valueError else .ok l
    | none =>
      if num ≤ 0 then .error .valueError
      else if maxLam < 0 then .error .valueError
      else if num = 1 then .ok [maxLam]
      else if maxLam = 0 then .ok [0]
      else .ok ((List.range num.toNat).map (fun k => Opt.linspace 0 maxLam num.toNat k))

/-- `robust_lambda_frontier` (portfolioapi.py:1425-1564): the columns with their penalties, sorted by risk with a stable sort; the
overlays are not modelled. -/
noncomputable def Wrapper.robustFrontier (solver : Opt.Solver) (factor : Bayes.Factor) {N : ℕ} (w : Wrapper N) (num : ℤ)
    (maxLam : ℝ) (lambdas : Option (List ℝ)) (constraints : Option (Con.Spec ℝ)) (costs : Option Costs) :
    Except PyErr (List (Column N)) := by
  classical
  exact
    match w.moments with
    | .error e => .error e
    | .ok (mu, cov) =>
      match w.user constraints with
      | .error e => .error e
      | .ok u =>
        match lambdaGrid num maxLam lambdas with
        | .error e => .error e
        | .ok grid =>
          match mapE (Opt.robLambda solver factor (robOf mu (w.unc.getD cov) u (w.resolveCosts costs))) grid with
          | .error e => .error e
          | .ok res =>
            let cols := grid.zipWith (fun l (r : Opt.Result N) => (⟨l, r.w, retOf (w.report mu cov).1 r.w, r.risk⟩ : Column N)) res
            .ok (cols.mergeSort (fun a b => decide (a.risk ≤ b.risk)))

/-- `solve_robust_gamma_portfolio` (portfolioapi.py:1988-2041): the reported squared radius is capped. -/
noncomputable def Wrapper.robustGamma (solver : Opt.Solver) (factor : Bayes.Factor) {N : ℕ} (w : Wrapper N) (gm gs : ℝ)
    (constraints : Option (Con.Spec ℝ)) (costs : Option Costs) : Except PyErr (Opt.Result N) :=
  match w.moments with
  | .error e => .error e
  | .ok (mu, cov) =>
    match w.user constraints with
    | .error e => .error e
    | .ok u =>
      match Opt.robGamma solver factor (robOf mu (w.unc.getD cov) u (w.resolveCosts costs)) gm gs with
      | .error e => .error e
      | .ok r => .ok ⟨r.w, r.ret, min (r.risk ^ 2) gs⟩

/-! ## Relaxed risk parity methods -/

/-- `except RuntimeError` also catches its subclass. -/
def isRuntime : PyErr → Bool
  | .runtimeError => true
  | .infeasible => true
  | _ => false

/-- The halving step (portfolioapi.py:1281-1283). -/
noncomputable def shrink (lower t : ℝ) : ℝ := by
  classical
  exact
    let u := 1 / 2 * (t + lower)
    if u ≤ lower + 1 / 10 ^ 6 then lower else u

/-- The loop of `_solve_relaxed_rp` (portfolioapi.py:1244-1288): `k` attempts left; the flag says that a warning is returned. -/
noncomputable def relaxedLoop (solver : Opt.Solver) {n : ℕ} (a : Opt.Rrp n) (lam lower : ℝ) :
    ℕ → ℝ → Except PyErr (Opt.RrpResult n × Bool)
  | 0, _ =>
    match Opt.rrpSolve solver a lam none none with
    | .error e => .error e
    | .ok r => .ok (r, true)
  | k + 1, t =>
    match Opt.rrpSolve solver a lam (some t) (some lower) with
    | .ok r => .ok (r, false)
    | .error e => if isRuntime e then relaxedLoop solver a lam lower k (shrink lower t) else .error e

/-- The target rule (portfolioapi.py:1773-1781). -/
noncomputable def requestedTarget (lower : ℝ) (mult target : Option ℝ) : Except PyErr ℝ := by
  classical
  exact
    match target with
    | some t => .ok t
    | none =>
      match mult with
      | none => .error .valueError
      | some m => if m < 0 then .error .valueError else .ok (m * lower)

/-- The diagnostics (portfolioapi.py:1803-1826) that do not repeat the optimiser's output. -/
structure RelaxedOut (n : ℕ) where
  w : Fin n → ℝ
  ret : ℝ
  risk : ℝ
  sol : Opt.RrpResult n
  rpWeights : Fin n → ℝ
  rpReturn : ℝ
  requested : Option ℝ
  warned : Bool
  contributions : Fin n → ℝ

/-- Pack a solution (portfolioapi.py:1793-1837). -/
noncomputable def relaxedPack {n : ℕ} (r : (Fin n → ℝ) × (Fin n → Fin n → ℝ)) (rp : Fin n → ℝ) (sol : Opt.RrpResult n)
    (requested : Option ℝ) (warned : Bool) : RelaxedOut n :=
  ⟨sol.w, retOf r.1 sol.w, vol r.2 sol.w, sol, rp, retOf r.1 rp, requested, warned, fun i => sol.w i * sol.marginal i⟩

/-- `relaxed_risk_parity_portfolio_with_diagnostics` (portfolioapi.py:1704-1837). -/
noncomputable def Wrapper.relaxed (solver : Opt.Solver) (factor : Bayes.Factor) {N : ℕ} (w : Wrapper N) (lam : ℝ)
    (mult target : Option ℝ) (budgets : Option (Fin N → ℝ)) (constraints : Option (Con.Spec ℝ)) :
    Except PyErr (RelaxedOut N) := by
  classical
  exact
    match w.moments with
    | .error e => .error e
    | .ok (mu, cov) =>
      match w.user constraints with
      | .error e => .error e
      | .ok u =>
        match Opt.rrpInit factor mu cov u budgets with
        | .error e => .error e
        | .ok a =>
          let r := w.report mu cov
          match Opt.rrpSolve solver a 0 none none with
          | .error e => .error e
          | .ok rp =>
            let lower := max (retOf r.1 rp.w) 0
            if lam = 0 ∧ target = none ∧ mult = none then .ok (relaxedPack r rp.w rp none false)
            else
              match requestedTarget lower mult target with
              | .error e => .error e
              | .ok t =>
                match relaxedLoop solver a lam lower 8 t with
                | .error e => .error e
                | .ok s => .ok (relaxedPack r rp.w s.1 (some t) s.2)

/-- The multiplier grid (portfolioapi.py:1905-1920). -/
noncomputable def multiplierGrid (num : ℤ) (maxMult : ℝ) (mults : Option (List ℝ)) : Except PyErr (List ℝ) := by
  classical
  exact
    match mults with
    | some l => if l = [] then .error .valueError else if ∃ x ∈ l, x < 0 then .error .valueError else .ok l
    | none =>
      if num ≤ 0 then .error .valueError
      else if maxMult < 1 then .error .valueError
      else if num = 1 then .ok [max 1 maxMult]
      else .ok ((List.range num.toNat).map (fun k => Opt.linspace 1 maxMult num.toNat k))

/-- A column of the relaxed risk parity frontier. -/
structure RpColumn (n : ℕ) where
  mult : Option ℝ
  w : Fin n → ℝ
  ret : ℝ
  risk : ℝ
  target : Option ℝ
  warned : Bool

/-- `relaxed_risk_parity_frontier` (portfolioapi.py:1839-1986): the columns; the CVaR overlay is not modelled.  `sqrt(max(v, 0))` is
`Real.sqrt v`. -/
noncomputable def Wrapper.relaxedFrontier (solver : Opt.Solver) (factor : Bayes.Factor) {N : ℕ} (w : Wrapper N) (num : ℤ)
    (maxMult lam : ℝ) (mults : Option (List ℝ)) (includeRp : Bool) (budgets : Option (Fin N → ℝ))
    (constraints : Option (Con.Spec ℝ)) : Except PyErr (List (RpColumn N)) := by
  classical
  exact
    match w.moments with
    | .error e => .error e
    | .ok (mu, cov) =>
      if lam < 0 then .error .valueError
      else
        match w.user constraints with
        | .error e => .error e
        | .ok u =>
          match Opt.rrpInit factor mu cov u budgets with
          | .error e => .error e
          | .ok a =>
            let r := w.report mu cov
            match Opt.rrpSolve solver a 0 none none with
            | .error e => .error e
            | .ok rp =>
              let lower := max (retOf r.1 rp.w) 0
              match multiplierGrid num maxMult mults with
              | .error e => .error e
              | .ok grid =>
                match mapE (fun m => relaxedLoop solver a lam lower 8 (m * lower)) grid with
                | .error e => .error e
                | .ok res =>
                  let anchor : List (RpColumn N) :=
                    if includeRp then [⟨none, rp.w, retOf r.1 rp.w, vol r.2 rp.w, rp.target, false⟩] else []
                  .ok (anchor ++ grid.zipWith (fun m s =>
                    (⟨some m, s.1.w, retOf r.1 s.1.w, vol r.2 s.1.w, s.1.target, s.2⟩ : RpColumn N)) res)

end PyV.Api
