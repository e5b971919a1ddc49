import Verif.Model.Wrapper

/-! # Model of the reports attached to frontiers and diagnostics (portfolioapi.py:1498-1564, 1796-1828, 1967-1986)

Overlays (`alternate_risks`) and metadata of the robust and relaxed risk parity frontiers, and the derived diagnostics of the relaxed
risk parity portfolio.  Asset labels are distinct. -/

namespace PyV.Api

open PyV Matrix

/-- The `return_cov` argument of `robust_lambda_frontier` (portfolioapi.py:1431): an array or a labelled table of finite numbers. -/
inductive CovRef where
  | array (n m : ℕ) (A : Fin n → Fin m → ℝ)
  | frame (n m : ℕ) (A : Fin n → Fin m → ℝ) (index : Fin n → String) (columns : Fin m → String)

/-- The shape test (portfolioapi.py:1519-1520). -/
def squareRef (N n m : ℕ) (A : Fin n → Fin m → ℝ) : Option (Fin N → Fin N → ℝ) :=
  if h : N = n ∧ N = m then some (fun i j => A (i.cast h.1) (j.cast h.2)) else none

/-- Position of a label, as `.loc` finds it. -/
def locate {n : ℕ} (index : Fin n → String) (a : String) : Option (Fin n) := (List.finRange n).find? (fun k : Fin n => index k == a)

/-- `cov_ref.loc[names, names]` (portfolioapi.py:1515): a missing label raises `KeyError`. -/
def locRef {N n m : ℕ} (A : Fin n → Fin m → ℝ) (index : Fin n → String) (columns : Fin m → String) (names : Fin N → String) :
    Option (Fin N → Fin N → ℝ) :=
  if h : (∀ i, (locate index (names i)).isSome = true) ∧ ∀ i, (locate columns (names i)).isSome = true then
    some (fun i j => A ((locate index (names i)).get (h.1 i)) ((locate columns (names j)).get (h.2 j)))
  else none

/-- The covariance of the volatility overlay taken from `return_cov` (portfolioapi.py:1512-1520); any exception is swallowed. -/
def CovRef.resolve {N : ℕ} (names : Option (Fin N → String)) : CovRef → Option (Fin N → Fin N → ℝ)
  | .array n m A => squareRef N n m A
  | .frame n m A index columns =>
    match names with
    | none => squareRef N n m A
    | some nm => locRef A index columns nm

/-- Which covariance is used before looking at the scenarios (portfolioapi.py:1508-1510). -/
def refCov {N : ℕ} (w : Wrapper N) (names : Option (Fin N → String)) (returnCov : Option CovRef) : Option (Fin N → Fin N → ℝ) :=
  match returnCov with
  | some c => c.resolve names
  | none => if w.unc.isSome then w.cov.map (fun C i j => C i j) else none

/-- The volatility overlay of the robust frontier (portfolioapi.py:1507-1539).  With a single asset `np.cov` returns a scalar and the
overlay from the scenarios is skipped.  `np.sqrt` of a negative number (an indefinite `return_cov`) is NaN in NumPy and 0 here. -/
noncomputable def robustVolatility {N : ℕ} (w : Wrapper N) (names : Option (Fin N → String)) (returnCov : Option CovRef)
    (cols : List (Fin N → ℝ)) : List (String × List ℝ) :=
  match refCov w names returnCov, w.scen with
  | some C, _ => [("Volatility", cols.map (vol C))]
  | none, some s => if N = 1 then [] else [("Volatility", cols.map (vol (scenCov s.R s.p)))]
  | none, none => []

/-- The CVaR overlay of the robust frontier (portfolioapi.py:1540-1544). -/
noncomputable def robustCvar (argsort : Argsort) {N : ℕ} (w : Wrapper N) (cols : List (Fin N → ℝ)) : List (String × List ℝ) :=
  match w.scen with
  | none => []
  | some s =>
    match mapE (fun x => Risk.portfolioCvar (argsort s.T) x s.R (some s.p) (some (95 / 100)) false) cols with
    | .error _ => []
    | .ok l => [("CVaR (95%)", l.map (fun c => |c|))]

/-- A robust frontier with its overlays and the penalties of its `metadata`. -/
structure RobustReport (N : ℕ) where
  M : ℕ
  f : Fr.Frontier String ℝ N M
  lam : Fin M → ℝ

/-- The stable order of the risks (portfolioapi.py:1547). -/
noncomputable def riskOrder {N : ℕ} (cols : List (Column N)) : List (Fin cols.length) := by
  classical
  exact (List.finRange cols.length).mergeSort (fun a b => decide ((cols.get a).risk ≤ (cols.get b).risk))

/-- Everything is put in the order of the risks (portfolioapi.py:1546-1564). -/
noncomputable def robustPack (argsort : Argsort) {N : ℕ} (w : Wrapper N) (names : Option (Fin N → String)) (returnCov : Option CovRef)
    (cols : List (Column N)) : RobustReport N :=
  let ws := cols.map Column.w
  let alt := robustVolatility w names returnCov ws ++ robustCvar argsort w ws
  let order := riskOrder cols
  ⟨order.length,
    { weights := fun i j => (cols.get (order.get j)).w i
      returns := fun j => (cols.get (order.get j)).ret
      risks := fun j => (cols.get (order.get j)).risk
      riskMeasure := "Estimation Risk (||\\Sigma'^1/^2w||_2)"
      alternates := alt.map (fun kv => (kv.1, fun j => kv.2.getD (order.get j) 0)) },
    fun j => (cols.get (order.get j)).lam⟩

/-- `robust_lambda_frontier` with its report (portfolioapi.py:1425-1564). -/
noncomputable def Wrapper.robustReport (solver : Opt.Solver) (factor : Bayes.Factor) (argsort : Argsort) {N : ℕ} (w : Wrapper N)
    (names : Option (Fin N → String)) (num : ℤ) (maxLam : ℝ) (lambdas : Option (List ℝ)) (returnCov : Option CovRef)
    (constraints : Option (Con.Spec ℝ)) (costs : Option Costs) : Except PyErr (RobustReport N) :=
  match w.moments with
  | .error e => .error e
  | .ok (mu, cov) =>
    match w.user constraints with
    | .error e => .error e
    | .ok u =>
      match lambdaGrid num maxLam lambdas with
      | .error e => .error e
      | .ok grid =>
        match mapE (Opt.robLambda solver factor (robOf mu (w.unc.getD cov) u (w.resolveCosts costs))) grid with
        | .error e => .error e
        | .ok res =>
          .ok (robustPack argsort w names returnCov
            (grid.zipWith (fun l (r : Opt.Result N) => (⟨l, r.w, retOf (w.report mu cov).1 r.w, r.risk⟩ : Column N)) res))

/-- `relaxed_risk_parity_frontier` as a `PortfolioFrontier` (portfolioapi.py:1967-1986). -/
noncomputable def Wrapper.relaxedReport (solver : Opt.Solver) (factor : Bayes.Factor) (argsort : Argsort) {N : ℕ} (w : Wrapper N)
    (num : ℤ) (maxMult lam : ℝ) (mults : Option (List ℝ)) (includeRp : Bool) (budgets : Option (Fin N → ℝ))
    (constraints : Option (Con.Spec ℝ)) : Except PyErr (AnyFrontier N) :=
  match w.relaxedFrontier solver factor num maxMult lam mults includeRp budgets constraints with
  | .error e => .error e
  | .ok cols =>
    let ws := cols.map RpColumn.w
    .ok ⟨ws.length,
      { weights := fun i j => ws.get j i
        returns := fun j => ((cols.map RpColumn.ret).getD j 0)
        risks := fun j => ((cols.map RpColumn.risk).getD j 0)
        riskMeasure := "Volatility (Relaxed RP)"
        alternates := overlay argsort w ws }⟩

/-- `risk_contributions_pct` (portfolioapi.py:1800-1802). -/
noncomputable def RelaxedOut.pct {n : ℕ} (o : RelaxedOut n) : Fin n → ℝ := by
  classical
  exact if 0 < o.risk then fun i => o.contributions i / o.risk / o.risk * 100 else fun i => o.contributions i * 0

/-- `np.isclose(a, b, rtol=1e-8, atol=1e-10)`. -/
noncomputable def sameTarget (a b : ℝ) : Prop := |a - b| ≤ 1 / 10 ^ 10 + 1 / 10 ^ 8 * |b|

/-- `target_clipped` (portfolioapi.py:1804-1808). -/
noncomputable def RelaxedOut.clipped {n : ℕ} (o : RelaxedOut n) : Prop :=
  match o.sol.target, o.requested with
  | some t, some r => ¬ sameTarget t r
  | _, _ => False

end PyV.Api
