import Verif.Model.Moments
import Verif.Model.Probabilities
import Verif.Model.Projection

/-! # Model of `AssetsDistribution` and the factories of `PortfolioWrapper` (portfolioapi.py)

Labels of a pandas object have one entry per row or column, by construction of the types.  Every rejection of the
constructor is a `ValueError`, so the order of its tests is not observable and the model groups them by argument. -/

namespace PyV.Api

open PyV Matrix

/-- `mu`: a labelled Series, or an array already flattened by `reshape(-1)` (portfolioapi.py:110-114, 170-171). -/
inductive VecArg where
  | series (l : List (String × PyFloat ℝ))
  | array (l : List (PyFloat ℝ))

/-- The entries of a vector argument. -/
def VecArg.vals : VecArg → List (PyFloat ℝ)
  | .series l => l.map Prod.snd
  | .array l => l

/-- A two-dimensional array. -/
structure Grid where
  rows : ℕ
  cols : ℕ
  e : Fin rows → Fin cols → PyFloat ℝ

/-- A matrix argument: a DataFrame with its index and columns, a two-dimensional array, or an array of another rank. -/
inductive GridArg where
  | frame (g : Grid) (index : Fin g.rows → String) (columns : Fin g.cols → String)
  | array (g : Grid)
  | notMatrix

/-- The constructor arguments of `AssetsDistribution` (portfolioapi.py:66-70). -/
structure DistArgs where
  mu : Option VecArg := none
  cov : Option GridArg := none
  scenarios : Option GridArg := none
  probabilities : Option (List (PyFloat ℝ)) := none
  assetNames : Option (List String) := none

/-- Scenarios with their probabilities. -/
structure Scen (N : ℕ) where
  T : ℕ
  R : Fin T → Fin N → ℝ
  p : Fin T → ℝ

/-- The fields of a constructed `AssetsDistribution` (portfolioapi.py:196-202). -/
structure Dist where
  N : ℕ
  mu : Option (Fin N → ℝ)
  cov : Option (Matrix (Fin N) (Fin N) ℝ)
  scen : Option (Scen N)
  names : Option (List String)

/-- `_merge_names` (portfolioapi.py:91-109). -/
def mergeNames (existing : Option (List String)) (candidate : List String) : Except PyErr (Option (List String)) :=
  if candidate = [] then .ok existing
  else
    match existing with
    | none => .ok (some candidate)
    | some l => if candidate = l then .ok (some l) else .error .valueError

/-- Names after looking at `mu` (portfolioapi.py:110-112). -/
def namesMu (names : Option (List String)) : Option VecArg → Except PyErr (Option (List String))
  | some (.series l) => mergeNames names (l.map Prod.fst)
  | _ => .ok names

/-- `if asset_names is not None and list(cov.columns) != asset_names` (portfolioapi.py:118). -/
def checkColumns (columns : List String) (names : Option (List String)) : Except PyErr (Option (List String)) :=
  match names with
  | none => .ok none
  | some l => if columns = l then .ok (some l) else .error .valueError

/-- Names after looking at `cov` (portfolioapi.py:116-119). -/
def namesCov (names : Option (List String)) : Option GridArg → Except PyErr (Option (List String))
  | some (.frame g index columns) =>
    match mergeNames names ((List.finRange g.rows).map index) with
    | .error e => .error e
    | .ok n => checkColumns ((List.finRange g.cols).map columns) n
  | _ => .ok names

/-- Names after looking at `scenarios` (portfolioapi.py:124-125). -/
def namesScen (names : Option (List String)) : Option GridArg → Except PyErr (Option (List String))
  | some (.frame g _ columns) => mergeNames names ((List.finRange g.cols).map columns)
  | _ => .ok names

/-- The asset names collected from all inputs. -/
def namesOf (a : DistArgs) : Except PyErr (Option (List String)) :=
  match namesMu a.assetNames a.mu with
  | .error e => .error e
  | .ok n =>
    match namesCov n a.cov with
    | .error e => .error e
    | .ok n => namesScen n a.scenarios

/-- The two-dimensional contents of a matrix argument; another rank is rejected (portfolioapi.py:139-140, 180-181). -/
def gridOf : GridArg → Except PyErr Grid
  | .frame g _ _ => .ok g
  | .array g => .ok g
  | .notMatrix => .error .valueError

/-- A vector of `N` finite numbers (portfolioapi.py:170-177, 205-206). -/
def finVec (N : ℕ) (l : List (PyFloat ℝ)) : Except PyErr (Fin N → ℝ) :=
  if l.length ≠ N then .error .valueError
  else if l.all PyFloat.isFinite = false then .error .valueError
  else .ok (fun i => (l.getD i .nan).val)

/-- A matrix of finite numbers of the required shape (portfolioapi.py:179-185, 207-209, 227-228). -/
noncomputable def finGrid (r c : ℕ) (g : Grid) : Except PyErr (Fin r → Fin c → ℝ) := by
  classical
  exact
    if h : g.rows = r ∧ g.cols = c then
      if ∀ i j, (g.e i j).isFinite = true then .ok (fun i j => (g.e (i.cast h.1.symm) (j.cast h.2.symm)).val)
      else .error .valueError
    else .error .valueError

/-- Scenario probabilities (portfolioapi.py:142-159): uniform when omitted; otherwise the length, sign and sum tests; divided by
their sum in both cases.  A sum with a NaN or infinite entry is not finite; a negative infinity is caught by the sign test. -/
noncomputable def scenProbs (T : ℕ) (p : Option (List (PyFloat ℝ))) : Except PyErr (Fin T → ℝ) :=
  match p with
  | none => if T = 0 then .error .valueError else .ok (fun _ => (1 / (T : ℝ)) / ∑ _s : Fin T, 1 / (T : ℝ))
  | some l =>
    if l.length ≠ T then .error .valueError
    else if l.any (fun x => x.lt (.fin 0)) then .error .valueError
    else if l.all PyFloat.isFinite = false then .error .valueError
    else
      let v : Fin T → ℝ := fun t => (l.getD t .nan).val
      if ∑ t, v t ≤ 0 then .error .valueError else .ok (fun t => v t / ∑ s, v s)

/-- The scenario part (portfolioapi.py:138-159, 227-228). -/
noncomputable def scenPart (N : ℕ) (s : Option GridArg) (p : Option (List (PyFloat ℝ))) : Except PyErr (Option (Scen N)) :=
  match s with
  | none => .ok none
  | some arg =>
    match gridOf arg with
    | .error e => .error e
    | .ok g =>
      match finGrid g.rows N g with
      | .error e => .error e
      | .ok R =>
        match scenProbs g.rows p with
        | .error e => .error e
        | .ok q => .ok (some ⟨g.rows, R, q⟩)

/-- `estimate_sample_moments(scenarios, probs)` when a moment is missing (portfolioapi.py:161-168).  A scenario set with a non-finite
entry has been rejected by then in the model; in the source the estimated moments are non-finite and rejected further down. -/
noncomputable def estimated {N : ℕ} (s : Option (Scen N)) : Except PyErr (Option ((Fin N → ℝ) × Matrix (Fin N) (Fin N) ℝ)) :=
  match s with
  | none => .ok none
  | some s =>
    match Mom.estimateSampleMoments s.R s.p with
    | .error e => .error e
    | .ok m => .ok (some m)

/-- `mu`: given or estimated (portfolioapi.py:165-177). -/
noncomputable def muPart {N : ℕ} (est : Except PyErr (Option ((Fin N → ℝ) × Matrix (Fin N) (Fin N) ℝ))) (mu : Option VecArg) :
    Except PyErr (Option (Fin N → ℝ)) :=
  match mu with
  | some v =>
    match finVec N v.vals with
    | .error e => .error e
    | .ok m => .ok (some m)
  | none =>
    match est with
    | .error e => .error e
    | .ok none => .ok none
    | .ok (some m) => .ok (some m.1)

/-- `cov`: given or estimated (portfolioapi.py:167-168, 179-185). -/
noncomputable def covPart {N : ℕ} (est : Except PyErr (Option ((Fin N → ℝ) × Matrix (Fin N) (Fin N) ℝ))) (cov : Option GridArg) :
    Except PyErr (Option (Matrix (Fin N) (Fin N) ℝ)) :=
  match cov with
  | some arg =>
    match gridOf arg with
    | .error e => .error e
    | .ok g =>
      match finGrid N N g with
      | .error e => .error e
      | .ok m => .ok (some (Matrix.of m))
  | none =>
    match est with
    | .error e => .error e
    | .ok none => .ok none
    | .ok (some m) => .ok (some m.2)

/-- Number of rows or columns of a matrix argument, `0` when it is not two-dimensional (rejected elsewhere). -/
def GridArg.rows : GridArg → ℕ
  | .frame g _ _ => g.rows
  | .array g => g.rows
  | .notMatrix => 0

/-- See `GridArg.rows`. -/
def GridArg.cols : GridArg → ℕ
  | .frame g _ _ => g.cols
  | .array g => g.cols
  | .notMatrix => 0

/-- `N`: columns of the scenarios, else the size of `mu`, else the rows of `cov` (portfolioapi.py:141, 172, 182). -/
def inferN (a : DistArgs) : Option ℕ :=
  match a.scenarios, a.mu, a.cov with
  | some s, _, _ => some s.cols
  | none, some m, _ => some m.vals.length
  | none, none, some c => some c.rows
  | none, none, none => none

/-- `asset_names is not None and len(asset_names) != N` (portfolioapi.py:190). -/
def namesBad (N : ℕ) : Option (List String) → Bool
  | none => false
  | some l => decide (l.length ≠ N)

/-- `AssetsDistribution.__post_init__` (portfolioapi.py:73-228).  The eigenvalue and conditioning tests only warn and are not
modelled; overflow is not modelled. -/
noncomputable def mkDist (a : DistArgs) : Except PyErr Dist :=
  match namesOf a with
  | .error e => .error e
  | .ok names =>
    match inferN a with
    | none => .error .valueError
    | some 0 => .error .valueError
    | some (n + 1) =>
      if namesBad (n + 1) names then .error .valueError
      else
        match scenPart (n + 1) a.scenarios a.probabilities with
        | .error e => .error e
        | .ok s =>
          match muPart (estimated s) a.mu with
          | .error e => .error e
          | .ok m =>
            match covPart (estimated s) a.cov with
            | .error e => .error e
            | .ok c => .ok ⟨n + 1, m, c, s, names⟩

/-! ## Factories -/

/-- `prices` as a DataFrame or an array of rank 2 (other ranks are rejected, by the factory or by `AssetsDistribution`). -/
structure PriceArg where
  isFrame : Bool
  g : Grid
  columns : Fin g.cols → String

/-- `x / y - 1` in floating point for `x, y > 0`. -/
noncomputable def ratioM1 : PyFloat ℝ → PyFloat ℝ → PyFloat ℝ
  | .fin x, .fin y => .fin (x / y - 1)
  | .fin _, .posInf => .fin (-1)
  | .posInf, .fin _ => .posInf
  | _, _ => .nan

/-- `prices.pct_change().iloc[1:]` or `arr[1:] / arr[:-1] - 1` (portfolioapi.py:1002, 1011). -/
noncomputable def priceReturns (g : Grid) : Grid where
  rows := g.rows - 1
  cols := g.cols
  e := fun t i => ratioM1 (g.e ⟨t + 1, by omega⟩ i) (g.e ⟨t, by omega⟩ i)

/-- `isnull`: NaN only. -/
def isNan : PyFloat ℝ → Bool
  | .nan => true
  | _ => false

/-- Value tests of `from_prices`: a DataFrame is tested for NaN, an array for all non-finite values; both for `<= 0`
(portfolioapi.py:995-1010). -/
noncomputable def pricesOk (isFrame : Bool) (g : Grid) : Prop :=
  ∀ i j, (if isFrame then isNan (g.e i j) = false else (g.e i j).isFinite = true) ∧ (g.e i j).le (.fin 0) = false

/-- `PortfolioWrapper.from_prices` up to the constructed distribution (portfolioapi.py:962-1020, via `from_scenarios` 887). -/
noncomputable def fromPrices (a : PriceArg) : Except PyErr Dist := by
  classical
  exact
    if a.g.rows < 2 then .error .valueError
    else if ¬ pricesOk a.isFrame a.g then .error .valueError
    else
      let r := priceReturns a.g
      mkDist { scenarios := some (if a.isFrame then .frame r (fun _ => "") a.columns else .array r) }

/-- Elementwise `exp(x) - 1` in floating point (`convert_scenarios_compound_to_simple`). -/
noncomputable def expM1 : PyFloat ℝ → PyFloat ℝ
  | .fin x => .fin (Real.exp x - 1)
  | .nan => .nan
  | .posInf => .posInf
  | .negInf => .fin (-1)

/-- The conversion of a scenario argument for `return_type == "log"` (portfolioapi.py:877-885). -/
noncomputable def toSimple : GridArg → GridArg
  | .frame g i c => .frame ⟨g.rows, g.cols, fun t k => expM1 (g.e t k)⟩ i c
  | .array g => .array ⟨g.rows, g.cols, fun t k => expM1 (g.e t k)⟩
  | .notMatrix => .notMatrix

/-- `PortfolioWrapper.from_scenarios` up to the distribution (portfolioapi.py:853-889): any `return_type` other than `"log"` is
treated as simple. -/
noncomputable def fromScenarios (s : GridArg) (p : Option (List (PyFloat ℝ))) (returnType : String) : Except PyErr Dist :=
  mkDist { scenarios := some (if returnType = "log" then toSimple s else s), probabilities := p }

end PyV.Api
