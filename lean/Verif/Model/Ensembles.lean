import Verif.Model.Frontier
import Mathlib.Algebra.BigOperators.Group.Finset.Basic
import Mathlib.Algebra.BigOperators.Group.List.Basic

/-!
# Model of `pyvallocation/ensembles.py` and `pyvallocation/utils/weights.py`

Sample portfolios are the columns of a matrix `E : Fin N → Fin S → K` (assets by samples); entries are finite.  Asset labels are
carried along unchanged by the code and are not modelled; sample labels are, because weights are aligned on them.  Option strings
are taken after `strip().lower()`.  The CVXOPT QP solver is a parameter.
-/

namespace PyV.Ens

open PyV PyV.Fr

variable {K : Type*} [Field K] [LinearOrder K] [IsStrictOrderedRing K] {N S : ℕ} {A : Type*} [DecidableEq A]

/-! ## `normalize_weights` and `average_exposures` -/

/-- The `weights` argument: `None`, a sequence, or a labelled Series. -/
inductive WeightsArg (A K : Type*) where
  | none
  | array (l : List (PyFloat K))
  | series (l : List (A × PyFloat K))

/-- One entry of `weights.reindex(sample_names)` with the `isna` test (weights.py:113-117). -/
def seriesEntry (l : List (A × PyFloat K)) (name : A) : Except PyErr (PyFloat K) :=
  match l.lookup name with
  | some .nan => .error .valueError
  | some x => .ok x
  | Option.none => .error .valueError

/-- `weights_vector` before the length test (weights.py:109-122); `reindex` rejects duplicate labels with a `ValueError`. -/
def alignWeights (sampleNames : Option (List A)) : WeightsArg A K → Except PyErr (List (PyFloat K))
  | .none => .ok []
  | .array l => .ok l
  | .series l =>
    match sampleNames with
    | Option.none => .ok (l.map Prod.snd)
    | some names => if (l.map Prod.fst).Nodup then mapE (seriesEntry l) names else .error .valueError

/-- The length, finiteness and positivity tests and the division (weights.py:122-129). A sum with a non-finite term is not finite. -/
def scaleWeights (num : ℕ) (v : List (PyFloat K)) : Except PyErr (List K) :=
  if v.length ≠ num then .error .valueError
  else if v.all PyFloat.isFinite = false then .error .valueError
  else
    let x := v.map PyFloat.val
    if x.sum ≤ 0 then .error .valueError else .ok (x.map (· / x.sum))

/-- `normalize_weights` (weights.py:88-129). -/
def normalizeWeights (w : WeightsArg A K) (num : ℕ) (sampleNames : Option (List A)) : Except PyErr (List K) :=
  if num = 0 then .error .valueError
  else
    match w with
    | .none => .ok (List.replicate num (1 / (num : K)))
    | w =>
      match alignWeights sampleNames w with
      | .error e => .error e
      | .ok v => scaleWeights num v

/-- `exposures @ weights_vector`. -/
def combine (E : Fin N → Fin S → K) (x : Fin S → K) : Fin N → K := fun i => ∑ k, E i k * x k

/-- `average_exposures` (ensembles.py:83-118); `ensure_samples_matrix` rejects a matrix without columns (weights.py:59-60). -/
def averageExposures (E : Fin N → Fin S → K) (sampleNames : Option (List A)) (w : WeightsArg A K) : Except PyErr (Fin N → K) :=
  if S = 0 then .error .valueError
  else
    match normalizeWeights w S sampleNames with
    | .error e => .error e
    | .ok v => .ok (combine E (fun k => v.getD k 0))

/-! ## Solver options -/

/-- `d[k] = v` on an insertion-ordered dictionary. -/
def dictSet {V : Type*} (d : List (String × V)) (k : String) (v : V) : List (String × V) :=
  if d.any (fun e => e.1 == k) then d.map (fun e => if e.1 = k then (k, v) else e) else d ++ [(k, v)]

/-- `d.update(u)`. -/
def dictUpdate {V : Type*} (d u : List (String × V)) : List (String × V) := u.foldl (fun d e => dictSet d e.1 e.2) d

/-- `with _temporary_solver_options(overrides): body` (ensembles.py:121-138). The body may raise and may itself change the global
dictionary; the `finally` block clears it and puts the saved copy back. -/
def withOptions {V α : Type*} (overrides : Option (List (String × V)))
    (body : List (String × V) → Except PyErr α × List (String × V)) (g : List (String × V)) :
    Except PyErr α × List (String × V) :=
  let previous := g
  let g1 := match overrides with
    | some o => dictUpdate g o
    | none => g
  let r := body g1
  (r.1, dictUpdate [] previous)

/-! ## Exposure stacking -/

/-- `partitions` (ensembles.py:178-186): slices of `arange(num_samples)`, as index sets. -/
def folds (S L : ℕ) : List (Finset (Fin S)) :=
  let size := S / L
  (List.range (L - 1)).map (fun part => Finset.univ.filter (fun k : Fin S => part * size ≤ (k : ℕ) ∧ (k : ℕ) < (part + 1) * size)) ++
    [Finset.univ.filter (fun k : Fin S => (L - 1) * size ≤ (k : ℕ))]

/-- `masked`: the samples with the fold's rows set to zero (ensembles.py:195-196). -/
def masked (E : Fin N → Fin S → K) (F : Finset (Fin S)) (k : Fin S) (i : Fin N) : K := if k ∈ F then 0 else E i k

/-- One fold's contribution to `gram` (ensembles.py:197); empty folds are skipped. -/
def gramPart (E : Fin N → Fin S → K) (F : Finset (Fin S)) (a b : Fin S) : K :=
  if F.card = 0 then 0 else ∑ i, masked E F a i * masked E F b i

/-- One fold's contribution to `linear` (ensembles.py:198-199). -/
def linearPart (E : Fin N → Fin S → K) (F : Finset (Fin S)) (a : Fin S) : K :=
  if F.card = 0 then 0 else (∑ i, masked E F a i * ∑ k ∈ F, E i k) / ((max F.card 1 : ℕ) : K)

/-- A quadratic programme: minimise `x'Px/2 + q'x` subject to `Gx <= h`, `Ax = b` (CVXOPT `solvers.qp`). -/
structure Qp (n m k : ℕ) (K : Type*) where
  P : Fin n → Fin n → K
  q : Fin n → K
  G : Fin m → Fin n → K
  h : Fin m → K
  A : Fin k → Fin n → K
  b : Fin k → K

/-- The programme assembled by `exposure_stacking` (ensembles.py:188-206). -/
def stackQp (E : Fin N → Fin S → K) (L : ℕ) : Qp S S 1 K where
  P := fun a b => 2 * ((folds S L).map (fun F => gramPart E F a b)).sum
  q := fun a => -2 * ((folds S L).map (fun F => linearPart E F a)).sum
  G := fun a b => -(if a = b then 1 else 0)
  h := fun _ => 0
  A := fun _ _ => 1
  b := fun _ => 1

/-- Outcome of one solver call: an exception, a non-optimal status (`none`), or the optimal point. -/
abbrev QpSolver (n m k : ℕ) (K V : Type*) :=
  Qp n m k K → List (String × V) → Except PyErr (Option (Fin n → K)) × List (String × V)

/-- `exposure_stacking` (ensembles.py:141-222) as a transformer of the global option dictionary; `showOff` is the value `False`. -/
def exposureStacking {V : Type*} (solve : QpSolver S S 1 K V) (showOff : V) (E : Fin N → Fin S → K) (L : ℤ)
    (solverOptions : Option (List (String × V))) (g : List (String × V)) : Except PyErr (Fin N → K) × List (String × V) :=
  if S = 0 then (.error .valueError, g)
  else if L < 2 then (.error .valueError, g)
  else if (S : ℤ) < L then (.error .valueError, g)
  else
    let options := dictUpdate [("show_progress", showOff)] (solverOptions.getD [])
    let r := withOptions (some options) (solve (stackQp E L.toNat)) g
    match r.1 with
    | .error e => (.error e, r.2)
    | .ok none => (.error .runtimeError, r.2)
    | .ok (some x) => (.ok (combine E x), r.2)

/-! ## Selectors -/

/-- Keyword arguments understood by the built-in selectors. -/
structure SelKw (K : Type*) where
  riskFree : Option K := none
  riskLabel : Option String := none
  maxRisk : Option K := none
  targetRisk : Option K := none
  percentile : Option (PyFloat K) := none
  index : Option ℤ := none

/-- The closures returned by `_build_selector` (ensembles.py:935-1107); values captured at construction are fields. -/
inductive Sel (K : Type*) where
  | tangency (rf : K)
  | minRisk
  | maxReturn
  | riskTarget (maxRisk : K) (label : Option String)
  | riskMatch (target : K) (label : Option String)
  | riskPct (pct : PyFloat K) (label : Option String)
  | column (i : ℤ)

/-- The branches of `_build_selector` (ensembles.py:966-1106): the closure and the shared keyword dictionary left after
construction-time `pop`s. -/
def selectorFor (key : String) (kw : SelKw K) : Except PyErr (Sel K × SelKw K) :=
  if key ∈ ["tangency", "max_sharpe", "sharpe"] then .ok (.tangency (kw.riskFree.getD 0), { kw with riskFree := none })
  else if key ∈ ["min_risk", "minimum_risk"] then .ok (.minRisk, kw)
  else if key ∈ ["max_return", "maximum_return"] then .ok (.maxReturn, kw)
  else if key ∈ ["risk_target", "max_return_subject_to_risk"] then
    match kw.maxRisk with
    | none => .error .valueError
    | some m => .ok (.riskTarget m kw.riskLabel, { kw with maxRisk := none, riskLabel := none })
  else if key ∈ ["risk_match", "risk_nearest"] then
    match kw.targetRisk with
    | none => .error .valueError
    | some m => .ok (.riskMatch m kw.riskLabel, { kw with targetRisk := none, riskLabel := none })
  else if key ∈ ["risk_percentile", "risk_pct", "percentile"] then
    match kw.percentile with
    | none => .error .valueError
    | some m => .ok (.riskPct m kw.riskLabel, { kw with percentile := none, riskLabel := none })
  else if key ∈ ["column", "index"] then
    match kw.index with
    | none => .error .valueError
    | some i => .ok (.column i, { kw with index := none })
  else .error .valueError

/-- `_build_selector` for string keys (ensembles.py:935-1107): the key is lowered first (964). `String.toLower` lowers ASCII letters
only, Python all letters: the two differ only on names with other letters. -/
def buildSelector (key : String) (kw : SelKw K) : Except PyErr (Sel K × SelKw K) := selectorFor key.toLower kw

/-- `"Estimation Risk" in risk_measure` (ensembles.py:1029): substring test. -/
def isEstimation (s : String) : Bool := decide ("Estimation Risk".toList <:+: s.toList)

/-- `resolved_label` (ensembles.py:1027-1030 and twins). -/
def resolveLabel {M : ℕ} (f : Frontier String K N M) : Option String → Option String
  | some l => some l
  | none => if (f.alternates.any (fun e => e.1 == "Volatility")) && isEstimation f.riskMeasure then some "Volatility" else none

/-- NumPy column indexing: negative indices count from the end, out of range raises `IndexError`. -/
def pyIndex (M : ℕ) (i : ℤ) : Except PyErr (Fin M) :=
  let j := if i < 0 then i + M else i
  if h : 0 ≤ j ∧ j < M then .ok ⟨j.toNat, by omega⟩ else .error .indexError

/-- Keep the weights of a selection. -/
def weightsOf (r : Except PyErr (Pick K N)) : Except PyErr (Fin N → K) :=
  match r with
  | .error e => .error e
  | .ok p => .ok p.w

/-- One call of a selector closure on a frontier: its result and the shared keyword dictionary afterwards. Only `_min`
(ensembles.py:984-998) touches the dictionary: it pops `risk_label`. -/
def callSelector {M : ℕ} (argsort : (Fin M → K) → Equiv.Perm (Fin M)) (s : Sel K) (kw : SelKw K) (f : Frontier String K N M) :
    Except PyErr (Fin N → K) × SelKw K :=
  match s with
  | .tangency rf => (weightsOf (f.tangency rf), kw)
  | .minRisk => (weightsOf (f.minRisk kw.riskLabel), { kw with riskLabel := none })
  | .maxReturn => (weightsOf f.maxReturn, kw)
  | .riskTarget m l => (weightsOf (f.atRisk m (resolveLabel f l)), kw)
  | .riskMatch t l => (weightsOf (f.closestRisk t (resolveLabel f l)), kw)
  | .riskPct p l => (weightsOf (f.atPercentile argsort p (resolveLabel f l)), kw)
  | .column i =>
    (match pyIndex M i with
      | .error e => .error e
      | .ok k => .ok (fun a => f.weights a k), kw)

/-! ## Assembly -/

/-- A frontier with any number of columns. -/
structure AnyFrontier (K : Type*) (N : ℕ) where
  M : ℕ
  f : Frontier String K N M

/-- `EnsembleSpec` (ensembles.py:455-472): the factory and selector are given by their outcomes. All specifications share the asset
labels, so `pd.concat` places the selected portfolios side by side. -/
structure EnsSpec (K : Type*) (N : ℕ) where
  name : String
  factory : Except PyErr (AnyFrontier K N)
  selector : AnyFrontier K N → Except PyErr (Fin N → K)
  selection : Option (List ℤ) := none

/-- `_determine_stack_folds` (ensembles.py:819-834). -/
def determineFolds (stackFolds : Option ℤ) (total : ℕ) : Except PyErr ℤ :=
  if total = 0 then .error .valueError
  else
    let sf := stackFolds.getD (min 3 (total : ℤ))
    .ok (max 1 (min sf total))

/-- The frontier and selected portfolio of one specification (ensembles.py:557-562). -/
def runSpec (s : EnsSpec K N) : Except PyErr (String × AnyFrontier K N × (Fin N → K)) :=
  match s.factory with
  | .error e => .error e
  | .ok f =>
    match s.selector f with
    | .error e => .error e
    | .ok w => .ok (s.name, f, w)

/-- Column chosen for `combine="frontier"` (ensembles.py:596-606). -/
def cleanSelection (f : AnyFrontier K N) : Option (List ℤ) → Except PyErr ℤ
  | none =>
    match firstArgmin f.f.risks with
    | none => .error .valueError
    | some i => .ok (i : ℕ)
  | some [i] => .ok i
  | some _ => .error .valueError

/-- `entry.to_samples(columns=[c])` (portfolioapi.py:385-403) for one column. -/
def sampleColumn (p : AnyFrontier K N × ℤ) : Except PyErr (Fin N → K) :=
  match pyIndex p.1.M p.2 with
  | .error e => .error e
  | .ok k => .ok (fun a => p.1.f.weights a k)

/-- `frontiers[spec.name]` after the loop: a later specification of the same name has replaced the entry (ensembles.py:559, 588). -/
def frontierOf (rs : List (String × AnyFrontier K N × (Fin N → K))) (name : String) : Except PyErr (AnyFrontier K N) :=
  match rs.reverse.lookup name with
  | some f => .ok f.1
  | none => .error .keyError

/-- Sample matrix whose columns are the given portfolios. -/
def matrixOf (cols : List (Fin N → K)) : Fin N → Fin cols.length → K := fun i k => cols.get k i

/-- One requested ensemble from the sample columns (ensembles.py:575-586, 612-628). The option dictionary is not threaded here: it
is restored by every call. -/
def oneEnsemble {V : Type*} (solve : ∀ S, QpSolver S S 1 K V) (showOff : V) (g : List (String × V)) (cols : List (Fin N → K))
    (names : Option (List String)) (w : WeightsArg String K) (nf : ℤ) (kw : Option (List (String × V))) (entry : String) :
    Except PyErr (String × (Fin N → K)) :=
  if entry = "average" then
    match averageExposures (matrixOf cols) names w with
    | .error e => .error e
    | .ok v => .ok ("average", v)
  else if entry = "stack" then
    match (exposureStacking (solve _) showOff (matrixOf cols) nf kw g).1 with
    | .error e => .error e
    | .ok v => .ok ("stack", v)
  else .error .valueError

/-- The sample columns and labels that are combined (ensembles.py:571-628): the selected portfolios, or one column of each
specification's frontier looked up by name. -/
def ensembleColumns (mode : String) (specs : List (EnsSpec K N)) (rs : List (String × AnyFrontier K N × (Fin N → K))) :
    Except PyErr (List (Fin N → K) × Option (List String)) :=
  if mode = "selected" then .ok (rs.map (fun r => r.2.2), some (specs.map EnsSpec.name))
  else
    match mapE (fun s => frontierOf rs s.name) specs with
    | .error e => .error e
    | .ok fs =>
      match mapE (fun p : AnyFrontier K N × EnsSpec K N => cleanSelection p.1 p.2.selection) (fs.zip specs) with
      | .error e => .error e
      | .ok cs =>
        match mapE sampleColumn (fs.zip cs) with
        | .error e => .error e
        | .ok cols => .ok (cols, none)

/-- `assemble_portfolio_ensemble` (ensembles.py:517-636): the `ensembles` dictionary. `_collect_samples` rejects an empty matrix, which
for at least one specification means no assets. -/
def assemble {V : Type*} (solve : ∀ S, QpSolver S S 1 K V) (showOff : V) (g : List (String × V)) (specs : List (EnsSpec K N))
    (entries : List String) (mode : String) (stackFolds : Option ℤ) (w : WeightsArg String K)
    (kw : Option (List (String × V))) : Except PyErr (List (String × (Fin N → K))) :=
  if specs = [] then .error .valueError
  else
    match mapE runSpec specs with
    | .error e => .error e
    | .ok rs =>
      if mode ≠ "selected" ∧ mode ≠ "frontier" then .error .valueError
      else if entries = [] then .ok []
      else
        match ensembleColumns mode specs rs with
        | .error e => .error e
        | .ok cols =>
          match determineFolds stackFolds specs.length with
          | .error e => .error e
          | .ok nf =>
            match mapE (oneEnsemble solve showOff g cols.1 cols.2 w nf kw) entries with
            | .error e => .error e
            | .ok vs => .ok (dictUpdate [] vs)

end PyV.Ens
