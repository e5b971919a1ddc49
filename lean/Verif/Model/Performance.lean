import Verif.Model.Risk
import Verif.Model.Moments
import Verif.Model.Probabilities
import Verif.Model.Projection
import Verif.Model.Ensembles
import Mathlib.Data.List.Sort

/-!
# Model of `pyvallocation/stress.py` and `pyvallocation/utils/performance.py`

Scenario matrices are `Fin T → Fin N → ℝ`; `assets` is the list of column labels of a DataFrame (`none` for arrays). Weights are
`M` portfolios; portfolio names are not modelled. Input weights are finite numbers.
-/

namespace PyV.Perf

open PyV

variable {T N M : ℕ}

/-- Weight inputs: an array (1-D is `M = 1`), or a Series / mapping / DataFrame, whose rows carry labels. -/
inductive Weights (M : ℕ) (K : Type*) where
  | plain (rows : List (Fin M → K))
  | labelled (rows : List (String × (Fin M → K)))

section field
variable {K : Type*}

/-- `idx.index(name)` then `matrix[order]` for one name (stress.py:86-87): the first row with that label. -/
def rowOf (rows : List (String × (Fin M → K))) (name : String) : Except PyErr (Fin M → K) :=
  match rows.lookup name with
  | some r => .ok r
  | none => .error .valueError

/-- `_align_weights` (stress.py:34-89). -/
def alignWeights (w : Weights M K) (assets : Option (List String)) : Except PyErr (List (Fin M → K)) :=
  match w, assets with
  | .plain rows, none => .ok rows
  | .plain rows, some names => if rows.length ≠ names.length then .error .valueError else .ok rows
  | .labelled rows, none => .ok (rows.map Prod.snd)
  | .labelled rows, some names =>
    if (rows.map Prod.fst).all (fun x => names.contains x) && names.all (fun x => (rows.map Prod.fst).contains x) then
      mapE (rowOf rows) names
    else .error .valueError

/-- `if list(weights.index) != columns: weights = weights.reindex(columns)` (performance.py:67-68, 71-72, 158-159, 168-169): a missing
label gives a NaN row (`none`), an unknown one is dropped; pandas refuses to reindex a repeated index. -/
def reindex (rows : List (String × (Fin M → K))) (cols : List String) : Except PyErr (List (Option (Fin M → K))) :=
  if rows.map Prod.fst = cols then .ok (rows.map (fun r => some r.2))
  else if ¬(rows.map Prod.fst).Nodup then .error .valueError
  else .ok (cols.map (fun c => rows.lookup c))

/-- The weight matrix of `scenario_pnl` and `performance_report`; `none` is a row of NaN. -/
def toRows (w : Weights M K) (cols : Option (List String)) : Except PyErr (List (Option (Fin M → K))) :=
  match w, cols with
  | .plain rows, _ => .ok (rows.map some)
  | .labelled rows, none => .ok (rows.map (fun r => some r.2))
  | .labelled rows, some cols => reindex rows cols

/-- A sum with NaN: NaN as soon as one weight is NaN. -/
def nanDot [Field K] (x : Fin N → K) (w : Fin N → Option K) : Option K :=
  if ∀ i, (w i).isSome then some (∑ i, x i * (w i).getD 0) else none

/-- `scenario_pnl` (performance.py:26-94). The returned labels are not modelled; `none` is NaN. -/
def scenarioPnl [Field K] (w : Weights M K) (R : Fin T → Fin N → K) (cols : Option (List String)) :
    Except PyErr (Fin T → Fin M → Option K) :=
  match toRows w cols with
  | .error e => .error e
  | .ok rows =>
    if rows.length ≠ N then .error .valueError
    else .ok (fun t m => nanDot (R t) (fun i => ((rows[(i : ℕ)]?).getD none).map (fun r => r m)))

end field

/-- The five reported statistics. -/
structure Metrics where
  mean : ℝ
  stdev : ℝ
  var : ℝ
  cvar : ℝ
  ens : ℝ

/-- A list read as a vector of length `n`. -/
def toVec {K : Type*} [Zero K] (n : ℕ) (l : List K) : Fin n → K := fun i => (l[(i : ℕ)]?).getD 0

/-- `mean`, `stdev`, VaR, CVaR and ENS of one weight vector (performance.py:187-196; stress.py:185-192), from the moments. -/
noncomputable def metricsOf (argsort : (Fin T → ℝ) → Equiv.Perm (Fin T)) (R : Fin T → Fin N → ℝ) (p : Fin T → ℝ) (conf : ℝ)
    (demean : Bool) (mom : (Fin N → ℝ) × Matrix (Fin N) (Fin N) ℝ) (w : Fin N → ℝ) : Except PyErr Metrics :=
  match Risk.portfolioVar argsort w R (some p) (some conf) demean with
  | .error e => .error e
  | .ok v =>
    match Risk.portfolioCvar argsort w R (some p) (some conf) demean with
    | .error e => .error e
    | .ok c =>
      .ok { mean := ∑ i, w i * mom.1 i
            stdev := Real.sqrt (∑ i, ∑ j, w i * mom.2 i j * w j)
            var := v
            cvar := c
            ens := Probs.ens p }

/-- `_metrics` (stress.py:172-192), for every portfolio column; also the metric block of `performance_report`
(performance.py:187-196). `p` is the list returned by `resolve_probabilities`. -/
noncomputable def metrics (argsort : (Fin T → ℝ) → Equiv.Perm (Fin T)) (R : Fin T → Fin N → ℝ) (p : List ℝ) (conf : ℝ) (demean : Bool)
    (W : Fin M → Fin N → ℝ) : Except PyErr (List Metrics) :=
  match Mom.estimateSampleMoments R (fun i : Fin p.length => p[i]) with
  | .error e => .error e
  | .ok mom => mapE (fun m => metricsOf argsort R (toVec T p) conf demean mom (W m)) (List.finRange M)

/-- `performance_report` (performance.py:97-206). A mapping is not accepted by this function; `weights` is an array, a Series
(`M = 1`) or a DataFrame. -/
noncomputable def performanceReport (argsort : (Fin T → ℝ) → Equiv.Perm (Fin T)) (w : Weights M ℝ) (R : Fin T → Fin N → ℝ)
    (cols : Option (List String)) (probabilities : Option (List (PyFloat ℝ))) (conf : ℝ) (demean : Bool) : Except PyErr Metrics := by
  classical
  exact
    if ¬(0 < conf ∧ conf < 1) then .error .valueError
    else
      match Probs.resolve probabilities T false with
      | .error e => .error e
      | .ok p =>
        if M ≠ 1 then .error .valueError
        else
          match toRows w cols with
          | .error e => .error e
          | .ok rows =>
            if rows.any Option.isNone then .error .valueError
            else if rows.length ≠ N then .error .valueError
            else
              match metrics argsort R p conf demean (fun (m : Fin M) i => (((rows[(i : ℕ)]?).getD none).getD 0) m) with
              | .error e => .error e
              | .ok (r :: _) => .ok r
              | .ok [] => .error .valueError

/-- `_kl_divergence` (stress.py:92-105). -/
noncomputable def klDivergence (pStar pNom : Fin T → ℝ) : ℝ :=
  let clip : ℝ → ℝ := fun x => max x (1 / 10 ^ 16)
  ∑ t, clip (pStar t) * Real.log (clip (pStar t) / clip (pNom t))

/-- The report of `stress_test`: nominal rows, stressed rows and the KL column when present. -/
structure StressReport where
  nominal : List Metrics
  stressed : Option (List Metrics)
  kl : Option ℝ

/-- A transform receives the scenarios and returns any 2-D array of floats. -/
abbrev Transform (T N : ℕ) := (Fin T → Fin N → ℝ) → List (List (PyFloat ℝ))

/-- Shape and finiteness checks on a transformed scenario matrix (stress.py:205-211). -/
noncomputable def applyTransform (transform : Option (Transform T N)) (R : Fin T → Fin N → ℝ) : Except PyErr (Fin T → Fin N → ℝ) :=
  match transform with
  | none => .ok R
  | some f =>
    let X := f R
    if ¬(X.length = T ∧ X.all (fun r => r.length == N)) then .error .valueError
    else if ¬ X.all (fun r => r.all PyFloat.isFinite) then .error .valueError
    else .ok (fun t i => PyFloat.val (((X[(t : ℕ)]?).getD [])[(i : ℕ)]?.getD (.fin 0)))

/-- `p_star` (stress.py:214-222). -/
noncomputable def stressedProbs (stressed : Option (List (PyFloat ℝ))) (pNom : List ℝ) (T : ℕ) : Except PyErr (List ℝ) :=
  match stressed with
  | some q => Probs.resolve (some q) T false
  | none => .ok pNom

/-- The stressed part of `stress_test` (stress.py:205-234). -/
noncomputable def stressPart (argsort : (Fin T → ℝ) → Equiv.Perm (Fin T)) (R : Fin T → Fin N → ℝ) (pNom : List ℝ)
    (stressed : Option (List (PyFloat ℝ))) (transform : Option (Transform T N)) (conf : ℝ) (demean : Bool) (W : Fin M → Fin N → ℝ) :
    Except PyErr (Option (List Metrics) × Option ℝ) :=
  match applyTransform transform R with
  | .error e => .error e
  | .ok Rs =>
    if stressed.isNone && transform.isNone then .ok (none, none)
    else
      match stressedProbs stressed pNom T with
      | .error e => .error e
      | .ok pStar =>
        match metrics argsort Rs pStar conf demean W with
        | .error e => .error e
        | .ok ms => .ok (some ms, if stressed.isSome then some (klDivergence (toVec T pStar) (toVec T pNom)) else none)

/-- `stress_test` (stress.py:108-239). -/
noncomputable def stressTest (argsort : (Fin T → ℝ) → Equiv.Perm (Fin T)) (w : Weights M ℝ) (R : Fin T → Fin N → ℝ)
    (assets : Option (List String)) (probabilities stressed : Option (List (PyFloat ℝ))) (transform : Option (Transform T N))
    (conf : ℝ) (demean : Bool) : Except PyErr StressReport := by
  classical
  exact
    if ¬(0 < conf ∧ conf < 1) then .error .valueError
    else
      match Probs.resolve probabilities T false with
      | .error e => .error e
      | .ok pNom =>
        match alignWeights w assets with
        | .error e => .error e
        | .ok rows =>
          if rows.length ≠ N then .error .valueError
          else
            let W : Fin M → Fin N → ℝ := fun m i => ((rows[(i : ℕ)]?).getD 0) m
            match metrics argsort R pNom conf demean W with
            | .error e => .error e
            | .ok nominal =>
              match stressPart argsort R pNom stressed transform conf demean W with
              | .error e => .error e
              | .ok s => .ok { nominal := nominal, stressed := s.1, kl := s.2 }

/-- `linear_map` (stress.py:377-428): `R @ matrix.T`, then the scale, then the shift; `rows` is the number of assets the matrix
produces, and a shift of another length is rejected. -/
def linearMap {N' : ℕ} (matrix : Matrix (Fin N') (Fin N) ℝ) (scale : Option ℝ) (shift : Option (List ℝ)) (R : Fin T → Fin N → ℝ) :
    Except PyErr (Fin T → Fin N' → ℝ) :=
  let X : Fin T → Fin N' → ℝ := fun t i => ∑ j, R t j * matrix i j
  let X := match scale with
    | some s => fun t i => X t i * s
    | none => X
  match shift with
  | none => .ok X
  | some b => if b.length ≠ N' then .error .valueError else .ok (fun t i => X t i + toVec N' b i)

/-- A scenario matrix as the array a transform returns. -/
def toArray (X : Fin T → Fin N → ℝ) : List (List (PyFloat ℝ)) := List.ofFn (fun t => List.ofFn (fun i => PyFloat.fin (X t i)))

/-- `exp_decay_stress` (stress.py:242-284). -/
noncomputable def expDecayStress (argsort : (Fin T → ℝ) → Equiv.Perm (Fin T)) (w : Weights M ℝ) (R : Fin T → Fin N → ℝ)
    (assets : Option (List String)) (probabilities : Option (List (PyFloat ℝ))) (halfLife : ℝ) (conf : ℝ) (demean : Bool) :
    Except PyErr StressReport :=
  match Probs.expDecay T halfLife with
  | .error e => .error e
  | .ok q => stressTest argsort w R assets probabilities (some (List.ofFn (fun t => PyFloat.fin (q t)))) none conf demean

/-- `kernel_focus_stress` (stress.py:287-333). -/
noncomputable def kernelFocusStress (argsort : (Fin T → ℝ) → Equiv.Perm (Fin T)) (w : Weights M ℝ) (R : Fin T → Fin N → ℝ)
    (assets : Option (List String)) (focus : List ℝ) (probabilities : Option (List (PyFloat ℝ))) (bandwidth : Option (PyFloat ℝ))
    (target : Option ℝ) (conf : ℝ) (demean : Bool) : Except PyErr StressReport :=
  if focus.length ≠ T then .error .valueError
  else
    match Probs.gaussianKernel (fun i : Fin focus.length => focus[i]) (fun i : Fin focus.length => focus[i]) bandwidth target with
    | .error e => .error e
    | .ok q => stressTest argsort w R assets probabilities (some (List.ofFn (fun t => PyFloat.fin (q t)))) none conf demean

/-- `entropy_pooling_stress` (stress.py:336-374). -/
noncomputable def entropyPoolingStress (argsort : (Fin T → ℝ) → Equiv.Perm (Fin T)) (w : Weights M ℝ) (R : Fin T → Fin N → ℝ)
    (assets : Option (List String)) (posterior : List (PyFloat ℝ)) (probabilities : Option (List (PyFloat ℝ))) (conf : ℝ)
    (demean : Bool) : Except PyErr StressReport :=
  stressTest argsort w R assets probabilities (some posterior) none conf demean

/-- The rows of the weights in the order given, whatever the labels (as `stress_invariants` with stress views, stress.py:531, and
`drawdown_quantile` read them). -/
def positional {K : Type*} (w : Weights M K) : List (Fin M → K) :=
  match w with
  | .plain rows => rows
  | .labelled rows => rows.map Prod.snd

/-! ## Horizon report -/

/-- Row label of a horizon (performance.py:244, 256). -/
def horizonLabel (h : ℤ) : String :=
  if h = 4 then "1m" else if h = 13 then "3m" else if h = 26 then "6m" else if h = 52 then "1y" else toString h ++ "w"

/-- One row of `horizon_report` (performance.py:246-257); `draw i` stands for the generator seeded with `seed + i` (or fresh). -/
noncomputable def horizonRow {n : ℤ} (argsort : (Fin n.toNat → ℝ) → Equiv.Perm (Fin n.toNat)) (w : Weights M ℝ) (R : Fin T → Fin N → ℝ)
    (cols : Option (List String)) (p : Option (List (PyFloat ℝ))) (reprice : (Fin n.toNat → Fin N → ℝ) → Fin n.toNat → Fin N → ℝ)
    (conf : ℝ) (draw : ℕ → (h : ℤ) → Fin n.toNat → Fin h.toNat → ℝ) (i : ℕ) (h : ℤ) : Except PyErr (String × Metrics) :=
  match Proj.projectScenarios R h p n (draw i h) with
  | .error e => .error e
  | .ok scen =>
    match performanceReport argsort w (reprice scen) cols none conf false with
    | .error e => .error e
    | .ok r => .ok (horizonLabel h, r)

/-- `horizon_report` (performance.py:209-259): `rows[label] = report`, in the order of the horizons. -/
noncomputable def horizonReport {n : ℤ} (argsort : (Fin n.toNat → ℝ) → Equiv.Perm (Fin n.toNat)) (w : Weights M ℝ)
    (R : Fin T → Fin N → ℝ) (cols : Option (List String)) (p : Option (List (PyFloat ℝ)))
    (reprice : (Fin n.toNat → Fin N → ℝ) → Fin n.toNat → Fin N → ℝ) (conf : ℝ)
    (draw : ℕ → (h : ℤ) → Fin n.toNat → Fin h.toNat → ℝ) (horizons : List ℤ) : Except PyErr (List (String × Metrics)) :=
  match mapE (fun ih : ℕ × ℤ => horizonRow argsort w R cols p reprice conf draw ih.1 ih.2) ((List.range horizons.length).zip horizons) with
  | .error e => .error e
  | .ok rows => .ok (Ens.dictUpdate [] rows)

/-! ## Drawdowns -/

section drawdown
variable {K : Type*} [Field K] [LinearOrder K]

/-- `np.maximum.accumulate(wealth)` at step `t` (performance.py:308): the largest value up to and including `t`. -/
def runningMax {H : ℕ} (wealth : Fin H → K) (t : Fin H) : K :=
  ((List.finRange H).filter (fun s => decide (s ≤ t))).foldl (fun m s => max m (wealth s)) (wealth t)

/-- `drawdowns` (performance.py:309). -/
def drawdown {H : ℕ} (wealth : Fin H → K) (t : Fin H) : K :=
  let m := runningMax wealth t
  (m - wealth t) / (if 0 < m then m else 1)

/-- `drawdowns.max(axis=1)` (performance.py:310): an empty path is a `ValueError`. -/
def listMax (l : List K) : Except PyErr K :=
  match l with
  | [] => .error .valueError
  | a :: l => .ok (l.foldl max a)

/-- Maximum drawdown of one path. -/
def maxDrawdown {H : ℕ} (wealth : Fin H → K) : Except PyErr K := listMax ((List.finRange H).map (drawdown wealth))

/-- Position `⌊q (n-1)⌋` and the fraction above it, for `np.quantile` with linear interpolation. -/
def quantileSorted [FloorRing K] (s : List K) (q : K) : Except PyErr K :=
  if ¬(0 ≤ q ∧ q ≤ 1) then .error .valueError
  else if s.length = 0 then .error .indexError
  else
    let v := q * ((s.length - 1 : ℕ) : K)
    let lo := ⌊v⌋.toNat
    let hi := min (lo + 1) (s.length - 1)
    let a := (s[lo]?).getD 0
    let b := (s[hi]?).getD 0
    .ok (a + (v - (lo : K)) * (b - a))

/-- `np.quantile(x, q)` / `np.median(x) = np.quantile(x, 1/2)`. -/
def quantile [FloorRing K] (x : List K) (q : K) : Except PyErr K := quantileSorted (x.insertionSort (· ≤ ·)) q

/-- The four statistics of `drawdown_quantile`. -/
structure DdReport (K : Type*) where
  mean : K
  median : K
  level : K
  worst : K
  deriving DecidableEq

/-- The summary of the maximum drawdowns (performance.py:312-318). -/
def ddSummary [FloorRing K] (maxDd : List K) (confidence : K) : Except PyErr (DdReport K) :=
  match quantile maxDd (1 / 2) with
  | .error e => .error e
  | .ok med =>
    match quantile maxDd confidence with
    | .error e => .error e
    | .ok lev =>
      match listMax maxDd with
      | .error e => .error e
      | .ok worst => .ok { mean := maxDd.sum / (maxDd.length : K), median := med, level := lev, worst := worst }

/-- `out[:, t, :] = reprice(cumulative[:, t, :])` at every step (projection.py:302-308): the output array has the shape of the
drivers, so the repriced array must have as many columns (or one, which NumPy broadcasts). -/
def repriceSteps {n H N' : ℕ} (reprice : (Fin n → Fin N → K) → Fin n → Fin N' → K) (cum : Fin n → Fin H → Fin N → K) :
    Except PyErr (Fin n → Fin H → Fin N → K) :=
  if h : N' = N then .ok (fun a t i => reprice (fun a i => cum a t i) a (i.cast h.symm))
  else if h1 : N' = 1 then .ok (fun a t _ => reprice (fun a i => cum a t i) a ⟨0, by omega⟩)
  else if H = 0 then .ok (fun _ _ _ => 0)
  else .error .valueError

/-- `drawdown_quantile` (performance.py:262-318): the weights are read by position. -/
def drawdownQuantile [FloorRing K] [IsStrictOrderedRing K] {N' : ℕ} (w : Weights 1 K) (R : Fin T → Fin N → K) (horizon n : ℤ)
    (p : Option (List (PyFloat K))) (reprice : (Fin n.toNat → Fin N → K) → Fin n.toNat → Fin N' → K)
    (u : Fin n.toNat → Fin horizon.toNat → K) (confidence : K) : Except PyErr (DdReport K) :=
  match Proj.simulatePaths R horizon n p u with
  | .error e => .error e
  | .ok cum =>
    match repriceSteps reprice cum with
    | .error e => .error e
    | .ok paths =>
      let rows := positional w
      if rows.length ≠ N then .error .valueError
      else
        let wealth : Fin n.toNat → Fin horizon.toNat → K := fun a t => 1 + ∑ i, paths a t i * toVec N (rows.map (fun r => r 0)) i
        match mapE (fun a => maxDrawdown (wealth a)) (List.finRange n.toNat) with
        | .error e => .error e
        | .ok maxDd => ddSummary maxDd confidence

end drawdown

end PyV.Perf
