import Verif.Model.Glasso
import Verif.Model.Bayesian

/-!
# Model of the labelled layer of `pyvallocation/moments.py`: `_labels`, `_wrap`, `estimate_sample_moments` with labels,
`shrink_covariance_nls`, `estimate_moments`, `posterior_moments_niw`, `posterior_moments_niw_with_uncertainty`

Scenario matrices have at least one row: with `T = 0` NumPy means are NaN. Keyword arguments are the ones the estimators document; an
unknown keyword (a `TypeError`) is not modelled. `NLS` is the external package `nonlinshrink`.
-/

namespace PyV.Mom

open PyV PyV.Valid Matrix

variable {N T : ℕ}

/-- Scenario argument: values, and the column labels when it is a DataFrame. -/
structure Panel (T N : ℕ) where
  x : Fin T → Fin N → ℝ
  cols : Option (Fin N → String)

/-- Probability argument: values, and the index when it is a Series. -/
structure ProbVec (T : ℕ) where
  v : Fin T → ℝ
  index : Option (Fin T → String)

/-- The loop of `_labels` (moments.py:148-163): `found` is the first list of labels. -/
def labelsLoop : Option (List String) → List (Option (List String)) → Except PyErr (Option (List String))
  | found, [] => .ok found
  | found, none :: rest => labelsLoop found rest
  | none, some c :: rest => labelsLoop (some c) rest
  | some f, some c :: rest => if c.length = f.length ∧ c ≠ f then .error .valueError else labelsLoop (some f) rest

/-- `_labels` (moments.py:139-163). -/
def labelsOf (objs : List (Option (List String))) : Except PyErr (Option (List String)) := labelsLoop none objs

/-- A mean vector as returned: NumPy array (`labels = none`) or Series. -/
structure MeanOut (N : ℕ) where
  v : Fin N → ℝ
  labels : Option (List String)

/-- A covariance as returned: a matrix, or the zero-dimensional array `np.cov` returns for one column. -/
inductive CovOut (N : ℕ) where
  | matrix (m : Matrix (Fin N) (Fin N) ℝ) (labels : Option (List String))
  | scalar (x : ℝ)

/-- `_wrap(x, labels, True)` (moments.py:166-181): pandas raises when the number of labels is wrong. -/
def wrapVec (x : Fin N → ℝ) : Option (List String) → Except PyErr (MeanOut N)
  | none => .ok ⟨x, none⟩
  | some l => if l.length = N then .ok ⟨x, some l⟩ else .error .valueError

/-- `_wrap(x, labels, False)` (moments.py:166-181). -/
def wrapMat (m : Matrix (Fin N) (Fin N) ℝ) : Option (List String) → Except PyErr (CovOut N)
  | none => .ok (.matrix m none)
  | some l => if l.length = N then .ok (.matrix m (some l)) else .error .valueError

/-- Column labels as a list. -/
def Panel.labels (R : Panel T N) : Option (List String) := R.cols.map List.ofFn

/-- Index labels as a list. -/
def ProbVec.labels {T' : ℕ} (p : ProbVec T') : Option (List String) := p.index.map List.ofFn

/-- `estimate_sample_moments` (moments.py:184-236) with labels. -/
noncomputable def sampleMomentsL {T' : ℕ} (R : Panel T N) (p : ProbVec T') : Except PyErr (MeanOut N × CovOut N) :=
  match estimateSampleMoments R.x p.v with
  | .error e => .error e
  | .ok ms =>
    match labelsOf [R.labels, p.labels] with
    | .error e => .error e
    | .ok labels =>
      match wrapVec ms.1 labels, wrapMat ms.2 labels with
      | .ok mu, .ok S => .ok (mu, S)
      | .error e, _ => .error e
      | _, .error e => .error e

/-- `_wrap(np.cov(X, rowvar=False, ddof=0), labels, False)` (moments.py:1229-1231): with one column `np.cov` is zero-dimensional, which
`pd.DataFrame` rejects. -/
noncomputable def npCov0 (R : Panel T N) : Except PyErr (CovOut N) :=
  if h : N = 1 then
    if R.cols.isSome then .error .valueError
    else .ok (.scalar (secondMoment (centred R.x) (Fin.cast h.symm 0) (Fin.cast h.symm 0)))
  else wrapMat (secondMoment (centred R.x)) R.labels

/-- Sample moments inside `estimate_moments` (moments.py:1226-1235). -/
noncomputable def sampleStage {T' : ℕ} (R : Panel T N) : Option (ProbVec T') → Except PyErr (MeanOut N × CovOut N)
  | some p => sampleMomentsL R p
  | none =>
    match npCov0 R with
    | .error e => .error e
    | .ok S =>
      match wrapVec (colMean R.x) R.labels with
      | .error e => .error e
      | .ok mu => .ok (mu, S)

/-- The matrix estimators that take `S` reject a zero-dimensional one (moments.py:270, 345, 953). -/
def asMatrix : CovOut N → Except PyErr (Matrix (Fin N) (Fin N) ℝ × Option (List String))
  | .matrix m l => .ok (m, l)
  | .scalar _ => .error .valueError

/-- Mean estimators of `estimate_moments`. -/
inductive MeanKind where
  | sample | jorion | jamesStein | huber | medianOfMeans
  deriving DecidableEq

/-- `mean_choice` (moments.py:1237-1257) of the lower-cased key. -/
def meanKind (key : String) : Option MeanKind :=
  if key ∈ ["sample", "simple"] then some .sample
  else if key ∈ ["jorion", "bayes_stein"] then some .jorion
  else if key ∈ ["james_stein", "james-stein", "js"] then some .jamesStein
  else if key ∈ ["huber", "robust_huber"] then some .huber
  else if key ∈ ["median_of_means", "mom"] then some .medianOfMeans
  else none

/-- Covariance estimators of `estimate_moments`. -/
inductive CovKind where
  | sample | ledoitWolf | oas | nls | poet | tyler | glasso | ewma
  deriving DecidableEq

/-- `cov_choice` (moments.py:1259-1284) of the lower-cased key. -/
def covKind (key : String) : Option CovKind :=
  if key ∈ ["sample", "empirical"] then some .sample
  else if key ∈ ["ledoit_wolf", "lw"] then some .ledoitWolf
  else if key = "oas" then some .oas
  else if key ∈ ["nls", "nonlinear", "nonlinear_shrinkage"] then some .nls
  else if key = "poet" then some .poet
  else if key ∈ ["tyler", "tyler_shrinkage"] then some .tyler
  else if key ∈ ["glasso", "graphical_lasso"] then some .glasso
  else if key = "ewma" then some .ewma
  else none

/-- `mean_kwargs`, with the defaults of the estimators; `perm` is the permutation drawn by the random generator. -/
structure MeanKw (T N : ℕ) where
  target : JsTarget N := .grandMean
  tol : ℝ := 1 / 10 ^ 6
  maxIter : ℕ := 200
  blocks : Blocks := .auto
  perm : Equiv.Perm (Fin T) := Equiv.refl _

/-- `cov_kwargs`, with the defaults of the estimators. -/
structure CovKw (N : ℕ) where
  lwTarget : LwTarget := .identity
  oasCentered : Bool := true
  inputIsCov : Bool := false
  dof : ℤ := 0
  k : PoetK := .auto
  thresh : PoetThresh := .auto
  standardize : Bool := true
  shrinkage : ℝ := 0
  tylerTarget : Option (Matrix (Fin N) (Fin N) ℝ) := none
  tol : ℝ := 1 / 10 ^ 6
  maxIter : ℤ := 200
  ensurePsd : Bool := true
  alpha : GlassoAlpha := .auto
  glassoCentered : Bool := true
  span : ℤ := 252
  minPeriods : ℤ := 1

/-- External routines: pseudo-inverse, the two eigen-solvers (POET uses the descending order), and `nonlinshrink.shrink_cov`. -/
structure Ext (T N : ℕ) where
  pinv : Matrix (Fin N) (Fin N) ℝ → Matrix (Fin N) (Fin N) ℝ
  eigh : Eigh N
  eighDesc : Eigh N
  nls : (Fin T → Fin N → ℝ) → Option ℤ → Except PyErr (Matrix (Fin N) (Fin N) ℝ)

/-- `robust_mean_huber` (moments.py:983-1026), for at least one row. -/
noncomputable def huberMean (tol : ℝ) (maxIter : ℕ) (x : Fin T → Fin N → ℝ) : Fin N → ℝ :=
  fun i => (huberColumn tol maxIter (List.ofFn fun t => x t i)).getD 0

/-- `robust_mean_median_of_means` (moments.py:1029-1071), for at least one row; the error does not depend on the column. -/
noncomputable def momMean (perm : Equiv.Perm (Fin T)) (blocks : Blocks) (x : Fin T → Fin N → ℝ) : Except PyErr (Fin N → ℝ) :=
  match momBlocks T blocks with
  | .error e => .error e
  | .ok _ => .ok fun i =>
    match medianOfMeans perm blocks (fun t => x t i) with
    | .ok m => m.getD 0
    | .error _ => 0

/-- `shrink_covariance_nls` (moments.py:433-483). -/
noncomputable def shrinkNls (ext : Ext T N) (x : Fin T → Fin N → ℝ) (inputIsCov : Bool) (dof : ℤ) :
    Except PyErr (Matrix (Fin N) (Fin N) ℝ) :=
  if inputIsCov then .error .valueError
  else
    match ext.nls x (if dof = 0 then none else some dof) with
    | .error e => .error e
    | .ok S => PyV.Valid.ensurePsd S defaultJitter

/-- The mean branch (moments.py:1237-1257). -/
noncomputable def meanStage (ext : Ext T N) (R : Panel T N) (mu : MeanOut N) (S : CovOut N) (kw : MeanKw T N) :
    MeanKind → Except PyErr (MeanOut N)
  | .sample => .ok mu
  | .jorion =>
    match asMatrix S with
    | .error e => .error e
    | .ok m =>
      match shrinkMeanJorion mu.v m.1 T, labelsOf [mu.labels, m.2] with
      | .ok v, .ok l => wrapVec v l
      | .error e, _ => .error e
      | _, .error e => .error e
  | .jamesStein =>
    match asMatrix S with
    | .error e => .error e
    | .ok m =>
      match shrinkMeanJamesStein ext.pinv mu.v m.1 T kw.target, labelsOf [mu.labels, m.2] with
      | .ok v, .ok l => wrapVec v l
      | .error e, _ => .error e
      | _, .error e => .error e
  | .huber => wrapVec (huberMean kw.tol kw.maxIter R.x) R.labels
  | .medianOfMeans =>
    match momMean kw.perm kw.blocks R.x with
    | .error e => .error e
    | .ok v => wrapVec v R.labels

/-- `_wrap` of an estimator's matrix. -/
def wrapRes (R : Panel T N) : Except PyErr (Matrix (Fin N) (Fin N) ℝ) → Except PyErr (CovOut N)
  | .error e => .error e
  | .ok m => wrapMat m R.labels

/-- Covariance part of `sparse_precision_glasso(..., return_precision=False)` (moments.py:922-928). -/
noncomputable def glassoCov (ext : Ext T N) (x : Fin T → Fin N → ℝ) (alpha : GlassoAlpha) (c : Bool) :
    Except PyErr (Matrix (Fin N) (Fin N) ℝ) :=
  match glasso ext.eigh ext.pinv x alpha c with
  | .error e => .error e
  | .ok cp => .ok cp.1

/-- The covariance branch (moments.py:1259-1284). -/
noncomputable def covStage (ext : Ext T N) (R : Panel T N) (S : CovOut N) (kw : CovKw N) : CovKind → Except PyErr (CovOut N)
  | .sample => .ok S
  | .ledoitWolf =>
    match asMatrix S with
    | .error e => .error e
    | .ok m =>
      match shrinkLedoitWolf R.x m.1 kw.lwTarget, labelsOf [R.labels, m.2] with
      | .ok C, .ok l => wrapMat C l
      | .error e, _ => .error e
      | _, .error e => .error e
  | .oas => wrapRes R (shrinkOas R.x kw.oasCentered)
  | .nls => wrapRes R (shrinkNls ext R.x kw.inputIsCov kw.dof)
  | .poet => wrapRes R (poet ext.eighDesc R.x kw.k kw.thresh kw.standardize)
  | .tyler => wrapRes R (tyler ext.pinv R.x kw.shrinkage kw.tol kw.tylerTarget kw.maxIter kw.ensurePsd)
  | .glasso => wrapRes R (glassoCov ext R.x kw.alpha kw.glassoCentered)
  | .ewma => wrapRes R (covarianceEwma (List.ofFn R.x) kw.span kw.minPeriods)

/-- `estimate_moments` (moments.py:1196-1286). -/
noncomputable def estimateMoments {T' : ℕ} (ext : Ext T N) (R : Panel T N) (p : Option (ProbVec T')) (meanKey covKey : String)
    (mkw : MeanKw T N) (ckw : CovKw N) : Except PyErr (MeanOut N × CovOut N) :=
  match sampleStage R p with
  | .error e => .error e
  | .ok ms =>
    match meanKind meanKey.toLower with
    | none => .error .valueError
    | some mk =>
      match meanStage ext R ms.1 ms.2 mkw mk with
      | .error e => .error e
      | .ok mu =>
        match covKind covKey.toLower with
        | none => .error .valueError
        | some ck =>
          match covStage ext R ms.2 ckw ck with
          | .error e => .error e
          | .ok S => .ok (mu, S)

/-! ## One-shot NIW posteriors -/

open PyV.Bayes in
/-- `posterior_moments_niw` (moments.py:1121-1158). -/
noncomputable def posteriorNiw (factor : Factor) (mu : Arr1) (sigma : Arr2) (t0 nu0 : ℝ) (smu : Arr1) (ssigma : Arr2) (nObs : ℝ) :
    Except PyErr ((n : ℕ) × OutVec n × OutMat n) :=
  match init factor mu sigma (pyInt t0) (pyInt nu0) with
  | .error e => .error e
  | .ok o =>
    match update factor o smu ssigma (pyInt nObs) with
    | .error e => .error e
    | .ok p =>
      match getMuCe { o with post := some p }, getSigmaCe { o with post := some p } with
      | .ok m, .ok s => .ok ⟨o.n, m, s⟩
      | .error e, _ => .error e
      | _, .error e => .error e

open PyV.Bayes in
/-- `posterior_moments_niw_with_uncertainty` (moments.py:1161-1193). -/
noncomputable def posteriorNiwUnc (factor : Factor) (mu : Arr1) (sigma : Arr2) (t0 nu0 : ℝ) (smu : Arr1) (ssigma : Arr2) (nObs : ℝ) :
    Except PyErr ((n : ℕ) × OutVec n × OutMat n × OutMat n) :=
  match init factor mu sigma (pyInt t0) (pyInt nu0) with
  | .error e => .error e
  | .ok o =>
    match update factor o smu ssigma (pyInt nObs) with
    | .error e => .error e
    | .ok p =>
      match getMuCe { o with post := some p }, getSigmaCe { o with post := some p }, getSMu { o with post := some p } with
      | .ok m, .ok s, .ok u => .ok ⟨o.n, m, s, u⟩
      | .error e, _, _ => .error e
      | _, .error e, _ => .error e
      | _, _, .error e => .error e

end PyV.Mom
