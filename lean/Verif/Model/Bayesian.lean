import Verif.Model.Py
import Mathlib.LinearAlgebra.Matrix.PosDef
import Mathlib.LinearAlgebra.Matrix.Trace
import Mathlib.Analysis.SpecialFunctions.Exp
import Mathlib.Analysis.SpecialFunctions.Pow.Real

/-! # Model of `pyvallocation/bayesian.py`

Reals stand for floats.  `sla.cholesky` and `chi2.ppf` are parameters.  The rank of an array is fixed by its type, its
shape is data. -/

namespace PyV.Bayes

open PyV Matrix

/-- A one-dimensional argument: a NumPy array (`index = none`) or a pandas Series. -/
structure Arr1 where
  n : ℕ
  val : Fin n → ℝ
  index : Option (List String)

/-- A two-dimensional argument: a NumPy array (`labels = none`) or a DataFrame with its index and columns. -/
structure Arr2 where
  rows : ℕ
  cols : ℕ
  val : Fin rows → Fin cols → ℝ
  labels : Option (List String × List String)

/-- `sla.cholesky(·, lower=True)`: `none` stands for `LinAlgError`. -/
abbrev Factor := (n : ℕ) → Matrix (Fin n) (Fin n) ℝ → Option (Matrix (Fin n) (Fin n) ℝ)

/-- `mat = 0.5 * (mat + mat.T)` (bayesian.py:85). -/
noncomputable def symPart {n : ℕ} (A : Matrix (Fin n) (Fin n) ℝ) : Matrix (Fin n) (Fin n) ℝ :=
  (1 / 2 : ℝ) • (A + Aᵀ)

/-- Outcome of the retry loop: the result and the diagonal adjustments that were tried, in order. -/
structure CholRun (n : ℕ) where
  result : Except PyErr (Matrix (Fin n) (Fin n) ℝ)
  tried : List ℝ

/-- The `while True` loop (bayesian.py:92-106): `left` is `max_attempts - attempts`, `cur` is `current_jitter`. -/
noncomputable def cholLoop {n : ℕ} (factor : Factor) (A : Matrix (Fin n) (Fin n) ℝ) (minJitter : ℝ) : ℕ → ℝ → CholRun n
  | left, cur =>
    match factor n (A + cur • (1 : Matrix (Fin n) (Fin n) ℝ)) with
    | some L => ⟨.ok L, [cur]⟩
    | none =>
      match left with
      | 0 => ⟨.error .runtimeError, [cur]⟩
      | k + 1 =>
        let r := cholLoop factor A minJitter k (if cur = 0 then minJitter else cur * 10)
        ⟨r.result, cur :: r.tried⟩

/-- `_cholesky_pd` on a square matrix (bayesian.py:85-106).  The asymmetry warning (bayesian.py:79-84) is not modelled. -/
noncomputable def cholSquare {n : ℕ} (factor : Factor) (A : Matrix (Fin n) (Fin n) ℝ)
    (jitter : ℝ := 1 / 10 ^ 12) (maxAttempts : ℕ := 6) : CholRun n :=
  cholLoop factor (symPart A) (if 0 < jitter then jitter else 1 / 10 ^ 12) maxAttempts 0

/-- `_cholesky_pd` (bayesian.py:43-106) including the shape test (bayesian.py:76-78). -/
noncomputable def choleskyPd (factor : Factor) (A : Arr2) : Except PyErr (Matrix (Fin A.rows) (Fin A.rows) ℝ) :=
  if h : A.rows = A.cols then (cholSquare factor (Matrix.of (fun i j => A.val i (Fin.cast h j)))).result
  else .error .valueError

/-- `chi2_quantile(p, dof, sqrt=False)` (bayesian.py:109-147). -/
noncomputable def chi2Quantile (ppf : ℝ → ℕ → ℝ) (p : ℝ) (dof : ℕ) : Except PyErr ℝ := by
  classical
  exact if ¬ (0 < p ∧ p < 1) then .error .valueError else .ok (ppf p dof)

/-- `NIWParams` (bayesian.py:151-175) with the labels of its two array fields. -/
structure Params (n : ℕ) where
  T1 : ℝ
  mu1 : Fin n → ℝ
  nu1 : ℝ
  sigma1 : Matrix (Fin n) (Fin n) ℝ

/-- A `NIWPosterior` object (bayesian.py:177-290). -/
structure Niw where
  n : ℕ
  mu : Fin n → ℝ
  sigma : Matrix (Fin n) (Fin n) ℝ
  t0 : ℤ
  nu0 : ℤ
  index : Option (List String)
  post : Option (Params n)

/-- The stored asset index, or an error for labels that disagree (bayesian.py:248-274). -/
def mergeIndex (mu : Arr1) (sigma : Arr2) : Except PyErr (Option (List String)) :=
  match mu.index, sigma.labels with
  | none, none => .ok none
  | some l, none => .ok (some l)
  | none, some (i, _) => .ok (some i)
  | some l, some (i, c) => if i = l ∧ c = l then .ok (some l) else .error .valueError

/-- `int(x)` for a non-negative number: truncation. -/
noncomputable def pyInt (x : ℝ) : ℤ := by classical exact if 0 ≤ x then ⌊x⌋ else ⌈x⌉

/-- `NIWPosterior.__init__` after the labels have been merged (bayesian.py:278-290). -/
noncomputable def mkNiw (factor : Factor) (mu : Arr1) (sigma : Arr2) (t0 nu0 : ℝ) (index : Option (List String)) :
    Except PyErr Niw := by
  classical
  exact
    if h : sigma.rows = mu.n ∧ sigma.cols = mu.n then
      if t0 ≤ 0 then .error .valueError
      else if nu0 < 0 then .error .valueError
      else
        let S : Matrix (Fin mu.n) (Fin mu.n) ℝ := Matrix.of (fun i j => sigma.val (Fin.cast h.1.symm i) (Fin.cast h.2.symm j))
        match (cholSquare factor S).result with
        | .error e => .error e
        | .ok _ => .ok ⟨mu.n, mu.val, S, pyInt t0, pyInt nu0, index, none⟩
    else .error .valueError

/-- `NIWPosterior.__init__` (bayesian.py:225-290). -/
noncomputable def init (factor : Factor) (mu : Arr1) (sigma : Arr2) (t0 nu0 : ℝ) : Except PyErr Niw :=
  if mu.n = 0 then .error .valueError
  else
    match mergeIndex mu sigma with
    | .error e => .error e
    | .ok index => mkNiw factor mu sigma t0 nu0 index

/-- `mu1_array` (bayesian.py:378). -/
noncomputable def mu1Of {n : ℕ} (t0 nObs : ℝ) (mu smu : Fin n → ℝ) : Fin n → ℝ :=
  fun i => (t0 * mu i + nObs * smu i) / (t0 + nObs)

/-- `sigma1_array` (bayesian.py:380-390). -/
noncomputable def sigma1Of {n : ℕ} (t0 nu0 nObs : ℝ) (mu smu : Fin n → ℝ) (S Ss : Matrix (Fin n) (Fin n) ℝ) :
    Matrix (Fin n) (Fin n) ℝ :=
  Matrix.of (fun i j =>
    (nu0 * S i j + nObs * Ss i j + ((mu i - smu i) * (mu j - smu j)) / (1 / nObs + 1 / t0)) / (nu0 + nObs))

/-- Arithmetic part of `update` (bayesian.py:376-398): `1.0 / self.t0` raises for `t0 = 0`, which the constructor
produces for `0 < t0 < 1`. -/
noncomputable def posterior {n : ℕ} (factor : Factor) (mu : Fin n → ℝ) (S : Matrix (Fin n) (Fin n) ℝ) (t0 nu0 : ℤ)
    (smu : Fin n → ℝ) (Ss : Matrix (Fin n) (Fin n) ℝ) (nObs : ℝ) : Except PyErr (Params n) := by
  classical
  exact
    if t0 = 0 then .error .zeroDivision
    else if (nu0 : ℝ) + nObs ≤ 0 then .error .valueError
    else
      match (cholSquare factor (sigma1Of t0 nu0 nObs mu smu S Ss)).result with
      | .error e => .error e
      | .ok _ => .ok ⟨t0 + nObs, mu1Of t0 nObs mu smu, nu0 + nObs, sigma1Of t0 nu0 nObs mu smu S Ss⟩

/-- `NIWPosterior.update` (bayesian.py:309-399): the returned posterior, or the exception.  The labels of the sample
statistics are not looked at. -/
noncomputable def update (factor : Factor) (o : Niw) (smu : Arr1) (ssigma : Arr2) (nObs : ℝ) : Except PyErr (Params o.n) := by
  classical
  exact
    if o.post.isSome then .error .runtimeError
    else if h1 : smu.n = o.n then
      if nObs ≤ 0 then .error .valueError
      else if h2 : ssigma.rows = o.n ∧ ssigma.cols = o.n then
        let Ss : Matrix (Fin o.n) (Fin o.n) ℝ :=
          Matrix.of (fun i j => ssigma.val (Fin.cast h2.1.symm i) (Fin.cast h2.2.symm j))
        match (cholSquare factor Ss).result with
        | .error e => .error e
        | .ok _ => posterior factor o.mu o.sigma o.t0 o.nu0 (fun i => smu.val (Fin.cast h1.symm i)) Ss nObs
      else .error .valueError
    else .error .valueError

/-- A vector returned to the caller: NumPy (`none`) or a Series carrying the prior's index (`_wrap_vector`,
bayesian.py:297-301). -/
structure OutVec (n : ℕ) where
  val : Fin n → ℝ
  index : Option (List String)

/-- A matrix returned to the caller (`_wrap_matrix`, bayesian.py:303-307). -/
structure OutMat (n : ℕ) where
  val : Matrix (Fin n) (Fin n) ℝ
  index : Option (List String)

/-- `get_mu_ce` (bayesian.py:401-420). -/
def getMuCe (o : Niw) : Except PyErr (OutVec o.n) :=
  match o.post with
  | none => .error .runtimeError
  | some p => .ok ⟨p.mu1, o.index⟩

/-- `get_S_mu` (bayesian.py:422-453). -/
noncomputable def getSMu (o : Niw) : Except PyErr (OutMat o.n) := by
  classical
  exact
    match o.post with
    | none => .error .runtimeError
    | some p =>
      if p.nu1 ≤ 2 then .error .valueError
      else .ok ⟨(p.nu1 / (p.T1 * (p.nu1 - 2))) • p.sigma1, o.index⟩

/-- `get_sigma_ce` (bayesian.py:456-483). -/
noncomputable def getSigmaCe (o : Niw) : Except PyErr (OutMat o.n) := by
  classical
  exact
    match o.post with
    | none => .error .runtimeError
    | some p =>
      if p.nu1 + o.n + 1 = 0 then .error .valueError
      else .ok ⟨(p.nu1 / (p.nu1 + o.n + 1)) • p.sigma1, o.index⟩

/-- The common radius expression (bayesian.py:516-520 and 700-702). -/
noncomputable def gammaMu (q T1 nu1 : ℝ) : ℝ := Real.sqrt ((q / T1) * (nu1 / (nu1 - 2)))

/-- `NIWPosterior.cred_radius_mu` (bayesian.py:485-520). -/
noncomputable def credRadiusMu (ppf : ℝ → ℕ → ℝ) (o : Niw) (p : ℝ) : Except PyErr ℝ := by
  classical
  exact
    match o.post with
    | none => .error .runtimeError
    | some P =>
      if P.nu1 ≤ 2 then .error .valueError
      else if ¬ (0 < p ∧ p < 1) then .error .valueError
      else
        match chi2Quantile ppf p o.n with
        | .error e => .error e
        | .ok q => .ok (gammaMu q P.T1 P.nu1)

/-- `C_sigma` from the quantile (bayesian.py:554-576 and 717-729): a negative radicand is clamped to zero. -/
noncomputable def cSigma (q nu1 : ℝ) (n : ℕ) : ℝ := by
  classical
  exact
    let den := nu1 + n + 1
    let arg := 2 * nu1 ^ 2 * q / den ^ 3
    nu1 / den + Real.sqrt (if arg < 0 then 0 else arg)

/-- `NIWPosterior.cred_radius_sigma_factor` (bayesian.py:522-576). -/
noncomputable def credRadiusSigma (ppf : ℝ → ℕ → ℝ) (o : Niw) (p : ℝ) : Except PyErr ℝ := by
  classical
  exact
    match o.post with
    | none => .error .runtimeError
    | some P =>
      if ¬ (0 < p ∧ p < 1) then .error .valueError
      else if P.nu1 + o.n + 1 ≤ 0 then .error .valueError
      else
        match chi2Quantile ppf p (o.n * (o.n + 1) / 2) with
        | .error e => .error e
        | .ok q => .ok (cSigma q P.nu1 o.n)

/-! ## Call histories -/

/-- One call on the object, or a write by the caller to the array that `get_mu_ce` returned. -/
inductive Op where
  | update (smu : Arr1) (ssigma : Arr2) (nObs : ℝ)
  | getMuCe
  | getSMu
  | getSigmaCe
  | credRadiusMu (p : ℝ)
  | credRadiusSigma (p : ℝ)
  /-- `niw.get_mu_ce()[i] = x` on a NumPy posterior. -/
  | writeMu (i : ℕ) (x : ℝ)

/-- State after one call.  In NumPy mode `get_mu_ce` returns the stored array itself (`np.asarray(...).ravel()` of a
one-dimensional array is a view, bayesian.py:420), so the caller's write reaches the posterior; in pandas mode the model
does not say (it depends on the pandas version) and leaves it unchanged. -/
noncomputable def step (factor : Factor) (o : Niw) : Op → Niw
  | .update smu ssigma nObs =>
    match update factor o smu ssigma nObs with
    | .ok p => { o with post := some p }
    | .error _ => o
  | .writeMu i x =>
    match o.post, o.index with
    | some p, none => { o with post := some { p with mu1 := fun j => if (j : ℕ) = i then x else p.mu1 j } }
    | _, _ => o
  | _ => o

/-- State after a history of calls. -/
noncomputable def run (factor : Factor) (o : Niw) (ops : List Op) : Niw := ops.foldl (step factor) o

/-! ## RobustBayesPosterior -/

/-- `RobustBayesPosterior` (bayesian.py:579-606). -/
structure Robust where
  n : ℕ
  mu : Fin n → ℝ
  sigma : Matrix (Fin n) (Fin n) ℝ
  sMu : Matrix (Fin n) (Fin n) ℝ
  nu1 : Option ℝ
  nAssets : Option ℕ
  T1 : Option ℝ

/-- Assembly of the bundle from an updated posterior (bayesian.py:640-647). -/
noncomputable def bundle (o : Niw) (p : Params o.n) : Except PyErr Robust := do
  let o' : Niw := { o with post := some p }
  let m ← getMuCe o'
  let s ← getSigmaCe o'
  let sm ← getSMu o'
  .ok ⟨o.n, m.val, s.val, sm.val, some p.nu1, some o.n, some p.T1⟩

/-- `RobustBayesPosterior.from_niw` (bayesian.py:607-647). -/
noncomputable def fromNiw (factor : Factor) (mu : Arr1) (sigma : Arr2) (t0 nu0 : ℝ) (smu : Arr1) (ssigma : Arr2) (nObs : ℝ) :
    Except PyErr Robust :=
  match init factor mu sigma (pyInt t0) (pyInt nu0) with
  | .error e => .error e
  | .ok o =>
    match update factor o smu ssigma (pyInt nObs) with
    | .error e => .error e
    | .ok p => bundle o p

/-- `mean_uncertainty_cov_log` (bayesian.py:649-664). -/
noncomputable def covLog (r : Robust) (h : ℝ) : Matrix (Fin r.n) (Fin r.n) ℝ := (h ^ 2) • r.sMu

/-- `sigma1` (bayesian.py:666-685). -/
noncomputable def sigma1 (r : Robust) : Except PyErr (Matrix (Fin r.n) (Fin r.n) ℝ) :=
  match r.nu1, r.nAssets with
  | some v, some k => .ok (((v + k + 1) / v) • r.sigma)
  | _, _ => .error .valueError

/-- `RobustBayesPosterior.cred_radius_mu` (bayesian.py:687-702). -/
noncomputable def rCredRadiusMu (ppf : ℝ → ℕ → ℝ) (r : Robust) (p : ℝ) : Except PyErr ℝ :=
  match r.nu1, r.nAssets, r.T1 with
  | some v, some k, some t =>
    match chi2Quantile ppf p k with
    | .error e => .error e
    | .ok q => .ok (gammaMu q t v)
  | _, _, _ => .error .valueError

/-- `RobustBayesPosterior.cred_radius_sigma_factor` (bayesian.py:704-729). -/
noncomputable def rCredRadiusSigma (ppf : ℝ → ℕ → ℝ) (r : Robust) (p : ℝ) : Except PyErr ℝ :=
  match r.nu1, r.nAssets with
  | some v, some k =>
    match chi2Quantile ppf p (k * (k + 1) / 2) with
    | .error e => .error e
    | .ok q => .ok (cSigma q v k)
  | _, _ => .error .valueError

/-- The Jacobian diagonal of `mean_uncertainty_cov_simple` (bayesian.py:754-764). -/
noncomputable def simpleScale (r : Robust) (h : ℝ) (exact_ : Bool) : Fin r.n → ℝ :=
  fun i => if exact_ then Real.exp (r.mu i * h + 1 / 2 * (r.sigma i i * h ^ 2)) else Real.exp (r.mu i * h)

/-- `mean_uncertainty_cov_simple` (bayesian.py:731-766). -/
noncomputable def covSimple (r : Robust) (h : ℝ) (exact_ : Bool) : Matrix (Fin r.n) (Fin r.n) ℝ :=
  Matrix.of (fun i j => simpleScale r h exact_ i * (r.sMu i j * h ^ 2) * simpleScale r h exact_ j)

end PyV.Bayes
