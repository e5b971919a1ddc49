import Verif.Model.Validation
import Mathlib.Analysis.SpecialFunctions.Sqrt
import Mathlib.Analysis.SpecialFunctions.Log.Basic

/-! # Model of `pyvallocation/moments.py`

Scenario matrices are `Fin T → Fin N → ℝ`, covariance matrices `Matrix (Fin N) (Fin N) ℝ`. Rounding is not modelled, so
`nan_to_num` is the identity; divisions whose NumPy result would be NaN/inf are modelled case by case. -/

namespace PyV.Mom

open PyV PyV.Valid Matrix

variable {T N : ℕ}

/-- `mu = R.T @ p` (moments.py:229). -/
def wMean (R : Fin T → Fin N → ℝ) (p : Fin T → ℝ) : Fin N → ℝ := fun i => ∑ t, R t i * p t

/-- `X = R - mu; S = einsum('ti,tj,t->ij', X, X, p); S = (S + S.T)/2` (moments.py:230-232). -/
noncomputable def wCov (R : Fin T → Fin N → ℝ) (p : Fin T → ℝ) : Matrix (Fin N) (Fin N) ℝ :=
  let X : Fin T → Fin N → ℝ := fun t i => R t i - wMean R p i
  let S : Matrix (Fin N) (Fin N) ℝ := Matrix.of (fun i j => ∑ t, X t i * X t j * p t)
  (1 / 2 : ℝ) • (S + Sᵀ)

/-- `estimate_sample_moments` (moments.py:184-236). `p` is a vector of its own length; tolerances are the defaults of
validation.py. -/
noncomputable def estimateSampleMoments {T' : ℕ} (R : Fin T → Fin N → ℝ) (p : Fin T' → ℝ) :
    Except PyErr ((Fin N → ℝ) × Matrix (Fin N) (Fin N) ℝ) := by
  classical
  exact
    if h : T' = T then
      let q : Fin T → ℝ := fun t => p (t.cast h.symm)
      if nonNeg q (1 / 10 ^ 9) ∧ sumToOne q (1 / 10 ^ 6) then .ok (wMean R q, wCov R q) else .error .valueError
    else .error .valueError

/-- `shrink_mean_jorion` (moments.py:239-294). `inv` raises on a singular matrix. -/
noncomputable def shrinkMeanJorion (mu : Fin N → ℝ) (S : Matrix (Fin N) (Fin N) ℝ) (nObs : ℤ) :
    Except PyErr (Fin N → ℝ) := by
  classical
  exact
    if nObs ≤ 0 ∨ N ≤ 2 then .error .valueError
    else
      let Ss : Matrix (Fin N) (Fin N) ℝ := (1 / 2 : ℝ) • (S + Sᵀ)
      let A := Ss + (1 / 10 ^ 8 : ℝ) • (1 : Matrix (Fin N) (Fin N) ℝ)
      if A.det = 0 then .error .valueError
      else
        let Si := A⁻¹
        let ones : Fin N → ℝ := fun _ => 1
        let muGmv := (ones ⬝ᵥ (Si *ᵥ mu)) / (ones ⬝ᵥ (Si *ᵥ ones))
        let diff : Fin N → ℝ := fun i => mu i - muGmv
        let v := ((N : ℝ) + 2) / (((N : ℝ) + 2) + (nObs : ℝ) * (diff ⬝ᵥ (Si *ᵥ diff)))
        let vc := min (max v 0) 1
        .ok (fun i => mu i - vc * diff i)

/-- `target` argument of `shrink_mean_james_stein`. -/
inductive JsTarget (N : ℕ) where
  | grandMean
  | custom (t : Fin N → ℝ)
  | otherString

/-- `mu_target` (moments.py:961-968). -/
noncomputable def jsTarget (mu : Fin N → ℝ) : JsTarget N → Except PyErr (Fin N → ℝ)
  | .grandMean => .ok (fun _ => (∑ i, mu i) / N)
  | .custom t => .ok t
  | .otherString => .error .valueError

/-- The shrinkage factor (moments.py:973-978): `G` is the pseudo-inverse of the (guarded) covariance. -/
noncomputable def jsShrink (nObs : ℤ) (G : Matrix (Fin N) (Fin N) ℝ) (diff : Fin N → ℝ) : ℝ := by
  classical
  exact
    let quad := diff ⬝ᵥ (((nObs : ℝ) • G) *ᵥ diff)
    if quad ≤ 0 then 0 else max 0 (1 - ((N : ℝ) - 2) / quad)

/-- `shrink_mean_james_stein` (moments.py:931-980); `pinv` is `np.linalg.pinv(·, rcond=1e-12)`. -/
noncomputable def shrinkMeanJamesStein (pinv : Matrix (Fin N) (Fin N) ℝ → Matrix (Fin N) (Fin N) ℝ) (mu : Fin N → ℝ)
    (S : Matrix (Fin N) (Fin N) ℝ) (nObs : ℤ) (target : JsTarget N) : Except PyErr (Fin N → ℝ) :=
  if nObs ≤ 0 then .error .valueError
  else
    match jsTarget mu target with
    | .error e => .error e
    | .ok t =>
      match ensurePsd ((1 / 2 : ℝ) • (S + Sᵀ)) defaultJitter with
      | .error e => .error e
      | .ok Sg =>
        let diff : Fin N → ℝ := fun i => mu i - t i
        .ok (fun i => t i + jsShrink nObs (pinv Sg) diff * diff i)

/-- `R.mean(0)`. -/
noncomputable def colMean (R : Fin T → Fin N → ℝ) : Fin N → ℝ := fun i => (∑ t, R t i) / T

/-- `X = R - R.mean(0)`. -/
noncomputable def centred (R : Fin T → Fin N → ℝ) : Fin T → Fin N → ℝ := fun t i => R t i - colMean R i

/-- Shrinkage targets of `shrink_covariance_ledoit_wolf`. -/
inductive LwTarget where
  | identity
  | constantCorrelation
  | otherString
  deriving DecidableEq

/-- `F = np.eye(N) * trace(S) / N` (moments.py:357). -/
noncomputable def lwIdentity (S : Matrix (Fin N) (Fin N) ℝ) : Matrix (Fin N) (Fin N) ℝ :=
  (S.trace / N) • (1 : Matrix (Fin N) (Fin N) ℝ)

/-- Average off-diagonal correlation (moments.py:359-361). -/
noncomputable def lwRbar (S : Matrix (Fin N) (Fin N) ℝ) : ℝ :=
  ((∑ i, ∑ j, S i j / (Real.sqrt (S i i) * Real.sqrt (S j j))) - N) / ((N : ℝ) * ((N : ℝ) - 1))

/-- Constant-correlation target (moments.py:358-363). -/
noncomputable def lwConstCorr (S : Matrix (Fin N) (Fin N) ℝ) : Matrix (Fin N) (Fin N) ℝ :=
  Matrix.of (fun i j => if i = j then S i i else lwRbar S * (Real.sqrt (S i i) * Real.sqrt (S j j)))

/-- `pi_mat = mean((M - S)**2, axis=0)`, `M[t,i,j] = X[t,i] X[t,j]` (moments.py:368-369). -/
noncomputable def lwPi (X : Fin T → Fin N → ℝ) (S : Matrix (Fin N) (Fin N) ℝ) : Matrix (Fin N) (Fin N) ℝ :=
  Matrix.of (fun i j => (∑ t, (X t i * X t j - S i j) ^ 2) / T)

/-- `pi_hat = np.mean(pi_mat)`: the mean over all `N²` entries (moments.py:370). -/
noncomputable def lwPiHat (P : Matrix (Fin N) (Fin N) ℝ) : ℝ := (∑ i, ∑ j, P i j) / ((N : ℝ) * N)

/-- `rho_hat` (moments.py:371-377). -/
noncomputable def lwRho (identity : Bool) (P F : Matrix (Fin N) (Fin N) ℝ) : ℝ :=
  if identity then P.trace
  else P.trace + ((∑ i, ∑ j, if i = j then 0 else F i j) / ((N : ℝ) * ((N : ℝ) - 1))) * (lwPiHat P - P.trace)

/-- `gamma_hat = ||S - F||_F²` (moments.py:379). -/
noncomputable def lwGamma (S F : Matrix (Fin N) (Fin N) ℝ) : ℝ := ∑ i, ∑ j, (S i j - F i j) ^ 2

/-- `delta` (moments.py:380-384): NumPy division, so `x/0` is ±inf (clipped to 1 or 0) and `0/0` is NaN (`none`). -/
noncomputable def lwDelta (nObs : ℕ) (identity : Bool) (num gamma : ℝ) : Option ℝ := by
  classical
  exact
    if gamma = 0 then
      if num = 0 then none else if 0 < num then some 1 else some 0
    else
      let kappa := num / gamma
      some (min (max (if identity then kappa else kappa / nObs) 0) 1)

/-- The blend (moments.py:386-387). A NaN intensity makes the whole matrix NaN, which `ensure_psd_matrix` rejects with
`ValueError`. -/
noncomputable def lwBlend (delta : Option ℝ) (F S : Matrix (Fin N) (Fin N) ℝ) :
    Except PyErr (Matrix (Fin N) (Fin N) ℝ) :=
  match delta with
  | none => .error .valueError
  | some d =>
    match ensurePsd (d • F + (1 - d) • S) defaultJitter with
    | .error e => .error e
    | .ok C => .ok ((1 / 2 : ℝ) • (C + Cᵀ))

/-- `shrink_covariance_ledoit_wolf` (moments.py:297-390). For the constant-correlation target a non-positive variance or a
single asset produces NaN (0/0), rejected by `ensure_psd_matrix`. -/
noncomputable def shrinkLedoitWolf (R : Fin T → Fin N → ℝ) (Shat : Matrix (Fin N) (Fin N) ℝ) (target : LwTarget) :
    Except PyErr (Matrix (Fin N) (Fin N) ℝ) := by
  classical
  exact
    if T = 0 then .error .valueError
    else
      let S : Matrix (Fin N) (Fin N) ℝ := (1 / 2 : ℝ) • (Shat + Shatᵀ)
      let P := lwPi (centred R) S
      match target with
      | .identity =>
        let F := lwIdentity S
        lwBlend (lwDelta T true (lwPiHat P - lwRho true P F) (lwGamma S F)) F S
      | .constantCorrelation =>
        if (∀ i, 0 < S i i) ∧ N ≠ 1 then
          let F := lwConstCorr S
          lwBlend (lwDelta T false (lwPiHat P - lwRho false P F) (lwGamma S F)) F S
        else .error .valueError
      | .otherString => .error .valueError

/-- `emp_cov = X.T @ X / T` (moments.py:415). -/
noncomputable def secondMoment (X : Fin T → Fin N → ℝ) : Matrix (Fin N) (Fin N) ℝ :=
  Matrix.of (fun i j => (∑ t, X t i * X t j) / T)

/-- The OAS intensity (moments.py:420-425). -/
noncomputable def oasShrinkage (nObs : ℕ) (C : Matrix (Fin N) (Fin N) ℝ) : ℝ := by
  classical
  exact
    let alpha := (∑ i, ∑ j, C i j ^ 2) / ((N : ℝ) * N)
    let mu := C.trace / N
    let denom := ((nObs : ℝ) + 1 - 2 / N) * (alpha - mu * mu / N)
    if denom ≤ 0 then 1 else min (((1 - 2 / N) * alpha + mu * mu) / denom) 1

/-- The matrix handed to the PSD guard (moments.py:426-428). -/
noncomputable def oasBlend (s : ℝ) (C : Matrix (Fin N) (Fin N) ℝ) : Matrix (Fin N) (Fin N) ℝ :=
  (1 - s) • C + (s * (C.trace / N)) • (1 : Matrix (Fin N) (Fin N) ℝ)

/-- `shrink_covariance_oas` (moments.py:393-430). -/
noncomputable def shrinkOas (R : Fin T → Fin N → ℝ) (assumeCentered : Bool) :
    Except PyErr (Matrix (Fin N) (Fin N) ℝ) :=
  if T = 0 ∨ N = 0 then .error .valueError
  else
    let X := if assumeCentered then R else centred R
    let C := secondMoment X
    if N = 1 then .ok C else ensurePsd (oasBlend (oasShrinkage T C) C) defaultJitter

/-- One step of the smoother (moments.py:753). -/
def ewmaStep (lam : ℝ) (C : Matrix (Fin N) (Fin N) ℝ) (r : Fin N → ℝ) : Matrix (Fin N) (Fin N) ℝ :=
  lam • C + (1 - lam) • vecMulVec r r

/-- `lam = 1 - 2/(span+1)` (moments.py:748). -/
noncomputable def ewmaLambda (span : ℤ) : ℝ := 1 - 2 / ((span : ℝ) + 1)

/-- `covariance_ewma` (moments.py:712-756) on the list of rows. An empty sample that passes the `min_periods` test fails at
`X[0]`; `span = -1` divides by zero before that. -/
noncomputable def covarianceEwma (rows : List (Fin N → ℝ)) (span minPeriods : ℤ) :
    Except PyErr (Matrix (Fin N) (Fin N) ℝ) :=
  if (rows.length : ℤ) < minPeriods then .error .valueError
  else if span = -1 then .error .zeroDivision
  else
    match rows with
    | [] => .error .indexError
    | r0 :: rest =>
      let C := rest.foldl (ewmaStep (ewmaLambda span)) (vecMulVec r0 r0)
      .ok ((1 / 2 : ℝ) • (C + Cᵀ))

end PyV.Mom
