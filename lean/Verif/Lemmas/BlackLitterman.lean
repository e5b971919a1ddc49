import Verif.Model.BlackLitterman
import Verif.Lemmas.Views
import Mathlib.Analysis.Matrix.PosDef

namespace PyV.BL

open PyV PyV.FV Matrix

variable {N K : ℕ}

theorem linSolve_ok {A : Matrix (Fin K) (Fin K) ℝ} {b x : Fin K → ℝ} (h : linSolve A b = .ok x) :
    IsUnit A.det ∧ x = A⁻¹ *ᵥ b := by
  unfold linSolve at h
  split at h
  · cases h
  · rename_i hd
    injection h with h
    exact ⟨isUnit_iff_ne_zero.mpr hd, h.symm⟩

theorem quad_nonneg {A : Matrix (Fin N) (Fin N) ℝ} (h : A.PosSemidef) (x : Fin N → ℝ) : 0 ≤ x ⬝ᵥ (A *ᵥ x) := by
  simpa using h.dotProduct_mulVec_nonneg x

theorem symm_of_psd {A : Matrix (Fin N) (Fin N) ℝ} (h : A.PosSemidef) : Aᵀ = A := by
  have := h.isHermitian
  rw [IsHermitian, conjTranspose_eq_transpose_of_trivial] at this
  exact this

theorem dot_mulVec_symm {A : Matrix (Fin N) (Fin N) ℝ} (h : Aᵀ = A) (x y : Fin N → ℝ) :
    x ⬝ᵥ (A *ᵥ y) = y ⬝ᵥ (A *ᵥ x) := by
  rw [dotProduct_mulVec, ← mulVec_transpose, h, dotProduct_comm]

/-- `x · (V Pᵀ B P V) x` written with `P V x`. -/
theorem sandwich {V : Matrix (Fin N) (Fin N) ℝ} (hV : Vᵀ = V) (P : Matrix (Fin K) (Fin N) ℝ)
    (B : Matrix (Fin K) (Fin K) ℝ) (x : Fin N → ℝ) :
    x ⬝ᵥ ((V * Pᵀ * (B * (P * V))) *ᵥ x) = (P *ᵥ (V *ᵥ x)) ⬝ᵥ (B *ᵥ (P *ᵥ (V *ᵥ x))) := by
  have h : ∀ (a : Fin N → ℝ) (b : Fin K → ℝ), a ⬝ᵥ (Pᵀ *ᵥ b) = (P *ᵥ a) ⬝ᵥ b := by
    intro a b
    rw [dotProduct_mulVec, ← mulVec_transpose, transpose_transpose]
  simp only [← mulVec_mulVec]
  rw [dot_mulVec_symm hV, dotProduct_comm, h]

theorem posterior_ok {tau : ℝ} {sigma : Matrix (Fin N) (Fin N) ℝ} {pi : Fin N → ℝ}
    {P : Matrix (Fin K) (Fin N) ℝ} {Q : Fin K → ℝ} {omega : Matrix (Fin K) (Fin K) ℝ}
    {r : (Fin N → ℝ) × Matrix (Fin N) (Fin N) ℝ} (h : posterior tau sigma pi P Q omega = .ok r) :
    IsUnit (P * (tau • sigma) * Pᵀ + omega).det ∧
    r.1 = pi + ((tau • sigma) * Pᵀ) *ᵥ ((P * (tau • sigma) * Pᵀ + omega)⁻¹ *ᵥ (Q - P *ᵥ pi)) ∧
    r.2 = (1 / 2 : ℝ) • ((sigma + tau • sigma - (tau • sigma) * Pᵀ * ((P * (tau • sigma) * Pᵀ + omega)⁻¹ * (P * (tau • sigma)))) +
      (sigma + tau • sigma - (tau • sigma) * Pᵀ * ((P * (tau • sigma) * Pᵀ + omega)⁻¹ * (P * (tau • sigma))))ᵀ) := by
  unfold posterior at h
  simp only at h
  split at h
  · cases h
  · rename_i shift hs
    obtain ⟨hu, rfl⟩ := linSolve_ok hs
    injection h with h; subst h
    exact ⟨hu, rfl, rfl⟩

theorem symmetrise_of_symm {sigma : Matrix (Fin N) (Fin N) ℝ} (h : sigmaᵀ = sigma) : symmetrise sigma = sigma := by
  unfold symmetrise
  rw [if_pos]
  intro i j
  have : sigma i j = sigma j i := by
    have := congrFun (congrFun h j) i
    simpa [Matrix.transpose_apply] using this
  rw [this, sub_self, abs_zero]
  positivity

theorem quad_half_symm (M : Matrix (Fin N) (Fin N) ℝ) (x : Fin N → ℝ) :
    x ⬝ᵥ (((1 / 2 : ℝ) • (M + Mᵀ)) *ᵥ x) = x ⬝ᵥ (M *ᵥ x) := by
  have : x ⬝ᵥ (Mᵀ *ᵥ x) = x ⬝ᵥ (M *ᵥ x) := by
    rw [dotProduct_mulVec, ← mulVec_transpose, transpose_transpose, dotProduct_comm]
  rw [smul_mulVec, add_mulVec, dotProduct_smul, dotProduct_add, this, smul_eq_mul]
  ring

/-- Bounds on the posterior covariance for PSD prior and view covariances. -/
theorem cov_bounds {V : Matrix (Fin N) (Fin N) ℝ} (hV : V.PosSemidef) {P : Matrix (Fin K) (Fin N) ℝ}
    {omega : Matrix (Fin K) (Fin K) ℝ} (hO : omega.PosSemidef) (hu : IsUnit (P * V * Pᵀ + omega).det) (x : Fin N → ℝ) :
    0 ≤ x ⬝ᵥ ((V * Pᵀ * ((P * V * Pᵀ + omega)⁻¹ * (P * V))) *ᵥ x) ∧
    x ⬝ᵥ ((V * Pᵀ * ((P * V * Pᵀ + omega)⁻¹ * (P * V))) *ᵥ x) ≤ x ⬝ᵥ (V *ᵥ x) := by
  have hVs := symm_of_psd hV
  have hA : (P * V * Pᵀ + omega).PosSemidef := by
    refine PosSemidef.add ?_ hO
    have := hV.mul_mul_conjTranspose_same P
    rwa [conjTranspose_eq_transpose_of_trivial] at this
  rw [sandwich hVs]
  refine ⟨quad_nonneg hA.inv _, ?_⟩
  set z := (P * V * Pᵀ + omega)⁻¹ *ᵥ (P *ᵥ (V *ᵥ x)) with hz
  have hAz : (P * V * Pᵀ + omega) *ᵥ z = P *ᵥ (V *ᵥ x) := by
    rw [hz, mulVec_mulVec, Matrix.mul_nonsing_inv _ hu, one_mulVec]
  have hu0 := quad_nonneg hV (x - Pᵀ *ᵥ z)
  have ho0 := quad_nonneg hO z
  have hP : ∀ (a : Fin N → ℝ) (b : Fin K → ℝ), a ⬝ᵥ (Pᵀ *ᵥ b) = (P *ᵥ a) ⬝ᵥ b := by
    intro a b
    rw [dotProduct_mulVec, ← mulVec_transpose, transpose_transpose]
  have e1 : (x - Pᵀ *ᵥ z) ⬝ᵥ (V *ᵥ (x - Pᵀ *ᵥ z)) =
      x ⬝ᵥ (V *ᵥ x) - 2 * ((P *ᵥ (V *ᵥ x)) ⬝ᵥ z) + z ⬝ᵥ ((P * V * Pᵀ) *ᵥ z) := by
    rw [mulVec_sub, dotProduct_sub, sub_dotProduct, sub_dotProduct]
    have a1 : (Pᵀ *ᵥ z) ⬝ᵥ (V *ᵥ x) = (P *ᵥ (V *ᵥ x)) ⬝ᵥ z := by rw [dotProduct_comm, hP]
    have a2 : x ⬝ᵥ (V *ᵥ (Pᵀ *ᵥ z)) = (P *ᵥ (V *ᵥ x)) ⬝ᵥ z := by rw [dot_mulVec_symm hVs, a1]
    have a3 : (Pᵀ *ᵥ z) ⬝ᵥ (V *ᵥ (Pᵀ *ᵥ z)) = z ⬝ᵥ ((P * V * Pᵀ) *ᵥ z) := by
      rw [dotProduct_comm, hP, dotProduct_comm, ← mulVec_mulVec, ← mulVec_mulVec]
    rw [a1, a2, a3]; ring
  have e2 : z ⬝ᵥ ((P * V * Pᵀ + omega) *ᵥ z) = z ⬝ᵥ ((P * V * Pᵀ) *ᵥ z) + z ⬝ᵥ (omega *ᵥ z) := by
    rw [add_mulVec, dotProduct_add]
  rw [hAz] at e2
  have e3 : (P *ᵥ (V *ᵥ x)) ⬝ᵥ z = z ⬝ᵥ (P *ᵥ (V *ᵥ x)) := dotProduct_comm _ _
  linarith

end PyV.BL
