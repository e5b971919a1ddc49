import Verif.Model.Glasso
import Verif.Lemmas.Psd
import Mathlib.Analysis.Matrix.PosDef
import Mathlib.Analysis.Matrix.Spectrum
import Mathlib.Analysis.Matrix.Order
import Mathlib.Analysis.SpecialFunctions.Log.Basic

namespace PyV.Mom

open PyV PyV.Valid Matrix
open scoped MatrixOrder

variable {N T : ℕ}

/-- What `np.linalg.eigh` returns for a symmetric matrix: an orthogonal matrix of eigenvectors and the eigenvalues. -/
def IsEigh (eigh : Eigh N) : Prop :=
  ∀ A : Matrix (Fin N) (Fin N) ℝ, Aᵀ = A → (eigh A).2 * (eigh A).2ᵀ = 1 ∧ A = (eigh A).2 * diagonal (eigh A).1 * (eigh A).2ᵀ

theorem eigh_exists (N : ℕ) : ∃ eigh : Eigh N, IsEigh eigh := by
  classical
  have : ∀ A : Matrix (Fin N) (Fin N) ℝ, ∃ e : (Fin N → ℝ) × Matrix (Fin N) (Fin N) ℝ,
      Aᵀ = A → e.2 * e.2ᵀ = 1 ∧ A = e.2 * diagonal e.1 * e.2ᵀ := by
    intro A
    by_cases hA : Aᵀ = A
    · have hH : A.IsHermitian := by
        unfold IsHermitian
        rw [conjTranspose_eq_transpose_of_trivial, hA]
      refine ⟨⟨hH.eigenvalues, hH.eigenvectorUnitary⟩, fun _ => ?_⟩
      have h1 : (hH.eigenvectorUnitary : Matrix (Fin N) (Fin N) ℝ) * (hH.eigenvectorUnitary : Matrix (Fin N) (Fin N) ℝ)ᵀ = 1 := by
        have := Unitary.mul_star_self_of_mem hH.eigenvectorUnitary.2
        rwa [star_eq_conjTranspose, conjTranspose_eq_transpose_of_trivial] at this
      refine ⟨h1, ?_⟩
      have h2 := hH.spectral_theorem
      rw [Unitary.conjStarAlgAut_apply] at h2
      rw [star_eq_conjTranspose, conjTranspose_eq_transpose_of_trivial] at h2
      simpa using h2
    · exact ⟨0, fun h => absurd h hA⟩
  choose f hf using this
  exact ⟨f, hf⟩

section theta

variable {eigh : Eigh N} {rho : ℝ} {S Z U : Matrix (Fin N) (Fin N) ℝ}

/-- The scalar update: positive root of `rho d² - l d - 1 = 0`. -/
theorem root_spec {rho l : ℝ} (hr : 0 < rho) :
    0 < (l + Real.sqrt (max (l ^ 2 + 4 * rho) 0)) / (2 * rho) ∧
      rho * ((l + Real.sqrt (max (l ^ 2 + 4 * rho) 0)) / (2 * rho)) - ((l + Real.sqrt (max (l ^ 2 + 4 * rho) 0)) / (2 * rho))⁻¹ = l := by
  rw [max_eq_left (by positivity)]
  set s := Real.sqrt (l ^ 2 + 4 * rho) with hs
  have h2 : s ^ 2 = l ^ 2 + 4 * rho := Real.sq_sqrt (by positivity)
  have hs0 : 0 ≤ s := Real.sqrt_nonneg _
  have hpos : 0 < l + s := by
    by_contra hc
    push Not at hc
    nlinarith
  refine ⟨by positivity, ?_⟩
  field_simp
  nlinarith

theorem theta_eq (he : IsEigh eigh) (hr : 0 < rho) (hS : Sᵀ = S) (hZ : Zᵀ = Z) (hU : Uᵀ = U) :
    (admmTheta eigh rho S Z U).PosDef ∧ rho • admmTheta eigh rho S Z U - (admmTheta eigh rho S Z U)⁻¹ = rho • (Z - U) - S := by
  set K := rho • (Z - U) - S with hK
  have hKt : Kᵀ = K := by rw [hK]; simp [hS, hZ, hU]
  obtain ⟨h1, h2⟩ := he K hKt
  set V := (eigh K).2 with hV
  set l := (eigh K).1 with hl
  set d : Fin N → ℝ := fun j => (l j + Real.sqrt (max (l j ^ 2 + 4 * rho) 0)) / (2 * rho) with hd
  have hVV : Vᵀ * V = 1 := mul_eq_one_comm.1 h1
  have e1 : Matrix.of (fun i j => V i j * d j) = V * diagonal d := by
    ext i j; simp [mul_diagonal]
  have hTheta : admmTheta eigh rho S Z U = V * diagonal d * Vᵀ := by
    have : admmTheta eigh rho S Z U =
        (1 / 2 : ℝ) • (Matrix.of (fun i j => V i j * d j) * Vᵀ + (Matrix.of (fun i j => V i j * d j) * Vᵀ)ᵀ) := rfl
    rw [this, e1]
    have ht : (V * diagonal d * Vᵀ)ᵀ = V * diagonal d * Vᵀ := by
      simp [Matrix.transpose_mul, Matrix.mul_assoc]
    rw [ht, ← two_smul ℝ, smul_smul]
    norm_num
  have hdpos : ∀ j, 0 < d j := fun j => (root_spec hr).1
  have hinv : (V * diagonal d * Vᵀ)⁻¹ = V * diagonal (fun j => (d j)⁻¹) * Vᵀ := by
    apply Matrix.inv_eq_right_inv
    calc V * diagonal d * Vᵀ * (V * diagonal (fun j => (d j)⁻¹) * Vᵀ)
        = V * diagonal d * (Vᵀ * V) * diagonal (fun j => (d j)⁻¹) * Vᵀ := by simp only [Matrix.mul_assoc]
      _ = V * (diagonal d * diagonal (fun j => (d j)⁻¹)) * Vᵀ := by rw [hVV]; simp only [Matrix.mul_assoc, Matrix.one_mul]
      _ = 1 := by
        rw [diagonal_mul_diagonal]
        have : (fun j => d j * (d j)⁻¹) = fun _ => 1 := funext fun j => mul_inv_cancel₀ (hdpos j).ne'
        rw [this, diagonal_one, Matrix.mul_one, h1]
  rw [hTheta]
  refine ⟨?_, ?_⟩
  · have hD : (diagonal d).PosDef := by
      rw [posDef_diagonal_iff]; exact hdpos
    have hinj : Function.Injective Vᵀ.mulVec := by
      intro x y hxy
      have := congrArg (fun z => V *ᵥ z) hxy
      simpa [Matrix.mulVec_mulVec, h1] using this
    have := hD.conjTranspose_mul_mul_same (B := Vᵀ) hinj
    simpa [conjTranspose_eq_transpose_of_trivial] using this
  · rw [hinv, h2, ← Matrix.smul_mul, ← Matrix.mul_smul, ← Matrix.sub_mul, ← Matrix.mul_sub]
    congr 2
    ext i j
    by_cases hij : i = j
    · subst hij
      simp only [Matrix.sub_apply, Matrix.smul_apply, diagonal_apply_eq, smul_eq_mul]
      exact (root_spec hr).2
    · simp [hij]

end theta

/-- Off the diagonal, soft-thresholding at `tau` removes at most `tau`, exactly `tau` in the direction of the sign of what is left. -/
theorem softOff_spec {tau : ℝ} (ht : 0 ≤ tau) (X : Matrix (Fin N) (Fin N) ℝ) :
    (∀ i, softOff tau X i i = X i i) ∧ (∀ i j, |X i j - softOff tau X i j| ≤ tau) ∧
      ∀ i j, i ≠ j → softOff tau X i j ≠ 0 → X i j - softOff tau X i j = tau * Real.sign (softOff tau X i j) := by
  refine ⟨fun i => by simp [softOff], fun i j => ?_, fun i j hij hne => ?_⟩
  · by_cases hij : i = j
    · simpa [softOff, hij] using ht
    · simp only [softOff, Matrix.of_apply, if_neg hij]
      rcases lt_trichotomy (X i j) 0 with h | h | h
      · rw [Real.sign_of_neg h, abs_of_neg h]
        rcases le_total (-X i j - tau) 0 with h2 | h2
        · rw [max_eq_right h2, mul_zero, sub_zero, abs_of_neg h]; linarith
        · rw [max_eq_left h2, abs_le]; constructor <;> linarith
      · rw [h]; simp [ht]
      · rw [Real.sign_of_pos h, abs_of_pos h]
        rcases le_total (X i j - tau) 0 with h2 | h2
        · rw [max_eq_right h2, mul_zero, sub_zero, abs_of_pos h]; linarith
        · rw [max_eq_left h2, abs_le]; constructor <;> linarith
  · simp only [softOff, Matrix.of_apply, if_neg hij] at hne ⊢
    rcases lt_trichotomy (X i j) 0 with h | h | h
    · rw [Real.sign_of_neg h, abs_of_neg h] at hne ⊢
      rcases le_total (-X i j - tau) 0 with h2 | h2
      · rw [max_eq_right h2] at hne; simp at hne
      · rw [max_eq_left h2] at hne ⊢
        have : -1 * (-X i j - tau) < 0 := lt_of_le_of_ne (by linarith) hne
        rw [Real.sign_of_neg this]; ring
    · rw [h] at hne; simp at hne
    · rw [Real.sign_of_pos h, abs_of_pos h] at hne ⊢
      rcases le_total (X i j - tau) 0 with h2 | h2
      · rw [max_eq_right h2] at hne; simp at hne
      · rw [max_eq_left h2] at hne ⊢
        have : 0 < 1 * (X i j - tau) := lt_of_le_of_ne (by linarith) (Ne.symm hne)
        rw [Real.sign_of_pos this]; ring

theorem softOff_transpose {tau : ℝ} {X : Matrix (Fin N) (Fin N) ℝ} (h : Xᵀ = X) : (softOff tau X)ᵀ = softOff tau X := by
  ext i j
  have := congrFun (congrFun h i) j
  simp only [transpose_apply] at this
  simp [softOff, this, eq_comm]

/-- What the loop returns when it returns: the matrix of an iteration that passed the stopping test. -/
theorem admmLoop_spec {eigh : Eigh N} (he : IsEigh eigh) {S : Matrix (Fin N) (Fin N) ℝ} (hS : Sᵀ = S) {alpha rho tol : ℝ}
    (hr : 0 < rho) (ha : 0 ≤ alpha) {fuel : ℕ} {Z U Theta : Matrix (Fin N) (Fin N) ℝ} (hZ : Zᵀ = Z) (hU : Uᵀ = U)
    (h : admmLoop eigh S alpha rho tol fuel Z U = .ok Theta) :
    Theta.PosDef ∧ ∃ Z1 Z0 G : Matrix (Fin N) (Fin N) ℝ, Theta⁻¹ = S + rho • (G + (Z1 - Z0)) ∧
      (∀ i, G i i = 0) ∧ (∀ i j, |G i j| ≤ alpha / rho) ∧ (∀ i j, i ≠ j → Z1 i j ≠ 0 → G i j = alpha / rho * Real.sign (Z1 i j)) ∧
      admmDone rho tol Theta Z1 Z0 G := by
  induction fuel generalizing Z U with
  | zero => simp [admmLoop] at h
  | succ fuel ih =>
    unfold admmLoop at h
    simp only at h
    obtain ⟨hp, heq⟩ := theta_eq he hr hS hZ hU
    have hT : (admmTheta eigh rho S Z U)ᵀ = admmTheta eigh rho S Z U := by
      have := hp.isHermitian
      rwa [IsHermitian, conjTranspose_eq_transpose_of_trivial] at this
    have hX : (admmTheta eigh rho S Z U + U)ᵀ = admmTheta eigh rho S Z U + U := by simp [hT, hU]
    split_ifs at h with hd
    · injection h with h
      subst h
      obtain ⟨s1, s2, s3⟩ := softOff_spec (div_nonneg ha hr.le) (admmTheta eigh rho S Z U + U)
      refine ⟨hp, _, Z, U + admmTheta eigh rho S Z U - softOff (alpha / rho) (admmTheta eigh rho S Z U + U), ?_, fun i => ?_, fun i j => ?_,
        fun i j hij hne => ?_, hd⟩
      · have : (admmTheta eigh rho S Z U)⁻¹ = rho • admmTheta eigh rho S Z U - (rho • (Z - U) - S) := by rw [← heq]; abel
        rw [this]
        ext i j
        simp only [Matrix.sub_apply, Matrix.add_apply, Matrix.smul_apply, smul_eq_mul]
        ring
      · simp only [Matrix.sub_apply, Matrix.add_apply, s1]; ring
      · have := s2 i j
        simp only [Matrix.sub_apply, Matrix.add_apply] at this ⊢
        rwa [add_comm (U i j)]
      · have := s3 i j hij hne
        simp only [Matrix.sub_apply, Matrix.add_apply] at this ⊢
        rwa [add_comm (U i j)]
    · exact ih (softOff_transpose hX) (by simp [hT, hU, softOff_transpose hX]) h

/-- Concavity of the log-determinant: tangent inequality. -/
theorem log_det_le {A B : Matrix (Fin N) (Fin N) ℝ} (hA : A.PosDef) (hB : B.PosDef) :
    Real.log B.det ≤ Real.log A.det + (A⁻¹ * (B - A)).trace := by
  obtain ⟨L, hL⟩ := CStarAlgebra.nonneg_iff_eq_star_mul_self.mp hA.inv.posSemidef.nonneg
  rw [star_eq_conjTranspose, conjTranspose_eq_transpose_of_trivial] at hL
  have hdA := hA.det_pos
  have hdL : L.det ≠ 0 := by
    intro h0
    have := congrArg Matrix.det hL
    rw [det_mul, h0, mul_zero] at this
    exact hA.inv.det_pos.ne' this
  have hM : (L * B * Lᵀ).PosDef := by
    have hinj : Function.Injective Lᵀ.mulVec := by
      rw [mulVec_injective_iff_isUnit, isUnit_iff_isUnit_det, det_transpose]
      exact isUnit_iff_ne_zero.2 hdL
    have := hB.conjTranspose_mul_mul_same (B := Lᵀ) hinj
    simpa [conjTranspose_eq_transpose_of_trivial] using this
  have htr : (A⁻¹ * (B - A)).trace = (L * B * Lᵀ).trace - N := by
    rw [Matrix.mul_sub, nonsing_inv_mul _ (isUnit_iff_ne_zero.2 hdA.ne'), trace_sub, trace_one, Fintype.card_fin]
    congr 1
    rw [hL, trace_mul_comm (L * B), Matrix.mul_assoc]
  have hdet : (L * B * Lᵀ).det = B.det / A.det := by
    have h2 := congrArg Matrix.det hL
    rw [det_mul, det_transpose, det_nonsing_inv, Ring.inverse_eq_inv'] at h2
    rw [det_mul, det_mul, det_transpose, div_eq_mul_inv, h2]
    ring
  have hlog : Real.log (L * B * Lᵀ).det ≤ (L * B * Lᵀ).trace - N := by
    have h1 := hM.isHermitian.det_eq_prod_eigenvalues
    have h2 := hM.isHermitian.trace_eq_sum_eigenvalues
    simp only [RCLike.ofReal_real_eq_id, id_eq] at h1 h2
    rw [h1, h2, Real.log_prod (fun i _ => (hM.eigenvalues_pos i).ne')]
    calc ∑ i, Real.log (hM.isHermitian.eigenvalues i) ≤ ∑ i, (hM.isHermitian.eigenvalues i - 1) :=
          Finset.sum_le_sum fun i _ => Real.log_le_sub_one_of_pos (hM.eigenvalues_pos i)
      _ = _ := by rw [Finset.sum_sub_distrib]; simp
  rw [hdet, Real.log_div hB.det_pos.ne' hdA.ne'] at hlog
  rw [htr]
  linarith

end PyV.Mom
