import Verif.Props.OptRobust
import Mathlib.Analysis.Matrix.LDL

/-! # Existence of Cholesky factors -/

namespace PyV.Props

open Matrix

/-- A lower triangular matrix with non-zero diagonal is invertible. -/
theorem det_lower {n : ℕ} {L : Matrix (Fin n) (Fin n) ℝ} (hl : ∀ i j, i < j → L i j = 0) : L.det = ∏ i, L i i := by
  apply Matrix.det_of_lowerTriangular
  intro i j hij
  exact hl i j hij

/-- Exactly the positive definite matrices have a Cholesky factor. -/
theorem exists_chol_iff {n : ℕ} {A : Matrix (Fin n) (Fin n) ℝ} : (∃ L, IsChol A L) ↔ A.PosDef := by
  constructor
  · rintro ⟨L, h1, h2, h3⟩
    have hdet : L.det ≠ 0 := by
      rw [det_lower h2]
      exact Finset.prod_ne_zero_iff.mpr fun i _ => (h3 i).ne'
    have hu : IsUnit L := (Matrix.isUnit_iff_isUnit_det L).mpr (isUnit_iff_ne_zero.mpr hdet)
    rw [← h1]
    have := Matrix.PosDef.mul_conjTranspose_self L (Matrix.vecMul_injective_of_isUnit hu)
    simpa using this
  · intro hA
    set K := LDL.lower hA with hK
    have hdec := LDL.lower_conj_diag hA
    rw [← hK] at hdec
    have htri : ∀ i j, i < j → K i j = 0 := by
      intro i j hij
      have h1 : (LDL.lowerInv hA).BlockTriangular OrderDual.toDual := by
        intro i j hij; exact LDL.lowerInv_triangular hA hij
      have h2 := Matrix.blockTriangular_inv_of_blockTriangular h1
      exact h2 hij
    have hKdet : K.det ≠ 0 := by
      intro h0
      have : A.det = 0 := by rw [← hdec, det_mul, det_mul, h0]; ring
      exact hA.det_pos.ne' this
    have hKii : ∀ i, K i i ≠ 0 := by
      rw [det_lower htri] at hKdet
      exact fun i => Finset.prod_ne_zero_iff.mp hKdet i (Finset.mem_univ i)
    have hd : ∀ i, 0 < LDL.diagEntries hA i := by
      intro i
      have hu : IsUnit (LDL.lowerInv hA) := isUnit_of_invertible _
      have hpd : (LDL.lowerInv hA * A * (LDL.lowerInv hA)ᴴ).PosDef :=
        hA.mul_mul_conjTranspose_same (Matrix.vecMul_injective_of_isUnit hu)
      rw [← LDL.diag_eq_lowerInv_conj] at hpd
      have := hpd.diag_pos (i := i)
      simpa [LDL.diag] using this
    set d := LDL.diagEntries hA with hdd
    have hD : LDL.diag hA = diagonal d := rfl
    rw [hD] at hdec
    let e : Fin n → ℝ := fun i => SignType.sign (K i i) * Real.sqrt (d i)
    have he : ∀ i, e i * e i = d i := by
      intro i
      have : (SignType.sign (K i i) : ℝ) * SignType.sign (K i i) = 1 := by
        rcases lt_or_gt_of_ne (hKii i) with h | h
        · rw [sign_neg h]; simp
        · rw [sign_pos h]; simp
      calc e i * e i = ((SignType.sign (K i i) : ℝ) * SignType.sign (K i i)) * (Real.sqrt (d i) * Real.sqrt (d i)) := by
            simp only [e]; ring
        _ = d i := by rw [this, one_mul, Real.mul_self_sqrt (hd i).le]
    refine ⟨K * diagonal e, ?_, ?_, ?_⟩
    · rw [transpose_mul, diagonal_transpose, Matrix.mul_assoc, ← Matrix.mul_assoc (diagonal e), diagonal_mul_diagonal]
      simp only [he]
      rw [← Matrix.mul_assoc]
      simpa using hdec
    · intro i j hij
      rw [mul_diagonal, htri i j hij, zero_mul]
    · intro i
      rw [mul_diagonal]
      simp only [e]
      rw [← mul_assoc]
      refine mul_pos ?_ (Real.sqrt_pos.mpr (hd i))
      rw [mul_comm, sign_mul_self]
      exact abs_pos.mpr (hKii i)

/-- A positive semidefinite matrix plus a positive multiple of the identity has a Cholesky factor. -/
theorem exists_chol_add {n : ℕ} {A : Matrix (Fin n) (Fin n) ℝ} (hA : A.PosSemidef) {ε : ℝ} (hε : 0 < ε) :
    ∃ L, IsChol (A + ε • (1 : Matrix (Fin n) (Fin n) ℝ)) L :=
  exists_chol_iff.mpr (Matrix.PosDef.posSemidef_add hA (Matrix.PosDef.one.smul hε))

end PyV.Props
