import Verif.Model.Moments
import Verif.Lemmas.Psd
import Mathlib.Algebra.Order.BigOperators.Ring.Finset
import Mathlib.Algebra.Order.Chebyshev

namespace PyV.Mom

open PyV PyV.Valid PyV.Psd Matrix

variable {T N : ℕ}

/-- Quadratic form of a Gram-type matrix. -/
theorem quad_gram (X : Fin T → Fin N → ℝ) (q : Fin T → ℝ) (x : Fin N → ℝ) :
    x ⬝ᵥ ((Matrix.of (fun i j => ∑ t, X t i * X t j * q t) : Matrix (Fin N) (Fin N) ℝ) *ᵥ x) =
      ∑ t, q t * (∑ i, X t i * x i) ^ 2 := by
  simp only [dotProduct, mulVec, of_apply]
  have : ∀ t, q t * (∑ i, X t i * x i) ^ 2 = ∑ i, ∑ j, x i * (X t i * X t j * q t * x j) := by
    intro t
    rw [pow_two, Finset.sum_mul_sum, Finset.mul_sum]
    refine Finset.sum_congr rfl (fun i _ => ?_)
    rw [Finset.mul_sum]
    refine Finset.sum_congr rfl (fun j _ => ?_)
    ring
  simp only [this]
  rw [Finset.sum_comm]
  refine Finset.sum_congr rfl (fun i _ => ?_)
  rw [Finset.sum_comm, Finset.mul_sum]
  refine Finset.sum_congr rfl (fun j _ => ?_)
  rw [Finset.sum_mul, Finset.mul_sum]

theorem gram_symm (X : Fin T → Fin N → ℝ) (q : Fin T → ℝ) :
    (Matrix.of (fun i j => ∑ t, X t i * X t j * q t) : Matrix (Fin N) (Fin N) ℝ)ᵀ =
      Matrix.of (fun i j => ∑ t, X t i * X t j * q t) := by
  ext i j
  simp only [transpose_apply, of_apply]
  exact Finset.sum_congr rfl (fun t _ => by ring)

theorem gram_psd (X : Fin T → Fin N → ℝ) {q : Fin T → ℝ} (hq : ∀ t, 0 ≤ q t) :
    (Matrix.of (fun i j => ∑ t, X t i * X t j * q t) : Matrix (Fin N) (Fin N) ℝ).PosSemidef := by
  refine psd_of (gram_symm X q) (fun x => ?_)
  rw [quad_gram]
  exact Finset.sum_nonneg (fun t _ => mul_nonneg (hq t) (sq_nonneg _))

theorem wCov_eq (R : Fin T → Fin N → ℝ) (p : Fin T → ℝ) : wCov R p =
    Matrix.of (fun i j => ∑ t, (R t i - wMean R p i) * (R t j - wMean R p j) * p t) := by
  unfold wCov
  exact half_of_symm (gram_symm (fun t i => R t i - wMean R p i) p)

theorem secondMoment_eq (X : Fin T → Fin N → ℝ) :
    secondMoment X = Matrix.of (fun i j => ∑ t, X t i * X t j * (1 / T)) := by
  ext i j
  simp only [secondMoment, of_apply]
  rw [← Finset.sum_mul]
  ring

theorem secondMoment_psd (X : Fin T → Fin N → ℝ) : (secondMoment X).PosSemidef := by
  rw [secondMoment_eq]
  exact gram_psd X (fun t => by positivity)

theorem vecMulVec_psd (r : Fin N → ℝ) : (vecMulVec r r : Matrix (Fin N) (Fin N) ℝ).PosSemidef := by
  refine psd_of ?_ (fun x => ?_)
  · ext i j; simp [vecMulVec, mul_comm]
  · have : x ⬝ᵥ (vecMulVec r r *ᵥ x) = (r ⬝ᵥ x) ^ 2 := by
      simp only [dotProduct, mulVec, vecMulVec_apply]
      rw [pow_two, Finset.sum_mul_sum]
      refine Finset.sum_congr rfl (fun i _ => ?_)
      rw [Finset.mul_sum]
      exact Finset.sum_congr rfl (fun j _ => by ring)
    rw [this]; positivity

theorem trace_nonneg_of_psd {A : Matrix (Fin N) (Fin N) ℝ} (h : A.PosSemidef) : 0 ≤ A.trace :=
  Finset.sum_nonneg (fun _ _ => h.diag_nonneg)

theorem smul_one_psd {c : ℝ} (hc : 0 ≤ c) : (c • (1 : Matrix (Fin N) (Fin N) ℝ)).PosSemidef :=
  PosSemidef.one.smul hc

end PyV.Mom
