import Mathlib.Analysis.InnerProductSpace.PiL2
import Mathlib.Analysis.InnerProductSpace.Convex
import Mathlib.LinearAlgebra.Ray

/-! # Equality in the triangle inequality for the length of an injective linear map -/

namespace PyV.Lemmas

variable {K : Type} [Fintype K] {n : ℕ}

/-- The length of `M x`. -/
noncomputable def len (M : K → Fin n → ℝ) (x : Fin n → ℝ) : ℝ := Real.sqrt (∑ k, (∑ i, M k i * x i) ^ 2)

private noncomputable def img (M : K → Fin n → ℝ) (x : Fin n → ℝ) : EuclideanSpace ℝ K := WithLp.toLp 2 fun k => ∑ i, M k i * x i

private theorem norm_img (M : K → Fin n → ℝ) (x : Fin n → ℝ) : ‖img M x‖ = len M x := by
  rw [EuclideanSpace.norm_eq]
  unfold len img
  congr 1
  exact Finset.sum_congr rfl fun k _ => by rw [Real.norm_eq_abs, sq_abs]

private theorem img_add (M : K → Fin n → ℝ) (x y : Fin n → ℝ) : img M (fun i => x i + y i) = img M x + img M y := by
  ext k
  simp only [img, PiLp.add_apply]
  rw [← Finset.sum_add_distrib]
  exact Finset.sum_congr rfl fun i _ => by ring

theorem len_half (M : K → Fin n → ℝ) (x : Fin n → ℝ) : len M (fun i => x i / 2) = len M x / 2 := by
  unfold len
  rw [show (∑ k, (∑ i, M k i * (x i / 2)) ^ 2) = (∑ k, (∑ i, M k i * x i) ^ 2) / 2 ^ 2 from by
    rw [Finset.sum_div]
    refine Finset.sum_congr rfl fun k _ => ?_
    rw [← div_pow, Finset.sum_div]
    exact congrArg (· ^ 2) (Finset.sum_congr rfl fun i _ => by ring)]
  rw [Real.sqrt_div (Finset.sum_nonneg fun _ _ => sq_nonneg _), Real.sqrt_sq (by norm_num)]

theorem len_add_le (M : K → Fin n → ℝ) (x y : Fin n → ℝ) : len M (fun i => x i + y i) ≤ len M x + len M y := by
  rw [← norm_img, ← norm_img, ← norm_img, img_add]
  exact norm_add_le _ _

/-- If the lengths add up, both vectors are multiples of the sum. -/
theorem len_parallel {M : K → Fin n → ℝ} (hM : ∀ x : Fin n → ℝ, (∀ k, ∑ i, M k i * x i = 0) → x = 0) {x y : Fin n → ℝ}
    (h : len M x + len M y ≤ len M (fun i => x i + y i)) : ∃ a : ℝ, ∀ i, x i = a * (x i + y i) := by
  have h1 : SameRay ℝ (img M x) (img M y) := by
    rw [sameRay_iff_norm_add]
    apply le_antisymm (norm_add_le _ _)
    rw [← img_add, norm_img, norm_img, norm_img]
    exact h
  obtain ⟨a, b, -, -, -, hx, -⟩ := h1.exists_eq_smul_add
  refine ⟨a, fun i => ?_⟩
  have := hM (fun i => x i - a * (x i + y i)) (fun k => by
    have := congrArg (fun v : EuclideanSpace ℝ K => v k) hx
    rw [← img_add] at this
    simp only [img, PiLp.smul_apply, smul_eq_mul] at this
    calc ∑ i, M k i * (x i - a * (x i + y i)) = (∑ i, M k i * x i) - a * ∑ i, M k i * (x i + y i) := by
          rw [Finset.mul_sum, ← Finset.sum_sub_distrib]
          exact Finset.sum_congr rfl fun i _ => by ring
      _ = 0 := by rw [this]; ring)
  have := congrFun this i
  simp only [Pi.zero_apply] at this
  linarith

/-- Two vectors on a hyperplane off the origin whose lengths add up are equal. -/
theorem len_unique {M : K → Fin n → ℝ} (hM : ∀ x : Fin n → ℝ, (∀ k, ∑ i, M k i * x i = 0) → x = 0) {r : Fin n → ℝ} {c : ℝ} (hc : c ≠ 0)
    {x y : Fin n → ℝ} (hx : ∑ i, r i * x i = c) (hy : ∑ i, r i * y i = c)
    (h : len M x + len M y ≤ len M (fun i => x i + y i)) : x = y := by
  obtain ⟨a, ha⟩ := len_parallel hM h
  have e : c = a * (2 * c) := by
    calc c = ∑ i, r i * x i := hx.symm
      _ = ∑ i, r i * (a * (x i + y i)) := Finset.sum_congr rfl fun i _ => by rw [← ha i]
      _ = a * (∑ i, r i * x i + ∑ i, r i * y i) := by
          rw [← Finset.sum_add_distrib, Finset.mul_sum]
          exact Finset.sum_congr rfl fun i _ => by ring
      _ = a * (2 * c) := by rw [hx, hy]; ring
  have ha2 : a = 1 / 2 := by
    have : c * (1 - 2 * a) = 0 := by linarith
    rcases mul_eq_zero.1 this with h | h
    · exact absurd h hc
    · linarith
  funext i
  have := ha i
  rw [ha2] at this
  linarith

end PyV.Lemmas
