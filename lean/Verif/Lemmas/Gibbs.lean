import Verif.Spec.Prob
import Mathlib.Analysis.SpecialFunctions.Log.Basic
import Mathlib.Tactic.Linarith
import Mathlib.Tactic.FieldSimp
import Mathlib.Tactic.Positivity

/-! Gibbs' inequality on a finite set. -/

namespace PyV

open Finset

variable {ι : Type*} [Fintype ι]

/-- One term: `p log (p/q) ≥ p - q`. -/
theorem gibbs_term {p q : ℝ} (hp : 0 ≤ p) (hq : 0 < q) : p - q ≤ p * (Real.log p - Real.log q) := by
  rcases hp.eq_or_lt with rfl | hp
  · simp; exact hq.le
  · have h := Real.log_le_sub_one_of_pos (div_pos hq hp)
    rw [Real.log_div hq.ne' hp.ne'] at h
    have := mul_le_mul_of_nonneg_left h hp.le
    have e : p * (q / p - 1) = q - p := by field_simp
    rw [e] at this
    linarith

theorem gibbs_term_eq {p q : ℝ} (hp : 0 ≤ p) (hq : 0 < q) (h : p * (Real.log p - Real.log q) ≤ p - q) : p = q := by
  rcases hp.eq_or_lt with rfl | hp
  · simp at h; linarith
  · by_contra hne
    have hne' : q / p ≠ 1 := fun h' => hne ((div_eq_one_iff_eq hp.ne').mp h').symm
    have h2 := Real.log_lt_sub_one_of_pos (div_pos hq hp) hne'
    rw [Real.log_div hq.ne' hp.ne'] at h2
    have := mul_lt_mul_of_pos_left h2 hp
    have e : p * (q / p - 1) = q - p := by field_simp
    rw [e] at this
    linarith

/-- `Σ p (log p - log q) ≥ Σ p - Σ q`. -/
theorem gibbs {p q : ι → ℝ} (hp : ∀ i, 0 ≤ p i) (hq : ∀ i, 0 < q i) :
    ∑ i, p i - ∑ i, q i ≤ ∑ i, p i * (Real.log (p i) - Real.log (q i)) := by
  rw [← sum_sub_distrib]
  exact sum_le_sum fun i _ => gibbs_term (hp i) (hq i)

theorem gibbs_eq {p q : ι → ℝ} (hp : ∀ i, 0 ≤ p i) (hq : ∀ i, 0 < q i)
    (h : ∑ i, p i * (Real.log (p i) - Real.log (q i)) ≤ ∑ i, p i - ∑ i, q i) : p = q := by
  funext i
  rw [← sum_sub_distrib] at h
  apply gibbs_term_eq (hp i) (hq i)
  by_contra hlt
  have := sum_lt_sum (fun j (_ : j ∈ univ) => gibbs_term (hp j) (hq j)) ⟨i, mem_univ i, not_le.mp hlt⟩
  linarith

end PyV
