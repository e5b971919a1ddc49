import Verif.Props.Probabilities
import Mathlib.Analysis.SpecialFunctions.Log.NegMulLog

/-! # Property C285: the effective number of scenarios behaves like a count -/

namespace PyV.Props

open PyV PyV.Probs PyV.Spec

variable {S T U : ℕ}

private theorem ens_neg {p : Fin S → ℝ} (hp : IsProb p) : ens p = Real.exp (∑ s, Real.negMulLog (p s)) := by
  unfold ens
  congr 1
  rw [← Finset.sum_neg_distrib]
  refine Finset.sum_congr rfl fun s _ => ?_
  unfold Real.negMulLog
  split_ifs with h
  · ring
  · have : p s = 0 := le_antisymm (not_lt.1 h) (hp.nonneg s)
    rw [this]; simp

private theorem sq_pos {p : Fin S → ℝ} (hp : IsProb p) : 0 < ∑ s, p s ^ 2 := by
  obtain ⟨s, hs⟩ : ∃ s, p s ≠ 0 := by
    by_contra h
    push Not at h
    have := hp.sum
    simp [h] at this
  exact Finset.sum_pos' (fun _ _ => sq_nonneg _) ⟨s, Finset.mem_univ _, by positivity⟩

/-- **C285** merging scenarios never raises the effective number and splitting them never lowers it: if the probability of every coarse scenario is
the total of the fine scenarios `f` assigns to it, both effective numbers of the coarse vector are at most those of the fine one. -/
theorem C285_merge {p : Fin S → ℝ} {q : Fin U → ℝ} (hp : IsProb p) (hq : IsProb q) (f : Fin U → Fin S)
    (h : ∀ s, p s = ∑ u, if f u = s then q u else 0) : ens p ≤ ens q ∧ ensHhi p ≤ ensHhi q := by
  have hle : ∀ u, q u ≤ p (f u) := fun u => by
    rw [h]
    refine (le_of_eq (if_pos rfl).symm).trans (Finset.single_le_sum (f := fun v => if f v = f u then q v else 0) (fun v _ => ?_) (Finset.mem_univ u))
    split_ifs
    exacts [hq.nonneg v, le_rfl]
  have hsum : ∀ g : Fin S → ℝ, ∑ u, q u * g (f u) = ∑ s, p s * g s := fun g => by
    simp only [h, Finset.sum_mul]
    rw [Finset.sum_comm]
    refine Finset.sum_congr rfl fun u _ => ?_
    simp [ite_mul]
  constructor
  · rw [ens_neg hp, ens_neg hq, Real.exp_le_exp]
    have : ∑ s, Real.negMulLog (p s) = -∑ u, q u * Real.log (p (f u)) := by
      rw [hsum (fun s => Real.log (p s)), ← Finset.sum_neg_distrib]
      exact Finset.sum_congr rfl fun s _ => by unfold Real.negMulLog; ring
    rw [this, ← Finset.sum_neg_distrib]
    refine Finset.sum_le_sum fun u _ => ?_
    unfold Real.negMulLog
    rcases (hq.nonneg u).eq_or_lt with h0 | h0
    · rw [← h0]; simp
    · have := mul_le_mul_of_nonneg_left (Real.log_le_log h0 (hle u)) h0.le
      linarith
  · unfold ensHhi
    refine one_div_le_one_div_of_le (sq_pos hq) ?_
    have : ∑ s, p s ^ 2 = ∑ u, q u * p (f u) := by
      rw [hsum p]; exact Finset.sum_congr rfl fun s _ => by ring
    rw [this]
    exact Finset.sum_le_sum fun u _ => by rw [pow_two]; exact mul_le_mul_of_nonneg_left (hle u) (hq.nonneg u)

/-- **C285** independent sets of scenarios multiply: if the scenarios of the third vector are the pairs of scenarios of the first two, with the
products of their probabilities, both effective numbers are the products. -/
theorem C285_product {p : Fin S → ℝ} {q : Fin T → ℝ} (hp : IsProb p) (hq : IsProb q) (e : Fin S × Fin T ≃ Fin U) {r : Fin U → ℝ}
    (h : ∀ s t, r (e (s, t)) = p s * q t) : ens r = ens p * ens q ∧ ensHhi r = ensHhi p * ensHhi q := by
  have hr : IsProb r := by
    refine ⟨fun u => ?_, ?_⟩
    · obtain ⟨⟨s, t⟩, rfl⟩ := e.surjective u
      rw [h]; exact mul_nonneg (hp.nonneg s) (hq.nonneg t)
    · rw [← e.sum_comp, Fintype.sum_prod_type]
      simp only [h, ← Finset.mul_sum, hq.sum, mul_one, hp.sum]
  constructor
  · rw [ens_neg hp, ens_neg hq, ens_neg hr, ← Real.exp_add, ← e.sum_comp, Fintype.sum_prod_type]
    congr 1
    simp only [h, Real.negMulLog_mul, Finset.sum_add_distrib, ← Finset.mul_sum, ← Finset.sum_mul, hq.sum, hp.sum, one_mul]
  · unfold ensHhi
    rw [← e.sum_comp, Fintype.sum_prod_type]
    simp only [h, mul_pow, ← Finset.mul_sum, ← Finset.sum_mul]
    rw [one_div_mul_one_div]

/-- **C285** a blend of two weightings has at least the effective number of the more concentrated one. -/
theorem C285_blend {p q : Fin S → ℝ} (hp : IsProb p) (hq : IsProb q) {c : ℝ} (h0 : 0 ≤ c) (h1 : c ≤ 1) :
    min (ens p) (ens q) ≤ ens (fun s => (1 - c) * p s + c * q s) ∧ min (ensHhi p) (ensHhi q) ≤ ensHhi (fun s => (1 - c) * p s + c * q s) := by
  have hm : IsProb (fun s => (1 - c) * p s + c * q s) := by
    refine ⟨fun s => add_nonneg (mul_nonneg (by linarith) (hp.nonneg s)) (mul_nonneg h0 (hq.nonneg s)), ?_⟩
    rw [Finset.sum_add_distrib, ← Finset.mul_sum, ← Finset.mul_sum, hp.sum, hq.sum]; ring
  constructor
  · rw [ens_neg hp, ens_neg hq, ens_neg hm, ← Real.exp_monotone.map_min, Real.exp_le_exp]
    have hc : (1 - c) * (∑ s, Real.negMulLog (p s)) + c * (∑ s, Real.negMulLog (q s)) ≤ ∑ s, Real.negMulLog ((1 - c) * p s + c * q s) := by
      rw [Finset.mul_sum, Finset.mul_sum, ← Finset.sum_add_distrib]
      refine Finset.sum_le_sum fun s _ => ?_
      have := Real.concaveOn_negMulLog.2 (Set.mem_Ici.2 (hp.nonneg s)) (Set.mem_Ici.2 (hq.nonneg s)) (by linarith : 0 ≤ 1 - c) h0 (by ring)
      simpa using this
    refine le_trans ?_ hc
    have a := mul_le_mul_of_nonneg_left (min_le_left (∑ s, Real.negMulLog (p s)) (∑ s, Real.negMulLog (q s))) (by linarith : 0 ≤ 1 - c)
    have b := mul_le_mul_of_nonneg_left (min_le_right (∑ s, Real.negMulLog (p s)) (∑ s, Real.negMulLog (q s))) h0
    linarith
  · have hc : ∑ s, ((1 - c) * p s + c * q s) ^ 2 ≤ (1 - c) * (∑ s, p s ^ 2) + c * ∑ s, q s ^ 2 := by
      rw [Finset.mul_sum, Finset.mul_sum, ← Finset.sum_add_distrib]
      refine Finset.sum_le_sum fun s _ => ?_
      nlinarith [mul_nonneg (mul_nonneg h0 (by linarith : 0 ≤ 1 - c)) (sq_nonneg (p s - q s))]
    have hpp := sq_pos hp
    have hqq := sq_pos hq
    have hmm := sq_pos hm
    unfold ensHhi
    rcases le_total (∑ s, p s ^ 2) (∑ s, q s ^ 2) with h | h
    · refine (min_le_right _ _).trans (one_div_le_one_div_of_le hmm (hc.trans ?_))
      nlinarith
    · refine (min_le_left _ _).trans (one_div_le_one_div_of_le hmm (hc.trans ?_))
      nlinarith

/-- Splitting the second of two equally likely scenarios in two gives a strictly larger Herfindahl number. -/
example : ensHhi (![1 / 2, 1 / 2] : Fin 2 → ℝ) = 2 ∧ ensHhi (![1 / 2, 1 / 4, 1 / 4] : Fin 3 → ℝ) = 8 / 3 ∧
    ens (![1 / 2, 1 / 2] : Fin 2 → ℝ) ≤ ens (![1 / 2, 1 / 4, 1 / 4] : Fin 3 → ℝ) := by
  refine ⟨?_, ?_, (C285_merge (S := 2) (U := 3) (f := ![0, 1, 1]) ?_ ?_ ?_).1⟩
  · unfold ensHhi; rw [Fin.sum_univ_two]; simp; norm_num
  · unfold ensHhi; rw [Fin.sum_univ_three]; simp; norm_num
  · refine ⟨fun s => by fin_cases s <;> norm_num, by rw [Fin.sum_univ_two]; norm_num⟩
  · refine ⟨fun s => by fin_cases s <;> norm_num, by simp [Fin.sum_univ_succ]; norm_num⟩
  · intro s
    rw [Fin.sum_univ_three]
    fin_cases s <;> simp <;> norm_num

end PyV.Props
