import Verif.Props.StressHelpers

/-! # Property C278: CVaR is the worst expected loss over limited reweightings of the scenarios -/

namespace PyV.Props

open PyV PyV.Spec PyV.Risk

section generic

variable {K : Type*} [Field K] [LinearOrder K] [IsStrictOrderedRing K] {T N : ℕ}

/-- `q` reweights the scenarios and makes none more than `k` times as likely. -/
structure Reweights (p : Fin T → K) (k : K) (q : Fin T → K) : Prop where
  prob : IsProb q
  limited : ∀ t, q t ≤ k * p t

/-- Expected loss. -/
def meanLoss (q x : Fin T → K) : K := expect q (fun t => -(x t))

theorem reweighted_le {p q x : Fin T → K} {conf r : K} (h1 : conf < 1) (hr : IsCvar p x conf r)
    (hq : Reweights p (1 / (1 - conf)) q) : meanLoss q x ≤ r := by
  obtain ⟨⟨c, rfl⟩, -⟩ := hr
  have ha : 0 < 1 - conf := by linarith
  unfold meanLoss ru expect
  have e : ∑ t, q t * (-(x t)) = c + ∑ t, q t * (-(x t) - c) := by
    have : ∑ t, q t * (-(x t) - c) = ∑ t, q t * (-(x t)) - (∑ t, q t) * c := by
      rw [Finset.sum_mul, ← Finset.sum_sub_distrib]
      exact Finset.sum_congr rfl fun t _ => by ring
    rw [this, hq.prob.sum]; ring
  rw [e, Finset.sum_div]
  refine add_le_add le_rfl (Finset.sum_le_sum fun t _ => ?_)
  calc q t * (-(x t) - c) ≤ q t * max (-(x t) - c) 0 := mul_le_mul_of_nonneg_left (le_max_left _ _) (hq.prob.nonneg t)
    _ ≤ (1 / (1 - conf) * p t) * max (-(x t) - c) 0 := mul_le_mul_of_nonneg_right (hq.limited t) (le_max_right _ _)
    _ = p t * max (-(x t) - c) 0 / (1 - conf) := by ring

/-- The worst reweighting: everything below the quantile at the limit, the quantile itself takes the rest. -/
theorem worst_exists {p x : Fin T → K} {conf v r : K} (hp : IsProb p) (h1 : conf < 1) (hv : IsVar p x conf v)
    (hr : IsCvar p x conf r) : ∃ q, Reweights p (1 / (1 - conf)) q ∧ meanLoss q x = r := by
  have ha : 0 < 1 - conf := by linarith
  set s : K := -v with hs
  have hv' : IsVar p x conf (-s) := by rw [hs, neg_neg]; exact hv
  obtain ⟨hlt, hle⟩ := hv'
  rw [neg_neg] at hlt hle
  set A := prob p (fun t => x t < s) with hA
  set B := prob p (fun t => x t = s) with hB
  have hAB : prob p (fun t => x t ≤ s) = A + B := by
    rw [hA, hB]
    unfold prob
    rw [← Finset.sum_add_distrib]
    refine Finset.sum_congr rfl fun t _ => ?_
    show (if x t ≤ s then p t else 0) = (if x t < s then p t else 0) + (if x t = s then p t else 0)
    rcases lt_trichotomy (x t) s with h | h | h
    · rw [if_pos h.le, if_pos h, if_neg h.ne, add_zero]
    · rw [if_pos h.le, if_neg (by rw [h]; exact lt_irrefl _), if_pos h, zero_add]
    · rw [if_neg (not_le.2 h), if_neg (not_lt.2 h.le), if_neg h.ne', add_zero]
  rw [hAB] at hle
  have hB0 : 0 < B := by linarith
  set f : K := ((1 - conf) - A) / B with hf
  have hf0 : 0 ≤ f := div_nonneg (by linarith) hB0.le
  have hf1 : f ≤ 1 := (div_le_one hB0).2 (by linarith)
  have hfB : f * B = (1 - conf) - A := div_mul_cancel₀ _ hB0.ne'
  set g : Fin T → K := fun t => (if x t < s then 1 else 0) + f * (if x t = s then 1 else 0) with hg
  have hg0 : ∀ t, 0 ≤ g t := fun t => by
    simp only [hg]
    refine add_nonneg (by split <;> norm_num) (mul_nonneg hf0 (by split <;> norm_num))
  have hg1 : ∀ t, g t ≤ 1 := fun t => by
    simp only [hg]
    by_cases h : x t < s
    · rw [if_pos h, if_neg h.ne]; simp
    · rw [if_neg h]
      split
      · simpa using hf1
      · simp
  have hk : 0 < 1 / (1 - conf) := by positivity
  have hA' : ∑ t, p t * (if x t < s then 1 else 0) = A := by
    rw [hA]; unfold prob
    exact Finset.sum_congr rfl fun t _ => by split <;> simp
  have hB' : ∑ t, p t * (if x t = s then 1 else 0) = B := by
    rw [hB]; unfold prob
    exact Finset.sum_congr rfl fun t _ => by split <;> simp
  refine ⟨fun t => 1 / (1 - conf) * (p t * g t), ⟨⟨fun t => ?_, ?_⟩, fun t => ?_⟩, ?_⟩
  · exact mul_nonneg hk.le (mul_nonneg (hp.nonneg t) (hg0 t))
  · rw [← Finset.mul_sum]
    have : ∑ t, p t * g t = A + f * B := by
      rw [← hA', ← hB', Finset.mul_sum, ← Finset.sum_add_distrib]
      exact Finset.sum_congr rfl fun t _ => by simp only [hg]; ring
    rw [this, hfB]
    field_simp
    ring
  · exact mul_le_mul_of_nonneg_left (mul_le_of_le_one_right (hp.nonneg t) (hg1 t)) hk.le
  · have hru : r = ru p x conf (-s) := by
      apply le_antisymm (hr.2 ⟨_, rfl⟩)
      obtain ⟨c, hc⟩ := hr.1
      rw [← hc]
      exact ru_min hp h1 (by rw [hs, neg_neg]; exact hv) c
    rw [hru, ← formula_eq_ru h1, hA']
    unfold meanLoss expect
    have e : ∀ t, 1 / (1 - conf) * (p t * g t) * -(x t)
        = -(1 / (1 - conf)) * (p t * x t * (if x t < s then 1 else 0) + s * (f * (p t * (if x t = s then 1 else 0)))) := by
      intro t
      simp only [hg]
      by_cases h : x t = s
      · rw [if_pos h, if_neg (by rw [h]; exact lt_irrefl _), h]; ring
      · rw [if_neg h]; ring
    rw [Finset.sum_congr rfl fun t _ => e t, ← Finset.mul_sum, Finset.sum_add_distrib, ← Finset.mul_sum, ← Finset.mul_sum, hB', hfB]
    ring

/-- **C278** the CVaR at a confidence level is the worst expected loss over all ways of reweighting the scenarios that make none more than
`1 / (1 - confidence)` times as likely (the loss is measured from the scenario mean when `demean` is set), and some reweighting attains it. -/
theorem C278_worst_case {argsort : (Fin T → K) → Equiv.Perm (Fin T)} (hs : IsArgsort argsort) (w : Fin N → K) (R : Fin T → Fin N → K)
    {p : Fin T → K} (hp : IsProb p) {conf : K} (h0 : 0 < conf) (h1 : conf < 1) (demean : Bool) :
    ∃ r, portfolioCvar argsort w R (some p) (some conf) demean = .ok r ∧
      IsGreatest {l | ∃ q, Reweights p (1 / (1 - conf)) q ∧
        l = meanLoss q (fun t => ∑ i, R t i * w i - if demean then expect p (fun t => ∑ i, R t i * w i) else 0)} r := by
  have e : effPnl w R (some p) demean = fun t => ∑ i, R t i * w i - if demean then expect p (fun t => ∑ i, R t i * w i) else 0 := by
    unfold effPnl maybeDemean pnl scenarioProbs expect
    cases demean
    · simp
    · funext t
      simp only [if_true, Option.getD_some, sub_mul, Finset.sum_sub_distrib, Finset.sum_mul, Finset.mul_sum]
      congr 1
      rw [Finset.sum_comm]
      exact Finset.sum_congr rfl (fun s _ => Finset.sum_congr rfl (fun i _ => by ring))
  obtain ⟨v, -, hv⟩ := portfolioVar_ok hs (w := w) (R := R) (p := some p) (demean := demean) hp h0 h1
  obtain ⟨r, hr, hc⟩ := portfolioCvar_ok hs (w := w) (R := R) (p := some p) (demean := demean) hp h0 h1
  rw [e] at hv hc
  refine ⟨r, hr, ?_, ?_⟩
  · obtain ⟨q, hq, hqr⟩ := worst_exists hp h1 hv hc
    exact ⟨q, hq, hqr.symm⟩
  · rintro l ⟨q, hq, rfl⟩
    exact reweighted_le h1 hc hq

end generic

/-- **C278** in a stress test: reweighting the scenarios so that none becomes more than `1 / (1 - confidence)` times as likely cannot bring
the expected loss of any portfolio above its nominal CVaR. -/
theorem C278_stress {T N M : ℕ} {argsort : (Fin T → ℝ) → Equiv.Perm (Fin T)} (hs : IsArgsort argsort) {w : Perf.Weights M ℝ}
    {R : Fin T → Fin N → ℝ} {assets : Option (List String)} {probabilities : Option (List (PyFloat ℝ))} {stressed : List (PyFloat ℝ)}
    {conf : ℝ} {rep : Perf.StressReport} {p q : List ℝ}
    (hr : Probs.resolve probabilities T false = .ok p) (hp : IsProb (Perf.toVec T p))
    (hq : Probs.resolve (some stressed) T false = .ok q) (hq' : Reweights (Perf.toVec T p) (1 / (1 - conf)) (Perf.toVec T q))
    (h1 : conf < 1) (h : Perf.stressTest argsort w R assets probabilities (some stressed) none conf false = .ok rep) :
    ∃ ms, rep.stressed = some ms ∧ List.Forall₂ (fun n s : Perf.Metrics => -s.mean ≤ n.cvar) rep.nominal ms := by
  obtain ⟨W, -, hst⟩ := stressTest_prob hs hr hp hq hq'.prob h
  obtain ⟨ms, hms, hf⟩ := hst.stressed
  refine ⟨ms, hms, ?_⟩
  have hn := hst.nominal
  rw [List.forall₂_iff_get] at hf hn ⊢
  refine ⟨by rw [← hn.1, hf.1], fun i h1' h2' => ?_⟩
  have hi : i < (List.finRange M).length := by rw [hn.1]; exact h1'
  have d1 := hn.2 i hi h1'
  have d2 := hf.2 i hi h2'
  have h3 := reweighted_le h1 d1.cvar hq'
  rw [d2.mean]
  unfold meanLoss expect at h3
  unfold expect
  simp only [Bool.false_eq_true, if_false, sub_zero, mul_neg, Finset.sum_neg_distrib] at h3
  exact h3

/-- Two equally likely scenarios at 50%: reweighting may double a scenario, so all weight can go to the loss. -/
example : Reweights ![(1 / 2 : ℝ), 1 / 2] (1 / (1 - 1 / 2)) ![1, 0] ∧
    meanLoss ![(1 : ℝ), 0] ![-3, 5] = 3 := by
  refine ⟨⟨⟨fun t => ?_, ?_⟩, fun t => ?_⟩, ?_⟩
  · fin_cases t <;> simp
  · simp
  · fin_cases t <;> norm_num
  · simp [meanLoss, expect]

end PyV.Props
