import Verif.Lemmas.Risk
import Mathlib.Data.Fin.Tuple.Sort
import Mathlib.Data.Fin.VecNotation
import Mathlib.Tactic.NormNum
import Mathlib.Tactic.FinCases

set_option linter.unusedSectionVars false

/-! # Properties C12–C15: VaR and CVaR

`argsort` is any function that sorts (ties in any order).  `scenarioProbs p` is the probability vector in use
(uniform when `p` is `None`), `effPnl` the portfolio P&L per scenario (demeaned if requested). -/

namespace PyV.Props

open PyV PyV.Risk PyV.Spec

variable {K : Type*} [Field K] [LinearOrder K] [IsStrictOrderedRing K] {T N : ℕ}
  {argsort : (Fin T → K) → Equiv.Perm (Fin T)}

/-- Non-vacuity: sorting routines exist, and probability vectors do. -/
example : IsArgsort (fun x : Fin 3 → ℚ => Tuple.sort x) := fun x => Tuple.monotone_sort x
example : IsProb (scenarioProbs (some (![1/2, 3/10, 1/5] : Fin 3 → ℚ))) := by
  refine ⟨fun t => ?_, ?_⟩
  · fin_cases t <;> simp [scenarioProbs] <;> norm_num
  · simp [scenarioProbs, Fin.sum_univ_three]; norm_num

/-- **C12** `portfolio_cvar` returns the minimum over all thresholds of the Rockafellar–Uryasev objective, for every
scenario matrix, probability vector (default: uniform) and confidence in (0,1); other confidences are rejected. -/
theorem C12_cvar_is_ru_minimum (hs : IsArgsort argsort) (w : Fin N → K) (R : Fin T → Fin N → K)
    (p : Option (Fin T → K)) (hp : IsProb (scenarioProbs p)) (conf : K) (demean : Bool) :
    (0 < conf ∧ conf < 1 → ∃ r, portfolioCvar argsort w R p (some conf) demean = .ok r ∧
      IsCvar (scenarioProbs p) (effPnl w R p demean) conf r) ∧
    (¬ (0 < conf ∧ conf < 1) → portfolioCvar argsort w R p (some conf) demean = .error .valueError) := by
  constructor
  · rintro ⟨h0, h1⟩; exact portfolioCvar_ok hs hp h0 h1
  · intro h
    unfold portfolioCvar checkConf
    simp only [Option.getD_some, h, if_false]

/-- **C12** Defaults: no probabilities means equal weights, no confidence means 95%. -/
theorem C12_defaults (w : Fin N → K) (R : Fin T → Fin N → K) (p : Option (Fin T → K)) (demean : Bool) :
    portfolioCvar argsort w R p none demean = portfolioCvar argsort w R p (some (95/100)) demean ∧
    (0 < T → IsProb (scenarioProbs (none : Option (Fin T → K))) ∧
      ∀ s t : Fin T, scenarioProbs (none : Option (Fin T → K)) s = scenarioProbs (none : Option (Fin T → K)) t) :=
  ⟨rfl, fun h => ⟨uniform_isProb h, fun _ _ => rfl⟩⟩

/-- **C13** VaR is the quantile; min loss ≤ VaR ≤ CVaR ≤ max loss. -/
theorem C13_var_cvar_bracket (hs : IsArgsort argsort) (w : Fin N → K) (R : Fin T → Fin N → K)
    (p : Option (Fin T → K)) (hp : IsProb (scenarioProbs p)) (conf : K) (h0 : 0 < conf) (h1 : conf < 1)
    (demean : Bool) :
    ∃ v c, portfolioVar argsort w R p (some conf) demean = .ok v ∧
      portfolioCvar argsort w R p (some conf) demean = .ok c ∧
      prob (scenarioProbs p) (fun t => effPnl w R p demean t < -v) < 1 - conf ∧
      1 - conf ≤ prob (scenarioProbs p) (fun t => effPnl w R p demean t ≤ -v) ∧
      (∃ t, -(effPnl w R p demean t) ≤ v) ∧ v ≤ c ∧
      (∀ M, (∀ t, -(effPnl w R p demean t) ≤ M) → c ≤ M) := by
  obtain ⟨v, hv, hq⟩ := portfolioVar_ok (w := w) (R := R) (demean := demean) hs hp h0 h1
  obtain ⟨c, hc, hl⟩ := portfolioCvar_ok (w := w) (R := R) (demean := demean) hs hp h0 h1
  refine ⟨v, c, hv, hc, hq.1, hq.2, ?_, ?_, ?_⟩
  · by_contra hcon
    push Not at hcon
    have : prob (scenarioProbs p) (fun t => effPnl w R p demean t ≤ -v) ≤ 
        prob (scenarioProbs p) (fun t => effPnl w R p demean t < -v) := by
      unfold prob
      apply Finset.sum_le_sum
      intro t _
      have := hcon t
      have h2 : effPnl w R p demean t < -v := by linarith
      rw [if_pos h2.le, if_pos h2]
    linarith [hq.1, hq.2]
  · have hmin : c = ru (scenarioProbs p) (effPnl w R p demean) conf v := by
      have := ru_min (v := -v) hp h1 (by rw [neg_neg]; exact hq)
      rw [neg_neg] at this
      exact cvar_unique hl ⟨⟨_, rfl⟩, by rintro _ ⟨d, rfl⟩; exact this d⟩
    rw [hmin]
    unfold ru expect
    have h2 : 0 ≤ ∑ t, scenarioProbs p t * max (-(effPnl w R p demean t) - v) 0 :=
      Finset.sum_nonneg fun t _ => mul_nonneg (hp.nonneg t) (le_max_right _ _)
    have := div_nonneg h2 (by linarith : (0:K) ≤ 1 - conf)
    linarith
  · intro M hM
    have h3 := hl.2 ⟨M, rfl⟩
    refine h3.trans (le_of_eq ?_)
    unfold ru expect
    rw [Finset.sum_eq_zero, zero_div, add_zero]
    intro t _
    simp only
    rw [max_eq_right (by linarith [hM t]), mul_zero]

/-- **C14** Positive homogeneity: scaling the exposures by `a > 0` (or 0) scales CVaR. -/
theorem C14_homogeneous (hs : IsArgsort argsort) (w : Fin N → K) (R : Fin T → Fin N → K)
    (p : Option (Fin T → K)) (hp : IsProb (scenarioProbs p)) (conf : K) (h0 : 0 < conf) (h1 : conf < 1)
    (a : K) (ha : 0 ≤ a) (demean : Bool) :
    ∃ r, portfolioCvar argsort w R p (some conf) demean = .ok r ∧
      portfolioCvar argsort (fun i => a * w i) R p (some conf) demean = .ok (a * r) := by
  obtain ⟨r, hr, hl⟩ := portfolioCvar_ok (w := w) (R := R) (demean := demean) hs hp h0 h1
  obtain ⟨r', hr', hl'⟩ := portfolioCvar_ok (w := fun i => a * w i) (R := R) (demean := demean) hs hp h0 h1
  refine ⟨r, hr, ?_⟩
  rw [hr']
  congr 1
  have hx : ∀ t, effPnl (fun i => a * w i) R p demean t = a * effPnl w R p demean t := by
    intro t; unfold effPnl pnl
    rw [Finset.mul_sum]; apply Finset.sum_congr rfl; intro i _; ring
  have hscale : ∀ c, ru (scenarioProbs p) (effPnl (fun i => a * w i) R p demean) conf (a * c) =
      a * ru (scenarioProbs p) (effPnl w R p demean) conf c := by
    intro c
    unfold ru expect
    rw [mul_add, ← mul_div_assoc, Finset.mul_sum]
    congr 2
    apply Finset.sum_congr rfl
    intro t _
    simp only
    rw [hx, show -(a * effPnl w R p demean t) - a * c = a * (-(effPnl w R p demean t) - c) by ring]
    rw [show (0:K) = a * 0 by ring, ← mul_max_of_nonneg _ _ ha]
    ring
  rcases ha.eq_or_lt with h | h
  · subst h
    -- zero exposure: all P&L is zero
    refine cvar_unique hl' ⟨⟨0, ?_⟩, ?_⟩
    · have := hscale 0
      simpa using this
    · rintro _ ⟨c, rfl⟩
      have hx0 : ∀ t, effPnl (fun i => 0 * w i) R p demean t = 0 := by intro t; rw [hx, zero_mul]
      unfold ru expect
      simp only [hx0]
      simp only [zero_mul, neg_zero, zero_sub]
      rw [← Finset.sum_mul, hp.sum, one_mul]
      rcases le_total 0 c with hc | hc
      · rw [max_eq_right (by linarith)]; simpa using hc
      · rw [max_eq_left (by linarith)]
        have ha1 : 0 < 1 - conf := by linarith
        rw [← sub_nonneg, sub_zero]
        have : c + -c / (1 - conf) = -c * (conf / (1 - conf)) := by
          field_simp; ring
        rw [this]
        exact mul_nonneg (by linarith) (div_nonneg h0.le ha1.le)
  · refine cvar_unique hl' ⟨?_, ?_⟩
    · obtain ⟨c, hc⟩ := hl.1
      exact ⟨a * c, by rw [hscale, hc]⟩
    · rintro _ ⟨c, rfl⟩
      have := hl.2 ⟨c / a, rfl⟩
      have h2 := hscale (c / a)
      rw [mul_div_cancel₀ _ h.ne'] at h2
      rw [h2]
      exact mul_le_mul_of_nonneg_left this ha

/-- **C14** Subadditivity: the CVaR of a combined book is at most the sum of the CVaRs. -/
theorem C14_subadditive (hs : IsArgsort argsort) (w w' : Fin N → K) (R : Fin T → Fin N → K)
    (p : Option (Fin T → K)) (hp : IsProb (scenarioProbs p)) (conf : K) (h0 : 0 < conf) (h1 : conf < 1)
    (demean : Bool) :
    ∃ r r' s, portfolioCvar argsort w R p (some conf) demean = .ok r ∧
      portfolioCvar argsort w' R p (some conf) demean = .ok r' ∧
      portfolioCvar argsort (fun i => w i + w' i) R p (some conf) demean = .ok s ∧ s ≤ r + r' := by
  obtain ⟨r, hr, hl⟩ := portfolioCvar_ok (w := w) (R := R) (demean := demean) hs hp h0 h1
  obtain ⟨r', hr', hl'⟩ := portfolioCvar_ok (w := w') (R := R) (demean := demean) hs hp h0 h1
  obtain ⟨s, hs', hls⟩ := portfolioCvar_ok (w := fun i => w i + w' i) (R := R) (demean := demean) hs hp h0 h1
  refine ⟨r, r', s, hr, hr', hs', ?_⟩
  obtain ⟨c, rfl⟩ := hl.1
  obtain ⟨c', rfl⟩ := hl'.1
  refine (hls.2 ⟨c + c', rfl⟩).trans ?_
  have hx : ∀ t, effPnl (fun i => w i + w' i) R p demean t = effPnl w R p demean t + effPnl w' R p demean t := by
    intro t; unfold effPnl pnl
    rw [← Finset.sum_add_distrib]; apply Finset.sum_congr rfl; intro i _; ring
  unfold ru expect
  have : ∑ t, scenarioProbs p t * max (-(effPnl (fun i => w i + w' i) R p demean t) - (c + c')) 0 ≤
      ∑ t, scenarioProbs p t * max (-(effPnl w R p demean t) - c) 0 +
      ∑ t, scenarioProbs p t * max (-(effPnl w' R p demean t) - c') 0 := by
    rw [← Finset.sum_add_distrib]
    apply Finset.sum_le_sum
    intro t _
    rw [← mul_add]
    apply mul_le_mul_of_nonneg_left _ (hp.nonneg t)
    rw [hx]
    apply max_le
    · linarith [le_max_left (-(effPnl w R p demean t) - c) 0, le_max_left (-(effPnl w' R p demean t) - c') 0]
    · linarith [le_max_right (-(effPnl w R p demean t) - c) 0, le_max_right (-(effPnl w' R p demean t) - c') 0]
  have := div_le_div_of_nonneg_right this (by linarith : (0:K) ≤ 1 - conf)
  rw [add_div] at this
  linarith

/-- **C14** Translation: adding a sure amount `m` to the P&L lowers CVaR (and VaR) by `m`. -/
theorem C14_translation {M : ℕ} (hs : IsArgsort argsort) (w : Fin N → K) (R : Fin T → Fin N → K)
    (w' : Fin M → K) (R' : Fin T → Fin M → K)
    (p : Option (Fin T → K)) (hp : IsProb (scenarioProbs p)) (conf : K) (h0 : 0 < conf) (h1 : conf < 1)
    (m : K) (d d' : Bool) (hm : ∀ t, effPnl w' R' p d' t = effPnl w R p d t + m) :
    (∃ r, portfolioCvar argsort w R p (some conf) d = .ok r ∧
      portfolioCvar argsort w' R' p (some conf) d' = .ok (r - m)) ∧
    (∃ r, portfolioVar argsort w R p (some conf) d = .ok r ∧
      portfolioVar argsort w' R' p (some conf) d' = .ok (r - m)) := by
  obtain ⟨r, hr, hl⟩ := portfolioCvar_ok (w := w) (R := R) (demean := d) hs hp h0 h1
  obtain ⟨r', hr', hl'⟩ := portfolioCvar_ok (w := w') (R := R') (demean := d') hs hp h0 h1
  obtain ⟨v, hv, hq⟩ := portfolioVar_ok (w := w) (R := R) (demean := d) hs hp h0 h1
  obtain ⟨v', hv', hq'⟩ := portfolioVar_ok (w := w') (R := R') (demean := d') hs hp h0 h1
  constructor
  · refine ⟨r, hr, ?_⟩
    rw [hr']
    congr 1
    have hsh : ∀ c, ru (scenarioProbs p) (effPnl w' R' p d') conf (c - m) =
        ru (scenarioProbs p) (effPnl w R p d) conf c - m := by
      intro c
      unfold ru expect
      simp only [hm]
      have : ∀ t, -(effPnl w R p d t + m) - (c - m) = -(effPnl w R p d t) - c := fun t => by ring
      simp only [this]
      ring
    refine cvar_unique hl' ⟨?_, ?_⟩
    · obtain ⟨c, rfl⟩ := hl.1
      exact ⟨c - m, hsh c⟩
    · rintro _ ⟨c, rfl⟩
      have := hsh (c + m)
      rw [add_sub_cancel_right] at this
      rw [this]
      linarith [hl.2 ⟨c + m, rfl⟩]
  · refine ⟨v, hv, ?_⟩
    rw [hv']
    congr 1
    refine isVar_unique hp.nonneg hq' ?_
    have e1 : ∀ t, (effPnl w' R' p d' t < -(v - m)) ↔ (effPnl w R p d t < -v) := by
      intro t; rw [hm]; constructor <;> intro h <;> linarith
    have e2 : ∀ t, (effPnl w' R' p d' t ≤ -(v - m)) ↔ (effPnl w R p d t ≤ -v) := by
      intro t; rw [hm]; constructor <;> intro h <;> linarith
    unfold IsVar prob at hq ⊢
    simp only [e1, e2]
    exact hq

/-- **C14** Monotonicity: a portfolio that does at least as well in every scenario has no larger CVaR. -/
theorem C14_monotone {M : ℕ} (hs : IsArgsort argsort) (w : Fin N → K) (R : Fin T → Fin N → K)
    (w' : Fin M → K) (R' : Fin T → Fin M → K)
    (p : Option (Fin T → K)) (hp : IsProb (scenarioProbs p)) (conf : K) (h0 : 0 < conf) (h1 : conf < 1)
    (d d' : Bool) (hm : ∀ t, effPnl w R p d t ≤ effPnl w' R' p d' t) :
    ∃ r r', portfolioCvar argsort w R p (some conf) d = .ok r ∧
      portfolioCvar argsort w' R' p (some conf) d' = .ok r' ∧ r' ≤ r := by
  obtain ⟨r, hr, hl⟩ := portfolioCvar_ok (w := w) (R := R) (demean := d) hs hp h0 h1
  obtain ⟨r', hr', hl'⟩ := portfolioCvar_ok (w := w') (R := R') (demean := d') hs hp h0 h1
  refine ⟨r, r', hr, hr', ?_⟩
  obtain ⟨c, rfl⟩ := hl.1
  exact (hl'.2 ⟨c, rfl⟩).trans (ru_mono hp.nonneg h1 hm c)

/-- **C14** CVaR and VaR do not decrease when the confidence rises. -/
theorem C14_confidence_mono (hs : IsArgsort argsort) (w : Fin N → K) (R : Fin T → Fin N → K)
    (p : Option (Fin T → K)) (hp : IsProb (scenarioProbs p)) (a b : K) (h0 : 0 < a) (hab : a ≤ b) (h1 : b < 1)
    (demean : Bool) :
    ∃ r r' v v', portfolioCvar argsort w R p (some a) demean = .ok r ∧
      portfolioCvar argsort w R p (some b) demean = .ok r' ∧ r ≤ r' ∧
      portfolioVar argsort w R p (some a) demean = .ok v ∧
      portfolioVar argsort w R p (some b) demean = .ok v' ∧ v ≤ v' := by
  obtain ⟨r, hr, hl⟩ := portfolioCvar_ok (w := w) (R := R) (demean := demean) hs hp h0 (lt_of_le_of_lt hab h1)
  obtain ⟨r', hr', hl'⟩ := portfolioCvar_ok (w := w) (R := R) (demean := demean) hs hp (lt_of_lt_of_le h0 hab) h1
  obtain ⟨v, hv, hq⟩ := portfolioVar_ok (w := w) (R := R) (demean := demean) hs hp h0 (lt_of_le_of_lt hab h1)
  obtain ⟨v', hv', hq'⟩ := portfolioVar_ok (w := w) (R := R) (demean := demean) hs hp (lt_of_lt_of_le h0 hab) h1
  refine ⟨r, r', v, v', hr, hr', ?_, hv, hv', ?_⟩
  · obtain ⟨c, rfl⟩ := hl'.1
    refine (hl.2 ⟨c, rfl⟩).trans ?_
    unfold ru
    have hn : 0 ≤ expect (scenarioProbs p) (fun t => max (-(effPnl w R p demean t) - c) 0) :=
      Finset.sum_nonneg fun t _ => mul_nonneg (hp.nonneg t) (le_max_right _ _)
    have := div_le_div_of_nonneg_left hn (by linarith : 0 < 1 - b) (by linarith : 1 - b ≤ 1 - a)
    linarith
  · by_contra hlt
    have hlt := not_le.mp hlt
    have : prob (scenarioProbs p) (fun t => effPnl w R p demean t ≤ -v) ≤
        prob (scenarioProbs p) (fun t => effPnl w R p demean t < -v') := by
      unfold prob
      apply Finset.sum_le_sum
      intro t _
      by_cases h : effPnl w R p demean t ≤ -v
      · rw [if_pos h, if_pos (by linarith)]
      · rw [if_neg h]
        split
        · exact hp.nonneg t
        · exact le_refl _
    linarith [hq.2, hq'.1]

/-- **C14** Demeaning adds the portfolio's mean P&L to CVaR and VaR. -/
theorem C14_demean (hs : IsArgsort argsort) (w : Fin N → K) (R : Fin T → Fin N → K)
    (p : Option (Fin T → K)) (hp : IsProb (scenarioProbs p)) (conf : K) (h0 : 0 < conf) (h1 : conf < 1) :
    (∃ r, portfolioCvar argsort w R p (some conf) false = .ok r ∧
      portfolioCvar argsort w R p (some conf) true = .ok (r + expect (scenarioProbs p) (effPnl w R p false))) ∧
    (∃ r, portfolioVar argsort w R p (some conf) false = .ok r ∧
      portfolioVar argsort w R p (some conf) true = .ok (r + expect (scenarioProbs p) (effPnl w R p false))) := by
  have := C14_translation (w := w) (R := R) (w' := w) (R' := R) (d := false) (d' := true) hs p hp conf h0 h1
    (-(expect (scenarioProbs p) (effPnl w R p false))) (by
      intro t
      unfold effPnl pnl maybeDemean expect
      simp only [if_true, Bool.false_eq_true, if_false]
      simp only [sub_mul, Finset.sum_sub_distrib, Finset.sum_mul, Finset.mul_sum]
      rw [sub_eq_add_neg, Finset.sum_comm]
      congr 2
      apply Finset.sum_congr rfl; intro s _
      apply Finset.sum_congr rfl; intro i _
      ring)
  simpa [sub_neg_eq_add] using this

/-- **C15** Reordering the scenarios together with their probabilities changes neither VaR nor CVaR, whatever the
sorting routine does with ties (the two calls may even use different sorting routines). -/
theorem C15_scenario_order (hs : IsArgsort argsort) {argsort' : (Fin T → K) → Equiv.Perm (Fin T)}
    (hs' : IsArgsort argsort') (w : Fin N → K) (R : Fin T → Fin N → K)
    (p : Fin T → K) (hp : IsProb p) (conf : K) (h0 : 0 < conf) (h1 : conf < 1) (demean : Bool)
    (π : Equiv.Perm (Fin T)) :
    portfolioCvar argsort' w (R ∘ π) (some (p ∘ π)) (some conf) demean =
      portfolioCvar argsort w R (some p) (some conf) demean ∧
    portfolioVar argsort' w (R ∘ π) (some (p ∘ π)) (some conf) demean =
      portfolioVar argsort w R (some p) (some conf) demean := by
  have hpπ : IsProb (p ∘ π) := ⟨fun t => hp.nonneg _, by rw [← hp.sum]; exact Equiv.sum_comp π p⟩
  have hx : effPnl w (R ∘ π) (some (p ∘ π)) demean = effPnl w R (some p) demean ∘ π := by
    funext t
    unfold effPnl pnl maybeDemean scenarioProbs
    cases demean
    · rfl
    · simp only [if_true, Function.comp, Option.getD_some]
      apply Finset.sum_congr rfl
      intro i _
      congr 2
      exact Equiv.sum_comp π (fun s => p s * R s i)
  obtain ⟨r, hr, hl⟩ := portfolioCvar_ok (w := w) (R := R) (p := some p) (demean := demean) hs hp h0 h1
  obtain ⟨r', hr', hl'⟩ := portfolioCvar_ok (w := w) (R := R ∘ π) (p := some (p ∘ π)) (demean := demean) hs' hpπ h0 h1
  obtain ⟨v, hv, hq⟩ := portfolioVar_ok (w := w) (R := R) (p := some p) (demean := demean) hs hp h0 h1
  obtain ⟨v', hv', hq'⟩ := portfolioVar_ok (w := w) (R := R ∘ π) (p := some (p ∘ π)) (demean := demean) hs' hpπ h0 h1
  rw [hr, hr', hv, hv']
  constructor
  · congr 1
    refine cvar_unique hl' ?_
    rw [hx]
    have : ru (scenarioProbs (some (p ∘ π))) (effPnl w R (some p) demean ∘ π) conf =
        ru (scenarioProbs (some p)) (effPnl w R (some p) demean) conf := by
      funext c
      unfold ru expect scenarioProbs
      simp only [Option.getD_some, Function.comp]
      rw [Equiv.sum_comp π (fun t => p t * max (-(effPnl w R (some p) demean t) - c) 0)]
    unfold IsCvar
    rw [this]; exact hl
  · congr 1
    refine isVar_unique hpπ.nonneg hq' ?_
    rw [hx]
    have hsp : scenarioProbs (some p) = p := rfl
    rw [hsp] at hq
    unfold IsVar prob at hq ⊢
    simp only [Function.comp] at hq ⊢
    rw [Equiv.sum_comp π (fun t => if effPnl w R (some p) demean t < -v then p t else 0),
      Equiv.sum_comp π (fun t => if effPnl w R (some p) demean t ≤ -v then p t else 0)]
    exact hq

end PyV.Props
