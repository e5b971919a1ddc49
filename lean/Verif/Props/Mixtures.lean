import Verif.Props.Risk
import Verif.Props.Probabilities
import Verif.Props.MomentsApi
import Mathlib.Analysis.SpecialFunctions.Log.NegMulLog

/-! # Property C263: mixing scenario weightings -/

namespace PyV.Props

open PyV PyV.Spec PyV.Risk PyV.Probs Matrix

/-- The weighting that uses `p` with probability `θ` and `q` otherwise. -/
def mixture {K : Type*} [Field K] {T : ℕ} (θ : K) (p q : Fin T → K) : Fin T → K := fun t => θ * p t + (1 - θ) * q t

section generic

variable {K : Type*} [Field K] [LinearOrder K] [IsStrictOrderedRing K] {T N : ℕ}

theorem mixture_prob {θ : K} (h0 : 0 ≤ θ) (h1 : θ ≤ 1) {p q : Fin T → K} (hp : IsProb p) (hq : IsProb q) : IsProb (mixture θ p q) := by
  refine ⟨fun t => add_nonneg (mul_nonneg h0 (hp.nonneg t)) (mul_nonneg (by linarith) (hq.nonneg t)), ?_⟩
  unfold mixture
  rw [Finset.sum_add_distrib, ← Finset.mul_sum, ← Finset.mul_sum, hp.sum, hq.sum]
  ring

theorem expect_mixture (θ : K) (p q x : Fin T → K) : expect (mixture θ p q) x = θ * expect p x + (1 - θ) * expect q x := by
  unfold expect mixture
  rw [Finset.mul_sum, Finset.mul_sum, ← Finset.sum_add_distrib]
  exact Finset.sum_congr rfl fun t _ => by ring

private theorem cvar_mixture {θ : K} (h0 : 0 ≤ θ) (h1 : θ ≤ 1) {p q y : Fin T → K} {kp kq conf vp vq vm : K}
    (hp : IsCvar p (fun t => y t - kp) conf vp) (hq : IsCvar q (fun t => y t - kq) conf vq)
    (hm : IsCvar (mixture θ p q) (fun t => y t - (θ * kp + (1 - θ) * kq)) conf vm) : θ * vp + (1 - θ) * vq ≤ vm := by
  obtain ⟨⟨a, ha⟩, -⟩ := hm
  have e : ∀ (r : Fin T → K) (k b : K), ru r (fun t => y t - k) conf (b + k) = k + ru r y conf b := by
    intro r k b
    unfold ru
    have : (fun t => max (-(y t - k) - (b + k)) 0) = fun t => max (-(y t) - b) 0 := by
      funext t; congr 1; ring
    rw [this]; ring
  set km := θ * kp + (1 - θ) * kq with hkm
  set b := a - km with hb
  have h2 := hp.2 ⟨b + kp, rfl⟩
  have h3 := hq.2 ⟨b + kq, rfl⟩
  rw [e] at h2 h3
  have h4 : vm = km + ru (mixture θ p q) y conf b := by
    rw [← ha, ← e, hb, sub_add_cancel]
  have h5 : ru (mixture θ p q) y conf b = θ * ru p y conf b + (1 - θ) * ru q y conf b := by
    unfold ru
    rw [expect_mixture]
    ring
  rw [h4, h5, hkm]
  have h6 := mul_le_mul_of_nonneg_left h2 h0
  have h7 := mul_le_mul_of_nonneg_left h3 (sub_nonneg.2 h1)
  linarith

theorem eff_shift (w : Fin N → K) (R : Fin T → Fin N → K) (p : Fin T → K) (demean : Bool) :
    effPnl w R (some p) demean = fun t => Risk.pnl R w t - (if demean then expect p (Risk.pnl R w) else 0) := by
  unfold effPnl maybeDemean
  cases demean with
  | false => funext t; simp
  | true =>
    funext t
    simp only [if_true, scenarioProbs, Option.getD_some]
    unfold Risk.pnl expect
    simp only [Finset.mul_sum, sub_mul, Finset.sum_sub_distrib, Finset.sum_mul]
    congr 1
    rw [Finset.sum_comm]
    exact Finset.sum_congr rfl fun t _ => Finset.sum_congr rfl fun i _ => by ring

/-- **C263** The CVaR of a portfolio under a mixture of two weightings is at least the mixture of its CVaRs. -/
theorem C263_cvar {argsort : (Fin T → K) → Equiv.Perm (Fin T)} (hs : IsArgsort argsort) (w : Fin N → K) (R : Fin T → Fin N → K)
    {p q : Fin T → K} (hp : IsProb p) (hq : IsProb q) {θ : K} (h0 : 0 ≤ θ) (h1 : θ ≤ 1) {conf : K} (hc0 : 0 < conf) (hc1 : conf < 1) (demean : Bool) :
    ∃ vp vq vm, portfolioCvar argsort w R (some p) (some conf) demean = .ok vp ∧ portfolioCvar argsort w R (some q) (some conf) demean = .ok vq ∧
      portfolioCvar argsort w R (some (mixture θ p q)) (some conf) demean = .ok vm ∧ θ * vp + (1 - θ) * vq ≤ vm := by
  obtain ⟨vp, e1, c1⟩ := (C12_cvar_is_ru_minimum hs w R (some p) hp conf demean).1 ⟨hc0, hc1⟩
  obtain ⟨vq, e2, c2⟩ := (C12_cvar_is_ru_minimum hs w R (some q) hq conf demean).1 ⟨hc0, hc1⟩
  obtain ⟨vm, e3, c3⟩ := (C12_cvar_is_ru_minimum hs w R (some (mixture θ p q)) (mixture_prob h0 h1 hp hq) conf demean).1 ⟨hc0, hc1⟩
  refine ⟨vp, vq, vm, e1, e2, e3, ?_⟩
  rw [eff_shift] at c1 c2 c3
  have hk : (if demean then expect (mixture θ p q) (Risk.pnl R w) else 0) =
      θ * (if demean then expect p (Risk.pnl R w) else 0) + (1 - θ) * (if demean then expect q (Risk.pnl R w) else 0) := by
    cases demean with
    | false => simp
    | true => simp only [if_true]; rw [expect_mixture]
  rw [hk] at c3
  exact cvar_mixture h0 h1 c1 c2 c3

/-- **C263** The inverse-Herfindahl number of scenarios of a mixture is at least the smaller of the two. -/
theorem C263_hhi {p q : Fin T → K} (hp : IsProb p) (hq : IsProb q) {θ : K} (h0 : 0 ≤ θ) (h1 : θ ≤ 1) :
    min (ensHhi p) (ensHhi q) ≤ ensHhi (mixture θ p q) := by
  have hpos : ∀ r : Fin T → K, IsProb r → 0 < ∑ t, r t ^ 2 := by
    intro r hr
    refine lt_of_le_of_ne (Finset.sum_nonneg fun t _ => sq_nonneg _) fun h => ?_
    have hz := (Finset.sum_eq_zero_iff_of_nonneg (fun t _ => sq_nonneg (r t))).1 h.symm
    have hs := hr.sum
    rw [Finset.sum_eq_zero fun t ht => pow_eq_zero_iff (two_ne_zero) |>.1 (hz t ht)] at hs
    exact zero_ne_one hs
  have hle : ∑ t, mixture θ p q t ^ 2 ≤ θ * (∑ t, p t ^ 2) + (1 - θ) * ∑ t, q t ^ 2 := by
    rw [Finset.mul_sum, Finset.mul_sum, ← Finset.sum_add_distrib]
    refine Finset.sum_le_sum fun t _ => ?_
    unfold mixture
    have : 0 ≤ θ * (1 - θ) * (p t - q t) ^ 2 := mul_nonneg (mul_nonneg h0 (by linarith)) (sq_nonneg _)
    linarith [this]
  unfold ensHhi
  have hm := hpos _ (mixture_prob h0 h1 hp hq)
  rcases le_total (∑ t, p t ^ 2) (∑ t, q t ^ 2) with h | h
  · refine (min_le_right _ _).trans (one_div_le_one_div_of_le hm (hle.trans ?_))
    have := mul_le_mul_of_nonneg_left h h0
    linarith
  · refine (min_le_left _ _).trans (one_div_le_one_div_of_le hm (hle.trans ?_))
    have := mul_le_mul_of_nonneg_left h (sub_nonneg.2 h1)
    linarith

end generic

variable {T N : ℕ}

/-- **C263** The entropy number of scenarios of a mixture is at least the weighted geometric mean of the two. -/
theorem C263_entropy {p q : Fin T → ℝ} (hp : IsProb p) (hq : IsProb q) {θ : ℝ} (h0 : 0 ≤ θ) (h1 : θ ≤ 1) :
    ens p ^ θ * ens q ^ (1 - θ) ≤ ens (mixture θ p q) := by
  rw [ens_eq hp, ens_eq hq, ens_eq (mixture_prob h0 h1 hp hq), ← Real.exp_mul, ← Real.exp_mul, ← Real.exp_add]
  refine Real.exp_le_exp.2 ?_
  have hneg : ∀ r : Fin T → ℝ, -(∑ t, r t * Real.log (r t)) = ∑ t, Real.negMulLog (r t) := by
    intro r
    rw [← Finset.sum_neg_distrib]
    exact Finset.sum_congr rfl fun t _ => by rw [Real.negMulLog]; ring
  rw [hneg, hneg, hneg, Finset.sum_mul, Finset.sum_mul, ← Finset.sum_add_distrib]
  refine Finset.sum_le_sum fun t _ => ?_
  have := Real.concaveOn_negMulLog.2 (hp.nonneg t) (hq.nonneg t) h0 (sub_nonneg.2 h1) (by ring)
  simp only [smul_eq_mul] at this
  unfold mixture
  linarith

/-- **C263** Law of total covariance: the sample mean under a mixture is the mixture of the means, and the covariance is the mixture of the
covariances plus `θ (1 − θ)` times the outer product of the difference of the means. -/
theorem C263_moments (R : Fin T → Fin N → ℝ) {p q : Fin T → ℝ} (hp : IsProb p) (hq : IsProb q) {θ : ℝ} (h0 : 0 ≤ θ) (h1 : θ ≤ 1) :
    ∃ mp Sp mq Sq mm Sm, Mom.estimateSampleMoments R p = .ok (mp, Sp) ∧ Mom.estimateSampleMoments R q = .ok (mq, Sq) ∧
      Mom.estimateSampleMoments R (mixture θ p q) = .ok (mm, Sm) ∧ (∀ i, mm i = θ * mp i + (1 - θ) * mq i) ∧
      (∀ i j, Sm i j = θ * Sp i j + (1 - θ) * Sq i j + θ * (1 - θ) * ((mp i - mq i) * (mp j - mq j))) ∧
      ∀ x : Fin N → ℝ, θ * (x ⬝ᵥ Sp *ᵥ x) + (1 - θ) * (x ⬝ᵥ Sq *ᵥ x) ≤ x ⬝ᵥ Sm *ᵥ x := by
  obtain ⟨mp, Sp, e1, a1, b1, -⟩ := C35_sample_moments R hp
  obtain ⟨mq, Sq, e2, a2, b2, -⟩ := C35_sample_moments R hq
  obtain ⟨mm, Sm, e3, a3, b3, -⟩ := C35_sample_moments R (mixture_prob h0 h1 hp hq)
  have hm : ∀ i, mm i = θ * mp i + (1 - θ) * mq i := fun i => by rw [a3, a1, a2, expect_mixture]
  have hS : ∀ i j, Sm i j = θ * Sp i j + (1 - θ) * Sq i j + θ * (1 - θ) * ((mp i - mq i) * (mp j - mq j)) := by
    intro i j
    rw [b3, b1, b2, expect_mixture, hm, hm]
    ring
  refine ⟨mp, Sp, mq, Sq, mm, Sm, e1, e2, e3, hm, hS, fun x => ?_⟩
  have : x ⬝ᵥ Sm *ᵥ x = θ * (x ⬝ᵥ Sp *ᵥ x) + (1 - θ) * (x ⬝ᵥ Sq *ᵥ x) + θ * (1 - θ) * (∑ i, x i * (mp i - mq i)) ^ 2 := by
    rw [sq, Finset.sum_mul_sum]
    unfold dotProduct mulVec dotProduct
    simp only [Finset.mul_sum, ← Finset.sum_add_distrib]
    refine Finset.sum_congr rfl fun i _ => Finset.sum_congr rfl fun j _ => ?_
    rw [hS]
    ring
  rw [this]
  have : 0 ≤ θ * (1 - θ) * (∑ i, x i * (mp i - mq i)) ^ 2 := mul_nonneg (mul_nonneg h0 (by linarith)) (sq_nonneg _)
  linarith

/-- Two certain scenarios with P&L 1 and −1: each weighting has entropy number one, their even mixture two, and its CVaR exceeds the average
of the two CVaRs. -/
example : ens (mixture (1 / 2) ![1, 0] ![0, 1]) = 2 ∧ ens (![1, 0] : Fin 2 → ℝ) = 1 ∧ ens (![0, 1] : Fin 2 → ℝ) = 1 := by
  have hp : IsProb (![1, 0] : Fin 2 → ℝ) := ⟨by simp [Fin.forall_fin_two], by simp [Fin.sum_univ_two]⟩
  have hq : IsProb (![0, 1] : Fin 2 → ℝ) := ⟨by simp [Fin.forall_fin_two], by simp [Fin.sum_univ_two]⟩
  have hm := mixture_prob (θ := (1 / 2 : ℝ)) (by norm_num) (by norm_num) hp hq
  refine ⟨?_, ?_, ?_⟩
  · have := (C19_entropy_bounds _ hm).2.2.1.2 fun s => by
      fin_cases s <;> simp [mixture] <;> norm_num
    simpa using this
  · exact (C19_entropy_bounds _ hp).2.2.2.2 ⟨0, by simp⟩
  · exact (C19_entropy_bounds _ hq).2.2.2.2 ⟨1, by simp⟩

/-- The same weightings as rational numbers: C263 applies to them (`C263_cvar`), the variance of the mixture is one and that of each weighting zero. -/
example : ∃ mp Sp mq Sq mm Sm, Mom.estimateSampleMoments (T := 2) (N := 1) (fun t _ => ![1, -1] t) ![1, 0] = .ok (mp, Sp) ∧
    Mom.estimateSampleMoments (T := 2) (N := 1) (fun t _ => ![1, -1] t) ![0, 1] = .ok (mq, Sq) ∧
    Mom.estimateSampleMoments (T := 2) (N := 1) (fun t _ => ![1, -1] t) (mixture (1 / 2) ![1, 0] ![0, 1]) = .ok (mm, Sm) ∧
      Sp 0 0 = 0 ∧ Sq 0 0 = 0 ∧ Sm 0 0 = 1 := by
  have hp : IsProb (![1, 0] : Fin 2 → ℝ) := ⟨by simp [Fin.forall_fin_two], by simp [Fin.sum_univ_two]⟩
  have hq : IsProb (![0, 1] : Fin 2 → ℝ) := ⟨by simp [Fin.forall_fin_two], by simp [Fin.sum_univ_two]⟩
  obtain ⟨mp, Sp, mq, Sq, mm, Sm, e1, e2, e3, -, h, -⟩ := C263_moments (T := 2) (N := 1) (fun t _ => ![1, -1] t) hp hq (θ := 1 / 2) (by norm_num) (by norm_num)
  obtain ⟨mp', Sp', e1', a1, b1, -⟩ := C35_sample_moments (T := 2) (N := 1) (fun t _ => ![1, -1] t) hp
  obtain ⟨mq', Sq', e2', a2, b2, -⟩ := C35_sample_moments (T := 2) (N := 1) (fun t _ => ![1, -1] t) hq
  rw [e1] at e1'
  rw [e2] at e2'
  simp only [Except.ok.injEq, Prod.mk.injEq] at e1' e2'
  obtain ⟨rfl, rfl⟩ := e1'
  obtain ⟨rfl, rfl⟩ := e2'
  have c1 : mp 0 = 1 := by rw [a1]; simp [expect, Fin.sum_univ_two]
  have c2 : mq 0 = -1 := by rw [a2]; simp [expect, Fin.sum_univ_two]
  have d1 : Sp 0 0 = 0 := by rw [b1, c1]; simp [expect, Fin.sum_univ_two]
  have d2 : Sq 0 0 = 0 := by rw [b2, c2]; simp [expect, Fin.sum_univ_two]
  refine ⟨mp, Sp, mq, Sq, mm, Sm, e1, e2, e3, d1, d2, ?_⟩
  rw [h, d1, d2, c1, c2]
  norm_num

end PyV.Props
