import Verif.Props.Mixtures
import Verif.Props.WrapperCvar
import Verif.Props.WrapperRobust
import Verif.Props.RobustDuality
import Mathlib.Tactic

/-! # Properties C275–C277: small errors in the inputs do small damage -/

namespace PyV.Props

open PyV PyV.Spec PyV.Risk

/-! ## C275: risk numbers -/

section generic

variable {K : Type*} [Field K] [LinearOrder K] [IsStrictOrderedRing K] {T : ℕ}

theorem expect_mono' {p x y : Fin T → K} (hp : IsProb p) (h : ∀ t, x t ≤ y t) : expect p x ≤ expect p y :=
  Finset.sum_le_sum fun t _ => mul_le_mul_of_nonneg_left (h t) (hp.nonneg t)

theorem cvar_le_shift {p x y : Fin T → K} (hp : IsProb p) {conf e v u : K} (h1 : conf < 1) (hxy : ∀ t, x t - e ≤ y t)
    (hv : IsCvar p x conf v) (hu : IsCvar p y conf u) : u ≤ v + e := by
  obtain ⟨⟨a, rfl⟩, -⟩ := hv
  refine (hu.2 ⟨a + e, rfl⟩).trans ?_
  unfold ru
  have : expect p (fun t => max (-(y t) - (a + e)) 0) ≤ expect p (fun t => max (-(x t) - a) 0) :=
    expect_mono' hp fun t => max_le_max (by linarith [hxy t]) le_rfl
  have h2 := div_le_div_of_nonneg_right this (sub_nonneg.2 h1.le)
  linarith

private theorem var_le {p x y : Fin T → K} (hp : IsProb p) {conf e v u : K} (hxy : ∀ t, x t - e ≤ y t)
    (hv : IsVar p x conf v) (hu : IsVar p y conf u) : u ≤ v + e := by
  by_contra hc
  push Not at hc
  have : prob p (fun t => y t ≤ -u) ≤ prob p (fun t => x t < -v) := by
    unfold prob
    refine Finset.sum_le_sum fun t _ => ?_
    by_cases h : y t ≤ -u
    · rw [if_pos h, if_pos (by linarith [hxy t])]
    · rw [if_neg h]
      split
      · exact hp.nonneg t
      · exact le_rfl
  exact absurd (lt_of_lt_of_le (lt_of_le_of_lt this hv.1) hu.2) (lt_irrefl _)

variable {N M : ℕ}

/-- **C275** Stable in the scenarios and the weights: if the P&L of two portfolios (or of one portfolio under two sets of scenarios) differ by at most `e` in
every scenario, their VaRs and CVaRs differ by at most `e`, and by at most `2 e` when the mean is taken out. -/
theorem C275_scenarios {argsort : (Fin T → K) → Equiv.Perm (Fin T)} (hs : IsArgsort argsort) (w : Fin N → K) (R : Fin T → Fin N → K) (w' : Fin M → K)
    (R' : Fin T → Fin M → K) {p : Fin T → K} (hp : IsProb p) {conf : K} (h0 : 0 < conf) (h1 : conf < 1) (demean : Bool) {e : K}
    (he : ∀ t, |∑ i, R t i * w i - ∑ i, R' t i * w' i| ≤ e) :
    ∃ v v' u u', portfolioVar argsort w R (some p) (some conf) demean = .ok v ∧ portfolioVar argsort w' R' (some p) (some conf) demean = .ok v' ∧
      portfolioCvar argsort w R (some p) (some conf) demean = .ok u ∧ portfolioCvar argsort w' R' (some p) (some conf) demean = .ok u' ∧
      |v - v'| ≤ (if demean then 2 * e else e) ∧ |u - u'| ≤ (if demean then 2 * e else e) := by
  obtain ⟨v, hv, av⟩ := portfolioVar_ok (w := w) (R := R) (p := some p) (demean := demean) hs hp h0 h1
  obtain ⟨v', hv', av'⟩ := portfolioVar_ok (w := w') (R := R') (p := some p) (demean := demean) hs hp h0 h1
  obtain ⟨u, hu, au⟩ := portfolioCvar_ok (w := w) (R := R) (p := some p) (demean := demean) hs hp h0 h1
  obtain ⟨u', hu', au'⟩ := portfolioCvar_ok (w := w') (R := R') (p := some p) (demean := demean) hs hp h0 h1
  have hp' : ∀ t, |Risk.pnl R w t - Risk.pnl R' w' t| ≤ e := he
  have hmean : |expect p (Risk.pnl R w) - expect p (Risk.pnl R' w')| ≤ e := by
    have e1 : expect p (Risk.pnl R w) - expect p (Risk.pnl R' w') = expect p (fun t => Risk.pnl R w t - Risk.pnl R' w' t) := by
      unfold expect
      rw [← Finset.sum_sub_distrib]
      exact Finset.sum_congr rfl fun t _ => by ring
    have hc : ∀ k : K, expect p (fun _ => k) = k := fun k => by unfold expect; rw [← Finset.sum_mul, hp.sum, one_mul]
    rw [e1, abs_le]
    constructor
    · rw [← hc (-e)]
      exact expect_mono' hp fun t => (abs_le.1 (hp' t)).1
    · conv_rhs => rw [← hc e]
      exact expect_mono' hp fun t => (abs_le.1 (hp' t)).2
  have hx : ∀ t, |effPnl w R (some p) demean t - effPnl w' R' (some p) demean t| ≤ (if demean then 2 * e else e) := by
    intro t
    rw [eff_shift, eff_shift]
    cases demean with
    | false => simpa using hp' t
    | true =>
      simp only [if_true]
      have a := abs_le.1 (hp' t)
      have b := abs_le.1 hmean
      rw [abs_le]
      constructor <;> linarith
  refine ⟨v, v', u, u', hv, hv', hu, hu', abs_le.2 ⟨?_, ?_⟩, abs_le.2 ⟨?_, ?_⟩⟩
  · have := var_le hp (fun t => by have := abs_le.1 (hx t); linarith) av av'
    linarith
  · have := var_le hp (fun t => by have := abs_le.1 (hx t); linarith) av' av
    linarith
  · have := cvar_le_shift hp h1 (fun t => by have := abs_le.1 (hx t); linarith) au au'
    linarith
  · have := cvar_le_shift hp h1 (fun t => by have := abs_le.1 (hx t); linarith) au' au
    linarith

/-- Moving a share of the probability moves an average by at most that share of the range. -/
theorem expect_change {p q f : Fin T → K} (hp : IsProb p) (hq : IsProb q) {D : K} (hD : ∀ s t, f s - f t ≤ D) :
    expect q f - expect p f ≤ D * ((∑ t, |q t - p t|) / 2) := by
  obtain ⟨m, hm⟩ : ∃ m, ∀ t, f m ≤ f t := by
    have : Nonempty (Fin T) := by
      by_contra hc
      rw [not_nonempty_iff] at hc
      have := hp.sum
      rw [Finset.univ_eq_empty, Finset.sum_empty] at this
      exact zero_ne_one this
    obtain ⟨m, -, hm⟩ := Finset.exists_min_image Finset.univ f Finset.univ_nonempty
    exact ⟨m, fun t => hm t (Finset.mem_univ _)⟩
  have hsum : ∑ t, (q t - p t) = 0 := by rw [Finset.sum_sub_distrib, hp.sum, hq.sum, sub_self]
  have hpos : ∑ t, max (q t - p t) 0 = (∑ t, |q t - p t|) / 2 := by
    have h2 : ∀ t, max (q t - p t) 0 = ((q t - p t) + |q t - p t|) / 2 := by
      intro t
      rcases le_total 0 (q t - p t) with h | h
      · rw [max_eq_left h, abs_of_nonneg h]; ring
      · rw [max_eq_right h, abs_of_nonpos h]; ring
    rw [Finset.sum_congr rfl fun t _ => h2 t, ← Finset.sum_div, Finset.sum_add_distrib, hsum, zero_add]
  have h3 : expect q f - expect p f = ∑ t, (q t - p t) * (f t - f m) := by
    have : ∑ t, (q t - p t) * (f t - f m) = ∑ t, (q t - p t) * f t - (∑ t, (q t - p t)) * f m := by
      rw [Finset.sum_mul, ← Finset.sum_sub_distrib]
      exact Finset.sum_congr rfl fun t _ => by ring
    rw [this, hsum, zero_mul, sub_zero]
    unfold expect
    rw [← Finset.sum_sub_distrib]
    exact Finset.sum_congr rfl fun t _ => by ring
  rw [h3, ← hpos, Finset.mul_sum]
  refine Finset.sum_le_sum fun t _ => ?_
  have hf := sub_nonneg.2 (hm t)
  calc (q t - p t) * (f t - f m) ≤ max (q t - p t) 0 * (f t - f m) := mul_le_mul_of_nonneg_right (le_max_left _ _) hf
    _ ≤ max (q t - p t) 0 * D := mul_le_mul_of_nonneg_left (hD t m) (le_max_right _ _)
    _ = D * max (q t - p t) 0 := mul_comm _ _

/-- **C275** Stable in the probabilities: if the P&L of the portfolio varies by at most `D` over the scenarios, moving a share `δ` of the probability (half the
sum of the absolute changes) changes the CVaR by at most `D δ / (1 - confidence)`. -/
theorem C275_probabilities {argsort : (Fin T → K) → Equiv.Perm (Fin T)} (hs : IsArgsort argsort) (w : Fin N → K) (R : Fin T → Fin N → K)
    {p q : Fin T → K} (hp : IsProb p) (hq : IsProb q) {conf : K} (h0 : 0 < conf) (h1 : conf < 1) {D : K}
    (hD : ∀ s t, ∑ i, R s i * w i - ∑ i, R t i * w i ≤ D) :
    ∃ u u', portfolioCvar argsort w R (some p) (some conf) false = .ok u ∧ portfolioCvar argsort w R (some q) (some conf) false = .ok u' ∧
      |u - u'| ≤ D * ((∑ t, |q t - p t|) / 2) / (1 - conf) := by
  have key : ∀ {p q : Fin T → K} {u u' : K}, IsProb p → IsProb q → IsCvar p (effPnl w R (some p) false) conf u →
      IsCvar q (effPnl w R (some q) false) conf u' → u' ≤ u + D * ((∑ t, |q t - p t|) / 2) / (1 - conf) := by
    intro p q u u' hp hq hu hu'
    rw [eff_shift] at hu hu'
    simp only [Bool.false_eq_true, if_false, sub_zero] at hu hu'
    obtain ⟨⟨a, rfl⟩, -⟩ := hu
    refine (hu'.2 ⟨a, rfl⟩).trans ?_
    unfold ru
    have := expect_change (f := fun t => max (-(Risk.pnl R w t) - a) 0) hp hq (D := D) (by
      intro s t
      have hst : Risk.pnl R w t - Risk.pnl R w s ≤ D := hD t s
      have hDD : 0 ≤ D := by
        have := hD s s
        rwa [sub_self] at this
      rcases le_total (-(Risk.pnl R w s) - a) 0 with h | h
      · rw [max_eq_right h]
        have := le_max_right (-(Risk.pnl R w t) - a) 0
        linarith
      · rw [max_eq_left h]
        have := le_max_left (-(Risk.pnl R w t) - a) 0
        linarith)
    have h2 := div_le_div_of_nonneg_right this (sub_nonneg.2 h1.le)
    rw [sub_div] at h2
    linarith
  obtain ⟨u, hu, au⟩ := portfolioCvar_ok (w := w) (R := R) (p := some p) (demean := false) hs hp h0 h1
  obtain ⟨u', hu', au'⟩ := portfolioCvar_ok (w := w) (R := R) (p := some q) (demean := false) hs hq h0 h1
  refine ⟨u, u', hu, hu', abs_le.2 ⟨?_, ?_⟩⟩
  · have := key hp hq au au'
    linarith
  · have := key hq hp au' au
    have e : ∑ t, |p t - q t| = ∑ t, |q t - p t| := Finset.sum_congr rfl fun t _ => abs_sub_comm _ _
    rw [e] at this
    linarith

/-- **C275** does not extend to VaR: an arbitrarily small share of the probability can move it by the whole range of the P&L. -/
theorem C275_var_jumps {argsort : (Fin 2 → K) → Equiv.Perm (Fin 2)} (hs : IsArgsort argsort) {d : K} (hd : 0 < d) (hd' : d < 1 / 20) :
    ∃ p q : Fin 2 → K, IsProb p ∧ IsProb q ∧ (∑ t, |q t - p t|) / 2 = d ∧
      portfolioVar argsort (fun _ : Fin 1 => 1) ![fun _ => -1, fun _ => 0] (some p) (some (95 / 100)) false = .ok 1 ∧
      portfolioVar argsort (fun _ : Fin 1 => 1) ![fun _ => -1, fun _ => 0] (some q) (some (95 / 100)) false = .ok 0 := by
  have hp : IsProb ![(1 / 20 : K), 19 / 20] := by
    refine ⟨fun t => by fin_cases t <;> norm_num, by rw [Fin.sum_univ_two]; norm_num⟩
  have hq : IsProb ![1 / 20 - d, 19 / 20 + d] := by
    refine ⟨fun t => ?_, by rw [Fin.sum_univ_two]; show 1 / 20 - d + (19 / 20 + d) = 1; ring⟩
    fin_cases t
    · show 0 ≤ 1 / 20 - d; linarith
    · show 0 ≤ 19 / 20 + d; linarith
  refine ⟨_, _, hp, hq, ?_, ?_, ?_⟩
  · rw [Fin.sum_univ_two]
    show (|1 / 20 - d - 1 / 20| + |19 / 20 + d - 19 / 20|) / 2 = d
    rw [show 1 / 20 - d - 1 / 20 = -d by ring, show 19 / 20 + d - 19 / 20 = d by ring, abs_neg, abs_of_pos hd]
    ring
  · obtain ⟨v, hv, av⟩ := portfolioVar_ok (w := fun _ : Fin 1 => (1:K)) (R := ![fun _ => -1, fun _ => 0]) (p := some ![(1 / 20 : K), 19 / 20])
      (conf := 95 / 100) (demean := false) hs hp (by norm_num) (by norm_num)
    rw [hv]
    congr 1
    refine isVar_unique hp.nonneg av ?_
    rw [eff_shift]
    simp only [Bool.false_eq_true, if_false, sub_zero]
    constructor <;> norm_num [prob, Risk.pnl, Fin.sum_univ_two]
  · obtain ⟨v, hv, av⟩ := portfolioVar_ok (w := fun _ : Fin 1 => (1:K)) (R := ![fun _ => -1, fun _ => 0]) (p := some ![1 / 20 - d, 19 / 20 + d])
      (conf := 95 / 100) (demean := false) hs hq (by norm_num) (by norm_num)
    rw [hv]
    congr 1
    refine isVar_unique hq.nonneg av ?_
    rw [eff_shift]
    simp only [Bool.false_eq_true, if_false, sub_zero]
    constructor
    · norm_num [prob, Risk.pnl, Fin.sum_univ_two]
      linarith
    · norm_num [prob, Risk.pnl, Fin.sum_univ_two]

end generic

/-- The bounds of C275 apply to two portfolios whose P&L differ by at most 1/10. -/
example : ∀ t : Fin 2, |∑ i : Fin 1, (![fun _ => 1, fun _ => 0] : Fin 2 → Fin 1 → ℚ) t i * 1 -
    ∑ i : Fin 1, (![fun _ => 1, fun _ => 0] : Fin 2 → Fin 1 → ℚ) t i * (9 / 10)| ≤ 1 / 10 := by
  intro t
  fin_cases t <;> norm_num [abs_le]

/-! ## C276, C277: optimal portfolios -/

section optimal

open PyV.Api PyV.Spec.Api PyV.Opt PyV.Spec.Opt PyV.Spec.Con Matrix

variable {N : ℕ}

private theorem ret_close {mu mu' x : Fin N → ℝ} {e G : ℝ} (he : ∀ i, |mu' i - mu i| ≤ e) (hx : ∑ i, |x i| ≤ G) (h0 : 0 ≤ e) :
    |ret mu' x - ret mu x| ≤ e * G := by
  have h : ret mu' x - ret mu x = ∑ i, (mu' i - mu i) * x i := by
    unfold ret
    rw [← Finset.sum_sub_distrib]
    exact Finset.sum_congr rfl fun i _ => by ring
  rw [h]
  calc |∑ i, (mu' i - mu i) * x i| ≤ ∑ i, |(mu' i - mu i) * x i| := Finset.abs_sum_le_sum_abs _ _
    _ ≤ ∑ i, e * |x i| := Finset.sum_le_sum fun i _ => by rw [abs_mul]; exact mul_le_mul_of_nonneg_right (he i) (abs_nonneg _)
    _ = e * ∑ i, |x i| := (Finset.mul_sum _ _ _).symm
    _ ≤ e * G := mul_le_mul_of_nonneg_left hx h0

private theorem quad_close {S S' : Fin N → Fin N → ℝ} {x : Fin N → ℝ} {e G : ℝ} (he : ∀ i j, |S' i j - S i j| ≤ e) (hx : ∑ i, |x i| ≤ G) (h0 : 0 ≤ e) :
    |quad S' x - quad S x| ≤ e * G ^ 2 := by
  have h : quad S' x - quad S x = ∑ i, ∑ j, x i * (S' i j - S i j) * x j := by
    unfold quad
    rw [← Finset.sum_sub_distrib]
    refine Finset.sum_congr rfl fun i _ => ?_
    rw [← Finset.sum_sub_distrib]
    exact Finset.sum_congr rfl fun j _ => by ring
  have hs : 0 ≤ ∑ i, |x i| := Finset.sum_nonneg fun i _ => abs_nonneg _
  rw [h]
  calc |∑ i, ∑ j, x i * (S' i j - S i j) * x j| ≤ ∑ i, |∑ j, x i * (S' i j - S i j) * x j| := Finset.abs_sum_le_sum_abs _ _
    _ ≤ ∑ i, ∑ j, |x i * (S' i j - S i j) * x j| := Finset.sum_le_sum fun i _ => Finset.abs_sum_le_sum_abs _ _
    _ ≤ ∑ i, ∑ j, |x i| * e * |x j| := by
      refine Finset.sum_le_sum fun i _ => Finset.sum_le_sum fun j _ => ?_
      rw [abs_mul, abs_mul]
      exact mul_le_mul_of_nonneg_right (mul_le_mul_of_nonneg_left (he i j) (abs_nonneg _)) (abs_nonneg _)
    _ = e * (∑ i, |x i|) ^ 2 := by
      rw [sq, Finset.sum_mul_sum, Finset.mul_sum]
      refine Finset.sum_congr rfl fun i _ => ?_
      rw [Finset.mul_sum]
      exact Finset.sum_congr rfl fun j _ => by ring
    _ ≤ e * G ^ 2 := mul_le_mul_of_nonneg_left (pow_le_pow_left₀ hs hx 2) h0

/-- **C276** Errors in the covariance: let every entry of the covariance used be within `e` of the true one and the gross exposure of every allowed portfolio be
at most `G`. The portfolio `min_variance_at_return` chooses with the wrong covariance has a true variance (plus impact cost) at most `2 e G²` above the best
attainable, and the variance it reports is within `e G²` of the true one. -/
theorem C276_covariance_error {s1 s2 : Opt.Solver} (hs1 : Sound s1) (hc1 : Complete s1) (hs2 : Sound s2) (hc2 : Complete s2)
    (w w' : Wrapper N) (mu : Fin N → ℝ) (cov cov' : Matrix (Fin N) (Fin N) ℝ) (hmu : w.mu = some mu) (hcov : w.cov = some cov)
    (hmu' : w'.mu = some mu) (hcov' : w'.cov = some cov') (hlog : w.isLog = false) (hlog' : w'.isLog = false)
    (hpsd : IsCov (fun i j => cov i j)) (hpsd' : IsCov (fun i j => cov' i j))
    (con con' : Option (PyV.Con.Spec ℝ)) (c : PyV.Con.Spec ℝ) (hin : InForce w con c) (hin' : InForce w' con' c)
    (costs costs' : Option Costs) (w0 imp prop prop' : Option (Fin N → ℝ)) (htr : Trading w costs w0 imp prop) (htr' : Trading w' costs' w0 imp prop')
    (himp : ∀ l, imp = some l → ∀ i, 0 ≤ l i) {e G : ℝ} (h0 : 0 ≤ e) (he : ∀ i j, |cov' i j - cov i j| ≤ e)
    (hG : ∀ x : Fin N → ℝ, Satisfies c x → ∑ i, |x i| ≤ G) (target : ℝ) (hne : ∃ x : Fin N → ℝ, Satisfies c x ∧ target ≤ ret mu x) :
    ∃ r r', w.minVarianceAtReturn s1 target con costs = .ok r ∧ w'.minVarianceAtReturn s2 target con' costs' = .ok r' ∧
      varianceCost (fun i j => cov i j) w0 imp r.w ≤ varianceCost (fun i j => cov i j) w0 imp r'.w ∧
      varianceCost (fun i j => cov i j) w0 imp r'.w ≤ varianceCost (fun i j => cov i j) w0 imp r.w + 2 * e * G ^ 2 ∧
      |r'.risk ^ 2 - quad (fun i j => cov i j) r'.w| ≤ e * G ^ 2 := by
  have hb : ∃ M, ∀ x : Fin N → ℝ, Satisfies c x → ∀ i, |x i| ≤ M :=
    ⟨G, fun x hx i => (Finset.single_le_sum (f := fun i => |x i|) (fun j _ => abs_nonneg _) (Finset.mem_univ i)).trans (hG x hx)⟩
  obtain ⟨r, hr, hsat, hge, hret, -, hbest⟩ := (C107_min_variance_at_return hs1 hc1 w mu cov hmu hcov hlog hpsd con c hin hb costs w0 imp prop htr himp
    target).1 hne
  obtain ⟨r', hr', hsat', hge', hret', hrisk', hbest'⟩ := (C107_min_variance_at_return hs2 hc2 w' mu cov' hmu' hcov' hlog' hpsd' con' c hin' hb costs' w0 imp
    prop' htr' himp target).1 hne
  have h1 := hbest r'.w hsat' (by rw [← hret']; exact hge')
  have h2 := hbest' r.w hsat (by rw [← hret]; exact hge)
  have a1 := quad_close (S := fun i j => cov i j) (S' := fun i j => cov' i j) he (hG _ hsat) h0
  have a2 := quad_close (S := fun i j => cov i j) (S' := fun i j => cov' i j) he (hG _ hsat') h0
  refine ⟨r, r', hr, hr', h1, ?_, ?_⟩
  · unfold varianceCost at h2 ⊢
    have b1 := abs_le.1 a1
    have b2 := abs_le.1 a2
    linarith
  · have hq : 0 ≤ quad (fun i j => cov' i j) r'.w := hpsd'.2 _
    rw [hrisk', Real.sq_sqrt hq]
    exact a2

/-- **C276** Errors in the expected returns: let every expected return used be within `e` of the true one. The penalised robust portfolio chosen with the wrong
returns is, judged by the true ones, at most `2 e G` worse than the best, at every penalty. -/
theorem C276_mean_error {s1 s2 : Opt.Solver} (hs1 : Sound s1) (hc1 : Complete s1) (hs2 : Sound s2) (hc2 : Complete s2) {f1 f2 : Bayes.Factor}
    (hf1 : CholOk f1) (hf2 : CholOk f2) (w w' : Wrapper N) (mu mu' : Fin N → ℝ) (cov cov' : Matrix (Fin N) (Fin N) ℝ)
    (hmu : w.mu = some mu) (hcov : w.cov = some cov) (hmu' : w'.mu = some mu') (hcov' : w'.cov = some cov')
    (hS : ∃ L, IsChol (w.unc.getD cov) L) (hSS : w'.unc.getD cov' = w.unc.getD cov)
    (con con' : Option (PyV.Con.Spec ℝ)) (c : PyV.Con.Spec ℝ) (hin : InForce w con c) (hin' : InForce w' con' c) (hne : ∃ x : Fin N → ℝ, Satisfies c x)
    (costs costs' : Option Costs) (w0 imp w0' imp' : Option (Fin N → ℝ)) (htr : Trading w costs w0 imp none) (htr' : Trading w' costs' w0' imp' none)
    {e G : ℝ} (h0 : 0 ≤ e) (he : ∀ i, |mu' i - mu i| ≤ e) (hG : ∀ x : Fin N → ℝ, Satisfies c x → ∑ i, |x i| ≤ G)
    (num : ℤ) (maxLam : ℝ) (lambdas : Option (List ℝ)) (hg : ∃ grid, PenaltyGrid num maxLam lambdas grid) :
    ∃ (R R' : List (Column N)) (rho : (Fin N → ℝ) → ℝ), w.robustFrontier s1 f1 num maxLam lambdas con costs = .ok R ∧
      w'.robustFrontier s2 f2 num maxLam lambdas con' costs' = .ok R' ∧ IsEstimationRisk (w.unc.getD cov) rho ∧
      ∀ col ∈ R, ∀ col' ∈ R', col.lam = col'.lam →
        ret mu col'.w - col.lam * rho col'.w ≤ ret mu col.w - col.lam * rho col.w ∧
        ret mu col.w - col.lam * rho col.w - 2 * e * G ≤ ret mu col'.w - col.lam * rho col'.w := by
  have hb : ∃ M, ∀ x : Fin N → ℝ, Satisfies c x → ∀ i, |x i| ≤ M :=
    ⟨G, fun x hx i => (Finset.single_le_sum (f := fun i => |x i|) (fun j _ => abs_nonneg _) (Finset.mem_univ i)).trans (hG x hx)⟩
  obtain ⟨grid, hgrid⟩ := hg
  obtain ⟨R, hR, -, -, -, rho, hrho, hcol⟩ := (C110_robust_frontier_partial hs1 hc1 hf1 w mu cov hmu hcov hS con c hin hb hne costs w0 imp htr num maxLam
    lambdas).1 grid hgrid
  obtain ⟨R', hR', -, -, -, rho', hrho', hcol'⟩ := (C110_robust_frontier_partial hs2 hc2 hf2 w' mu' cov' hmu' hcov' (by rw [hSS]; exact hS) con' c hin' hb hne
    costs' w0' imp' htr' num maxLam lambdas).1 grid hgrid
  rw [hSS] at hrho'
  obtain rfl := estimationRisk_unique hrho hrho'
  refine ⟨R, R', rho, hR, hR', hrho, fun col hc col' hc' hl => ?_⟩
  obtain ⟨hsat, -, -, -, hopt⟩ := hcol col hc
  obtain ⟨hsat', -, -, -, hopt'⟩ := hcol' col' hc'
  have h1 := hopt col'.w hsat'
  have h2 := hopt' col.w hsat
  rw [← hl] at h2
  have a1 := abs_le.1 (ret_close he (hG _ hsat) h0)
  have a2 := abs_le.1 (ret_close he (hG _ hsat') h0)
  constructor <;> linarith

/-- **C277** Errors in the scenarios: let every scenario return used be within `e` of the true one, and the target be one that every allowed portfolio meets
(the minimum-CVaR portfolio). The portfolio chosen with the wrong scenarios has a true CVaR at most `2 e G` above the best attainable. -/
theorem C277_scenario_error {s1 s2 : Opt.Solver} (hs1 : Sound s1) (hc1 : Complete s1) (hs2 : Sound s2) (hc2 : Complete s2) (a1 a2 : Argsort)
    (ha1 : ∀ T, IsArgsort (a1 T)) (ha2 : ∀ T, IsArgsort (a2 T)) (sim : Sim) (w w' : Wrapper N) {T : ℕ} (R R' : Fin T → Fin N → ℝ) {p : Fin T → ℝ}
    (hp : IsProb p) (hscen : w.scen = some ⟨T, R, p⟩) (hscen' : w'.scen = some ⟨T, R', p⟩) (hlog : w.isLog = false) (hlog' : w'.isLog = false)
    (con con' : Option (PyV.Con.Spec ℝ)) (c : PyV.Con.Spec ℝ) (hin : InForce w con c) (hin' : InForce w' con' c) (hne : ∃ x : Fin N → ℝ, Satisfies c x)
    (htr : Trading w none none none none) (htr' : Trading w' none none none none)
    {e G : ℝ} (h0 : 0 ≤ e) (he : ∀ t i, |R' t i - R t i| ≤ e) (hG : ∀ x : Fin N → ℝ, Satisfies c x → ∑ i, |x i| ≤ G)
    (target alpha : ℝ) (hal : 0 < alpha) (hal' : alpha < 1) (seed seed' : Option ℤ)
    (ht : ∀ x : Fin N → ℝ, Satisfies c x → target ≤ ret (scenMean ⟨T, R, p⟩) x ∧ target ≤ ret (scenMean ⟨T, R', p⟩) x) :
    ∃ r r' best true', w.minCvarAtReturn s1 a1 sim target alpha seed con none = .ok r ∧ w'.minCvarAtReturn s2 a2 sim target alpha seed' con' none = .ok r' ∧
      IsCvar p (fun t => ∑ i, R t i * r.w i) (1 - alpha) best ∧ IsCvar p (fun t => ∑ i, R t i * r'.w i) (1 - alpha) true' ∧
      best ≤ true' ∧ true' ≤ best + 2 * e * G := by
  have hb : ∃ M, ∀ x : Fin N → ℝ, Satisfies c x → ∀ i, |x i| ≤ M :=
    ⟨G, fun x hx i => (Finset.single_le_sum (f := fun i => |x i|) (fun j _ => abs_nonneg _) (Finset.mem_univ i)).trans (hG x hx)⟩
  obtain ⟨x0, hx0⟩ := hne
  obtain ⟨r, hr, hsat, -, -, -, v, hv, -, hbest⟩ := (C109_min_cvar_at_return_partial hs1 hc1 a1 ha1 sim w _ hscen hp hlog con c hin hb none none none none htr
    (by simp) target alpha hal hal' seed).1 ⟨x0, hx0, (ht x0 hx0).1⟩
  obtain ⟨r', hr', hsat', -, -, -, v', hv', -, hbest'⟩ := (C109_min_cvar_at_return_partial hs2 hc2 a2 ha2 sim w' _ hscen' hp hlog' con' c hin' hb none none none
    none htr' (by simp) target alpha hal hal' seed').1 ⟨x0, hx0, (ht x0 hx0).2⟩
  have hex : ∀ (Q : Fin T → Fin N → ℝ) (x : Fin N → ℝ), ∃ u, IsCvar p (fun t => ∑ i, Q t i * x i) (1 - alpha) u := by
    intro Q x
    obtain ⟨u, -, hu⟩ := (C12_cvar_is_ru_minimum (ha1 T) x Q (some p) hp (1 - alpha) false).1 ⟨by linarith, by linarith⟩
    rw [eff_shift] at hu
    simp only [Bool.false_eq_true, if_false, sub_zero] at hu
    exact ⟨u, hu⟩
  obtain ⟨u, hu⟩ := hex R r'.w
  obtain ⟨u', hu'⟩ := hex R' r.w
  have h1 := hbest r'.w u hsat' (ht _ hsat').1 hu
  have h2 := hbest' r.w u' hsat (ht _ hsat).2 hu'
  have hclose : ∀ x : Fin N → ℝ, Satisfies c x → ∀ t, |∑ i, R' t i * x i - ∑ i, R t i * x i| ≤ e * G :=
    fun x hx t => ret_close (mu := R t) (mu' := R' t) (he t) (hG x hx) h0
  have hlt : (1:ℝ) - alpha < 1 := by linarith
  have h3 : u ≤ v' + e * G := cvar_le_shift hp hlt (fun t => by
    have := abs_le.1 (hclose r'.w hsat' t)
    show (∑ i, R' t i * r'.w i) - e * G ≤ _
    linarith) hv' hu
  have h4 : u' ≤ v + e * G := cvar_le_shift hp hlt (fun t => by
    have := abs_le.1 (hclose r.w hsat t)
    show (∑ i, R t i * r.w i) - e * G ≤ _
    linarith) hv hu'
  refine ⟨r, r', v, u, hr, hr', hv, hu, ?_, ?_⟩
  · simpa [turnoverCost] using h1
  · have : v' ≤ u' := by simpa [turnoverCost] using h2
    linarith

private theorem gross_default {n : ℕ} (x : Fin n → ℝ) (h : Satisfies PyV.Con.defaultSpec x) : ∑ i, |x i| ≤ 1 := by
  obtain ⟨h0, h1⟩ := (satisfies_default x).1 h
  rw [Finset.sum_congr rfl fun i _ => abs_of_nonneg (h0 i), h1]

private theorem diag_cov {a b : ℝ} (ha : 0 ≤ a) (hb : 0 ≤ b) : IsCov (fun i j => (!![a, 0; 0, b] : Matrix (Fin 2) (Fin 2) ℝ) i j) := by
  refine ⟨fun i j => by fin_cases i <;> fin_cases j <;> simp, fun x => ?_⟩
  simp [Fin.sum_univ_two]
  nlinarith [mul_nonneg ha (sq_nonneg (x 0)), mul_nonneg hb (sq_nonneg (x 1))]

/-- Long-only, fully invested portfolios have a gross exposure of 1: a variance wrong by 1/10 costs at most 1/5. -/
example {solver : Opt.Solver} (hsnd : Sound solver) (hcmp : Complete solver) : ∃ (w w' : Wrapper 2) (r r' : Opt.Result 2),
    w.minVarianceAtReturn solver 0 none none = .ok r ∧ w'.minVarianceAtReturn solver 0 none none = .ok r' ∧
      |r'.risk ^ 2 - quad (fun i j => (!![1, 0; 0, 2] : Matrix (Fin 2) (Fin 2) ℝ) i j) r'.w| ≤ 1 / 10 := by
  obtain ⟨w, hmu, hcov, -, hlog, -, hin, htr⟩ := exists_wrapper (N := 2) (by norm_num) (some ![1 / 10, 1 / 5]) (some !![1, 0; 0, 2]) none false
  obtain ⟨w', hmu', hcov', -, hlog', -, hin', htr'⟩ := exists_wrapper (N := 2) (by norm_num) (some ![1 / 10, 1 / 5]) (some !![1, 0; 0, 21 / 10]) none false
  obtain ⟨r, r', h1, h2, -, -, h3⟩ := C276_covariance_error hsnd hcmp hsnd hcmp w w' _ _ _ hmu hcov hmu' hcov' hlog hlog' (diag_cov (by norm_num) (by norm_num))
    (diag_cov (by norm_num) (by norm_num)) none none _ hin hin' none none none none none none htr htr' (by simp) (e := 1 / 10) (G := 1) (by norm_num)
    (fun i j => by fin_cases i <;> fin_cases j <;> norm_num [abs_le]) gross_default 0
    ⟨![0, 1], (satisfies_default _).2 ⟨by intro i; fin_cases i <;> simp, by simp⟩, by simp [ret, Fin.sum_univ_two]⟩
  exact ⟨w, w', r, r', h1, h2, by linarith⟩

/-- Likewise for scenarios that are wrong by at most 1/10: the true CVaR is at most 1/5 above the best. -/
example {solver : Opt.Solver} (hsnd : Sound solver) (hcmp : Complete solver) (a : Argsort) (ha : ∀ T, IsArgsort (a T)) (sim : Sim) :
    ∃ (w w' : Wrapper 2) (r r' : Opt.Result 2), w.minCvarAtReturn solver a sim (-5) (1 / 10) none none none = .ok r ∧
      w'.minCvarAtReturn solver a sim (-5) (1 / 10) none none none = .ok r' := by
  have hp : IsProb (fun _ : Fin 2 => (1 / 2 : ℝ)) := ⟨fun _ => by norm_num, by simp⟩
  obtain ⟨w, -, -, hsc, hlog, -, hin, htr⟩ := exists_wrapper (N := 2) (by norm_num) none none
    (some ⟨2, ![![1, 0], ![0, 1]], fun _ => 1 / 2⟩) false
  obtain ⟨w', -, -, hsc', hlog', -, hin', htr'⟩ := exists_wrapper (N := 2) (by norm_num) none none
    (some ⟨2, ![![1, 0], ![1 / 10, 1]], fun _ => 1 / 2⟩) false
  obtain ⟨r, r', -, -, h1, h2, -⟩ := C277_scenario_error hsnd hcmp hsnd hcmp a a ha ha sim w w' _ _ hp hsc hsc' hlog hlog' none none _ hin hin'
    ⟨![0, 1], (satisfies_default _).2 ⟨by intro i; fin_cases i <;> simp, by simp⟩⟩ htr htr' (e := 1 / 10) (G := 1) (by norm_num)
    (fun i j => by fin_cases i <;> fin_cases j <;> norm_num [abs_le]) gross_default (-5) (1 / 10) (by norm_num) (by norm_num) none none
    (fun x hx => by
      obtain ⟨h0, h1⟩ := (satisfies_default x).1 hx
      have a0 := h0 0
      have a1 := h0 1
      constructor <;> simp [ret, scenMean, Fin.sum_univ_two] <;> linarith)
  exact ⟨w, w', r, r', h1, h2⟩

end optimal

end PyV.Props
