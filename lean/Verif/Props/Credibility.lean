import Verif.Props.BayesRobust
import Verif.Props.BayesLinear
import Mathlib.Tactic

/-! # Property C256: higher credibility is more conservative, more data less -/

namespace PyV.Props

open PyV PyV.Bayes Matrix

variable {n : ℕ}

/-- The chi-square quantiles SciPy computes: non-negative, and growing with the level. -/
structure Quantiles (ppf : ℝ → ℕ → ℝ) : Prop where
  nonneg : ∀ p k, 0 < p → p < 1 → 0 ≤ ppf p k
  mono : ∀ p p' k, 0 < p → p ≤ p' → p' < 1 → ppf p k ≤ ppf p' k

private theorem quantile_ok {ppf : ℝ → ℕ → ℝ} {p : ℝ} {k : ℕ} (h0 : 0 < p) (h1 : p < 1) : chi2Quantile ppf p k = .ok (ppf p k) := by
  unfold chi2Quantile
  rw [if_neg (not_not.2 ⟨h0, h1⟩)]

private theorem gammaMu_le {q q' T T' v v' : ℝ} (hq : 0 ≤ q) (hqq : q ≤ q') (hT : 0 < T') (hTT : T' ≤ T) (hv : 2 < v') (hvv : v' ≤ v) :
    gammaMu q T v ≤ gammaMu q' T' v' := by
  unfold gammaMu
  refine Real.sqrt_le_sqrt ?_
  have h1 : 0 ≤ v / (v - 2) := div_nonneg (by linarith) (by linarith)
  refine mul_le_mul (div_le_div₀ (hq.trans hqq) hqq hT hTT) ?_ h1 (div_nonneg (hq.trans hqq) hT.le)
  rw [div_le_div_iff₀ (by linarith) (by linarith)]
  nlinarith

private theorem cSigma_le {q q' v : ℝ} (hqq : q ≤ q') (k : ℕ) (hv : 0 < v) : cSigma q v k ≤ cSigma q' v k := by
  unfold cSigma
  dsimp only
  have hd : 0 < v + k + 1 := by positivity
  have h : 2 * v ^ 2 * q / (v + k + 1) ^ 3 ≤ 2 * v ^ 2 * q' / (v + k + 1) ^ 3 :=
    div_le_div_of_nonneg_right (mul_le_mul_of_nonneg_left hqq (by positivity)) (by positivity)
  refine add_le_add le_rfl (Real.sqrt_le_sqrt ?_)
  split_ifs <;> linarith

/-- **C256** (level) For an updated posterior, a higher credibility level never lowers `cred_radius_mu` or `cred_radius_sigma_factor`, so that the worst-case
mean of a portfolio never rises and its worst-case variance never falls. -/
theorem C256_level {ppf : ℝ → ℕ → ℝ} (hq : Quantiles ppf) {o : Niw} {P : Params o.n} (hp : o.post = some P) (hT : 0 < P.T1) (hv : 2 < P.nu1) {p p' : ℝ}
    (h0 : 0 < p) (hpp : p ≤ p') (h1 : p' < 1) :
    ∃ r r' f f', credRadiusMu ppf o p = .ok r ∧ credRadiusMu ppf o p' = .ok r' ∧ credRadiusSigma ppf o p = .ok f ∧ credRadiusSigma ppf o p' = .ok f' ∧
      r ≤ r' ∧ f ≤ f' ∧ ∀ w : Fin o.n → ℝ, w ⬝ᵥ P.mu1 - r' * Real.sqrt (w ⬝ᵥ (P.sigma1 *ᵥ w)) ≤ w ⬝ᵥ P.mu1 - r * Real.sqrt (w ⬝ᵥ (P.sigma1 *ᵥ w)) := by
  have a0 : 0 < p' := h0.trans_le hpp
  have a1 : p < 1 := hpp.trans_lt h1
  have hd : ¬ P.nu1 + o.n + 1 ≤ 0 := by
    have : (0 : ℝ) ≤ o.n := Nat.cast_nonneg _
    linarith
  have mu_ok : ∀ x, 0 < x → x < 1 → credRadiusMu ppf o x = .ok (gammaMu (ppf x o.n) P.T1 P.nu1) := fun x g0 g1 => by
    unfold credRadiusMu
    rw [hp]
    simp only
    rw [if_neg (not_le.2 hv), if_neg (not_not.2 ⟨g0, g1⟩), quantile_ok g0 g1]
  have sg_ok : ∀ x, 0 < x → x < 1 → credRadiusSigma ppf o x = .ok (cSigma (ppf x (o.n * (o.n + 1) / 2)) P.nu1 o.n) := fun x g0 g1 => by
    unfold credRadiusSigma
    rw [hp]
    simp only
    rw [if_neg (not_not.2 ⟨g0, g1⟩), if_neg hd, quantile_ok g0 g1]
  have hr := gammaMu_le (hq.nonneg p o.n h0 a1) (hq.mono p p' o.n h0 hpp h1) hT le_rfl hv le_rfl
  refine ⟨_, _, _, _, mu_ok p h0 a1, mu_ok p' a0 h1, sg_ok p h0 a1, sg_ok p' a0 h1, hr, cSigma_le (hq.mono p p' _ h0 hpp h1) _ (by linarith), fun w => ?_⟩
  have := mul_le_mul_of_nonneg_right hr (Real.sqrt_nonneg (w ⬝ᵥ (P.sigma1 *ᵥ w)))
  linarith

private theorem fromNiw_counts {factor : Factor} {mu sm : Fin n → ℝ} {S Ss : Matrix (Fin n) (Fin n) ℝ} {l l' k k'} {t0 nu0 nObs : ℕ} {R : Robust}
    (h : fromNiw factor ⟨n, mu, l⟩ ⟨n, n, S, l'⟩ t0 nu0 ⟨n, sm, k⟩ ⟨n, n, Ss, k'⟩ nObs = .ok R) :
    R.nu1 = some ((nu0 : ℝ) + nObs) ∧ R.nAssets = some n ∧ R.T1 = some ((t0 : ℝ) + nObs) ∧ (0 : ℝ) < t0 + nObs ∧ (2 : ℝ) < nu0 + nObs := by
  have h' := h
  unfold fromNiw at h
  simp only [pyInt_natCast, Int.cast_natCast] at h
  cases ho : init factor ⟨n, mu, l⟩ ⟨n, n, S, l'⟩ t0 nu0 with
  | error e => rw [ho] at h; cases h
  | ok o =>
    rw [ho] at h
    dsimp only at h
    cases hu : update factor o ⟨n, sm, k⟩ ⟨n, n, Ss, k'⟩ nObs with
    | error e => rw [hu] at h; cases h
    | ok P =>
      obtain ⟨b1, b2⟩ := C85_bundle (fun _ _ => 0) ho hu
      obtain ⟨g1, -, -, idx, -, rfl⟩ := init_ok ho
      obtain ⟨-, hN, -, -, -, hP, -⟩ := update_ok (n := n) rfl hu
      have e1 : P.nu1 = (nu0 : ℝ) + nObs := by rw [hP]; simp [pyInt_natCast]
      have e2 : P.T1 = (t0 : ℝ) + nObs := by rw [hP]; simp [pyInt_natCast]
      by_cases hv : P.nu1 ≤ 2
      · rw [b1 hv] at h'; cases h'
      · push Not at hv
        obtain ⟨Sg, Sm, hR, -⟩ := b2 hv
        rw [hR] at h'
        injection h' with h'
        subst h'
        exact ⟨by rw [← e1], rfl, by rw [← e2], by positivity, by rw [← e1]; exact hv⟩

/-- **C256** (bundle and data) For `RobustBayesPosterior.from_niw`: a higher level never lowers either radius; more observations with the same prior counts
never enlarge the region of the mean at the same level. -/
theorem C256_bundle {ppf : ℝ → ℕ → ℝ} (hq : Quantiles ppf) {factor : Factor} {mu sm sm' : Fin n → ℝ} {S Ss Ss' : Matrix (Fin n) (Fin n) ℝ} {l l' k k' m m'}
    {t0 nu0 nObs nObs' : ℕ} {R R' : Robust}
    (h : fromNiw factor ⟨n, mu, l⟩ ⟨n, n, S, l'⟩ t0 nu0 ⟨n, sm, k⟩ ⟨n, n, Ss, k'⟩ nObs = .ok R)
    (h' : fromNiw factor ⟨n, mu, l⟩ ⟨n, n, S, l'⟩ t0 nu0 ⟨n, sm', m⟩ ⟨n, n, Ss', m'⟩ nObs' = .ok R')
    {p p' : ℝ} (h0 : 0 < p) (hpp : p ≤ p') (h1 : p' < 1) :
    (∃ r r' f f', rCredRadiusMu ppf R p = .ok r ∧ rCredRadiusMu ppf R p' = .ok r' ∧ rCredRadiusSigma ppf R p = .ok f ∧
      rCredRadiusSigma ppf R p' = .ok f' ∧ r ≤ r' ∧ f ≤ f') ∧
    (nObs ≤ nObs' → ∃ r r', rCredRadiusMu ppf R p = .ok r ∧ rCredRadiusMu ppf R' p = .ok r' ∧ r' ≤ r) := by
  obtain ⟨c1, c2, c3, c4, c5⟩ := fromNiw_counts h
  obtain ⟨d1, d2, d3, d4, d5⟩ := fromNiw_counts h'
  have a0 : 0 < p' := h0.trans_le hpp
  have a1 : p < 1 := hpp.trans_lt h1
  have mu_ok : ∀ x, 0 < x → x < 1 → rCredRadiusMu ppf R x = .ok (gammaMu (ppf x n) (t0 + nObs) (nu0 + nObs)) := fun x g0 g1 => by
    unfold rCredRadiusMu; rw [c1, c2, c3]; simp only; rw [quantile_ok g0 g1]
  have mu_ok' : ∀ x, 0 < x → x < 1 → rCredRadiusMu ppf R' x = .ok (gammaMu (ppf x n) (t0 + nObs') (nu0 + nObs')) := fun x g0 g1 => by
    unfold rCredRadiusMu; rw [d1, d2, d3]; simp only; rw [quantile_ok g0 g1]
  have sg_ok : ∀ x, 0 < x → x < 1 → rCredRadiusSigma ppf R x = .ok (cSigma (ppf x (n * (n + 1) / 2)) (nu0 + nObs) n) := fun x g0 g1 => by
    unfold rCredRadiusSigma; rw [c1, c2]; simp only; rw [quantile_ok g0 g1]
  refine ⟨⟨_, _, _, _, mu_ok p h0 a1, mu_ok p' a0 h1, sg_ok p h0 a1, sg_ok p' a0 h1,
    gammaMu_le (hq.nonneg p n h0 a1) (hq.mono p p' n h0 hpp h1) c4 le_rfl c5 le_rfl, cSigma_le (hq.mono p p' _ h0 hpp h1) _ (by linarith)⟩, fun hle => ?_⟩
  have hc : (nObs : ℝ) ≤ nObs' := by exact_mod_cast hle
  exact ⟨_, _, mu_ok p h0 a1, mu_ok' p h0 a1, gammaMu_le (hq.nonneg p n h0 a1) le_rfl c4 (by linarith) c5 (by linarith)⟩

/-- Non-vacuity: a growing quantile function, and a posterior of two assets. -/
example : Quantiles (fun p k => p * k) ∧ ∃ factor : Factor, ∃ R : Robust,
    fromNiw factor ⟨2, ![0, 1], none⟩ ⟨2, 2, (1 : Matrix (Fin 2) (Fin 2) ℝ), none⟩ (3 : ℕ) (4 : ℕ) ⟨2, ![1, 1], none⟩ ⟨2, 2, (1 : Matrix (Fin 2) (Fin 2) ℝ), none⟩ (5 : ℕ) = .ok R := by
  refine ⟨⟨fun p k h0 _ => by positivity, fun p p' k h0 hpp _ => mul_le_mul_of_nonneg_right hpp (Nat.cast_nonneg k)⟩, ?_⟩
  obtain ⟨factor, hf⟩ := factorOk_exists
  obtain ⟨P, hP⟩ := C63_total hf (n := 2) (by norm_num) ![0, 1] ![1, 1] (S := (1 : Matrix (Fin 2) (Fin 2) ℝ)) (Ss := (1 : Matrix (Fin 2) (Fin 2) ℝ)) PosDef.one PosDef.one
    none none none none _ rfl (t0 := 3) (by norm_num) 4 (nObs := ((5 : ℕ) : ℝ)) (by norm_num)
  obtain ⟨-, -, hP'⟩ := niwFit_ok hP
  exact ⟨factor, _, fromNiw_of_fit hP (by rw [hP']; norm_num)⟩

end PyV.Props
