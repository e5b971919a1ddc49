import Verif.Props.BayesLinear
import Mathlib.Analysis.SpecificLimits.Basic
import Mathlib.Topology.Instances.Matrix

/-! # Property C238: the data wins in the long run, a confident prior wins in the short run -/

namespace PyV.Props

open PyV PyV.Bayes Matrix Filter Topology

variable {n : ℕ}

private theorem cast_top (c : ℝ) : Tendsto (fun k : ℕ => c + (k : ℝ)) atTop atTop :=
  tendsto_atTop_add_const_left _ c tendsto_natCast_atTop_atTop

private theorem div_zero' {ι} {F : Filter ι} {f : ι → ℝ} (hf : Tendsto f F atTop) (c : ℝ) : Tendsto (fun k => c / f k) F (𝓝 0) :=
  hf.const_div_atTop c

/-- A ratio of a growing quantity to itself plus a constant tends to one. -/
private theorem ratio_one {ι} {F : Filter ι} {f : ι → ℝ} (hf : Tendsto f F atTop) (c : ℝ) : Tendsto (fun k => f k / (f k + c)) F (𝓝 1) := by
  have h1 : Tendsto (fun k => f k + c) F atTop := tendsto_atTop_add_const_right _ c hf
  have h2 : Tendsto (fun k => 1 - c / (f k + c)) F (𝓝 (1 - 0)) := tendsto_const_nhds.sub (div_zero' h1 c)
  rw [sub_zero] at h2
  refine h2.congr' ?_
  filter_upwards [h1.eventually_gt_atTop 0] with k hk
  field_simp
  ring

/-- The bundle of a fit, in terms of prior and sample. -/
private theorem fit {factor : Factor} (hf : FactorOk factor) (hn : 0 < n) (mu sm : Fin n → ℝ) {S Ss : Matrix (Fin n) (Fin n) ℝ} (hS : S.PosDef) (hSs : Ss.PosDef)
    {l l' k k'} (hl : LabelsFit l l') {t0 nu0 nObs : ℕ} (ht : 0 < t0) (ho : 0 < nObs) (h2 : 2 < nu0 + nObs) :
    fromNiw factor ⟨n, mu, l⟩ ⟨n, n, S, l'⟩ t0 nu0 ⟨n, sm, k⟩ ⟨n, n, Ss, k'⟩ nObs =
      .ok ⟨n, mu1Of t0 nObs mu sm, (((nu0 : ℝ) + nObs) / ((nu0 : ℝ) + nObs + n + 1)) • sigma1Of t0 nu0 nObs mu sm S Ss,
        (((nu0 : ℝ) + nObs) / (((t0 : ℝ) + nObs) * ((nu0 : ℝ) + nObs - 2))) • sigma1Of t0 nu0 nObs mu sm S Ss,
        some ((nu0 : ℝ) + nObs), some n, some ((t0 : ℝ) + nObs)⟩ := by
  have ho' : (0 : ℝ) < nObs := by exact_mod_cast ho
  obtain ⟨i1, hi1⟩ := labelsFit_ok hl mu S
  obtain ⟨P, hP⟩ := C63_total hf hn mu sm hS hSs l l' k k' i1 hi1 ht nu0 ho'
  obtain ⟨-, -, hP'⟩ := niwFit_ok hP
  have h2' : (2 : ℝ) < nu0 + nObs := by exact_mod_cast h2
  rw [fromNiw_of_fit hP (by rw [hP']; exact h2'), hP']

private theorem lim_coefs {ι} {F : Filter ι} {nu T : ι → ℝ} (hnu : Tendsto nu F atTop) (hT : Tendsto T F atTop) {G : ι → Matrix (Fin n) (Fin n) ℝ}
    {B : Matrix (Fin n) (Fin n) ℝ} (hG : ∀ i j, Tendsto (fun k => G k i j) F (𝓝 (B i j))) :
    (∀ i j, Tendsto (fun k => ((nu k / (nu k + n + 1)) • G k) i j) F (𝓝 (B i j))) ∧
    ∀ i j, Tendsto (fun k => ((nu k / (T k * (nu k - 2))) • G k) i j) F (𝓝 0) := by
  constructor
  · intro i j
    have := (ratio_one hnu ((n : ℝ) + 1)).mul (hG i j)
    rw [one_mul] at this
    refine this.congr fun k => ?_
    rw [Matrix.smul_apply, smul_eq_mul, add_assoc]
  · intro i j
    have h1 := (ratio_one hnu (-2)).mul (hG i j)
    have h2 := (div_zero' hT 1).mul h1
    rw [zero_mul] at h2
    refine h2.congr fun k => ?_
    rw [Matrix.smul_apply, smul_eq_mul, ← sub_eq_add_neg, ← mul_assoc, div_mul_div_comm, one_mul]

/-- **C238** (data) However the prior is chosen, when ever more observations come in whose sample moments settle at a mean `a` and a
covariance `B`, the estimates settle there too: posterior mean and covariance tend to `a` and `B`, the uncertainty of the mean to zero. -/
theorem C238_data_wins {factor : Factor} (hf : FactorOk factor) (hn : 0 < n) (mu : Fin n → ℝ) {S : Matrix (Fin n) (Fin n) ℝ} (hS : S.PosDef)
    {l l'} (hl : LabelsFit l l') {t0 : ℕ} (ht : 0 < t0) (nu0 : ℕ) (sm : ℕ → Fin n → ℝ) (Ss : ℕ → Matrix (Fin n) (Fin n) ℝ) (hSs : ∀ k, (Ss k).PosDef)
    (lk lk') (a : Fin n → ℝ) (B : Matrix (Fin n) (Fin n) ℝ)
    (ha : ∀ i, Tendsto (fun k => sm k i) atTop (𝓝 (a i))) (hB : ∀ i j, Tendsto (fun k => Ss k i j) atTop (𝓝 (B i j))) :
    ∃ (mean : ℕ → Fin n → ℝ) (cov unc : ℕ → Matrix (Fin n) (Fin n) ℝ),
      (∀ k, 3 ≤ k → fromNiw factor ⟨n, mu, l⟩ ⟨n, n, S, l'⟩ t0 nu0 ⟨n, sm k, lk⟩ ⟨n, n, Ss k, lk'⟩ k =
        .ok ⟨n, mean k, cov k, unc k, some ((nu0 : ℝ) + k), some n, some ((t0 : ℝ) + k)⟩) ∧
      (∀ i, Tendsto (fun k => mean k i) atTop (𝓝 (a i))) ∧ (∀ i j, Tendsto (fun k => cov k i j) atTop (𝓝 (B i j))) ∧
      ∀ i j, Tendsto (fun k => unc k i j) atTop (𝓝 0) := by
  have ht' : (0 : ℝ) < t0 := by exact_mod_cast ht
  have hk : Tendsto (fun k : ℕ => (k : ℝ)) atTop atTop := tendsto_natCast_atTop_atTop
  have hsig : ∀ i j, Tendsto (fun k : ℕ => sigma1Of t0 nu0 k mu (sm k) S (Ss k) i j) atTop (𝓝 (B i j)) := by
    intro i j
    have h1 := (div_zero' (cast_top (nu0 : ℝ)) nu0).mul (tendsto_const_nhds (x := S i j))
    have h2 := (ratio_one hk nu0).mul (hB i j)
    have h3 : Tendsto (fun k : ℕ => 1 / ((1 / (k : ℝ) + 1 / t0) * ((nu0 : ℝ) + k))) atTop (𝓝 0) := by
      refine div_zero' ?_ 1
      refine Tendsto.pos_mul_atTop (C := 1 / (t0 : ℝ)) (by positivity) ?_ (cast_top _)
      have := (div_zero' hk 1).add (tendsto_const_nhds (x := 1 / (t0 : ℝ)))
      rwa [zero_add] at this
    have h4 := h3.mul (((tendsto_const_nhds (x := mu i)).sub (ha i)).mul ((tendsto_const_nhds (x := mu j)).sub (ha j)))
    have := (h1.add h2).add h4
    simp only [zero_mul, one_mul, zero_add, add_zero] at this
    refine this.congr fun k => ?_
    rw [sigma1Of_eq]
    simp only [Matrix.add_apply, Matrix.smul_apply, smul_eq_mul, of_apply, Pi.sub_apply, add_comm (k : ℝ)]
  obtain ⟨c1, c2⟩ := lim_coefs (cast_top (nu0 : ℝ)) (cast_top (t0 : ℝ)) hsig
  refine ⟨_, _, _, fun k hk => fit hf hn mu (sm k) hS (hSs k) hl ht (by omega) (by omega), fun i => ?_, c1, c2⟩
  have h1 := (div_zero' (cast_top (t0 : ℝ)) t0).mul (tendsto_const_nhds (x := mu i))
  have h2 := (ratio_one hk t0).mul (ha i)
  have := h1.add h2
  rw [zero_mul, one_mul, zero_add] at this
  refine this.congr fun k => ?_
  simp only [mu1Of]
  rw [add_comm (k : ℝ), ← mul_div_right_comm, ← mul_div_right_comm, add_div]

/-- **C238** (prior) Conversely, as the prior counts grow against a fixed sample, the estimates tend to the prior mean and covariance. -/
theorem C238_prior_wins {factor : Factor} (hf : FactorOk factor) (hn : 0 < n) (mu sm : Fin n → ℝ) {S Ss : Matrix (Fin n) (Fin n) ℝ} (hS : S.PosDef)
    (hSs : Ss.PosDef) {l l'} (hl : LabelsFit l l') (lk lk') {nObs : ℕ} (ho : 0 < nObs) (t0 nu0 : ℕ → ℕ) (ht : Tendsto t0 atTop atTop)
    (hv : Tendsto nu0 atTop atTop) :
    ∃ (mean : ℕ → Fin n → ℝ) (cov unc : ℕ → Matrix (Fin n) (Fin n) ℝ),
      (∀ᶠ k in atTop, fromNiw factor ⟨n, mu, l⟩ ⟨n, n, S, l'⟩ (t0 k) (nu0 k) ⟨n, sm, lk⟩ ⟨n, n, Ss, lk'⟩ nObs =
        .ok ⟨n, mean k, cov k, unc k, some ((nu0 k : ℝ) + nObs), some n, some ((t0 k : ℝ) + nObs)⟩) ∧
      (∀ i, Tendsto (fun k => mean k i) atTop (𝓝 (mu i))) ∧ (∀ i j, Tendsto (fun k => cov k i j) atTop (𝓝 (S i j))) ∧
      ∀ i j, Tendsto (fun k => unc k i j) atTop (𝓝 0) := by
  have ho' : (0 : ℝ) < nObs := by exact_mod_cast ho
  have hk : Tendsto (fun k : ℕ => (t0 k : ℝ)) atTop atTop := tendsto_natCast_atTop_atTop.comp ht
  have hw : Tendsto (fun k : ℕ => (nu0 k : ℝ)) atTop atTop := tendsto_natCast_atTop_atTop.comp hv
  have hk' : Tendsto (fun k : ℕ => (t0 k : ℝ) + nObs) atTop atTop := tendsto_atTop_add_const_right _ _ hk
  have hw' : Tendsto (fun k : ℕ => (nu0 k : ℝ) + nObs) atTop atTop := tendsto_atTop_add_const_right _ _ hw
  have hsig : ∀ i j, Tendsto (fun k : ℕ => sigma1Of (t0 k) (nu0 k) nObs mu sm S Ss i j) atTop (𝓝 (S i j)) := by
    intro i j
    have h1 := (ratio_one hw nObs).mul (tendsto_const_nhds (x := S i j))
    have h2 := (div_zero' hw' nObs).mul (tendsto_const_nhds (x := Ss i j))
    have h3 : Tendsto (fun k : ℕ => 1 / ((1 / (nObs : ℝ) + 1 / (t0 k : ℝ)) * ((nu0 k : ℝ) + nObs))) atTop (𝓝 0) := by
      refine div_zero' ?_ 1
      refine Tendsto.pos_mul_atTop (C := 1 / (nObs : ℝ)) (by positivity) ?_ hw'
      have := (tendsto_const_nhds (x := 1 / (nObs : ℝ))).add (div_zero' hk 1)
      rwa [add_zero] at this
    have h4 := h3.mul (tendsto_const_nhds (x := (mu i - sm i) * (mu j - sm j)))
    have := (h1.add h2).add h4
    simp only [zero_mul, one_mul, add_zero] at this
    refine this.congr fun k => ?_
    rw [sigma1Of_eq]
    simp only [Matrix.add_apply, Matrix.smul_apply, smul_eq_mul, of_apply, Pi.sub_apply]
  obtain ⟨c1, c2⟩ := lim_coefs hw' hk' hsig
  refine ⟨fun k => mu1Of (t0 k) nObs mu sm, _, _, ?_, fun i => ?_, c1, c2⟩
  · filter_upwards [ht.eventually_gt_atTop 0, hv.eventually_gt_atTop 1] with k h1 h2
    exact fit hf hn mu sm hS hSs hl h1 ho (by omega)
  · have h1 := (ratio_one hk nObs).mul (tendsto_const_nhds (x := mu i))
    have h2 := (div_zero' hk' nObs).mul (tendsto_const_nhds (x := sm i))
    have := h1.add h2
    rw [zero_mul, one_mul, add_zero] at this
    refine this.congr fun k => ?_
    simp only [mu1Of]
    rw [← mul_div_right_comm, ← mul_div_right_comm, add_div]

/-- **C238** (credibility regions) With ever more observations the radius of the region for the mean shrinks to zero and the factor of the
region for the covariance tends to one. -/
theorem C238_regions (ppf : ℝ → ℕ → ℝ) {p : ℝ} (h0 : 0 < p) (h1 : p < 1) (t0 nu0 : ℕ) (R : ℕ → Robust)
    (hR : ∀ k, 3 ≤ k → (R k).nu1 = some ((nu0 : ℝ) + k) ∧ (R k).nAssets = some n ∧ (R k).T1 = some ((t0 : ℝ) + k)) :
    ∃ r f : ℕ → ℝ, (∀ k, 3 ≤ k → rCredRadiusMu ppf (R k) p = .ok (r k) ∧ rCredRadiusSigma ppf (R k) p = .ok (f k)) ∧
      Tendsto r atTop (𝓝 0) ∧ Tendsto f atTop (𝓝 1) := by
  have hv := cast_top (nu0 : ℝ)
  have hT := cast_top (t0 : ℝ)
  refine ⟨fun k => gammaMu (ppf p n) ((t0 : ℝ) + k) ((nu0 : ℝ) + k), fun k => cSigma (ppf p (n * (n + 1) / 2)) ((nu0 : ℝ) + k) n, ?_, ?_, ?_⟩
  · intro k hk
    obtain ⟨e1, e2, e3⟩ := hR k hk
    unfold rCredRadiusMu rCredRadiusSigma chi2Quantile
    rw [e1, e2, e3]
    simp only [h0, h1, and_self, not_true_eq_false, if_false]
  · have h := ((div_zero' hT (ppf p n)).mul (ratio_one hv (-2))).sqrt
    rw [zero_mul, Real.sqrt_zero] at h
    refine h.congr fun k => ?_
    rw [← sub_eq_add_neg]
    rfl
  · set q := ppf p (n * (n + 1) / 2)
    have hd : Tendsto (fun k : ℕ => (nu0 : ℝ) + k + ((n : ℝ) + 1)) atTop atTop := tendsto_atTop_add_const_right _ _ hv
    have ha : Tendsto (fun k : ℕ => 2 * ((nu0 : ℝ) + k) ^ 2 * q / ((nu0 : ℝ) + k + n + 1) ^ 3) atTop (𝓝 0) := by
      have := ((ratio_one hv ((n : ℝ) + 1)).pow 2).mul (div_zero' hd (2 * q))
      rw [mul_zero] at this
      refine this.congr fun k => ?_
      rw [← add_assoc, div_pow, div_mul_div_comm, ← pow_succ]
      congr 1
      ring
    have hm : Tendsto (fun k : ℕ => Real.sqrt (if 2 * ((nu0 : ℝ) + k) ^ 2 * q / ((nu0 : ℝ) + k + n + 1) ^ 3 < 0 then 0
        else 2 * ((nu0 : ℝ) + k) ^ 2 * q / ((nu0 : ℝ) + k + n + 1) ^ 3)) atTop (𝓝 0) := by
      have hs := ha.sqrt
      rw [Real.sqrt_zero] at hs
      refine hs.congr fun k => ?_
      split_ifs with h
      · rw [Real.sqrt_eq_zero_of_nonpos h.le, Real.sqrt_zero]
      · rfl
    have := (ratio_one hv ((n : ℝ) + 1)).add hm
    rw [add_zero] at this
    refine this.congr fun k => ?_
    rw [← add_assoc]
    rfl

/-- One asset with prior mean 0 and variance 1, samples of mean 1 and variance 1: the posterior mean tends to 1. -/
example : ∃ (factor : Factor) (R : ℕ → Robust) (mean : ℕ → Fin 1 → ℝ), FactorOk factor ∧
    (∀ k : ℕ, 3 ≤ k → fromNiw factor ⟨1, ![0], none⟩ ⟨1, 1, (1 : Matrix (Fin 1) (Fin 1) ℝ), none⟩ (5 : ℕ) (5 : ℕ) ⟨1, ![1], none⟩
      ⟨1, 1, (1 : Matrix (Fin 1) (Fin 1) ℝ), none⟩ k = .ok (R k)) ∧
    (∀ k, (R k).n = 1 ∧ HEq (R k).mu (mean k)) ∧ Tendsto (fun k => mean k 0) atTop (𝓝 1) := by
  obtain ⟨factor, hf⟩ := factorOk_exists
  obtain ⟨mean, cov, unc, h1, h2, -, -⟩ := C238_data_wins hf one_pos ![0] (S := 1) Matrix.PosDef.one (l := none) (l' := none)
    (fun _ _ h => (by cases h)) (t0 := 5) (by norm_num) 5 (fun _ => ![1]) (fun _ => 1) (fun _ => Matrix.PosDef.one) none none ![1] 1
    (fun _ => tendsto_const_nhds) (fun _ _ => tendsto_const_nhds)
  exact ⟨factor, fun k => ⟨1, mean k, cov k, unc k, some (((5 : ℕ) : ℝ) + k), some 1, some (((5 : ℕ) : ℝ) + k)⟩, mean, hf, h1, fun k => ⟨rfl, HEq.rfl⟩, h2 0⟩

end PyV.Props
