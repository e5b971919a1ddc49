import Verif.Model.MomentsApi
import Verif.Props.Moments
import Verif.Props.MomentsRobust
import Verif.Props.BayesRobust
import Mathlib.Tactic.Linarith

/-! # C126-C129: `estimate_moments`, labels, one-shot NIW posteriors -/

namespace PyV.Props

open PyV PyV.Mom PyV.Valid PyV.Psd PyV.Spec Matrix

variable {N T : ℕ}

theorem sample_ok {x : Fin T → Fin N → ℝ} {p : Fin T → ℝ} (hp : IsProb p) : estimateSampleMoments x p = .ok (wMean x p, wCov x p) := by
  unfold estimateSampleMoments
  rw [dif_pos rfl, if_pos]
  · rfl
  · constructor
    · intro t
      have := hp.nonneg t
      show _ ≤ p t
      have : (0:ℝ) ≤ 1 / 10 ^ 9 := by positivity
      linarith
    · unfold sumToOne
      have : ∑ t : Fin T, (fun t : Fin T => p (t.cast rfl)) t = 1 := hp.sum
      rw [this, sub_self, abs_zero]
      positivity

theorem wrapVec_fn (x : Fin N → ℝ) (c : Option (Fin N → String)) : wrapVec x (c.map List.ofFn) = .ok ⟨x, c.map List.ofFn⟩ := by
  cases c <;> simp [wrapVec]

theorem wrapMat_fn (x : Matrix (Fin N) (Fin N) ℝ) (c : Option (Fin N → String)) :
    wrapMat x (c.map List.ofFn) = .ok (.matrix x (c.map List.ofFn)) := by
  cases c <;> simp [wrapMat]

/-! ## C128: labels -/

/-- **C128** (partial). A DataFrame of scenarios with a probability vector: the moments are computed and carry the column labels, in
their order, unless the weights are a Series with as many entries as there are assets and other labels — the case excluded here, which
is `C128_counterexample_square`; the other failing case, unlabelled scenarios, is `C128_counterexample_array`. -/
theorem C128_frame_partial {R : Panel T N} {c : Fin N → String} (hc : R.cols = some c) {p : ProbVec T} (hp : IsProb p.v)
    (h : T = N → ∀ idx, p.index = some idx → List.ofFn idx = List.ofFn c) :
    sampleMomentsL R p = .ok (⟨wMean R.x p.v, some (List.ofFn c)⟩, .matrix (wCov R.x p.v) (some (List.ofFn c))) := by
  unfold sampleMomentsL
  rw [sample_ok hp]
  simp only
  have hl : labelsOf [R.labels, p.labels] = .ok (some (List.ofFn c)) := by
    unfold labelsOf Panel.labels ProbVec.labels
    rw [hc]
    cases hi : p.index with
    | none => simp [labelsLoop]
    | some idx =>
      simp only [Option.map_some, labelsLoop]
      rw [if_neg]
      rintro ⟨h1, h2⟩
      simp only [List.length_ofFn] at h1
      exact h2 (h h1 idx hi)
  rw [hl]
  have h1 := wrapVec_fn (wMean R.x p.v) (some c)
  have h2 := wrapMat_fn (wCov R.x p.v) (some c)
  simp only [Option.map_some] at h1 h2
  simp only [h1, h2]

/-- **C128** Weights without labels (an array) are always fine: the result has the labels of the scenarios, or none. -/
theorem C128_array_weights {R : Panel T N} {p : ProbVec T} (hi : p.index = none) (hp : IsProb p.v) :
    sampleMomentsL R p = .ok (⟨wMean R.x p.v, R.labels⟩, .matrix (wCov R.x p.v) R.labels) := by
  unfold sampleMomentsL
  rw [sample_ok hp]
  simp only
  have hl : labelsOf [R.labels, p.labels] = .ok R.labels := by
    unfold labelsOf ProbVec.labels
    rw [hi]
    cases R.labels <;> simp [labelsLoop]
  rw [hl]
  have h1 := wrapVec_fn (wMean R.x p.v) R.cols
  have h2 := wrapMat_fn (wCov R.x p.v) R.cols
  rw [Panel.labels]
  simp only [h1, h2]

/-- **C128** (counterexample) As many scenarios as assets: a probability Series indexed by scenario is taken for asset labels and
rejected, whatever the numbers. -/
theorem C128_counterexample_square {R : Panel N N} {c : Fin N → String} (hc : R.cols = some c) {p : ProbVec N} {idx : Fin N → String}
    (hi : p.index = some idx) (hne : idx ≠ c) (hp : IsProb p.v) : sampleMomentsL R p = .error .valueError := by
  unfold sampleMomentsL
  rw [sample_ok hp]
  simp only
  have hl : labelsOf [R.labels, p.labels] = .error .valueError := by
    unfold labelsOf Panel.labels ProbVec.labels
    rw [hc, hi]
    simp only [Option.map_some, labelsLoop]
    rw [if_pos]
    refine ⟨by simp, fun h => hne (List.ofFn_injective h)⟩
  rw [hl]

/-- **C128** (counterexample) Unlabelled scenarios with a probability Series: rejected, except when there are as many scenarios as assets,
and then the assets are named after the scenarios. -/
theorem C128_counterexample_array {R : Panel T N} (hc : R.cols = none) {p : ProbVec T} {idx : Fin T → String}
    (hi : p.index = some idx) (hp : IsProb p.v) :
    (T ≠ N → sampleMomentsL R p = .error .valueError) ∧
      (T = N → sampleMomentsL R p = .ok (⟨wMean R.x p.v, some (List.ofFn idx)⟩, .matrix (wCov R.x p.v) (some (List.ofFn idx)))) := by
  unfold sampleMomentsL
  rw [sample_ok hp]
  simp only
  have hl : labelsOf [R.labels, p.labels] = .ok (some (List.ofFn idx)) := by
    unfold labelsOf Panel.labels ProbVec.labels
    rw [hc, hi]
    simp [labelsLoop]
  rw [hl]
  refine ⟨fun h => ?_, fun h => ?_⟩
  · simp [wrapVec, h]
  · simp [wrapVec, wrapMat, h]

/-! ## C126: weights -/

theorem uniform_prob (hT : 0 < T) : IsProb (fun _ : Fin T => (1 : ℝ) / T) := by
  have : (T : ℝ) ≠ 0 := by exact_mod_cast hT.ne'
  exact ⟨fun _ => by positivity, by simp; field_simp⟩

theorem wMean_uniform (x : Fin T → Fin N → ℝ) : wMean x (fun _ => 1 / T) = colMean x := by
  funext i
  simp only [wMean, colMean]
  rw [← Finset.sum_mul, mul_one_div]

theorem wCov_uniform (x : Fin T → Fin N → ℝ) : wCov x (fun _ => 1 / T) = secondMoment (centred x) := by
  rw [wCov_eq, secondMoment_eq, wMean_uniform]
  rfl

/-- **C126** Without probabilities every scenario counts the same: the result, for every pair of estimators and all options, is the one
for equal weights (two assets or more; one asset is `C126_counterexample_single`). -/
theorem C126_equal_weights_partial (ext : Ext T N) (R : Panel T N) (hT : 0 < T) (hN : N ≠ 1) (mk ck : String) (mkw : MeanKw T N)
    (ckw : CovKw N) : estimateMoments ext R (none : Option (ProbVec T)) mk ck mkw ckw =
      estimateMoments ext R (some ⟨fun _ : Fin T => 1 / T, none⟩) mk ck mkw ckw := by
  have h : sampleStage R (none : Option (ProbVec T)) = sampleStage R (some ⟨fun _ : Fin T => (1 : ℝ) / T, none⟩) := by
    simp only [sampleStage]
    rw [C128_array_weights rfl (uniform_prob hT)]
    simp only [npCov0, dif_neg hN, Panel.labels, wrapVec_fn, wrapMat_fn, wMean_uniform, wCov_uniform]
  unfold estimateMoments
  rw [h]

/-- **C126** (counterexample) One asset: with equal weights given the sample covariance is a 1×1 matrix; without weights an array gives a
bare number, and a DataFrame is rejected. -/
theorem C126_counterexample_single (ext : Ext T 1) (x : Fin T → Fin 1 → ℝ) (hT : 0 < T) (mkw : MeanKw T 1) (ckw : CovKw 1) (c : Fin 1 → String) :
    (∃ mu v, estimateMoments ext ⟨x, none⟩ (none : Option (ProbVec T)) "sample" "sample" mkw ckw = .ok (mu, .scalar v)) ∧
    (∃ mu S l, estimateMoments ext ⟨x, none⟩ (some ⟨fun _ : Fin T => 1 / T, none⟩) "sample" "sample" mkw ckw = .ok (mu, .matrix S l)) ∧
    estimateMoments ext ⟨x, some c⟩ (none : Option (ProbVec T)) "sample" "sample" mkw ckw = .error .valueError ∧
    ∃ mu S l, estimateMoments ext ⟨x, some c⟩ (some ⟨fun _ : Fin T => 1 / T, none⟩) "sample" "sample" mkw ckw = .ok (mu, .matrix S l) := by
  have hm : meanKind "sample".toLower = some .sample := by decide +kernel
  have hk : covKind "sample".toLower = some .sample := by decide +kernel
  refine ⟨?_, ?_, ?_, ?_⟩
  · unfold estimateMoments
    rw [hm, hk]
    simp [sampleStage, npCov0, Panel.labels, wrapVec, meanStage, covStage]
  · unfold estimateMoments
    rw [hm, hk]
    simp only [sampleStage]
    rw [C128_array_weights rfl (uniform_prob hT)]
    simp [meanStage, covStage]
  · unfold estimateMoments
    simp [sampleStage, npCov0]
  · unfold estimateMoments
    rw [hm, hk]
    simp only [sampleStage]
    rw [C128_array_weights rfl (uniform_prob hT)]
    simp [meanStage, covStage]

/-- **C126** The sample estimators use the weights: mean `E_p[R_i]`, covariance `E_p[R_i R_j] - E_p[R_i] E_p[R_j]`. -/
theorem C126_weighted_partial (ext : Ext T N) (R : Panel T N) {p : ProbVec T} (hi : p.index = none) (hp : IsProb p.v) (mkw : MeanKw T N)
    (ckw : CovKw N) : ∃ mu S, estimateMoments ext R (some p) "sample" "sample" mkw ckw = .ok (⟨mu, R.labels⟩, .matrix S R.labels) ∧
      (∀ i, mu i = expect p.v (fun t => R.x t i)) ∧ ∀ i j, S i j = expect p.v (fun t => R.x t i * R.x t j) - mu i * mu j := by
  have hm : meanKind "sample".toLower = some .sample := by decide +kernel
  have hk : covKind "sample".toLower = some .sample := by decide +kernel
  obtain ⟨mu, S, h1, h2, h3, -⟩ := C35_sample_moments R.x hp
  rw [sample_ok hp] at h1
  injection h1 with h1
  injection h1 with e1 e2
  refine ⟨mu, S, ?_, h2, h3⟩
  unfold estimateMoments
  rw [hm, hk]
  simp only [sampleStage]
  rw [C128_array_weights hi hp]
  simp [meanStage, covStage, e1, e2]

/-- **C126** (what happens instead) The robust means and every covariance estimator but the sample and Ledoit–Wolf ones ignore the weights:
any two probability vectors give the same answer. -/
theorem C126_weights_ignored (ext : Ext T N) (R : Panel T N) {p q : ProbVec T} (hi : p.index = none) (hp : IsProb p.v)
    (hj : q.index = none) (hq : IsProb q.v) {mk ck : String}
    (hm : mk ∈ ["huber", "robust_huber", "median_of_means", "mom"])
    (hk : ck ∈ ["oas", "nls", "nonlinear", "nonlinear_shrinkage", "poet", "tyler", "tyler_shrinkage", "glasso", "graphical_lasso", "ewma"])
    (mkw : MeanKw T N) (ckw : CovKw N) :
    estimateMoments ext R (some p) mk ck mkw ckw = estimateMoments ext R (some q) mk ck mkw ckw := by
  have hm' : meanKind mk.toLower = some .huber ∨ meanKind mk.toLower = some .medianOfMeans := by
    simp only [List.mem_cons, List.not_mem_nil, or_false] at hm
    rcases hm with rfl | rfl | rfl | rfl
    · left; decide +kernel
    · left; decide +kernel
    · right; decide +kernel
    · right; decide +kernel
  have hk' : ∃ k, covKind ck.toLower = some k ∧ k ≠ .sample ∧ k ≠ .ledoitWolf := by
    simp only [List.mem_cons, List.not_mem_nil, or_false] at hk
    rcases hk with rfl | rfl | rfl | rfl | rfl | rfl | rfl | rfl | rfl | rfl
    · exact ⟨.oas, by decide +kernel, by decide, by decide⟩
    · exact ⟨.nls, by decide +kernel, by decide, by decide⟩
    · exact ⟨.nls, by decide +kernel, by decide, by decide⟩
    · exact ⟨.nls, by decide +kernel, by decide, by decide⟩
    · exact ⟨.poet, by decide +kernel, by decide, by decide⟩
    · exact ⟨.tyler, by decide +kernel, by decide, by decide⟩
    · exact ⟨.tyler, by decide +kernel, by decide, by decide⟩
    · exact ⟨.glasso, by decide +kernel, by decide, by decide⟩
    · exact ⟨.glasso, by decide +kernel, by decide, by decide⟩
    · exact ⟨.ewma, by decide +kernel, by decide, by decide⟩
  obtain ⟨k, hk, h1, h2⟩ := hk'
  unfold estimateMoments
  simp only [sampleStage]
  rw [C128_array_weights hi hp, C128_array_weights hj hq]
  simp only [hk]
  have hc : ∀ S S' : CovOut N, covStage ext R S ckw k = covStage ext R S' ckw k := by
    intro S S'
    cases k <;> first | contradiction | rfl
  rw [hc _ (.matrix (wCov R.x q.v) R.labels)]
  rcases hm' with hm | hm <;> rw [hm] <;> rfl

/-- **C126** (counterexample) All the weight on one of two scenarios: the weighted mean is that scenario, but the Huber mean is the same for
both choices, so it is wrong for at least one. -/
theorem C126_counterexample (ext : Ext 2 2) (mkw : MeanKw 2 2) :
    ∃ (R : Panel 2 2) (p q : ProbVec 2) (mu : MeanOut 2) (S : CovOut 2), IsProb p.v ∧ IsProb q.v ∧
      (∀ i, expect p.v (fun t => R.x t i) = 0) ∧ (∀ i, expect q.v (fun t => R.x t i) = 1) ∧
      estimateMoments ext R (some p) "huber" "oas" mkw {} = .ok (mu, S) ∧ estimateMoments ext R (some q) "huber" "oas" mkw {} = .ok (mu, S) := by
  have e0 : IsProb (![1, 0] : Fin 2 → ℝ) := ⟨fun t => by fin_cases t <;> simp, by simp⟩
  have e1 : IsProb (![0, 1] : Fin 2 → ℝ) := ⟨fun t => by fin_cases t <;> simp, by simp⟩
  set R : Panel 2 2 := ⟨![![0, 0], ![1, 1]], none⟩ with hR
  have hex : ∃ out, estimateMoments ext R (some ⟨![1, 0], none⟩) "huber" "oas" mkw {} = .ok out := by
    have hm : meanKind "huber".toLower = some .huber := by decide +kernel
    have hk : covKind "oas".toLower = some .oas := by decide +kernel
    obtain ⟨C, hC⟩ : ∃ C, shrinkOas R.x true = .ok C := by
      obtain ⟨C, s, h, -⟩ := C39_oas R.x true (by norm_num) (by norm_num)
      exact ⟨_, h⟩
    unfold estimateMoments
    rw [hm, hk]
    simp only [sampleStage]
    rw [C128_array_weights rfl e0]
    have hc : R.cols = none := rfl
    simp [meanStage, covStage, wrapRes, hC, wrapVec, wrapMat, Panel.labels, hc]
  obtain ⟨⟨mu, S⟩, h⟩ := hex
  refine ⟨R, ⟨![1, 0], none⟩, ⟨![0, 1], none⟩, mu, S, e0, e1, ?_, ?_, h, ?_⟩
  · intro i; fin_cases i <;> simp [expect, hR]
  · intro i; fin_cases i <;> simp [expect, hR]
  · rw [← h]
    exact C126_weights_ignored ext R rfl e1 rfl e0 (by simp) (by simp) mkw {}

/-! ## C127: names, and the covariance is a covariance -/

/-- Symmetric, with no direction of variance below `-1e-8` (per unit of squared length). -/
def NearPsd (C : Matrix (Fin N) (Fin N) ℝ) : Prop := Cᵀ = C ∧ ∀ x : Fin N → ℝ, -(1 / 10 ^ 8) * (x ⬝ᵥ x) ≤ x ⬝ᵥ (C *ᵥ x)

theorem nearPsd_of_psd {C : Matrix (Fin N) (Fin N) ℝ} (h : C.PosSemidef) : NearPsd C := by
  refine ⟨symm_of_psd h, fun x => ?_⟩
  have := quad_nonneg h x
  have := mul_nonneg (by norm_num : (0 : ℝ) ≤ 1 / 10 ^ 8) (dot_self_nonneg x)
  linarith

theorem nearPsd_guard {A C : Matrix (Fin N) (Fin N) ℝ} (h : PyV.Valid.ensurePsd A defaultJitter = .ok C) : NearPsd C := by
  obtain ⟨k, hk, e, hc⟩ := ensurePsd_spec A (jitter := defaultJitter) (by norm_num [defaultJitter])
  rw [e] at h
  injection h with h
  subst h
  refine ⟨?_, fun x => ?_⟩
  · rw [transpose_add, transpose_smul, transpose_add, transpose_transpose, add_comm Aᵀ A, transpose_smul, transpose_one]
  · have hd := dot_self_nonneg x
    have hj : defaultJitter = 1 / 10 ^ 8 := rfl
    rcases hc with ⟨h0, hc⟩ | ⟨-, -, hc⟩
    · rw [h0, zero_smul, add_zero]
      exact hc x
    · have := hc x
      rw [hj] at this
      have := mul_nonneg (by norm_num : (0 : ℝ) ≤ 1 / 10 ^ 8) hd
      linarith

theorem nearPsd_lw {R : Fin T → Fin N → ℝ} {S C : Matrix (Fin N) (Fin N) ℝ} {target : LwTarget} (h : shrinkLedoitWolf R S target = .ok C) :
    NearPsd C := by
  have key : ∀ (d : Option ℝ) (F M : Matrix (Fin N) (Fin N) ℝ), lwBlend d F M = .ok C → NearPsd C := by
    intro d F M h
    unfold lwBlend at h
    split at h
    · cases h
    split at h
    · cases h
    rename_i C0 h0
    injection h with h
    subst h
    have := nearPsd_guard h0
    rwa [half_of_symm this.1]
  unfold shrinkLedoitWolf at h
  split at h
  · cases h
  simp only at h
  split at h
  · exact key _ _ _ h
  · split at h
    · exact key _ _ _ h
    · cases h
  · cases h

theorem nearPsd_admm {eigh : Eigh N} {pinv : Matrix (Fin N) (Fin N) ℝ → Matrix (Fin N) (Fin N) ℝ} {S : Matrix (Fin N) (Fin N) ℝ} {a : ℝ}
    {cp : Matrix (Fin N) (Fin N) ℝ × Matrix (Fin N) (Fin N) ℝ} (h : admm eigh pinv S a = .ok cp) : NearPsd cp.1 := by
  unfold admm at h
  split at h
  · cases h
  split at h
  · cases h
  split at h
  · cases h
  rename_i hg
  injection h with h
  subst h
  exact nearPsd_guard hg

theorem nearPsd_tyler {pinv : Matrix (Fin N) (Fin N) ℝ → Matrix (Fin N) (Fin N) ℝ} {R : Fin T → Fin N → ℝ} {shrinkage tol : ℝ}
    {target : Option (Matrix (Fin N) (Fin N) ℝ)} {maxIter : ℤ} {C : Matrix (Fin N) (Fin N) ℝ}
    (h : tyler pinv R shrinkage tol target maxIter true = .ok C) : NearPsd C := by
  unfold tyler at h
  split at h
  · cases h
  split at h
  · cases h
  split at h
  · cases h
  split at h
  · cases h
  split at h
  · cases h
  split at h
  · cases h
  split at h
  · cases h
  simp only [if_true] at h
  exact nearPsd_guard h

/-- The result of `_wrap` holds the estimator's matrix. -/
theorem wrapRes_ok {R : Panel T N} {r : Except PyErr (Matrix (Fin N) (Fin N) ℝ)} {out : CovOut N} (h : wrapRes R r = .ok out) :
    ∃ C, r = .ok C ∧ out = .matrix C R.labels := by
  unfold wrapRes at h
  split at h
  · cases h
  · rename_i m
    rw [Panel.labels, wrapMat_fn] at h
    injection h with h
    exact ⟨m, rfl, h.symm⟩

theorem covStage_nearPsd {ext : Ext T N} {R : Panel T N} {S : CovOut N} {kw : CovKw N} (hsp : 1 ≤ kw.span) (hg : kw.ensurePsd = true)
    {k : CovKind} {C : Matrix (Fin N) (Fin N) ℝ} {l} (hS : ∀ M l', S = .matrix M l' → NearPsd M)
    (h : covStage ext R S kw k = .ok (.matrix C l)) : NearPsd C := by
  have wr : ∀ {r : Except PyErr (Matrix (Fin N) (Fin N) ℝ)}, wrapRes R r = .ok (.matrix C l) → r = .ok C := by
    intro r hr
    obtain ⟨C', h1, h2⟩ := wrapRes_ok hr
    injection h2 with h2
    rw [h1, h2]
  cases k with
  | sample =>
    simp only [covStage] at h
    injection h with h
    exact hS _ _ h
  | ledoitWolf =>
    simp only [covStage] at h
    split at h
    · cases h
    split at h
    · rename_i C' l' h1 h2
      have : C' = C := by
        unfold wrapMat at h
        split at h
        · injection h with h; injection h
        · split at h
          · injection h with h; injection h
          · cases h
      rw [← this]
      exact nearPsd_lw h1
    · cases h
    · cases h
  | oas =>
    have h := wr h
    unfold shrinkOas at h
    split at h
    · cases h
    simp only at h
    split at h
    · injection h with h
      rw [← h]
      exact nearPsd_of_psd (secondMoment_psd _)
    · exact nearPsd_guard h
  | nls =>
    have h := wr h
    unfold shrinkNls at h
    split at h
    · cases h
    split at h
    · cases h
    exact nearPsd_guard h
  | poet =>
    have h := wr h
    unfold poet at h
    split at h
    · cases h
    exact nearPsd_guard h
  | tyler =>
    have h := wr h
    rw [hg] at h
    exact nearPsd_tyler h
  | glasso =>
    have h := wr h
    unfold glassoCov at h
    split at h
    · cases h
    rename_i cp hcp
    injection h with h
    rw [← h]
    unfold glasso at hcp
    split at hcp
    · cases hcp
    split at hcp
    · cases hcp
    exact nearPsd_admm hcp
  | ewma =>
    have h := wr h
    exact nearPsd_of_psd ((C40_ewma h).2.2.2 hsp).2

/-- A successful call, stage by stage. -/
theorem estimateMoments_ok {T' : ℕ} {ext : Ext T N} {R : Panel T N} {p : Option (ProbVec T')} {mk ck : String} {mkw : MeanKw T N}
    {ckw : CovKw N} {mu : MeanOut N} {S : CovOut N} (h : estimateMoments ext R p mk ck mkw ckw = .ok (mu, S)) :
    ∃ m0 S0 k1 k2, sampleStage R p = .ok (m0, S0) ∧ meanKind mk.toLower = some k1 ∧ covKind ck.toLower = some k2 ∧
      meanStage ext R m0 S0 mkw k1 = .ok mu ∧ covStage ext R S0 ckw k2 = .ok S := by
  unfold estimateMoments at h
  split at h
  · cases h
  rename_i ms h1
  split at h
  · cases h
  rename_i k1 h2
  split at h
  · cases h
  rename_i m h3
  split at h
  · cases h
  rename_i k2 h4
  split at h
  · cases h
  rename_i S' h5
  injection h with h
  injection h with e1 e2
  subst e1; subst e2
  exact ⟨ms.1, ms.2, k1, k2, h1, h2, h4, h3, h5⟩

/-- **C127** Whatever pair of estimators is asked for, a returned covariance matrix is symmetric and has no negative direction beyond
`1e-8`: no weights or a probability vector, `span ≥ 1` for EWMA (`C40_span_zero` otherwise), Tyler with its default `ensure_psd`. The
eigen-solvers, pseudo-inverse and `nonlinshrink` are arbitrary. -/
theorem C127_covariance {T' : ℕ} {ext : Ext T N} {R : Panel T N} {p : Option (ProbVec T')} (hp : ∀ q, p = some q → IsProb q.v)
    {mk ck : String} {mkw : MeanKw T N} {ckw : CovKw N} (hsp : 1 ≤ ckw.span) (hg : ckw.ensurePsd = true) {mu : MeanOut N}
    {C : Matrix (Fin N) (Fin N) ℝ} {l} (h : estimateMoments ext R p mk ck mkw ckw = .ok (mu, .matrix C l)) : NearPsd C := by
  obtain ⟨m0, S0, k1, k2, h1, -, -, -, h5⟩ := estimateMoments_ok h
  refine covStage_nearPsd hsp hg (fun M l' hM => ?_) h5
  subst hM
  cases p with
  | none =>
    simp only [sampleStage] at h1
    split at h1
    · cases h1
    rename_i S hS
    split at h1
    · cases h1
    injection h1 with h1
    injection h1 with _ h1
    subst h1
    unfold npCov0 at hS
    split at hS
    · split at hS
      · cases hS
      · cases hS
    · rw [Panel.labels, wrapMat_fn] at hS
      injection hS with hS
      injection hS with hS
      rw [← hS]
      exact nearPsd_of_psd (secondMoment_psd _)
  | some q =>
    have hq := hp q rfl
    simp only [sampleStage] at h1
    have hT : T' = T := by
      by_contra hne
      unfold sampleMomentsL estimateSampleMoments at h1
      rw [dif_neg hne] at h1
      cases h1
    subst hT
    unfold sampleMomentsL at h1
    rw [sample_ok hq] at h1
    simp only at h1
    split at h1
    · cases h1
    split at h1
    · rename_i S hS
      injection h1 with h1
      injection h1 with _ h1
      subst h1
      have : M = wCov R.x q.v := by
        unfold wrapMat at hS
        split at hS
        · injection hS with hS; injection hS with hS; exact hS.symm
        · split at hS
          · injection hS with hS; injection hS with hS; exact hS.symm
          · cases hS
      rw [this]
      obtain ⟨_, _, h2, -, -, h3⟩ := C35_sample_moments R.x hq
      rw [sample_ok hq] at h2
      injection h2 with h2
      injection h2 with _ h2
      rw [h2]
      exact nearPsd_of_psd h3
    · cases h1
    · cases h1

/-- The documented names (any capitalisation is accepted). -/
def meanNames : List String :=
  ["sample", "simple", "jorion", "bayes_stein", "james_stein", "james-stein", "js", "huber", "robust_huber", "median_of_means", "mom"]

/-- The documented names (any capitalisation is accepted). -/
def covNames : List String :=
  ["sample", "empirical", "ledoit_wolf", "lw", "oas", "nls", "nonlinear", "nonlinear_shrinkage", "poet", "tyler", "tyler_shrinkage",
    "glasso", "graphical_lasso", "ewma"]

theorem meanKind_none {key : String} : meanKind key = none ↔ key ∉ meanNames := by
  unfold meanKind meanNames
  simp only [List.mem_cons, List.not_mem_nil, or_false]
  split_ifs <;> simp_all <;> tauto

theorem covKind_none {key : String} : covKind key = none ↔ key ∉ covNames := by
  unfold covKind covNames
  simp only [List.mem_cons, List.not_mem_nil, or_false]
  split_ifs <;> simp_all <;> tauto

/-- **C127** A name that is not documented is a `ValueError` whenever the sample moments exist and the mean estimator works (those come
first); a success means both names are documented. -/
theorem C127_names {T' : ℕ} (ext : Ext T N) (R : Panel T N) (p : Option (ProbVec T')) (mk ck : String) (mkw : MeanKw T N) (ckw : CovKw N) :
    (∀ out, estimateMoments ext R p mk ck mkw ckw = .ok out → mk.toLower ∈ meanNames ∧ ck.toLower ∈ covNames) ∧
    (∀ ms, sampleStage R p = .ok ms → mk.toLower ∉ meanNames → estimateMoments ext R p mk ck mkw ckw = .error .valueError) ∧
    (∀ ms, sampleStage R p = .ok ms → mk.toLower ∈ ["sample", "simple"] → ck.toLower ∉ covNames →
      estimateMoments ext R p mk ck mkw ckw = .error .valueError) := by
  refine ⟨fun out h => ?_, fun ms h1 h2 => ?_, fun ms h1 h2 h3 => ?_⟩
  · obtain ⟨_, _, k1, k2, -, h1, h2, -⟩ := estimateMoments_ok (mu := out.1) (S := out.2) h
    constructor
    · by_contra hc
      rw [meanKind_none.2 hc] at h1
      cases h1
    · by_contra hc
      rw [covKind_none.2 hc] at h2
      cases h2
  · unfold estimateMoments
    rw [h1, meanKind_none.2 h2]
  · unfold estimateMoments
    have : meanKind mk.toLower = some .sample := by unfold meanKind; rw [if_pos h2]
    rw [h1, this, covKind_none.2 h3]
    simp only [meanStage]

/-- **C127** Each name selects the estimator it names: mean part. `m`, `S` are the sample moments. -/
theorem C127_mean {T' : ℕ} {ext : Ext T N} {R : Panel T N} {p : Option (ProbVec T')} {mk ck : String} {mkw : MeanKw T N}
    {ckw : CovKw N} {mu : MeanOut N} {S : CovOut N} (h : estimateMoments ext R p mk ck mkw ckw = .ok (mu, S)) :
    ∃ (m0 : MeanOut N) (S0 : CovOut N), sampleStage R p = .ok (m0, S0) ∧
    (mk.toLower ∈ ["sample", "simple"] → mu = m0) ∧
    (mk.toLower ∈ ["jorion", "bayes_stein"] → ∃ M l, S0 = .matrix M l ∧ shrinkMeanJorion m0.v M T = .ok mu.v) ∧
    (mk.toLower ∈ ["james_stein", "james-stein", "js"] → ∃ M l, S0 = .matrix M l ∧
      shrinkMeanJamesStein ext.pinv m0.v M T mkw.target = .ok mu.v) ∧
    (mk.toLower ∈ ["huber", "robust_huber"] → 0 < T → ∀ i, huberColumn mkw.tol mkw.maxIter (List.ofFn fun t => R.x t i) = some (mu.v i)) ∧
    (mk.toLower ∈ ["median_of_means", "mom"] → 0 < T → ∀ i, medianOfMeans mkw.perm mkw.blocks (fun t => R.x t i) = .ok (some (mu.v i))) := by
  obtain ⟨m0, S0, k1, k2, h0, h1, -, h3, -⟩ := estimateMoments_ok h
  have wv : ∀ {x : Fin N → ℝ} {l}, wrapVec x l = .ok mu → mu.v = x := by
    intro x l hw
    unfold wrapVec at hw
    split at hw
    · injection hw with hw; rw [← hw]
    · split at hw
      · injection hw with hw; rw [← hw]
      · cases hw
  refine ⟨m0, S0, h0, fun hk => ?_, fun hk => ?_, fun hk => ?_, fun hk hT i => ?_, fun hk hT i => ?_⟩
  · have : meanKind mk.toLower = some .sample := by unfold meanKind; rw [if_pos hk]
    rw [h1] at this; injection this with this; subst this
    simp only [meanStage] at h3
    injection h3 with h3
    exact h3.symm
  · have : meanKind mk.toLower = some .jorion := by
      simp only [List.mem_cons, List.not_mem_nil, or_false] at hk
      rcases hk with hk | hk <;> rw [hk] <;> decide +kernel
    rw [h1] at this; injection this with this; subst this
    simp only [meanStage] at h3
    cases S0 with
    | scalar x => simp [asMatrix] at h3
    | matrix M l =>
      simp only [asMatrix] at h3
      split at h3
      · rename_i v l' hv hl
        exact ⟨M, l, rfl, by rw [wv h3]; exact hv⟩
      · cases h3
      · cases h3
  · have : meanKind mk.toLower = some .jamesStein := by
      simp only [List.mem_cons, List.not_mem_nil, or_false] at hk
      rcases hk with hk | hk | hk <;> rw [hk] <;> decide +kernel
    rw [h1] at this; injection this with this; subst this
    simp only [meanStage] at h3
    cases S0 with
    | scalar x => simp [asMatrix] at h3
    | matrix M l =>
      simp only [asMatrix] at h3
      split at h3
      · rename_i v l' hv hl
        exact ⟨M, l, rfl, by rw [wv h3]; exact hv⟩
      · cases h3
      · cases h3
  · have : meanKind mk.toLower = some .huber := by
      simp only [List.mem_cons, List.not_mem_nil, or_false] at hk
      rcases hk with hk | hk <;> rw [hk] <;> decide +kernel
    rw [h1] at this; injection this with this; subst this
    simp only [meanStage] at h3
    have hne : (List.ofFn fun t => R.x t i) ≠ [] := by
      intro hc
      have := congrArg List.length hc
      simp at this
      omega
    obtain ⟨m, hm, -⟩ := C43_huber_range mkw.tol mkw.maxIter hne
    rw [wv h3, huberMean, hm]
    rfl
  · have : meanKind mk.toLower = some .medianOfMeans := by
      simp only [List.mem_cons, List.not_mem_nil, or_false] at hk
      rcases hk with hk | hk <;> rw [hk] <;> decide +kernel
    rw [h1] at this; injection this with this; subst this
    simp only [meanStage] at h3
    split at h3
    · cases h3
    rename_i v hv
    unfold momMean at hv
    split at hv
    · cases hv
    rename_i B hB
    injection hv with hv
    obtain ⟨m, hm, -⟩ := C43_median_of_means mkw.perm hT hB (fun t => R.x t i)
    rw [wv h3, ← hv]
    simp only [hm, Option.getD_some]

/-- **C127** Each name selects the estimator it names: covariance part. -/
theorem C127_cov {T' : ℕ} {ext : Ext T N} {R : Panel T N} {p : Option (ProbVec T')} {mk ck : String} {mkw : MeanKw T N}
    {ckw : CovKw N} {mu : MeanOut N} {S : CovOut N} (h : estimateMoments ext R p mk ck mkw ckw = .ok (mu, S)) :
    ∃ (m0 : MeanOut N) (S0 : CovOut N), sampleStage R p = .ok (m0, S0) ∧
    (ck.toLower ∈ ["sample", "empirical"] → S = S0) ∧
    (ck.toLower ∈ ["ledoit_wolf", "lw"] → ∃ M l C l', S0 = .matrix M l ∧ S = .matrix C l' ∧ shrinkLedoitWolf R.x M ckw.lwTarget = .ok C) ∧
    (ck.toLower ∉ ["sample", "empirical", "ledoit_wolf", "lw"] → ∃ C, S = .matrix C R.labels ∧
      (ck.toLower = "oas" → shrinkOas R.x ckw.oasCentered = .ok C) ∧
      (ck.toLower ∈ ["nls", "nonlinear", "nonlinear_shrinkage"] → shrinkNls ext R.x ckw.inputIsCov ckw.dof = .ok C) ∧
      (ck.toLower = "poet" → poet ext.eighDesc R.x ckw.k ckw.thresh ckw.standardize = .ok C) ∧
      (ck.toLower ∈ ["tyler", "tyler_shrinkage"] →
        tyler ext.pinv R.x ckw.shrinkage ckw.tol ckw.tylerTarget ckw.maxIter ckw.ensurePsd = .ok C) ∧
      (ck.toLower ∈ ["glasso", "graphical_lasso"] → ∃ P, glasso ext.eigh ext.pinv R.x ckw.alpha ckw.glassoCentered = .ok (C, P)) ∧
      (ck.toLower = "ewma" → covarianceEwma (List.ofFn R.x) ckw.span ckw.minPeriods = .ok C)) := by
  obtain ⟨m0, S0, k1, k2, h0, -, h2, -, h5⟩ := estimateMoments_ok h
  refine ⟨m0, S0, h0, fun hk => ?_, fun hk => ?_, fun hk => ?_⟩
  · have : covKind ck.toLower = some .sample := by unfold covKind; rw [if_pos hk]
    rw [h2] at this; injection this with this; subst this
    simp only [covStage] at h5
    injection h5 with h5
    exact h5.symm
  · have : covKind ck.toLower = some .ledoitWolf := by
      simp only [List.mem_cons, List.not_mem_nil, or_false] at hk
      rcases hk with hk | hk <;> rw [hk] <;> decide +kernel
    rw [h2] at this; injection this with this; subst this
    simp only [covStage] at h5
    cases S0 with
    | scalar x => simp [asMatrix] at h5
    | matrix M l =>
      simp only [asMatrix] at h5
      split at h5
      · rename_i C l' hC hl
        unfold wrapMat at h5
        split at h5
        · injection h5 with h5
          exact ⟨M, l, C, none, rfl, h5.symm, hC⟩
        · split at h5
          · injection h5 with h5
            exact ⟨M, l, C, _, rfl, h5.symm, hC⟩
          · cases h5
      · cases h5
      · cases h5
  · have hmem : ck.toLower ∈ covNames := by
      by_contra hc
      rw [covKind_none.2 hc] at h2
      cases h2
    generalize ck.toLower = key at *
    simp only [covNames, List.mem_cons, List.not_mem_nil, or_false] at hmem hk
    have hw : ∀ {r}, wrapRes R r = .ok S → ∃ C, S = .matrix C R.labels ∧ r = .ok C := fun hr => by
      obtain ⟨C, h1, h2⟩ := wrapRes_ok hr
      exact ⟨C, h2, h1⟩
    have hkind : ∀ k, covKind key = some k → k2 = k := fun k hk => by rw [h2] at hk; injection hk
    rcases hmem with rfl | rfl | rfl | rfl | rfl | rfl | rfl | rfl | rfl | rfl | rfl | rfl | rfl | rfl
    · simp at hk
    · simp at hk
    · simp at hk
    · simp at hk
    · rw [hkind .oas (by decide +kernel)] at h5
      obtain ⟨C, e, hC⟩ := hw h5
      exact ⟨C, e, fun _ => hC, by simp, by simp, by simp, by simp, by simp⟩
    · rw [hkind .nls (by decide +kernel)] at h5
      obtain ⟨C, e, hC⟩ := hw h5
      exact ⟨C, e, by simp, fun _ => hC, by simp, by simp, by simp, by simp⟩
    · rw [hkind .nls (by decide +kernel)] at h5
      obtain ⟨C, e, hC⟩ := hw h5
      exact ⟨C, e, by simp, fun _ => hC, by simp, by simp, by simp, by simp⟩
    · rw [hkind .nls (by decide +kernel)] at h5
      obtain ⟨C, e, hC⟩ := hw h5
      exact ⟨C, e, by simp, fun _ => hC, by simp, by simp, by simp, by simp⟩
    · rw [hkind .poet (by decide +kernel)] at h5
      obtain ⟨C, e, hC⟩ := hw h5
      exact ⟨C, e, by simp, by simp, fun _ => hC, by simp, by simp, by simp⟩
    · rw [hkind .tyler (by decide +kernel)] at h5
      obtain ⟨C, e, hC⟩ := hw h5
      exact ⟨C, e, by simp, by simp, by simp, fun _ => hC, by simp, by simp⟩
    · rw [hkind .tyler (by decide +kernel)] at h5
      obtain ⟨C, e, hC⟩ := hw h5
      exact ⟨C, e, by simp, by simp, by simp, fun _ => hC, by simp, by simp⟩
    · rw [hkind .glasso (by decide +kernel)] at h5
      obtain ⟨C, e, hC⟩ := hw h5
      refine ⟨C, e, by simp, by simp, by simp, by simp, fun _ => ?_, by simp⟩
      unfold glassoCov at hC
      split at hC
      · cases hC
      rename_i cp hcp
      injection hC with hC
      exact ⟨cp.2, by rw [hcp, ← hC]⟩
    · rw [hkind .glasso (by decide +kernel)] at h5
      obtain ⟨C, e, hC⟩ := hw h5
      refine ⟨C, e, by simp, by simp, by simp, by simp, fun _ => ?_, by simp⟩
      unfold glassoCov at hC
      split at hC
      · cases hC
      rename_i cp hcp
      injection hC with hC
      exact ⟨cp.2, by rw [hcp, ← hC]⟩
    · rw [hkind .ewma (by decide +kernel)] at h5
      obtain ⟨C, e, hC⟩ := hw h5
      exact ⟨C, e, by simp, by simp, by simp, by simp, by simp, fun _ => hC⟩

/-! ## C129: one-shot NIW posteriors -/

open PyV.Bayes in
/-- **C129** The one-shot functions agree with `RobustBayesPosterior.from_niw`: `posterior_moments_niw_with_uncertainty` returns exactly its
mean, covariance and mean uncertainty, and fails exactly when it fails; whenever it succeeds `posterior_moments_niw` returns the same mean
and covariance. The labels are those of the prior: its mean's index, which the covariance's labels must equal, or else the covariance's row
labels. -/
theorem C129_from_niw {factor : Factor} (mu : Arr1) (sigma : Arr2) (t0 nu0 : ℝ) (smu : Arr1) (ssigma : Arr2) (nObs : ℝ) :
    (∀ e, posteriorNiwUnc factor mu sigma t0 nu0 smu ssigma nObs = .error e ↔ fromNiw factor mu sigma t0 nu0 smu ssigma nObs = .error e) ∧
    ∀ n m s u, posteriorNiwUnc factor mu sigma t0 nu0 smu ssigma nObs = .ok ⟨n, m, s, u⟩ →
      (∃ r, fromNiw factor mu sigma t0 nu0 smu ssigma nObs = .ok r ∧ ∃ hn : r.n = n,
        (∀ i, m.val i = r.mu (Fin.cast hn.symm i)) ∧ (∀ i j, s.val i j = r.sigma (Fin.cast hn.symm i) (Fin.cast hn.symm j)) ∧
        ∀ i j, u.val i j = r.sMu (Fin.cast hn.symm i) (Fin.cast hn.symm j)) ∧
      posteriorNiw factor mu sigma t0 nu0 smu ssigma nObs = .ok ⟨n, m, s⟩ ∧
      ((∀ l, mu.index = some l → m.index = some l ∧ ∀ i c, sigma.labels = some (i, c) → i = l ∧ c = l) ∧
        (mu.index = none → m.index = sigma.labels.map Prod.fst)) ∧ s.index = m.index ∧ u.index = m.index := by
  unfold posteriorNiwUnc posteriorNiw fromNiw
  cases ho : init factor mu sigma (pyInt t0) (pyInt nu0) with
  | error e => simp
  | ok o =>
    simp only
    cases hu : update factor o smu ssigma (pyInt nObs) with
    | error e => simp
    | ok p =>
      simp only
      have hm : getMuCe { o with post := some p } = .ok ⟨p.mu1, o.index⟩ := rfl
      have hidx : mergeIndex mu sigma = .ok o.index := by
        unfold init at ho
        split at ho
        · cases ho
        split at ho
        · cases ho
        rename_i idx hidx
        unfold mkNiw at ho
        split at ho
        · split at ho
          · cases ho
          split at ho
          · cases ho
          simp only at ho
          split at ho
          · cases ho
          injection ho with ho
          rw [hidx, ← ho]
        · cases ho
      have hs : ∀ s, getSigmaCe { o with post := some p } = .ok s → s.index = o.index := by
        intro s hs
        unfold getSigmaCe at hs
        simp only at hs
        split at hs
        · cases hs
        injection hs with hs
        rw [← hs]
      have hU : ∀ s, getSMu { o with post := some p } = .ok s → s.index = o.index := by
        intro s hs
        unfold getSMu at hs
        simp only at hs
        split at hs
        · cases hs
        injection hs with hs
        rw [← hs]
      unfold bundle
      simp only [hm]
      cases hS : getSigmaCe { o with post := some p } with
      | error e => simp [bind, Except.bind]
      | ok s =>
        cases hW : getSMu { o with post := some p } with
        | error e => simp [bind, Except.bind]
        | ok u =>
          simp only [bind, Except.bind]
          refine ⟨by simp, ?_⟩
          intro n m s' u' h
          injection h with h
          cases h
          refine ⟨⟨_, rfl, rfl, fun i => rfl, fun i j => rfl, fun i j => rfl⟩, rfl, ⟨?_, ?_⟩, hs _ hS, hU _ hW⟩
          · intro l hl
            have hidx' : mergeIndex mu sigma = .ok o.index := hidx
            show o.index = some l ∧ _
            unfold mergeIndex at hidx'
            rw [hl] at hidx'
            cases hsl : sigma.labels with
            | none =>
              rw [hsl] at hidx'
              injection hidx' with e
              exact ⟨e.symm, by simp⟩
            | some ic =>
              obtain ⟨i, c⟩ := ic
              rw [hsl] at hidx'
              simp only at hidx'
              split at hidx'
              · rename_i hic
                injection hidx' with e
                refine ⟨e.symm, ?_⟩
                intro i' c' hh
                simp only [Option.some.injEq, Prod.mk.injEq] at hh
                rw [← hh.1, ← hh.2]; exact hic
              · cases hidx'
          · intro hl
            have hidx' : mergeIndex mu sigma = .ok o.index := hidx
            show o.index = _
            unfold mergeIndex at hidx'
            rw [hl] at hidx'
            cases hsl : sigma.labels with
            | none =>
              rw [hsl] at hidx'
              injection hidx' with e
              exact e.symm
            | some ic =>
              rw [hsl] at hidx'
              injection hidx' with e
              exact e.symm

/-- Two assets over two scenarios with probabilities 1/4 and 3/4: the hypotheses of `C126`, `C127` and `C128` are met. -/
example (ext : Ext 2 2) : IsProb ![(1 / 4 : ℝ), 3 / 4] ∧ ∃ mu S, estimateMoments ext ⟨![![1, 0], ![0, 2]], some ![ "A", "B"]⟩
    (some ⟨![1 / 4, 3 / 4], none⟩) "sample" "sample" {} {} = .ok (⟨mu, some ["A", "B"]⟩, .matrix S (some ["A", "B"])) ∧ NearPsd S := by
  have hp : IsProb ![(1 / 4 : ℝ), 3 / 4] := ⟨fun i => by fin_cases i <;> norm_num, by norm_num [Fin.sum_univ_two]⟩
  obtain ⟨mu, S, h, -⟩ := C126_weighted_partial ext ⟨![![1, 0], ![0, 2]], some ![ "A", "B"]⟩ (p := ⟨![1 / 4, 3 / 4], none⟩) rfl hp {} {}
  exact ⟨hp, mu, S, h, C127_covariance (fun q hq => by injection hq with hq; subst hq; exact hp) (by norm_num) rfl h⟩

end PyV.Props
