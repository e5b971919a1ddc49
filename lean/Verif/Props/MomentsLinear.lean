import Verif.Props.MomentsApi

/-! # C231: moments of portfolios are portfolios of the moments -/

namespace PyV.Props

open PyV PyV.Mom Matrix

variable {N M T T' : ℕ}

/-! ## Specification -/

/-- The returns of the portfolios that are the rows of `A`. -/
def portfolioReturns (A : Matrix (Fin M) (Fin N) ℝ) (x : Fin T → Fin N → ℝ) : Fin T → Fin M → ℝ := fun t k => ∑ i, A k i * x t i

/-! ## Proof -/

private theorem wMean_portfolios (A : Matrix (Fin M) (Fin N) ℝ) (x : Fin T → Fin N → ℝ) (p : Fin T → ℝ) :
    wMean (portfolioReturns A x) p = A *ᵥ wMean x p := by
  funext k
  simp only [wMean, portfolioReturns, Matrix.mulVec, dotProduct, Finset.sum_mul, Finset.mul_sum]
  rw [Finset.sum_comm]
  exact Finset.sum_congr rfl fun i _ => Finset.sum_congr rfl fun t _ => by ring

private theorem colMean_portfolios (A : Matrix (Fin M) (Fin N) ℝ) (x : Fin T → Fin N → ℝ) :
    colMean (portfolioReturns A x) = A *ᵥ colMean x := by
  funext k
  simp only [colMean, portfolioReturns, Matrix.mulVec, dotProduct]
  rw [Finset.sum_comm, Finset.sum_div]
  exact Finset.sum_congr rfl fun i _ => by rw [← Finset.mul_sum, mul_div_assoc]

/-- A sum of products of portfolio returns. -/
private theorem gram_portfolios (A : Matrix (Fin M) (Fin N) ℝ) (y : Fin T → Fin N → ℝ) (p : Fin T → ℝ) (k l : Fin M) :
    ∑ t, (∑ i, A k i * y t i) * (∑ j, A l j * y t j) * p t = (A * Matrix.of (fun i j => ∑ t, y t i * y t j * p t) * Aᵀ) k l := by
  simp only [Matrix.mul_apply, Matrix.transpose_apply, Matrix.of_apply, Finset.sum_mul, Finset.mul_sum]
  rw [Finset.sum_comm]
  refine Finset.sum_congr rfl fun j _ => ?_
  rw [Finset.sum_comm]
  exact Finset.sum_congr rfl fun i _ => Finset.sum_congr rfl fun t _ => by ring

private theorem half_congr (A : Matrix (Fin M) (Fin N) ℝ) (S : Matrix (Fin N) (Fin N) ℝ) :
    (1 / 2 : ℝ) • (A * S * Aᵀ + (A * S * Aᵀ)ᵀ) = A * ((1 / 2 : ℝ) • (S + Sᵀ)) * Aᵀ := by
  rw [Matrix.mul_smul, Matrix.smul_mul, Matrix.mul_add, Matrix.add_mul, Matrix.transpose_mul, Matrix.transpose_mul, Matrix.transpose_transpose, Matrix.mul_assoc A Sᵀ]

private theorem wCov_portfolios (A : Matrix (Fin M) (Fin N) ℝ) (x : Fin T → Fin N → ℝ) (p : Fin T → ℝ) :
    wCov (portfolioReturns A x) p = A * wCov x p * Aᵀ := by
  have e : ∀ t k, portfolioReturns A x t k - wMean (portfolioReturns A x) p k = ∑ i, A k i * (x t i - wMean x p i) := by
    intro t k
    rw [wMean_portfolios]
    simp only [portfolioReturns, Matrix.mulVec, dotProduct, ← Finset.sum_sub_distrib, mul_sub]
  unfold wCov
  dsimp only
  rw [← half_congr]
  have h : (Matrix.of fun k l => ∑ t, (portfolioReturns A x t k - wMean (portfolioReturns A x) p k) *
      (portfolioReturns A x t l - wMean (portfolioReturns A x) p l) * p t : Matrix (Fin M) (Fin M) ℝ) =
      A * (Matrix.of fun i j => ∑ t, (x t i - wMean x p i) * (x t j - wMean x p j) * p t) * Aᵀ := by
    ext k l
    simp only [Matrix.of_apply, e]
    exact gram_portfolios A (fun t i => x t i - wMean x p i) p k l
  rw [h]

private theorem second_portfolios (A : Matrix (Fin M) (Fin N) ℝ) (x : Fin T → Fin N → ℝ) :
    secondMoment (centred (portfolioReturns A x)) = A * secondMoment (centred x) * Aᵀ := by
  have e : ∀ t k, centred (portfolioReturns A x) t k = ∑ i, A k i * centred x t i := by
    intro t k
    unfold centred
    rw [colMean_portfolios]
    simp only [portfolioReturns, Matrix.mulVec, dotProduct, ← Finset.sum_sub_distrib, mul_sub]
  ext k l
  have hd : secondMoment (centred x) = Matrix.of (fun i j => ∑ t, centred x t i * centred x t j * (1 / (T : ℝ))) := by
    ext i j
    simp only [secondMoment, Matrix.of_apply, ← Finset.sum_mul]
    ring
  rw [hd, ← gram_portfolios]
  simp only [secondMoment, Matrix.of_apply, e, ← Finset.sum_mul]
  ring

private theorem ewma_portfolios (A : Matrix (Fin M) (Fin N) ℝ) (x : Fin T → Fin N → ℝ) (span minPeriods : ℤ) :
    covarianceEwma (List.ofFn (portfolioReturns A x)) span minPeriods =
      (covarianceEwma (List.ofFn x) span minPeriods).map fun S => A * S * Aᵀ := by
  have hl : List.ofFn (portfolioReturns A x) = (List.ofFn x).map fun r => A *ᵥ r := by
    rw [List.map_ofFn]; rfl
  rw [hl]
  have hv : ∀ r : Fin N → ℝ, vecMulVec (A *ᵥ r) (A *ᵥ r) = A * vecMulVec r r * Aᵀ := by
    intro r
    rw [Matrix.mul_vecMulVec, Matrix.vecMulVec_mul, Matrix.vecMul_transpose]
  have hf : ∀ (rows : List (Fin N → ℝ)) (C : Matrix (Fin N) (Fin N) ℝ) (lam : ℝ),
      (rows.map fun r => A *ᵥ r).foldl (ewmaStep lam) (A * C * Aᵀ) = A * rows.foldl (ewmaStep lam) C * Aᵀ := by
    intro rows
    induction rows with
    | nil => intro C lam; rfl
    | cons r rows ih =>
      intro C lam
      simp only [List.map_cons, List.foldl_cons]
      rw [← ih]
      congr 1
      unfold ewmaStep
      rw [hv, Matrix.mul_add, Matrix.add_mul, Matrix.mul_smul, Matrix.smul_mul, Matrix.mul_smul, Matrix.smul_mul]
  unfold covarianceEwma
  rw [List.length_map]
  generalize List.ofFn x = rows
  split
  · rfl
  split
  · rfl
  cases rows with
  | nil => rfl
  | cons r rows =>
    simp only [List.map_cons, hv, hf, half_congr, Except.map]

/-- The sample stage, for panels without or with labels. -/
private theorem stage_some (R : Panel T N) (v : Fin T' → ℝ) :
    sampleStage R (some ⟨v, none⟩) = (estimateSampleMoments R.x v).map fun ms => (⟨ms.1, R.labels⟩, .matrix ms.2 R.labels) := by
  unfold sampleStage sampleMomentsL
  cases h : estimateSampleMoments R.x v with
  | error e => simp only [h]; rfl
  | ok ms =>
    simp only [h]
    obtain ⟨x, cols⟩ := R
    cases cols with
    | none => rfl
    | some c =>
      simp only [Panel.labels, ProbVec.labels, Option.map_some, Option.map_none, labelsOf, labelsLoop, wrapVec, wrapMat, List.length_ofFn, if_true]
      rfl

private theorem stage_none (R : Panel T N) (hN : N ≠ 1) :
    sampleStage (T' := T') R none = .ok (⟨colMean R.x, R.labels⟩, .matrix (secondMoment (centred R.x)) R.labels) := by
  unfold sampleStage npCov0
  dsimp only
  rw [dif_neg hN]
  obtain ⟨x, cols⟩ := R
  cases cols with
  | none => rfl
  | some c => simp only [Panel.labels, Option.map_some, wrapVec, wrapMat, List.length_ofFn, if_true]

private theorem wrapRes_eq (R : Panel T N) (x : Except PyErr (Matrix (Fin N) (Fin N) ℝ)) :
    wrapRes R x = x.map fun m => .matrix m R.labels := by
  cases x with
  | error e => rfl
  | ok m =>
    obtain ⟨x, cols⟩ := R
    cases cols with
    | none => rfl
    | some c => simp only [wrapRes, Panel.labels, Option.map_some, wrapMat, List.length_ofFn, if_true, Except.map]

private theorem sample_portfolios (A : Matrix (Fin M) (Fin N) ℝ) (x : Fin T → Fin N → ℝ) (v : Fin T' → ℝ) :
    estimateSampleMoments (portfolioReturns A x) v = (estimateSampleMoments x v).map fun ms => (A *ᵥ ms.1, A * ms.2 * Aᵀ) := by
  unfold estimateSampleMoments
  by_cases h : T' = T
  · simp only [dif_pos h]
    split
    · simp only [Except.map, wMean_portfolios, wCov_portfolios]
    · rfl
  · simp only [dif_neg h]; rfl

/-- **C231.** Sample mean, and sample or exponentially weighted covariance, commute with forming portfolios: estimating from the returns of
portfolios (rows of `A`; labels of one's own) gives the portfolios' mean `A μ` and covariance `A Σ Aᵀ` for the moments `μ`, `Σ` of the assets, or
the same error.  Without probabilities, both panels must not have exactly one column. -/
theorem C231_portfolios (ext : Ext T N) (ext' : Ext T M) (R : Panel T N) (A : Matrix (Fin M) (Fin N) ℝ) (names : Option (Fin M → String))
    (p : Option (Fin T' → ℝ)) (hp : p = none → N ≠ 1 ∧ M ≠ 1) {meanKey covKey : String} (hm : meanKey.toLower = "sample" ∨ meanKey.toLower = "simple")
    (hc : covKey.toLower = "sample" ∨ covKey.toLower = "empirical" ∨ covKey.toLower = "ewma") (mkw : MeanKw T N) (mkw' : MeanKw T M)
    (ckw : CovKw N) (ckw' : CovKw M) (hspan : ckw'.span = ckw.span) (hmin : ckw'.minPeriods = ckw.minPeriods) :
    (∃ e, estimateMoments ext R (p.map fun v => ⟨v, none⟩) meanKey covKey mkw ckw = .error e ∧
      estimateMoments ext' ⟨portfolioReturns A R.x, names⟩ (p.map fun v => ⟨v, none⟩) meanKey covKey mkw' ckw' = .error e) ∨
    ∃ (mu : Fin N → ℝ) (S : Matrix (Fin N) (Fin N) ℝ),
      estimateMoments ext R (p.map fun v => ⟨v, none⟩) meanKey covKey mkw ckw = .ok (⟨mu, R.labels⟩, .matrix S R.labels) ∧
      estimateMoments ext' ⟨portfolioReturns A R.x, names⟩ (p.map fun v => ⟨v, none⟩) meanKey covKey mkw' ckw' =
        .ok (⟨A *ᵥ mu, names.map List.ofFn⟩, .matrix (A * S * Aᵀ) (names.map List.ofFn)) := by
  have hmk : meanKind meanKey.toLower = some .sample := by
    unfold meanKind; rw [if_pos (by simpa using hm)]
  obtain ⟨ck, hck, hck2⟩ : ∃ ck, covKind covKey.toLower = some ck ∧ (ck = .sample ∨ ck = .ewma) := by
    rcases hc with h | h | h <;> rw [h]
    · exact ⟨.sample, rfl, .inl rfl⟩
    · exact ⟨.sample, rfl, .inl rfl⟩
    · exact ⟨.ewma, rfl, .inr rfl⟩
  have hstage : (∃ e, sampleStage R (p.map fun v => ⟨v, none⟩) = .error e ∧
        sampleStage (⟨portfolioReturns A R.x, names⟩ : Panel T M) (p.map fun v => ⟨v, none⟩) = .error e) ∨
      ∃ mu S, sampleStage R (p.map fun v => ⟨v, none⟩) = .ok (⟨mu, R.labels⟩, .matrix S R.labels) ∧
        sampleStage (⟨portfolioReturns A R.x, names⟩ : Panel T M) (p.map fun v => ⟨v, none⟩) =
          .ok (⟨A *ᵥ mu, names.map List.ofFn⟩, .matrix (A * S * Aᵀ) (names.map List.ofFn)) := by
    cases p with
    | none =>
      obtain ⟨h1, h2⟩ := hp rfl
      simp only [Option.map_none]
      rw [stage_none R h1, stage_none _ h2, colMean_portfolios, second_portfolios]
      exact .inr ⟨_, _, rfl, rfl⟩
    | some v =>
      simp only [Option.map_some]
      rw [stage_some, stage_some, sample_portfolios]
      cases estimateSampleMoments R.x v with
      | error e => exact .inl ⟨e, rfl, rfl⟩
      | ok ms => exact .inr ⟨_, _, rfl, rfl⟩
  unfold estimateMoments
  rcases hstage with ⟨e, h1, h2⟩ | ⟨mu, S, h1, h2⟩
  · rw [h1, h2]; exact .inl ⟨e, rfl, rfl⟩
  rw [h1, h2]
  simp only [hmk, meanStage, hck]
  rcases hck2 with rfl | rfl
  · exact .inr ⟨mu, S, rfl, rfl⟩
  · simp only [covStage, wrapRes_eq, ewma_portfolios, hspan, hmin]
    cases covarianceEwma (List.ofFn R.x) ckw.span ckw.minPeriods with
    | error e => exact .inl ⟨e, rfl, rfl⟩
    | ok C => exact .inr ⟨mu, C, rfl, rfl⟩

/-- The panel with only the columns `ι 0, …, ι (M - 1)`. -/
def someColumns (ι : Fin M → Fin N) (R : Panel T N) : Panel T M := ⟨fun t k => R.x t (ι k), R.cols.map fun c k => c (ι k)⟩

/-- **C231.** The estimates for an asset do not depend on which other assets are in the panel, for the sample, Huber and median-of-means means and
the sample and exponentially weighted covariances: on some of the columns they are the corresponding entries of the estimates on all columns, or
the same error is raised. -/
theorem C231_other_assets (ext : Ext T N) (ext' : Ext T M) (R : Panel T N) (ι : Fin M → Fin N) (p : Option (Fin T' → ℝ))
    (hp : p = none → N ≠ 1 ∧ M ≠ 1) {meanKey covKey : String} {mk : MeanKind} (hm : meanKind meanKey.toLower = some mk)
    (hm' : mk = .sample ∨ mk = .huber ∨ mk = .medianOfMeans) {ck : CovKind} (hc : covKind covKey.toLower = some ck) (hc' : ck = .sample ∨ ck = .ewma)
    (target : JsTarget N) (target' : JsTarget M) (tol : ℝ) (maxIter : ℕ) (blocks : Blocks) (perm : Equiv.Perm (Fin T))
    (ckw : CovKw N) (ckw' : CovKw M) (hspan : ckw'.span = ckw.span) (hmin : ckw'.minPeriods = ckw.minPeriods) :
    (∃ e, estimateMoments ext R (p.map fun v => ⟨v, none⟩) meanKey covKey ⟨target, tol, maxIter, blocks, perm⟩ ckw = .error e ∧
      estimateMoments ext' (someColumns ι R) (p.map fun v => ⟨v, none⟩) meanKey covKey ⟨target', tol, maxIter, blocks, perm⟩ ckw' = .error e) ∨
    ∃ (mu : Fin N → ℝ) (S : Matrix (Fin N) (Fin N) ℝ),
      estimateMoments ext R (p.map fun v => ⟨v, none⟩) meanKey covKey ⟨target, tol, maxIter, blocks, perm⟩ ckw =
        .ok (⟨mu, R.labels⟩, .matrix S R.labels) ∧
      estimateMoments ext' (someColumns ι R) (p.map fun v => ⟨v, none⟩) meanKey covKey ⟨target', tol, maxIter, blocks, perm⟩ ckw' =
        .ok (⟨fun k => mu (ι k), (someColumns ι R).labels⟩, .matrix (S.submatrix ι ι) (someColumns ι R).labels) := by
  have hwrap : ∀ {K : ℕ} (R : Panel T K) (v : Fin K → ℝ), wrapVec v R.labels = .ok ⟨v, R.labels⟩ := by
    intro K R v
    obtain ⟨x, cols⟩ := R
    cases cols with
    | none => rfl
    | some c => simp only [Panel.labels, Option.map_some, wrapVec, List.length_ofFn, if_true]
  let A : Matrix (Fin M) (Fin N) ℝ := (1 : Matrix (Fin N) (Fin N) ℝ).submatrix ι id
  have hA : portfolioReturns A R.x = (someColumns ι R).x := by
    funext t k
    simp [portfolioReturns, A, Matrix.one_apply, someColumns]
  have hAm : ∀ mu : Fin N → ℝ, A *ᵥ mu = fun k => mu (ι k) := by
    intro mu
    funext k
    simp [A, Matrix.mulVec, dotProduct, Matrix.one_apply]
  have hAS : ∀ S : Matrix (Fin N) (Fin N) ℝ, A * S * Aᵀ = S.submatrix ι ι := by
    intro S
    ext k l
    simp [A, Matrix.mul_apply, Matrix.one_apply]
  have hstage : (∃ e, sampleStage R (p.map fun v => ⟨v, none⟩) = .error e ∧ sampleStage (someColumns ι R) (p.map fun v => ⟨v, none⟩) = .error e) ∨
      ∃ mu S, sampleStage R (p.map fun v => ⟨v, none⟩) = .ok (⟨mu, R.labels⟩, .matrix S R.labels) ∧
        sampleStage (someColumns ι R) (p.map fun v => ⟨v, none⟩) =
          .ok (⟨fun k => mu (ι k), (someColumns ι R).labels⟩, .matrix (S.submatrix ι ι) (someColumns ι R).labels) := by
    cases p with
    | none =>
      obtain ⟨h1, h2⟩ := hp rfl
      simp only [Option.map_none]
      rw [stage_none R h1, stage_none _ h2, ← hA, colMean_portfolios, second_portfolios, hAm, hAS]
      exact .inr ⟨_, _, rfl, rfl⟩
    | some v =>
      simp only [Option.map_some]
      rw [stage_some, stage_some, ← hA, sample_portfolios]
      cases estimateSampleMoments R.x v with
      | error e => exact .inl ⟨e, rfl, rfl⟩
      | ok ms => simp only [Except.map, hAm, hAS]; exact .inr ⟨_, _, rfl, rfl⟩
  unfold estimateMoments
  rcases hstage with ⟨e, h1, h2⟩ | ⟨mu, S, h1, h2⟩
  · rw [h1, h2]; exact .inl ⟨e, rfl, rfl⟩
  rw [h1, h2]
  simp only [hm, hc]
  have hmean : (∃ e, meanStage ext R ⟨mu, R.labels⟩ (.matrix S R.labels) ⟨target, tol, maxIter, blocks, perm⟩ mk = .error e ∧
        meanStage ext' (someColumns ι R) ⟨fun k => mu (ι k), (someColumns ι R).labels⟩ (.matrix (S.submatrix ι ι) (someColumns ι R).labels)
          ⟨target', tol, maxIter, blocks, perm⟩ mk = .error e) ∨
      ∃ m : Fin N → ℝ, meanStage ext R ⟨mu, R.labels⟩ (.matrix S R.labels) ⟨target, tol, maxIter, blocks, perm⟩ mk = .ok ⟨m, R.labels⟩ ∧
        meanStage ext' (someColumns ι R) ⟨fun k => mu (ι k), (someColumns ι R).labels⟩ (.matrix (S.submatrix ι ι) (someColumns ι R).labels)
          ⟨target', tol, maxIter, blocks, perm⟩ mk = .ok ⟨fun k => m (ι k), (someColumns ι R).labels⟩ := by
    rcases hm' with rfl | rfl | rfl
    · exact .inr ⟨mu, rfl, rfl⟩
    · simp only [meanStage, hwrap]
      exact .inr ⟨_, rfl, rfl⟩
    · simp only [meanStage, momMean]
      cases momBlocks T blocks with
      | error e => exact .inl ⟨e, rfl, rfl⟩
      | ok b =>
        simp only [hwrap]
        exact .inr ⟨_, rfl, rfl⟩
  rcases hmean with ⟨e, h3, h4⟩ | ⟨m, h3, h4⟩
  · rw [h3, h4]; exact .inl ⟨e, rfl, rfl⟩
  rw [h3, h4]
  dsimp only
  rcases hc' with rfl | rfl
  · exact .inr ⟨m, S, rfl, rfl⟩
  · simp only [covStage, wrapRes_eq, ← hA, ewma_portfolios, hspan, hmin]
    cases covarianceEwma (List.ofFn R.x) ckw.span ckw.minPeriods with
    | error e => exact .inl ⟨e, rfl, rfl⟩
    | ok C => simp only [Except.map, hAS]; exact .inr ⟨m, C, rfl, rfl⟩

/-- C231: two assets with returns 1, 3 and 0, 2, a half-half portfolio and the first asset alone; and the second asset with probabilities. -/
example (ext : Ext 2 2) (ext1 : Ext 2 1) :
    (∃ mu S, estimateMoments ext (⟨![![1, 0], ![3, 2]], none⟩ : Panel 2 2) (T' := 2) none "sample" "EWMA" {} {} = .ok (⟨mu, none⟩, .matrix S none) ∧
      estimateMoments ext ⟨portfolioReturns !![1 / 2, 1 / 2; 1, 0] ![![1, 0], ![3, 2]], none⟩ (T' := 2) none "sample" "EWMA" {} {} =
        .ok (⟨!![1 / 2, 1 / 2; 1, 0] *ᵥ mu, none⟩, .matrix (!![1 / 2, 1 / 2; 1, 0] * S * !![1 / 2, 1 / 2; 1, 0]ᵀ) none)) ∧
    ∃ mu S, estimateMoments ext1 (someColumns (fun _ => 1) (⟨![![1, 0], ![3, 2]], none⟩ : Panel 2 2)) (some ⟨![1 / 4, 3 / 4], none⟩) "huber" "sample" {} {} =
      .ok (⟨mu, none⟩, .matrix S none) := by
  have k1 : "EWMA".toLower = "ewma" := by decide +kernel
  have k2 : "sample".toLower = "sample" := by decide +kernel
  have k3 : "huber".toLower = "huber" := by decide +kernel
  constructor
  · rcases C231_portfolios (T' := 2) ext ext ⟨![![1, 0], ![3, 2]], none⟩ !![1 / 2, 1 / 2; 1, 0] none none (fun _ => by norm_num)
      (meanKey := "sample") (covKey := "EWMA") (.inl k2) (.inr (.inr k1)) {} {} {} {} rfl rfl with ⟨e, h, -⟩ | ⟨mu, S, h1, h2⟩
    · exfalso
      unfold estimateMoments at h
      rw [show Option.map (fun v => (⟨v, none⟩ : ProbVec 2)) none = none from rfl, stage_none _ (by norm_num)] at h
      rw [k1, k2, show meanKind "sample" = some .sample from rfl, show covKind "ewma" = some .ewma from rfl] at h
      simp only [meanStage, covStage, wrapRes_eq, covarianceEwma, List.ofFn_succ, List.length_cons] at h
      norm_num [Except.map] at h
      cases h
    · exact ⟨mu, S, h1, h2⟩
  · rcases C231_other_assets (T' := 2) ext ext1 ⟨![![1, 0], ![3, 2]], none⟩ (fun _ : Fin 1 => 1) (some ![1 / 4, 3 / 4]) (fun h => by cases h)
      (meanKey := "huber") (covKey := "sample") (mk := .huber) (by rw [k3]; rfl) (.inr (.inl rfl)) (ck := .sample) (by rw [k2]; rfl) (.inl rfl)
      .grandMean .grandMean (1 / 10 ^ 6) 200 .auto (Equiv.refl _) {} {} rfl rfl with ⟨e, h, -⟩ | ⟨mu, S, h1, h2⟩
    · exfalso
      unfold estimateMoments at h
      rw [show Option.map (fun v => (⟨v, none⟩ : ProbVec 2)) (some ![1 / 4, 3 / 4]) = some ⟨![1 / 4, 3 / 4], none⟩ from rfl, stage_some] at h
      have hq : ∃ ms, estimateSampleMoments (![![1, 0], ![3, 2]] : Fin 2 → Fin 2 → ℝ) (![1 / 4, 3 / 4] : Fin 2 → ℝ) = .ok ms := by
        unfold estimateSampleMoments
        simp only [dite_true]
        refine ⟨_, if_pos ⟨fun t => ?_, ?_⟩⟩
        · fin_cases t <;> norm_num
        · unfold PyV.Valid.sumToOne
          norm_num [Fin.sum_univ_two]
      obtain ⟨ms, hq⟩ := hq
      rw [hq, k2, k3, show meanKind "huber" = some .huber from rfl, show covKind "sample" = some .sample from rfl] at h
      simp only [Except.map, meanStage, covStage, Panel.labels, wrapVec, Option.map_none] at h
      cases h
    · exact ⟨_, _, h2⟩

end PyV.Props
