import Verif.Props.BayesRobust

/-! # Property C227: Bayesian estimation commutes with forming portfolios -/

namespace PyV.Props

open PyV PyV.Bayes Matrix

variable {n m : ℕ}

/-- The bundle assembled after a fit. -/
theorem fromNiw_of_fit {factor : Factor} {mu sm : Fin n → ℝ} {S Ss : Matrix (Fin n) (Fin n) ℝ} {l l' k k'} {t0 nu0 nObs : ℕ} {P : Params n}
    (h : niwFit factor ⟨n, mu, l⟩ ⟨n, n, S, l'⟩ t0 nu0 ⟨n, sm, k⟩ ⟨n, n, Ss, k'⟩ nObs = .ok ⟨n, P⟩) (h2 : 2 < P.nu1) :
    fromNiw factor ⟨n, mu, l⟩ ⟨n, n, S, l'⟩ t0 nu0 ⟨n, sm, k⟩ ⟨n, n, Ss, k'⟩ nObs =
      .ok ⟨n, P.mu1, (P.nu1 / (P.nu1 + n + 1)) • P.sigma1, (P.nu1 / (P.T1 * (P.nu1 - 2))) • P.sigma1, some P.nu1, some n, some P.T1⟩ := by
  unfold niwFit at h
  unfold fromNiw
  simp only [pyInt_natCast, Int.cast_natCast]
  cases ho : init factor ⟨n, mu, l⟩ ⟨n, n, S, l'⟩ t0 nu0 with
  | error e => rw [ho] at h; cases h
  | ok o =>
    rw [ho] at h
    dsimp only at h ⊢
    obtain ⟨-, -, -, idx, -, rfl⟩ := init_ok ho
    cases hu : update factor ⟨n, mu, Matrix.of S, pyInt t0, pyInt nu0, idx, none⟩ ⟨n, sm, k⟩ ⟨n, n, Ss, k'⟩ nObs with
    | error e => rw [hu] at h; cases h
    | ok p =>
      rw [hu] at h
      dsimp only at h ⊢
      obtain rfl : p = P := by
        injection h with h
        simpa using h
      unfold bundle getMuCe getSigmaCe getSMu
      have hz : p.nu1 + n + 1 ≠ 0 := by positivity
      simp only [if_neg hz, if_neg (not_le.mpr h2)]
      rfl

/-- The posterior mean of portfolios. -/
theorem mu1Of_linear (A : Matrix (Fin m) (Fin n) ℝ) (t0 k : ℝ) (x y : Fin n → ℝ) :
    mu1Of t0 k (A *ᵥ x) (A *ᵥ y) = A *ᵥ mu1Of t0 k x y := by
  have : mu1Of t0 k x y = (t0 / (t0 + k)) • x + (k / (t0 + k)) • y := by
    ext i; simp [mu1Of]; ring
  rw [this, Matrix.mulVec_add, Matrix.mulVec_smul, Matrix.mulVec_smul]
  ext i
  simp [mu1Of]
  ring

/-- The posterior scale of portfolios. -/
theorem sigma1Of_linear (A : Matrix (Fin m) (Fin n) ℝ) (t0 nu0 k : ℝ) (x y : Fin n → ℝ) (S T : Matrix (Fin n) (Fin n) ℝ) :
    sigma1Of t0 nu0 k (A *ᵥ x) (A *ᵥ y) (A * S * Aᵀ) (A * T * Aᵀ) = A * sigma1Of t0 nu0 k x y S T * Aᵀ := by
  have ho : (Matrix.of fun i j => (A *ᵥ x - A *ᵥ y) i * (A *ᵥ x - A *ᵥ y) j) =
      A * (Matrix.of fun i j => (x - y) i * (x - y) j) * Aᵀ := by
    rw [← Matrix.mulVec_sub]
    ext i j
    simp only [of_apply, Matrix.mul_apply, Matrix.mulVec, dotProduct, transpose_apply, Finset.sum_mul, Finset.mul_sum]
    refine Finset.sum_congr rfl fun a _ => Finset.sum_congr rfl fun b _ => ?_
    ring
  rw [sigma1Of_eq, sigma1Of_eq, ho]
  simp only [Matrix.mul_add, Matrix.add_mul, Matrix.mul_smul, Matrix.smul_mul]

/-- Covariances of independent portfolios are positive definite. -/
theorem conj_posDef {A : Matrix (Fin m) (Fin n) ℝ} (hA : ∀ y : Fin m → ℝ, y ≠ 0 → y ᵥ* A ≠ 0) {S : Matrix (Fin n) (Fin n) ℝ} (hS : S.PosDef) :
    (A * S * Aᵀ).PosDef := by
  have := hS.mul_mul_conjTranspose_same (B := A) (by
    intro x y hxy
    by_contra hne
    refine hA (x - y) (sub_ne_zero.2 hne) ?_
    rw [Matrix.sub_vecMul]
    exact sub_eq_zero.2 hxy)
  simpa [Matrix.conjTranspose_eq_transpose_of_trivial] using this

/-- Labels that belong together: both missing, or the same list. -/
def LabelsFit (l : Option (List String)) (l' : Option (List String × List String)) : Prop :=
  ∀ x y, l = some x → l' = some y → y = (x, x)

theorem labelsFit_ok {l l'} (h : LabelsFit l l') (mu : Fin n → ℝ) (S : Fin n → Fin n → ℝ) : ∃ idx, mergeIndex ⟨n, mu, l⟩ ⟨n, n, S, l'⟩ = .ok idx := by
  unfold mergeIndex
  cases l with
  | none => cases l' <;> exact ⟨_, rfl⟩
  | some x =>
    cases l' with
    | none => exact ⟨_, rfl⟩
    | some y => obtain rfl := h x y rfl rfl; exact ⟨some x, by simp⟩

/-- **C227** (partial) `NIWPosterior` and portfolios.  The rows of `A` are linearly independent portfolios of the assets: a reordering, a change of
units, a part of the assets, or genuine portfolios.  Prior and sample are given once for the assets and once for the portfolios.  Both posteriors
exist; that of the portfolios has the portfolio means of the asset posterior and its mean uncertainty; its covariance is that of the portfolios of the
asset posterior when there are as many portfolios as assets, and in general the product of covariance and `nu1 + number + 1` agrees.
Missing: the covariance itself for a smaller number of portfolios, which the code scales with the number of assets (`C227_counterexample`). -/
theorem C227_portfolios_partial {factor : Factor} (hf : FactorOk factor) (hm : 0 < m) (hn : 0 < n) (A : Matrix (Fin m) (Fin n) ℝ)
    (hA : ∀ y : Fin m → ℝ, y ≠ 0 → y ᵥ* A ≠ 0) (mu sm : Fin n → ℝ) {S Ss : Matrix (Fin n) (Fin n) ℝ} (hS : S.PosDef) (hSs : Ss.PosDef)
    {l l' k k' r r' s s'} (hl : LabelsFit l l') (hr : LabelsFit r r') {t0 nu0 nObs : ℕ} (ht : 0 < t0) (ho : 0 < nObs) (h2 : 2 < nu0 + nObs) :
    ∃ (mean : Fin n → ℝ) (cov unc : Matrix (Fin n) (Fin n) ℝ) (cov' : Matrix (Fin m) (Fin m) ℝ) (nu T : ℝ),
      fromNiw factor ⟨n, mu, l⟩ ⟨n, n, S, l'⟩ t0 nu0 ⟨n, sm, k⟩ ⟨n, n, Ss, k'⟩ nObs = .ok ⟨n, mean, cov, unc, some nu, some n, some T⟩ ∧
      fromNiw factor ⟨m, A *ᵥ mu, r⟩ ⟨m, m, A * S * Aᵀ, r'⟩ t0 nu0 ⟨m, A *ᵥ sm, s⟩ ⟨m, m, A * Ss * Aᵀ, s'⟩ nObs =
        .ok ⟨m, A *ᵥ mean, cov', A * unc * Aᵀ, some nu, some m, some T⟩ ∧
      (nu + m + 1) • cov' = (nu + n + 1) • (A * cov * Aᵀ) ∧ (m = n → cov' = A * cov * Aᵀ) := by
  have ht' : (0 : ℝ) < t0 := by exact_mod_cast ht
  have ho' : (0 : ℝ) < nObs := by exact_mod_cast ho
  obtain ⟨i1, hi1⟩ := labelsFit_ok hl mu S
  obtain ⟨i2, hi2⟩ := labelsFit_ok hr (A *ᵥ mu) (A * S * Aᵀ)
  obtain ⟨P, hP⟩ := C63_total hf hn mu sm hS hSs l l' k k' i1 hi1 ht nu0 ho'
  obtain ⟨Q, hQ⟩ := C63_total hf hm (A *ᵥ mu) (A *ᵥ sm) (conj_posDef hA hS) (conj_posDef hA hSs) r r' s s' i2 hi2 ht nu0 ho'
  obtain ⟨-, -, hP'⟩ := niwFit_ok hP
  obtain ⟨-, -, hQ'⟩ := niwFit_ok hQ
  have hnu : (2 : ℝ) < nu0 + nObs := by exact_mod_cast h2
  have eP : P.nu1 = nu0 + nObs := by rw [hP']
  have eQ : Q.nu1 = P.nu1 := by rw [hP', hQ']
  have eT : Q.T1 = P.T1 := by rw [hP', hQ']
  have em : Q.mu1 = A *ᵥ P.mu1 := by rw [hP', hQ']; exact mu1Of_linear A _ _ _ _
  have es : Q.sigma1 = A * P.sigma1 * Aᵀ := by rw [hP', hQ']; exact sigma1Of_linear A _ _ _ _ _ _ _
  have f1 := fromNiw_of_fit hP (by rw [eP]; exact hnu)
  have f2 := fromNiw_of_fit hQ (by rw [eQ, eP]; exact hnu)
  rw [eQ, eT, em, es] at f2
  have z1 : P.nu1 + n + 1 ≠ 0 := by rw [eP]; positivity
  have z2 : P.nu1 + m + 1 ≠ 0 := by rw [eP]; positivity
  refine ⟨_, _, _, (P.nu1 / (P.nu1 + m + 1)) • (A * P.sigma1 * Aᵀ), _, _, f1, ?_, ?_, ?_⟩
  · rw [f2]
    simp only [Matrix.mul_smul, Matrix.smul_mul]
  · rw [Matrix.mul_smul, Matrix.smul_mul, smul_smul, smul_smul]
    congr 1
    field_simp
  · rintro rfl
    rw [Matrix.mul_smul, Matrix.smul_mul]

/-- **C227** (units and order) In particular returns measured in other units `c_i ≠ 0` and assets listed in another order give the posterior in these
units and in this order: mean, covariance and mean uncertainty. -/
theorem C227_units_and_order {factor : Factor} (hf : FactorOk factor) (hn : 0 < n) (c : Fin n → ℝ) (hc : ∀ i, c i ≠ 0) (σ : Equiv.Perm (Fin n))
    (mu sm : Fin n → ℝ) {S Ss : Matrix (Fin n) (Fin n) ℝ} (hS : S.PosDef) (hSs : Ss.PosDef)
    {l l' k k' r r' s s'} (hl : LabelsFit l l') (hr : LabelsFit r r') {t0 nu0 nObs : ℕ} (ht : 0 < t0) (ho : 0 < nObs) (h2 : 2 < nu0 + nObs) :
    ∃ (mean : Fin n → ℝ) (cov unc : Matrix (Fin n) (Fin n) ℝ) (nu T : ℝ),
      fromNiw factor ⟨n, mu, l⟩ ⟨n, n, S, l'⟩ t0 nu0 ⟨n, sm, k⟩ ⟨n, n, Ss, k'⟩ nObs = .ok ⟨n, mean, cov, unc, some nu, some n, some T⟩ ∧
      fromNiw factor ⟨n, fun i => c i * mu (σ i), r⟩ ⟨n, n, fun i j => c i * c j * S (σ i) (σ j), r'⟩ t0 nu0
          ⟨n, fun i => c i * sm (σ i), s⟩ ⟨n, n, fun i j => c i * c j * Ss (σ i) (σ j), s'⟩ nObs =
        .ok ⟨n, fun i => c i * mean (σ i), Matrix.of fun i j => c i * c j * cov (σ i) (σ j),
          Matrix.of fun i j => c i * c j * unc (σ i) (σ j), some nu, some n, some T⟩ := by
  set A : Matrix (Fin n) (Fin n) ℝ := Matrix.of fun i j => if j = σ i then c i else 0 with hAdef
  have hv : ∀ x : Fin n → ℝ, A *ᵥ x = fun i => c i * x (σ i) := by
    intro x; ext i; simp [hAdef, Matrix.mulVec, dotProduct]
  have hM : ∀ B : Matrix (Fin n) (Fin n) ℝ, A * B * Aᵀ = Matrix.of fun i j => c i * c j * B (σ i) (σ j) := by
    intro B; ext i j
    simp [hAdef, Matrix.mul_apply]
    ring
  obtain ⟨mean, cov, unc, cov', nu, T, f1, f2, -, f3⟩ := C227_portfolios_partial hf hn hn A (by
    intro y hy h0
    refine hy (funext fun i => ?_)
    have := congrFun h0 (σ i)
    simpa [hAdef, Matrix.vecMul, dotProduct, hc i] using this) mu sm hS hSs (k := k) (k' := k') (s := s) (s' := s') hl hr ht ho h2
  refine ⟨mean, cov, unc, nu, T, f1, ?_⟩
  rw [f3 rfl] at f2
  simp only [hv, hM] at f2
  exact f2

/-- **C227** (false of the code) Looking at one of two assets alone changes its posterior covariance: with unit prior and sample variances, ten prior
and ten sample observations, the variance of the first asset is 20/22 on its own and 20/23 in company. -/
theorem C227_counterexample {factor : Factor} (hf : FactorOk factor) :
    ∃ R R' : Robust,
      fromNiw factor ⟨2, ![0, 0], none⟩ ⟨2, 2, (1 : Matrix (Fin 2) (Fin 2) ℝ), none⟩ (10 : ℕ) (10 : ℕ) ⟨2, ![0, 0], none⟩
        ⟨2, 2, (1 : Matrix (Fin 2) (Fin 2) ℝ), none⟩ (10 : ℕ) = .ok R ∧
      fromNiw factor ⟨1, ![0], none⟩ ⟨1, 1, (1 : Matrix (Fin 1) (Fin 1) ℝ), none⟩ (10 : ℕ) (10 : ℕ) ⟨1, ![0], none⟩
        ⟨1, 1, (1 : Matrix (Fin 1) (Fin 1) ℝ), none⟩ (10 : ℕ) = .ok R' ∧
      (∃ h : 0 < R.n, R.sigma ⟨0, h⟩ ⟨0, h⟩ = 20 / 23) ∧ ∃ h : 0 < R'.n, R'.sigma ⟨0, h⟩ ⟨0, h⟩ = 20 / 22 := by
  have one : ∀ d : ℕ, 0 < d → ∃ R : Robust, fromNiw factor ⟨d, fun _ => 0, none⟩ ⟨d, d, (1 : Matrix (Fin d) (Fin d) ℝ), none⟩ (10 : ℕ) (10 : ℕ)
      ⟨d, fun _ => 0, none⟩ ⟨d, d, (1 : Matrix (Fin d) (Fin d) ℝ), none⟩ (10 : ℕ) = .ok R ∧
      ∃ h : 0 < R.n, R.sigma ⟨0, h⟩ ⟨0, h⟩ = 20 / (20 + d + 1) := by
    intro d hd
    obtain ⟨P, hP⟩ := C63_total hf hd (fun _ => 0) (fun _ => 0) (S := 1) (Ss := 1) Matrix.PosDef.one Matrix.PosDef.one none none none none none rfl
      (t0 := 10) (by norm_num) 10 (nObs := (10 : ℕ)) (by norm_num)
    obtain ⟨-, -, hP'⟩ := niwFit_ok hP
    have e1 : P.nu1 = 20 := by rw [hP']; norm_num
    have e2 : P.sigma1 = 1 := by
      rw [hP']
      ext i j
      simp [sigma1Of]
      ring
    refine ⟨_, fromNiw_of_fit hP (by rw [e1]; norm_num), hd, ?_⟩
    simp [e1, e2]
  obtain ⟨R, hR, h1⟩ := one 2 (by norm_num)
  obtain ⟨R', hR', h2⟩ := one 1 (by norm_num)
  have z2 : (fun _ : Fin 2 => (0 : ℝ)) = ![0, 0] := by ext i; fin_cases i <;> rfl
  have z1 : (fun _ : Fin 1 => (0 : ℝ)) = ![0] := by ext i; fin_cases i; rfl
  rw [z2] at hR
  rw [z1] at hR'
  refine ⟨R, R', hR, hR', ?_, ?_⟩
  · obtain ⟨h, e⟩ := h1; exact ⟨h, by rw [e]; norm_num⟩
  · obtain ⟨h, e⟩ := h2; exact ⟨h, by rw [e]; norm_num⟩

/-- The equally weighted portfolio of two assets. -/
noncomputable def halves : Matrix (Fin 1) (Fin 2) ℝ := !![1 / 2, 1 / 2]

/-- The hypotheses of C227 hold for it. -/
example {factor : Factor} (hf : FactorOk factor) :
    ∃ R, fromNiw factor ⟨1, halves *ᵥ ![1, 3], some ["P"]⟩ ⟨1, 1, halves * (1 : Matrix (Fin 2) (Fin 2) ℝ) * halvesᵀ, some (["P"], ["P"])⟩ (5 : ℕ) (5 : ℕ)
      ⟨1, halves *ᵥ ![2, 2], none⟩ ⟨1, 1, halves * (1 : Matrix (Fin 2) (Fin 2) ℝ) * halvesᵀ, none⟩ (3 : ℕ) = .ok R := by
  obtain ⟨_, _, _, _, _, _, -, h, -⟩ := C227_portfolios_partial hf one_pos two_pos halves (by
    intro y hy h0
    refine hy (funext fun i => ?_)
    have := congrFun h0 0
    fin_cases i
    simpa [halves, Matrix.vecMul, dotProduct] using this) ![1, 3] ![2, 2] (S := 1) (Ss := 1) Matrix.PosDef.one Matrix.PosDef.one
    (l := none) (l' := none) (k := none) (k' := none) (r := some ["P"]) (r' := some (["P"], ["P"])) (s := none) (s' := none)
    (by intro _ _ h; cases h) (by intro x y h h'; cases h; cases h'; rfl) (t0 := 5) (nu0 := 5) (nObs := 3) (by norm_num) (by norm_num) (by norm_num)
  exact ⟨_, h⟩

end PyV.Props
