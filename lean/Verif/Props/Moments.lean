import Verif.Lemmas.Moments
import Verif.Spec.Prob

/-! # Properties C35–C40: sample moments and shrinkage estimators -/

namespace PyV.Props

open PyV PyV.Valid PyV.Psd PyV.Mom PyV.Spec Matrix

variable {T N : ℕ}

/-! ## C35 -/

/-- **C35** For every scenario matrix and probability vector, `estimate_sample_moments` succeeds; the mean is the
`p`-expectation of each asset, the covariance is `E[RᵢRⱼ] - μᵢμⱼ`, and it is symmetric positive semidefinite. -/
theorem C35_sample_moments (R : Fin T → Fin N → ℝ) {p : Fin T → ℝ} (hp : IsProb p) :
    ∃ mu S, estimateSampleMoments R p = .ok (mu, S) ∧ (∀ i, mu i = expect p (fun t => R t i)) ∧
      (∀ i j, S i j = expect p (fun t => R t i * R t j) - mu i * mu j) ∧ S.PosSemidef := by
  refine ⟨wMean R p, wCov R p, ?_, ?_, ?_, ?_⟩
  · unfold estimateSampleMoments
    rw [dif_pos rfl, if_pos]
    · rfl
    · constructor
      · intro t
        have := hp.nonneg t
        show _ ≤ p t
        have : (0:ℝ) ≤ 1 / 10 ^ 9 := by positivity
        linarith
      · unfold sumToOne
        have : ∑ t : Fin T, (fun t : Fin T => p (t.cast rfl)) t = 1 := hp.sum
        rw [this, sub_self, abs_zero]
        positivity
  · intro i
    exact Finset.sum_congr rfl (fun t _ => mul_comm _ _)
  · intro i j
    rw [wCov_eq]
    simp only [of_apply, expect]
    have e : ∀ t, (R t i - wMean R p i) * (R t j - wMean R p j) * p t =
        p t * (R t i * R t j) - wMean R p j * (R t i * p t) - wMean R p i * (R t j * p t) +
          wMean R p i * wMean R p j * p t := fun t => by ring
    simp only [e, Finset.sum_add_distrib, Finset.sum_sub_distrib, ← Finset.mul_sum, hp.sum]
    have h1 : ∑ t, R t i * p t = wMean R p i := rfl
    have h2 : ∑ t, R t j * p t = wMean R p j := rfl
    rw [h1, h2]; ring
  · rw [wCov_eq]
    exact gram_psd (fun t i => R t i - wMean R p i) hp.nonneg

/-- **C35** Adding a constant vector to every scenario shifts the mean and leaves the covariance unchanged. -/
theorem C35_translation (R : Fin T → Fin N → ℝ) {p : Fin T → ℝ} (hp : IsProb p) (c : Fin N → ℝ)
    {mu : Fin N → ℝ} {S : Matrix (Fin N) (Fin N) ℝ} (h : estimateSampleMoments R p = .ok (mu, S)) :
    estimateSampleMoments (fun t i => R t i + c i) p = .ok (fun i => mu i + c i, S) := by
  obtain ⟨mu', S', h', e1, e2, -⟩ := C35_sample_moments R hp
  obtain ⟨mu'', S'', h'', e1', e2', -⟩ := C35_sample_moments (fun t i => R t i + c i) hp
  rw [h] at h'
  injection h' with h'; injection h' with ha hb; subst ha; subst hb
  have hm : mu'' = fun i => mu i + c i := by
    funext i
    rw [e1', e1]
    simp only [expect, mul_add, Finset.sum_add_distrib, ← Finset.sum_mul, hp.sum, one_mul]
  rw [h'', hm]
  congr 2
  ext i j
  rw [e2', e2, hm]
  simp only [expect]
  have e : ∀ t, p t * ((R t i + c i) * (R t j + c j)) =
      p t * (R t i * R t j) + c j * (p t * R t i) + c i * (p t * R t j) + c i * c j * p t := fun t => by ring
  simp only [e, Finset.sum_add_distrib, ← Finset.mul_sum, hp.sum]
  have h1 : ∑ t, p t * R t i = mu i := (e1 i).symm
  have h2 : ∑ t, p t * R t j = mu j := (e1 j).symm
  rw [h1, h2]; ring

/-- **C35** Length mismatches, negative or non-normalised weights (beyond the tolerances) are rejected. -/
theorem C35_rejects {T' : ℕ} (R : Fin T → Fin N → ℝ) (p : Fin T' → ℝ) {r}
    (h : estimateSampleMoments R p = .ok r) :
    T' = T ∧ (∀ t, -(1 / 10 ^ 9) ≤ p t) ∧ |∑ t, p t - 1| ≤ 1 / 10 ^ 6 + 1 / 10 ^ 5 := by
  unfold estimateSampleMoments at h
  split at h
  · rename_i hT
    subst hT
    simp only at h
    split at h
    · rename_i hc
      refine ⟨rfl, hc.1, ?_⟩
      have := hc.2
      unfold sumToOne at this
      simpa using this
    · cases h
  · cases h

/-- A concrete sample: two scenarios, two assets, equal probabilities. -/
example : IsProb (fun _ : Fin 2 => (1 / 2 : ℝ)) := ⟨fun _ => by norm_num, by simp⟩

/-! ## C36 -/

theorem ones_ne_zero (hN : 2 < N) : (fun _ : Fin N => (1:ℝ)) ≠ 0 := by
  intro h
  have := congrFun h ⟨0, by omega⟩
  simp at this

/-- **C36** For a symmetric PSD covariance, at least three assets and a positive sample size, Jorion shrinkage succeeds and
returns `(1-v)·μ + v·m·1` with `v ∈ [0,1]`, where `m` is the expected return of the minimum-variance portfolio `w` of the
(regularised) covariance; `w` keeps its expected return. -/
theorem C36_jorion (mu : Fin N → ℝ) {S : Matrix (Fin N) (Fin N) ℝ} (hS : S.PosSemidef) {n : ℤ} (hn : 0 < n) (hN : 2 < N) :
    ∃ out v m w, shrinkMeanJorion mu S n = .ok out ∧ 0 ≤ v ∧ v ≤ 1 ∧ (∀ i, out i = (1 - v) * mu i + v * m) ∧
      (∑ i, w i = 1) ∧ (∃ c : ℝ, ∀ i, ((S + (1 / 10 ^ 8 : ℝ) • (1 : Matrix (Fin N) (Fin N) ℝ)) *ᵥ w) i = c) ∧
      w ⬝ᵥ mu = m ∧ w ⬝ᵥ out = m := by
  have hs := symm_of_psd hS
  set A := S + (1 / 10 ^ 8 : ℝ) • (1 : Matrix (Fin N) (Fin N) ℝ) with hA
  have hAp : A.PosDef := PosDef.posSemidef_add hS (PosDef.one.smul (by positivity))
  have hdet : A.det ≠ 0 := hAp.det_pos.ne'
  have hAi : (A⁻¹)ᵀ = A⁻¹ := symm_of_psd hAp.inv.posSemidef
  set ones : Fin N → ℝ := fun _ => 1 with hones
  set d := ones ⬝ᵥ (A⁻¹ *ᵥ ones) with hd
  have hdpos : 0 < d := by simpa using hAp.inv.dotProduct_mulVec_pos (ones_ne_zero hN)
  set m := (ones ⬝ᵥ (A⁻¹ *ᵥ mu)) / d with hm
  set diff : Fin N → ℝ := fun i => mu i - m with hdiff
  set v := min (max (((N : ℝ) + 2) / (((N : ℝ) + 2) + (n : ℝ) * (diff ⬝ᵥ (A⁻¹ *ᵥ diff)))) 0) 1 with hv
  set w : Fin N → ℝ := fun i => (A⁻¹ *ᵥ ones) i / d with hw
  have hw1 : ∑ i, w i = 1 := by
    rw [hw, ← Finset.sum_div]
    have : ∑ i, (A⁻¹ *ᵥ ones) i = d := by rw [hd]; simp [dotProduct, hones]
    rw [this, div_self hdpos.ne']
  have hwx : ∀ x : Fin N → ℝ, w ⬝ᵥ x = (ones ⬝ᵥ (A⁻¹ *ᵥ x)) / d := by
    intro x
    have : w = (1 / d) • (A⁻¹ *ᵥ ones) := by funext i; simp [hw]; ring
    rw [this, smul_dotProduct, dotProduct_mulVec ones, ← mulVec_transpose, hAi, smul_eq_mul]
    ring
  have hwm : w ⬝ᵥ mu = m := hwx mu
  refine ⟨fun i => mu i - v * diff i, v, m, w, ?_, ?_, min_le_right _ _, ?_, hw1, ⟨1 / d, ?_⟩, hwm, ?_⟩
  · unfold shrinkMeanJorion
    rw [if_neg (by omega), half_of_symm hs]
    simp only
    rw [if_neg hdet]
  · exact le_min (le_max_right _ _) zero_le_one
  · intro i; simp only [hdiff]; ring
  · intro i
    have : w = (1 / d) • (A⁻¹ *ᵥ ones) := by funext i; simp [hw]; ring
    rw [this, mulVec_smul, mulVec_mulVec, Matrix.mul_nonsing_inv _ (isUnit_iff_ne_zero.mpr hdet), one_mulVec]
    simp [hones]
  · have hsum : w ⬝ᵥ (fun i => mu i - v * diff i) = w ⬝ᵥ mu - v * (w ⬝ᵥ mu - m * ∑ i, w i) := by
      simp only [dotProduct, hdiff]
      rw [Finset.mul_sum, ← Finset.sum_sub_distrib, Finset.mul_sum, ← Finset.sum_sub_distrib]
      refine Finset.sum_congr rfl (fun i _ => by ring)
    rw [hsum, hw1, hwm]; ring

/-- **C36** Coordinate-wise, the shrunk mean lies between the sample mean and the common minimum-variance mean. -/
theorem C36_jorion_between (mu : Fin N → ℝ) {S : Matrix (Fin N) (Fin N) ℝ} (hS : S.PosSemidef) {n : ℤ} (hn : 0 < n)
    (hN : 2 < N) : ∃ out m, shrinkMeanJorion mu S n = .ok out ∧
      ∀ i, min (mu i) m ≤ out i ∧ out i ≤ max (mu i) m := by
  obtain ⟨out, v, m, w, h, h0, h1, he, -⟩ := C36_jorion mu hS hn hN
  refine ⟨out, m, h, fun i => ?_⟩
  rw [he i]
  have a1 := min_le_left (mu i) m
  have a2 := min_le_right (mu i) m
  have b1 := le_max_left (mu i) m
  have b2 := le_max_right (mu i) m
  have h1' : 0 ≤ 1 - v := by linarith
  constructor
  · nlinarith [mul_le_mul_of_nonneg_left a1 h1', mul_le_mul_of_nonneg_left a2 h0]
  · nlinarith [mul_le_mul_of_nonneg_left b1 h1', mul_le_mul_of_nonneg_left b2 h0]

/-- Invalid sizes are rejected. -/
theorem C36_jorion_rejects (mu : Fin N → ℝ) (S : Matrix (Fin N) (Fin N) ℝ) (n : ℤ) (h : n ≤ 0 ∨ N ≤ 2) :
    shrinkMeanJorion mu S n = .error .valueError := by
  unfold shrinkMeanJorion
  rw [if_pos h]

example : (1 : Matrix (Fin 3) (Fin 3) ℝ).PosSemidef ∧ (0:ℤ) < 10 ∧ 2 < 3 := ⟨PosSemidef.one, by norm_num, by norm_num⟩

/-! ## C37 -/

/-- The target a call asks for: the grand mean of the sample means in every coordinate, or the given vector. -/
def IsJsTarget (mu : Fin N → ℝ) (target : JsTarget N) (t : Fin N → ℝ) : Prop :=
  (target = .grandMean ∧ ∀ i, t i = (∑ j, mu j) / N) ∨ target = .custom t

theorem jsTarget_iff (mu : Fin N → ℝ) (target : JsTarget N) (t : Fin N → ℝ) : jsTarget mu target = .ok t ↔ IsJsTarget mu target t := by
  unfold jsTarget IsJsTarget
  cases target with
  | grandMean => simp [funext_iff, eq_comm]
  | custom u => simp
  | otherString => simp

/-- **C37** For at least two assets, whatever the covariance and pseudo-inverse routine, James–Stein shrinkage returns
`target + s·(μ - target)` with `s ∈ [0,1]`. -/
theorem C37_james_stein_partial (pinv : Matrix (Fin N) (Fin N) ℝ → Matrix (Fin N) (Fin N) ℝ) (mu : Fin N → ℝ)
    (S : Matrix (Fin N) (Fin N) ℝ) {n : ℤ} (hn : 0 < n) (hN : 2 ≤ N) {target : JsTarget N} {t : Fin N → ℝ}
    (ht : IsJsTarget mu target t) :
    ∃ out s, shrinkMeanJamesStein pinv mu S n target = .ok out ∧ 0 ≤ s ∧ s ≤ 1 ∧
      ∀ i, out i = t i + s * (mu i - t i) := by
  obtain ⟨k, -, hg, -⟩ := ensurePsd_spec ((1 / 2 : ℝ) • (S + Sᵀ)) (jitter := defaultJitter) (by norm_num [defaultJitter])
  rw [← jsTarget_iff] at ht
  unfold shrinkMeanJamesStein
  rw [if_neg (by omega), ht, hg]
  simp only
  set G := pinv _
  refine ⟨_, jsShrink n G (fun i => mu i - t i), rfl, ?_, ?_, fun i => rfl⟩
  · unfold jsShrink
    simp only
    split
    · exact le_rfl
    · exact le_max_left _ _
  · unfold jsShrink
    simp only
    split
    · exact zero_le_one
    · rename_i hq
      have hN' : (2:ℝ) ≤ N := by exact_mod_cast hN
      have : 0 ≤ ((N : ℝ) - 2) / ((fun i => mu i - t i) ⬝ᵥ (((n : ℝ) • G) *ᵥ fun i => mu i - t i)) :=
        div_nonneg (by linarith) (not_le.mp hq).le
      exact max_le zero_le_one (by linarith)

/-- **C37** (intensity) For a positive definite covariance and a pseudo-inverse routine that inverts invertible matrices, the fraction kept is
the James–Stein one, `max(0, 1 - (N - 2) / (T d' S⁻¹ d))` with `d` the distance from the target; at the target nothing moves. Any other target
name and a non-positive `T` are `ValueError`s. -/
theorem C37_intensity {pinv : Matrix (Fin N) (Fin N) ℝ → Matrix (Fin N) (Fin N) ℝ} (mu : Fin N → ℝ)
    {S : Matrix (Fin N) (Fin N) ℝ} (hS : S.PosDef) (hp : pinv S = S⁻¹) {n : ℤ} (hn : 0 < n) {target : JsTarget N} {t : Fin N → ℝ}
    (ht : IsJsTarget mu target t) :
    (∃ out, shrinkMeanJamesStein pinv mu S n target = .ok out ∧ (mu = t → out = mu) ∧
      (mu ≠ t → ∀ i, out i = t i + max 0 (1 - ((N : ℝ) - 2) / (n * ((mu - t) ⬝ᵥ (S⁻¹ *ᵥ (mu - t))))) * (mu i - t i))) ∧
    shrinkMeanJamesStein pinv mu S n .otherString = .error .valueError ∧
    ∀ m ≤ 0, shrinkMeanJamesStein pinv mu S m target = .error .valueError := by
  refine ⟨?_, ?_, ?_⟩
  · rw [← jsTarget_iff] at ht
    unfold shrinkMeanJamesStein
    rw [if_neg (by omega), ht, half_of_symm (symm_of_psd hS.posSemidef), ensurePsd_of_psd hS.posSemidef (by norm_num [defaultJitter])]
    simp only [hp]
    refine ⟨_, rfl, ?_, ?_⟩
    · rintro rfl; funext i; simp
    · intro hne i
      have hd : mu - t ≠ 0 := sub_ne_zero.mpr hne
      have hq : 0 < (mu - t) ⬝ᵥ (S⁻¹ *ᵥ (mu - t)) := by simpa using hS.inv.dotProduct_mulVec_pos hd
      have hn' : (0:ℝ) < n := by exact_mod_cast hn
      have e : (fun i => mu i - t i) ⬝ᵥ (((n : ℝ) • S⁻¹) *ᵥ fun i => mu i - t i) = n * ((mu - t) ⬝ᵥ (S⁻¹ *ᵥ (mu - t))) := by
        rw [smul_mulVec, dotProduct_smul, smul_eq_mul]; rfl
      unfold jsShrink
      simp only
      rw [e, if_neg (not_le.mpr (mul_pos hn' hq))]
  · unfold shrinkMeanJamesStein
    rw [if_neg (by omega)]
    rfl
  · intro m hm
    unfold shrinkMeanJamesStein
    rw [if_pos hm]

/-- **C37** is false of the code for a single asset with a custom target: the estimate moves *away* from the target, past
the sample mean (`μ = 2`, target 1, unit variance, one observation gives 3). -/
theorem C37_counterexample : shrinkMeanJamesStein (fun A => A) (fun _ : Fin 1 => 2) (1 : Matrix (Fin 1) (Fin 1) ℝ) 1
    (.custom (fun _ => 1)) = .ok (fun _ => 3) ∧ (fun A : Matrix (Fin 1) (Fin 1) ℝ => A) 1 = (1 : Matrix (Fin 1) (Fin 1) ℝ)⁻¹ := by
  constructor
  · unfold shrinkMeanJamesStein
    rw [if_neg (by norm_num), half_of_symm transpose_one]
    simp only [jsTarget]
    rw [ensurePsd_of_psd PosSemidef.one (by norm_num [defaultJitter])]
    simp only
    congr 1
    funext i
    unfold jsShrink
    simp only [dotProduct, mulVec]
    norm_num
  · simp

/-! ## C38 -/

theorem lwDelta_mem {n : ℕ} {b : Bool} {num gamma d : ℝ} (h : lwDelta n b num gamma = some d) : 0 ≤ d ∧ d ≤ 1 := by
  unfold lwDelta at h
  split at h
  · split at h
    · cases h
    · split at h <;> injection h with h <;> subst h <;> norm_num
  · injection h with h; subst h
    exact ⟨le_min (le_max_right _ _) zero_le_one, min_le_right _ _⟩

theorem lwIdentity_psd {S : Matrix (Fin N) (Fin N) ℝ} (hS : S.PosSemidef) : (lwIdentity S).PosSemidef :=
  smul_one_psd (div_nonneg (trace_nonneg_of_psd hS) (Nat.cast_nonneg _))

theorem blend_psd {F S : Matrix (Fin N) (Fin N) ℝ} (hF : F.PosSemidef) (hS : S.PosSemidef) {d : ℝ} (h0 : 0 ≤ d) (h1 : d ≤ 1) :
    (d • F + (1 - d) • S).PosSemidef := (hF.smul h0).add (hS.smul (by linarith))

theorem lwBlend_psd {F S : Matrix (Fin N) (Fin N) ℝ} (hF : F.PosSemidef) (hS : S.PosSemidef) {delta : Option ℝ}
    (hd : ∀ d, delta = some d → 0 ≤ d ∧ d ≤ 1) {C : Matrix (Fin N) (Fin N) ℝ} (h : lwBlend delta F S = .ok C) :
    ∃ d, delta = some d ∧ C = d • F + (1 - d) • S ∧ C.PosSemidef := by
  unfold lwBlend at h
  split at h
  · cases h
  · rename_i d
    have hp := blend_psd hF hS (hd d rfl).1 (hd d rfl).2
    rw [ensurePsd_of_psd hp (by norm_num [defaultJitter])] at h
    injection h with h
    rw [half_of_symm (symm_of_psd hp)] at h
    exact ⟨d, rfl, h.symm, h ▸ hp⟩

/-- Off-diagonal entries of a PSD matrix are bounded by the geometric mean of the diagonal. -/
theorem psd_abs_le {S : Matrix (Fin N) (Fin N) ℝ} (hS : S.PosSemidef) (hd : ∀ i, 0 < S i i) (i j : Fin N) :
    S i j ≤ Real.sqrt (S i i) * Real.sqrt (S j j) := by
  by_cases hij : i = j
  · subst hij
    rw [Real.mul_self_sqrt (hd i).le]
  · set a := Real.sqrt (S i i) with ha
    set b := Real.sqrt (S j j) with hb
    have hapos : 0 < a := Real.sqrt_pos.mpr (hd i)
    have hbpos : 0 < b := Real.sqrt_pos.mpr (hd j)
    have haa : a * a = S i i := Real.mul_self_sqrt (hd i).le
    have hbb : b * b = S j j := Real.mul_self_sqrt (hd j).le
    have hs : S j i = S i j := by
      have := congrFun (congrFun (symm_of_psd hS) i) j
      simpa [transpose_apply] using this
    have hq := quad_nonneg hS (b • Pi.single i 1 - a • Pi.single j 1)
    have e : (b • Pi.single i 1 - a • Pi.single j 1 : Fin N → ℝ) ⬝ᵥ (S *ᵥ (b • Pi.single i 1 - a • Pi.single j 1)) =
        b * b * S i i - 2 * (a * b) * S i j + a * a * S j j := by
      simp only [mulVec_sub, mulVec_smul, mulVec_single_one, sub_dotProduct, dotProduct_sub, smul_dotProduct,
        dotProduct_smul, single_one_dotProduct, smul_eq_mul, col_apply, hs]
      ring
    rw [e, ← haa, ← hbb] at hq
    have hab : 0 < a * b := mul_pos hapos hbpos
    have : (a * b) * S i j ≤ (a * b) * (a * b) := by nlinarith
    exact le_of_mul_le_mul_left this hab

theorem lwConstCorr_psd {S : Matrix (Fin N) (Fin N) ℝ} (hS : S.PosSemidef) (hd : ∀ i, 0 < S i i) (hN : N ≠ 1) :
    (lwConstCorr S).PosSemidef := by
  rcases Nat.eq_zero_or_pos N with h0 | hpos
  · subst h0
    exact psd_of (by ext i; exact i.elim0) (fun x => by simp [dotProduct])
  have hN2 : 2 ≤ N := by omega
  have hNr : (2:ℝ) ≤ N := by exact_mod_cast hN2
  set sd : Fin N → ℝ := fun i => Real.sqrt (S i i) with hsd
  have sdpos : ∀ i, 0 < sd i := fun i => Real.sqrt_pos.mpr (hd i)
  have sdsq : ∀ i, sd i * sd i = S i i := fun i => Real.mul_self_sqrt (hd i).le
  set r := lwRbar S with hr
  -- bounds on the average correlation
  have hsum : ∑ i, ∑ j, S i j / (sd i * sd j) = (fun i => 1 / sd i) ⬝ᵥ (S *ᵥ (fun i => 1 / sd i)) := by
    simp only [dotProduct, mulVec]
    refine Finset.sum_congr rfl (fun i _ => ?_)
    rw [Finset.mul_sum]
    refine Finset.sum_congr rfl (fun j _ => ?_)
    field_simp
  have hlow : 0 ≤ ∑ i, ∑ j, S i j / (sd i * sd j) := by rw [hsum]; exact quad_nonneg hS _
  have hup : ∑ i, ∑ j, S i j / (sd i * sd j) ≤ (N:ℝ) * N := by
    have : ∑ i, ∑ j, S i j / (sd i * sd j) ≤ ∑ _i : Fin N, ∑ _j : Fin N, (1:ℝ) := by
      refine Finset.sum_le_sum (fun i _ => Finset.sum_le_sum (fun j _ => ?_))
      rw [div_le_one (mul_pos (sdpos i) (sdpos j))]
      exact psd_abs_le hS hd i j
    simpa using this
  have hNN : 0 < (N:ℝ) * ((N:ℝ) - 1) := mul_pos (by linarith) (by linarith)
  have hr1 : r ≤ 1 := by
    rw [hr, lwRbar, div_le_one hNN]
    have : ∑ i, ∑ j, S i j / (Real.sqrt (S i i) * Real.sqrt (S j j)) ≤ (N:ℝ) * N := hup
    nlinarith
  have hr0 : 0 ≤ 1 + ((N:ℝ) - 1) * r := by
    have : -1 ≤ ((N:ℝ) - 1) * r := by
      rw [hr, lwRbar, mul_div_assoc', le_div_iff₀ hNN]
      have h : 0 ≤ ∑ i, ∑ j, S i j / (Real.sqrt (S i i) * Real.sqrt (S j j)) := hlow
      nlinarith
    linarith
  -- quadratic form of F
  have hF : ∀ x : Fin N → ℝ, x ⬝ᵥ (lwConstCorr S *ᵥ x) = r * (∑ i, sd i * x i) ^ 2 + (1 - r) * ∑ i, (sd i * x i) ^ 2 := by
    intro x
    have h1 : ∀ i j, lwConstCorr S i j = r * (sd i * sd j) + (if i = j then (1 - r) * (sd i * sd j) else 0) := by
      intro i j
      simp only [lwConstCorr, of_apply]
      split
      · rename_i hij; subst hij; rw [sdsq]; ring
      · rw [add_zero]
    simp only [dotProduct, mulVec, h1]
    rw [pow_two, Finset.sum_mul_sum, Finset.mul_sum, Finset.mul_sum, ← Finset.sum_add_distrib]
    refine Finset.sum_congr rfl (fun i _ => ?_)
    simp only [add_mul, ite_mul, zero_mul, Finset.sum_add_distrib, Finset.sum_ite_eq, Finset.mem_univ, if_true, mul_add]
    rw [Finset.mul_sum, Finset.mul_sum]
    congr 1
    · refine Finset.sum_congr rfl (fun j _ => by ring)
    · ring
  refine psd_of ?_ (fun x => ?_)
  · ext i j
    simp only [lwConstCorr, transpose_apply, of_apply]
    by_cases hij : i = j
    · subst hij; rfl
    · rw [if_neg hij, if_neg (Ne.symm hij)]; ring
  · rw [hF]
    set y : Fin N → ℝ := fun i => sd i * x i with hy
    have hcs : (∑ i, y i) ^ 2 ≤ N * ∑ i, y i ^ 2 := by
      have := sq_sum_le_card_mul_sum_sq (s := Finset.univ) (f := y)
      simpa using this
    have hsq : 0 ≤ ∑ i, y i ^ 2 := Finset.sum_nonneg (fun _ _ => sq_nonneg _)
    have hsq' : 0 ≤ (∑ i, y i) ^ 2 := sq_nonneg _
    show 0 ≤ r * (∑ i, y i) ^ 2 + (1 - r) * ∑ i, y i ^ 2
    by_cases hrn : 0 ≤ r
    · have := mul_nonneg hrn hsq'
      have := mul_nonneg (by linarith : 0 ≤ 1 - r) hsq
      linarith
    · have h1 := mul_le_mul_of_nonneg_left hcs (by linarith : 0 ≤ -r)
      nlinarith [mul_nonneg hr0 hsq]

/-- **C38** Whenever Ledoit–Wolf returns, for a symmetric PSD sample covariance, the result is
`δ·F + (1-δ)·S` with `δ ∈ [0,1]` for the documented target `F` (average variance times the identity, or constant
correlation with the sample variances), and is positive semidefinite. -/
theorem C38_convex_combination_partial (R : Fin T → Fin N → ℝ) {S : Matrix (Fin N) (Fin N) ℝ} (hS : S.PosSemidef)
    {target : LwTarget} {C : Matrix (Fin N) (Fin N) ℝ} (h : shrinkLedoitWolf R S target = .ok C) :
    ∃ (d : ℝ) (F : Matrix (Fin N) (Fin N) ℝ), 0 ≤ d ∧ d ≤ 1 ∧ F.PosSemidef ∧ C = d • F + (1 - d) • S ∧ C.PosSemidef ∧
      ((target = .identity ∧ ∀ i j, F i j = if i = j then S.trace / N else 0) ∨
       (target = .constantCorrelation ∧ (∀ i, F i i = S i i) ∧
        ∀ i j, i ≠ j → F i j = lwRbar S * (Real.sqrt (S i i) * Real.sqrt (S j j)))) := by
  unfold shrinkLedoitWolf at h
  split at h
  · cases h
  · rw [half_of_symm (symm_of_psd hS)] at h
    simp only at h
    split at h
    · obtain ⟨d, hd, hC, hp⟩ := lwBlend_psd (lwIdentity_psd hS) hS (fun d hd => lwDelta_mem hd) h
      obtain ⟨h0, h1⟩ := lwDelta_mem hd
      refine ⟨d, _, h0, h1, lwIdentity_psd hS, hC, hp, Or.inl ⟨rfl, fun i j => ?_⟩⟩
      simp [lwIdentity, Matrix.one_apply]
    · split at h
      · rename_i hc
        have hF := lwConstCorr_psd hS hc.1 hc.2
        obtain ⟨d, hd, hC, hp⟩ := lwBlend_psd hF hS (fun d hd => lwDelta_mem hd) h
        obtain ⟨h0, h1⟩ := lwDelta_mem hd
        refine ⟨d, _, h0, h1, hF, hC, hp, Or.inr ⟨rfl, fun i => ?_, fun i j hij => ?_⟩⟩
        · simp [lwConstCorr]
        · simp [lwConstCorr, hij]
      · cases h
    · cases h

/-- **C38** (failure to shrink) With the identity target the code applies *no* shrinkage at all whenever the mean of the
`π` matrix does not exceed its trace: the sample covariance is returned unchanged. -/
theorem C38_no_shrinkage (R : Fin T → Fin N → ℝ) {S : Matrix (Fin N) (Fin N) ℝ} (hS : S.PosSemidef) (hT : T ≠ 0)
    (hpi : lwPiHat (lwPi (centred R) S) < (lwPi (centred R) S).trace) : shrinkLedoitWolf R S .identity = .ok S := by
  unfold shrinkLedoitWolf
  rw [if_neg hT, half_of_symm (symm_of_psd hS)]
  simp only [lwRho, if_true]
  have hd : lwDelta T true (lwPiHat (lwPi (centred R) S) - (lwPi (centred R) S).trace) (lwGamma S (lwIdentity S)) = some 0 := by
    unfold lwDelta
    split
    · rw [if_neg (by linarith), if_neg (by linarith)]
    · rename_i hg
      have hgpos : 0 < lwGamma S (lwIdentity S) :=
        lt_of_le_of_ne (Finset.sum_nonneg (fun _ _ => Finset.sum_nonneg (fun _ _ => sq_nonneg _))) (Ne.symm hg)
      have : (lwPiHat (lwPi (centred R) S) - (lwPi (centred R) S).trace) / lwGamma S (lwIdentity S) ≤ 0 :=
        div_nonpos_of_nonpos_of_nonneg (by linarith) hgpos.le
      simp only [if_true]
      rw [max_eq_right this, min_eq_left zero_le_one]
  rw [hd]
  simp only [lwBlend, zero_smul, sub_zero, one_smul, zero_add]
  rw [ensurePsd_of_psd hS (by norm_num [defaultJitter])]
  simp only
  rw [half_of_symm (symm_of_psd hS)]

/-- **C38** (single asset) With one asset the target coincides with the sample variance, the intensity is 0/0 and the call
always fails. -/
theorem C38_single_asset_fails (R : Fin T → Fin 1 → ℝ) (S : Matrix (Fin 1) (Fin 1) ℝ) (target : LwTarget) :
    shrinkLedoitWolf R S target = .error .valueError := by
  unfold shrinkLedoitWolf
  split
  · rfl
  · simp only
    split
    · have hF : ∀ A : Matrix (Fin 1) (Fin 1) ℝ, lwIdentity A = A := by
        intro A
        ext i j
        have hi : i = 0 := Fin.eq_zero i
        have hj : j = 0 := Fin.eq_zero j
        subst hi; subst hj
        simp [lwIdentity, trace]
      have hg : ∀ A : Matrix (Fin 1) (Fin 1) ℝ, lwGamma A A = 0 := by intro A; simp [lwGamma]
      have hn : ∀ P : Matrix (Fin 1) (Fin 1) ℝ, lwPiHat P - lwRho true P P = 0 := by
        intro P; simp [lwPiHat, lwRho, trace]
      have hn' : ∀ P F : Matrix (Fin 1) (Fin 1) ℝ, lwPiHat P - lwRho true P F = 0 := by
        intro P F; simp [lwPiHat, lwRho, trace]
      rw [hF, hg, hn']
      simp [lwDelta, lwBlend]
    · rw [if_neg (by simp)]
    · rfl

/-- **C38** is false of the code ("it shrinks a noisy sample covariance"): three observations of two
assets, a sample covariance that is not a multiple of the identity, and no shrinkage at all. -/
theorem C38_counterexample : ∃ (R : Fin 3 → Fin 2 → ℝ) (S : Matrix (Fin 2) (Fin 2) ℝ), S = secondMoment (centred R) ∧
    S ≠ lwIdentity S ∧ (∃ i j t, centred R t i * centred R t j ≠ S i j) ∧ shrinkLedoitWolf R S .identity = .ok S := by
  refine ⟨![![2, 0], ![-1, 0], ![-1, 0]], _, rfl, ?_, ⟨0, 0, 0, ?_⟩, ?_⟩
  · intro h
    have := congrFun (congrFun h 0) 0
    simp [secondMoment, centred, colMean, lwIdentity, trace, Fin.sum_univ_succ] at this
    norm_num at this
  · simp [secondMoment, centred, colMean, Fin.sum_univ_succ]
    norm_num
  · apply C38_no_shrinkage _ (secondMoment_psd _) (by norm_num)
    simp [lwPiHat, lwPi, secondMoment, centred, colMean, trace, Fin.sum_univ_succ]
    norm_num

/-! ## C39 -/

/-- **C39** For at least two assets and one observation OAS succeeds; its intensity is in `[0,1]`, the result is that
convex combination of the second-moment matrix `C` and its average variance times the identity, it has the same trace
(total variance) as `C`, and it is PSD (the guard does not alter it). -/
theorem C39_oas (R : Fin T → Fin N → ℝ) (assumeCentered : Bool) (hT : T ≠ 0) (hN : 2 ≤ N) :
    ∃ out s, shrinkOas R assumeCentered = .ok out ∧ 0 ≤ s ∧ s ≤ 1 ∧
      (∀ i j, out i j = (1 - s) * secondMoment (if assumeCentered then R else centred R) i j +
        (if i = j then s * ((secondMoment (if assumeCentered then R else centred R)).trace / N) else 0)) ∧
      out.trace = (secondMoment (if assumeCentered then R else centred R)).trace ∧ out.PosSemidef := by
  set X := if assumeCentered then R else centred R with hX
  set C := secondMoment X with hC
  have hCp : C.PosSemidef := secondMoment_psd X
  have hNr : (2:ℝ) ≤ N := by exact_mod_cast hN
  have hTr : (0:ℝ) ≤ T := Nat.cast_nonneg _
  have h2N : (2:ℝ) / N ≤ 1 := by rw [div_le_one (by linarith)]; exact hNr
  have hs : 0 ≤ oasShrinkage T C ∧ oasShrinkage T C ≤ 1 := by
    unfold oasShrinkage
    simp only
    split
    · norm_num
    · rename_i hd
      refine ⟨le_min (div_nonneg ?_ (not_le.mp hd).le) zero_le_one, min_le_right _ _⟩
      have ha : 0 ≤ (∑ i, ∑ j, C i j ^ 2) / ((N : ℝ) * N) :=
        div_nonneg (Finset.sum_nonneg (fun _ _ => Finset.sum_nonneg (fun _ _ => sq_nonneg _))) (by positivity)
      have := mul_nonneg (by linarith : 0 ≤ 1 - 2 / (N:ℝ)) ha
      have := mul_self_nonneg (C.trace / N)
      linarith
  have hp : (oasBlend (oasShrinkage T C) C).PosSemidef := by
    refine (hCp.smul (by linarith [hs.2])).add (smul_one_psd (mul_nonneg hs.1 ?_))
    exact div_nonneg (trace_nonneg_of_psd hCp) (Nat.cast_nonneg _)
  refine ⟨oasBlend (oasShrinkage T C) C, oasShrinkage T C, ?_, hs.1, hs.2, ?_, ?_, hp⟩
  · unfold shrinkOas
    rw [if_neg (by omega)]
    simp only [← hX, ← hC]
    rw [if_neg (by omega)]
    exact ensurePsd_of_psd hp (by norm_num [defaultJitter])
  · intro i j
    simp [oasBlend, Matrix.one_apply]
  · unfold oasBlend
    rw [trace_add, trace_smul, trace_smul, trace_one, Fintype.card_fin, smul_eq_mul, smul_eq_mul]
    have : (N:ℝ) ≠ 0 := by linarith
    field_simp
    ring

/-- **C39** The intensity is the published one (Chen et al. 2010): with `C` the second-moment matrix of `T` observations
of `p` assets, `ρ = min(1, ((1-2/p) tr(C²) + tr(C)²) / ((T+1-2/p) (tr(C²) - tr(C)²/p)))`, unless `C` already is a
multiple of the identity, when it is returned unchanged. -/
theorem C39_intensity (R : Fin T → Fin N → ℝ) (assumeCentered : Bool) (hT : T ≠ 0) (hN : 2 ≤ N)
    {C : Matrix (Fin N) (Fin N) ℝ} (hC : C = secondMoment (if assumeCentered then R else centred R)) :
    (C = (C.trace / N) • 1 → shrinkOas R assumeCentered = .ok C) ∧
    (C ≠ (C.trace / N) • 1 → ∃ rho : ℝ,
      rho = min 1 (((1 - 2 / N) * (C * C).trace + C.trace ^ 2) /
        ((T + 1 - 2 / N) * ((C * C).trace - C.trace ^ 2 / N))) ∧
      shrinkOas R assumeCentered = .ok ((1 - rho) • C + (rho * (C.trace / N)) • 1)) := by
  have hCp : C.PosSemidef := hC ▸ secondMoment_psd _
  have hsym : ∀ i j, C i j = C j i := fun i j => by
    have := hCp.isHermitian.apply j i
    simpa using this
  have hNr : (2:ℝ) ≤ N := by exact_mod_cast hN
  have hN0 : (N:ℝ) ≠ 0 := by linarith
  have hTr : (1:ℝ) ≤ T := by exact_mod_cast Nat.one_le_iff_ne_zero.mpr hT
  have h2N : (2:ℝ) / N ≤ 1 := by rw [div_le_one (by linarith)]; exact hNr
  have hsq : (C * C).trace = ∑ i, ∑ j, C i j ^ 2 := by
    simp only [Matrix.trace, Matrix.diag, Matrix.mul_apply]
    refine Finset.sum_congr rfl (fun i _ => Finset.sum_congr rfl (fun j _ => ?_))
    rw [hsym j i]; ring
  have hdist : ∑ i, ∑ j, (C i j - ((C.trace / N) • (1 : Matrix (Fin N) (Fin N) ℝ)) i j) ^ 2 = (C * C).trace - C.trace ^ 2 / N := by
    have h1 : ∀ i, ∑ j, (C i j - ((C.trace / N) • (1 : Matrix (Fin N) (Fin N) ℝ)) i j) ^ 2 =
        ∑ j, C i j ^ 2 - 2 * (C.trace / N) * C i i + (C.trace / N) ^ 2 := by
      intro i
      have : ∀ j, (C i j - ((C.trace / N) • (1 : Matrix (Fin N) (Fin N) ℝ)) i j) ^ 2 =
          C i j ^ 2 + (if i = j then - 2 * (C.trace / N) * C i j + (C.trace / N) ^ 2 else 0) := by
        intro j
        simp only [Matrix.smul_apply, Matrix.one_apply, smul_eq_mul]
        split <;> ring
      simp only [this, Finset.sum_add_distrib, Finset.sum_ite_eq, Finset.mem_univ, if_true]
      ring
    simp only [h1, Finset.sum_add_distrib, Finset.sum_sub_distrib, Finset.sum_const, Finset.card_univ, Fintype.card_fin,
      nsmul_eq_mul, ← Finset.mul_sum]
    rw [hsq]
    have : ∑ i, C i i = C.trace := rfl
    rw [this]
    field_simp
    ring
  obtain ⟨out, s, hout, -, -, hform, -, -⟩ := C39_oas R assumeCentered hT hN
  rw [← hC] at hform
  have hval : shrinkOas R assumeCentered = .ok (oasBlend (oasShrinkage T C) C) := by
    unfold shrinkOas
    rw [if_neg (by omega)]
    simp only [← hC]
    rw [if_neg (by omega)]
    refine ensurePsd_of_psd ?_ (by norm_num [defaultJitter])
    have hs : 0 ≤ oasShrinkage T C ∧ oasShrinkage T C ≤ 1 := by
      unfold oasShrinkage
      simp only
      split
      · norm_num
      · rename_i hd
        refine ⟨le_min (div_nonneg ?_ (not_le.mp hd).le) zero_le_one, min_le_right _ _⟩
        have ha : 0 ≤ (∑ i, ∑ j, C i j ^ 2) / ((N : ℝ) * N) :=
          div_nonneg (Finset.sum_nonneg (fun _ _ => Finset.sum_nonneg (fun _ _ => sq_nonneg _))) (by positivity)
        have := mul_nonneg (by linarith : 0 ≤ 1 - 2 / (N:ℝ)) ha
        have := mul_self_nonneg (C.trace / N)
        linarith
    refine (hCp.smul (by linarith [hs.2])).add (smul_one_psd (mul_nonneg hs.1 ?_))
    exact div_nonneg (trace_nonneg_of_psd hCp) (Nat.cast_nonneg _)
  constructor
  · intro hid
    rw [hout]
    congr 1
    ext i j
    rw [hform i j]
    have h2 := congrFun (congrFun hid i) j
    simp only [Matrix.smul_apply, Matrix.one_apply, smul_eq_mul] at h2
    split at h2
    · rename_i hij; subst hij
      simp only [if_true]
      rw [show C.trace / N = C i i by rw [h2]; ring]; ring
    · rename_i hij
      rw [if_neg hij, h2]; ring
  · intro hne
    refine ⟨_, rfl, ?_⟩
    rw [hval]
    have hpos : 0 < (C * C).trace - C.trace ^ 2 / N := by
      rw [← hdist]
      refine lt_of_le_of_ne (Finset.sum_nonneg (fun _ _ => Finset.sum_nonneg (fun _ _ => sq_nonneg _))) (fun h0 => hne ?_)
      ext i j
      have h1 := (Finset.sum_eq_zero_iff_of_nonneg (fun i _ => Finset.sum_nonneg (fun _ _ => sq_nonneg _))).mp h0.symm i
        (Finset.mem_univ _)
      have h2 := (Finset.sum_eq_zero_iff_of_nonneg (fun j _ => sq_nonneg _)).mp h1 j (Finset.mem_univ _)
      exact sub_eq_zero.mp (pow_eq_zero_iff two_ne_zero |>.mp h2)
    have hTN : 0 < (T:ℝ) + 1 - 2 / N := by linarith
    have e : oasShrinkage T C = min 1 (((1 - 2 / N) * (C * C).trace + C.trace ^ 2) /
        ((T + 1 - 2 / N) * ((C * C).trace - C.trace ^ 2 / N))) := by
      unfold oasShrinkage
      simp only
      have hd : ((T : ℝ) + 1 - 2 / N) * ((∑ i, ∑ j, C i j ^ 2) / ((N : ℝ) * N) - C.trace / N * (C.trace / N) / N) =
          ((T : ℝ) + 1 - 2 / N) * ((C * C).trace - C.trace ^ 2 / N) / (N * N) := by
        rw [hsq]; field_simp
      rw [hd, if_neg (not_le.mpr (div_pos (mul_pos hTN hpos) (by positivity))), min_comm]
      congr 1
      rw [← hsq]
      have hne' : ((T : ℝ) + 1 - 2 / N) * ((C * C).trace - C.trace ^ 2 / N) ≠ 0 := (mul_pos hTN hpos).ne'
      generalize ((T : ℝ) + 1 - 2 / N) * ((C * C).trace - C.trace ^ 2 / N) = D at *
      generalize (C * C).trace = q at *
      field_simp
    rw [e]
    rfl

/-- **C39** With one asset OAS returns the sample second moment. -/
theorem C39_oas_single (R : Fin T → Fin 1 → ℝ) (assumeCentered : Bool) (hT : T ≠ 0) :
    shrinkOas R assumeCentered = .ok (secondMoment (if assumeCentered then R else centred R)) := by
  unfold shrinkOas
  rw [if_neg (by omega)]
  rfl

/-! ## C40 -/

/-- The documented weights: `λ^{T-1}` on the first of `T` rows, `(1-λ) λ^{T-1-t}` on row `t ≥ 1`. -/
def ewmaWeight (lam : ℝ) (n t : ℕ) : ℝ := if t = 0 then lam ^ (n - 1) else (1 - lam) * lam ^ (n - 1 - t)

theorem ewma_fold (lam : ℝ) (r0 : Fin N → ℝ) (rest : List (Fin N → ℝ)) (i j : Fin N) :
    (rest.foldl (ewmaStep lam) (vecMulVec r0 r0)) i j =
      ∑ t : Fin (rest.length + 1), ewmaWeight lam (rest.length + 1) t * (((r0 :: rest).get t) i * ((r0 :: rest).get t) j) := by
  induction rest using List.reverseRecOn with
  | nil => simp [ewmaWeight, vecMulVec_apply]
  | append_singleton l r ih =>
    rw [List.foldl_append]
    simp only [List.foldl_cons, List.foldl_nil, ewmaStep]
    rw [Matrix.add_apply, Matrix.smul_apply, Matrix.smul_apply, ih, smul_eq_mul, smul_eq_mul, vecMulVec_apply]
    have hlen : (l ++ [r]).length + 1 = (l.length + 1) + 1 := by simp
    have hsum : ∑ t : Fin ((l ++ [r]).length + 1), ewmaWeight lam ((l ++ [r]).length + 1) t *
          (((r0 :: (l ++ [r])).get t) i * ((r0 :: (l ++ [r])).get t) j) =
        ∑ t : Fin ((l.length + 1) + 1), ewmaWeight lam (l.length + 1 + 1) t *
          (((r0 :: (l ++ [r])).get (t.cast hlen.symm)) i * ((r0 :: (l ++ [r])).get (t.cast hlen.symm)) j) := by
      refine Fintype.sum_equiv (finCongr hlen) _ _ (fun t => ?_)
      simp
    rw [hsum, Finset.mul_sum, Fin.sum_univ_castSucc (n := l.length + 1)]
    congr 1
    · refine Finset.sum_congr rfl (fun t _ => ?_)
      have h1 : (r0 :: (l ++ [r])).get ((Fin.castSucc t).cast hlen.symm) = (r0 :: l).get t := by
        simp only [List.get_eq_getElem, Fin.val_cast, Fin.val_castSucc]
        exact List.getElem_append_left (as := r0 :: l) (bs := [r]) t.2
      rw [h1, ← mul_assoc]
      congr 1
      simp only [ewmaWeight, Fin.val_castSucc]
      split
      · rw [← pow_succ']; congr 1
      · have : l.length + 1 + 1 - 1 - (t:ℕ) = (l.length + 1 - 1 - (t:ℕ)) + 1 := by omega
        rw [this, pow_succ]; ring
    · have h1 : (r0 :: (l ++ [r])).get ((Fin.last (l.length + 1)).cast hlen.symm) = r := by
        simp only [List.get_eq_getElem, Fin.val_cast, Fin.val_last, List.getElem_cons_succ]
        simp
      rw [h1]
      simp [ewmaWeight]

theorem ewmaWeight_sum (lam : ℝ) (n : ℕ) : ∑ t : Fin (n + 1), ewmaWeight lam (n + 1) t = 1 := by
  induction n with
  | zero => simp [ewmaWeight]
  | succ n ih =>
    rw [Fin.sum_univ_castSucc]
    have : ∀ t : Fin (n + 1), ewmaWeight lam (n + 1 + 1) (Fin.castSucc t : Fin (n + 1 + 1)) = lam * ewmaWeight lam (n + 1) t := by
      intro t
      simp only [ewmaWeight, Fin.val_castSucc]
      split
      · rw [← pow_succ']; congr 1
      · have : n + 1 + 1 - 1 - (t:ℕ) = (n + 1 - 1 - (t:ℕ)) + 1 := by omega
        rw [this, pow_succ]; ring
    simp only [this, ← Finset.mul_sum, ih]
    simp [ewmaWeight]

/-- **C40** The EWMA covariance is the weighted sum of outer products with the documented weights, which sum to one; for
`span ≥ 1` the weights are non-negative and the matrix is PSD. -/
theorem C40_ewma {rows : List (Fin N → ℝ)} {span minPeriods : ℤ} {C : Matrix (Fin N) (Fin N) ℝ}
    (h : covarianceEwma rows span minPeriods = .ok C) :
    minPeriods ≤ rows.length ∧
    (∀ i j, C i j = ∑ t : Fin rows.length, ewmaWeight (1 - 2 / (span + 1)) rows.length t *
      (rows.get t i * rows.get t j)) ∧
    ∑ t : Fin rows.length, ewmaWeight (1 - 2 / ((span:ℝ) + 1)) rows.length t = 1 ∧
    (1 ≤ span → (∀ t : Fin rows.length, 0 ≤ ewmaWeight (1 - 2 / ((span:ℝ) + 1)) rows.length t) ∧ C.PosSemidef) := by
  unfold covarianceEwma at h
  split at h
  · cases h
  · rename_i hmin
    split at h
    · cases h
    · split at h
      · cases h
      · rename_i r0 rest
        injection h with h
        set C0 := rest.foldl (ewmaStep (ewmaLambda span)) (vecMulVec r0 r0) with hC0
        have hent : ∀ i j, C0 i j = ∑ t : Fin (rest.length + 1), ewmaWeight (ewmaLambda span) (rest.length + 1) t *
            (((r0 :: rest).get t) i * ((r0 :: rest).get t) j) := fun i j => ewma_fold _ _ _ i j
        have hsym : C0ᵀ = C0 := by
          ext i j
          rw [transpose_apply, hent, hent]
          exact Finset.sum_congr rfl (fun t _ => by ring)
        rw [half_of_symm hsym] at h
        subst h
        refine ⟨not_lt.mp hmin, hent, ewmaWeight_sum _ _, fun hsp => ?_⟩
        have hsp' : (1:ℝ) ≤ span := by exact_mod_cast hsp
        have hl0 : 0 ≤ 1 - 2 / ((span:ℝ) + 1) := by
          have : 2 / ((span:ℝ) + 1) ≤ 1 := by rw [div_le_one (by linarith)]; linarith
          linarith
        have hl1 : 0 ≤ 1 - (1 - 2 / ((span:ℝ) + 1)) := by
          have : 0 ≤ 2 / ((span:ℝ) + 1) := div_nonneg (by norm_num) (by linarith)
          linarith
        have hw : ∀ t : Fin (rest.length + 1), 0 ≤ ewmaWeight (1 - 2 / ((span:ℝ) + 1)) (rest.length + 1) t := by
          intro t
          unfold ewmaWeight
          split
          · positivity
          · exact mul_nonneg hl1 (pow_nonneg hl0 _)
        refine ⟨hw, ?_⟩
        have hg := gram_psd (fun (t : Fin (rest.length + 1)) i => (r0 :: rest).get t i) hw
        convert hg using 1
        ext i j
        rw [hent]
        exact Finset.sum_congr rfl (fun t _ => by rw [mul_comm]; rfl)

/-- **C40** It returns whenever there are enough (and at least one) rows and `span ≠ -1`. -/
theorem C40_ewma_succeeds {rows : List (Fin N → ℝ)} {span minPeriods : ℤ} (hr : rows ≠ []) (hm : minPeriods ≤ rows.length)
    (hs : span ≠ -1) : ∃ C, covarianceEwma rows span minPeriods = .ok C := by
  unfold covarianceEwma
  rw [if_neg (not_lt.mpr hm), if_neg hs]
  cases rows with
  | nil => exact absurd rfl hr
  | cons r0 rest => exact ⟨_, rfl⟩

/-- **C40** (sharpness) `span = 0` is accepted although the decay is `-1`: two rows `0, 1` give the "variance" 2 and rows
`1, 0` the negative variance `-1`. -/
theorem C40_span_zero : covarianceEwma [fun _ : Fin 1 => 1, fun _ => 0] 0 1 = .ok (Matrix.of (fun _ _ => -1)) := by
  unfold covarianceEwma
  rw [if_neg (by simp), if_neg (by norm_num)]
  simp only [List.foldl_cons, List.foldl_nil]
  congr 1
  ext i j
  simp [ewmaStep, ewmaLambda, vecMulVec_apply]
  norm_num

example : ∃ C, covarianceEwma [fun _ : Fin 2 => (1:ℝ), ![2, 3]] 252 1 = .ok C :=
  C40_ewma_succeeds (by simp) (by simp) (by norm_num)

/-- **C40** The restriction to `span ≥ 1` is needed, and the code does not impose it: `span = 0` is accepted and gives a negative variance
for the returns `1, 0`. -/
theorem C40_small_span : covarianceEwma (N := 1) [![1], ![0]] 0 1 = .ok (Matrix.of ![![-1]]) := by
  unfold covarianceEwma
  rw [if_neg (by simp), if_neg (by norm_num)]
  simp only [List.foldl_cons, List.foldl_nil]
  congr 1
  ext i j
  fin_cases i; fin_cases j
  simp [ewmaStep, ewmaLambda, vecMulVec_apply]
  norm_num

end PyV.Props
