import Verif.Props.MomentsRobust

/-! # C266: what Tyler's estimator converges to, and what shrinkage guarantees -/

namespace PyV.Props

open PyV PyV.Valid PyV.Psd PyV.Mom Matrix

variable {T N : ℕ}

/-- The shrinkage target a caller asks for: the identity by default. -/
noncomputable def askedTarget (target : Option (Matrix (Fin N) (Fin N) ℝ)) : Matrix (Fin N) (Fin N) ℝ := target.getD 1

/-- Observation `t` minus the column means. -/
noncomputable def deviation (R : Fin T → Fin N → ℝ) (t : Fin T) (i : Fin N) : ℝ := R t i - (∑ s, R s i) / T

/-- How much observation `t` counts when the current scatter has (pseudo-)inverse `G`: `N` over its squared Mahalanobis
distance, the distance kept above `1e-6` and the weight below `1e6`. -/
noncomputable def tylerCounts (R : Fin T → Fin N → ℝ) (G : Matrix (Fin N) (Fin N) ℝ) (t : Fin T) : ℝ :=
  min ((N : ℝ) / max (∑ i, ∑ j, deviation R t i * G i j * deviation R t j) (1 / 10 ^ 6)) (10 ^ 6)

/-- `V` is one Tyler step from the scatter `V'`: the weighted second moment rescaled to trace `N`, mixed with the target
rescaled to trace `N`. -/
def IsTylerStep (pinv : Matrix (Fin N) (Fin N) ℝ → Matrix (Fin N) (Fin N) ℝ) (R : Fin T → Fin N → ℝ) (shrinkage : ℝ)
    (target : Option (Matrix (Fin N) (Fin N) ℝ)) (V' V : Matrix (Fin N) (Fin N) ℝ) : Prop :=
  ∃ W : Matrix (Fin N) (Fin N) ℝ,
    (∀ i j, W i j = (∑ t, tylerCounts R (pinv V') t * deviation R t i * deviation R t j) / T) ∧ W.trace ≠ 0 ∧
    ∀ i j, V i j = (1 - shrinkage) * ((N : ℝ) / W.trace * W i j) +
      shrinkage * ((N : ℝ) / (askedTarget target).trace * askedTarget target i j)

/-- The relative change from `V'` to `V` is within the tolerance. -/
def TylerClose (tol : ℝ) (V' V : Matrix (Fin N) (Fin N) ℝ) : Prop :=
  Real.sqrt (∑ i, ∑ j, (V i j - V' i j) ^ 2) ≤ tol * max (Real.sqrt (∑ i, ∑ j, V' i j ^ 2)) (1 / 10 ^ 12)

theorem close_iff {tol : ℝ} {V' V : Matrix (Fin N) (Fin N) ℝ} :
    frob (V - V') / max (frob V') (1 / 10 ^ 12) ≤ tol ↔ TylerClose tol V' V := by
  unfold TylerClose frob
  rw [div_le_iff₀ (lt_max_of_lt_right (by positivity))]
  simp only [Matrix.sub_apply]

theorem tylerTarget_is {sh : ℝ} {target : Option (Matrix (Fin N) (Fin N) ℝ)} (hg : GoodTarget target) (hN : N ≠ 0) :
    tylerTarget sh target = .ok (((N : ℝ) / (askedTarget target).trace) • askedTarget target) := by
  unfold tylerTarget askedTarget
  cases target with
  | none => rfl
  | some A =>
    obtain ⟨hp, hne⟩ := hg A rfl
    simp only [Option.getD_some]
    rw [half_of_symm (symm_of_psd hp), ensurePsd_of_psd hp (by norm_num [defaultJitter])]
    simp only
    rw [if_neg (fun hc => hne (hp.trace_eq_zero_iff.mp hc.1))]

theorem tylerStep_is {pinv : Matrix (Fin N) (Fin N) ℝ → Matrix (Fin N) (Fin N) ℝ} {R : Fin T → Fin N → ℝ}
    {s : ℝ} (h0 : 0 ≤ s) {target : Option (Matrix (Fin N) (Fin N) ℝ)} {V' U : Matrix (Fin N) (Fin N) ℝ}
    (h : tylerUpdate (pinv V') (centred R) = .ok U) :
    IsTylerStep pinv R s target V'
      (if 0 < s then (1 - s) • U + s • (((N : ℝ) / (askedTarget target).trace) • askedTarget target) else U) := by
  unfold tylerUpdate at h
  simp only at h
  rw [tyler_gram, half_of_symm (gram_symm (centred R) _)] at h
  split at h
  · cases h
  rename_i htr
  injection h with h
  have hdev : ∀ t i, centred R t i = deviation R t i := fun t i => rfl
  have hcount : ∀ t, tylerWeight (pinv V') (centred R t) = tylerCounts R (pinv V') t := by
    intro t
    unfold tylerWeight tylerCounts
    rw [max_eq_left (by positivity)]
    congr 3
    simp only [dotProduct, mulVec, Finset.mul_sum, hdev]
    exact Finset.sum_congr rfl fun i _ => Finset.sum_congr rfl fun j _ => by ring
  refine ⟨_, ?_, htr, ?_⟩
  · intro i j
    simp only [of_apply, hcount, hdev, Finset.sum_div]
    exact Finset.sum_congr rfl fun t _ => by ring
  · intro i j
    by_cases hs : 0 < s
    · rw [if_pos hs, ← h]
      simp only [Matrix.add_apply, Matrix.smul_apply, smul_eq_mul]
    · have : s = 0 := le_antisymm (not_lt.mp hs) h0
      rw [if_neg hs, ← h, this]
      simp only [Matrix.smul_apply, smul_eq_mul]
      ring

theorem tylerLoop_runs {pinv : Matrix (Fin N) (Fin N) ℝ → Matrix (Fin N) (Fin N) ℝ} {R : Fin T → Fin N → ℝ}
    {s tol : ℝ} (h0 : 0 ≤ s) {target : Option (Matrix (Fin N) (Fin N) ℝ)} (n : ℕ) {V₀ V : Matrix (Fin N) (Fin N) ℝ}
    (h : tylerLoop pinv (centred R) s tol (((N : ℝ) / (askedTarget target).trace) • askedTarget target) (n + 1) V₀ = .ok V) :
    ∃ (k : ℕ) (run : ℕ → Matrix (Fin N) (Fin N) ℝ), k ≤ n ∧ run 0 = V₀ ∧ run (k + 1) = V ∧
      (∀ j ≤ k, IsTylerStep pinv R s target (run j) (run (j + 1))) ∧
      (∀ j < k, ¬ TylerClose tol (run j) (run (j + 1))) ∧ (k = n ∨ TylerClose tol (run k) (run (k + 1))) := by
  induction n generalizing V₀ with
  | zero =>
    rw [tylerLoop] at h
    split at h
    · cases h
    rename_i U hU
    simp only at h
    have hstep := tylerStep_is (target := target) h0 hU
    revert h hstep
    generalize (if 0 < s then (1 - s) • U + s • (((N : ℝ) / (askedTarget target).trace) • askedTarget target) else U) = U'
    intro h hstep
    have hV : V = U' := by
      split at h
      · injection h with h; exact h.symm
      · simp only [tylerLoop] at h; injection h with h; exact h.symm
    refine ⟨0, fun j => if j = 0 then V₀ else V, le_refl _, rfl, rfl, ?_, ?_, Or.inl rfl⟩
    · intro j hj
      obtain rfl : j = 0 := by omega
      rw [hV]
      exact hstep
    · intro j hj; omega
  | succ n ih =>
    rw [tylerLoop] at h
    split at h
    · cases h
    rename_i U hU
    simp only at h
    have hstep := tylerStep_is (target := target) h0 hU
    revert h hstep
    generalize (if 0 < s then (1 - s) • U + s • (((N : ℝ) / (askedTarget target).trace) • askedTarget target) else U) = U'
    intro h hstep
    split at h
    · rename_i hc
      injection h with h
      rw [h] at hstep hc
      refine ⟨0, fun j => if j = 0 then V₀ else V, Nat.zero_le _, rfl, rfl, ?_, ?_, Or.inr (close_iff.mp hc)⟩
      · intro j hj
        obtain rfl : j = 0 := by omega
        exact hstep
      · intro j hj; omega
    · rename_i hc
      obtain ⟨k, run, hk, hr0, hrk, hst, hncl, hend⟩ := ih h
      refine ⟨k + 1, fun j => if j = 0 then V₀ else run (j - 1), by omega, rfl, by simpa using hrk, ?_, ?_, ?_⟩
      · intro j hj
        rcases j with _ | j
        · simp only [if_true, Nat.zero_add, one_ne_zero, if_false, Nat.sub_self, hr0]
          exact hstep
        · simpa using hst j (by omega)
      · intro j hj
        rcases j with _ | j
        · simp only [if_true, Nat.zero_add, one_ne_zero, if_false, Nat.sub_self, hr0]
          exact fun hcl => hc (close_iff.mpr hcl)
        · simpa using hncl j (by omega)
      · rcases hend with rfl | hcl
        · exact Or.inl rfl
        · exact Or.inr (by simpa using hcl)

theorem askedTarget_good {target : Option (Matrix (Fin N) (Fin N) ℝ)} (hg : GoodTarget target) :
    (askedTarget target).PosSemidef := by
  unfold askedTarget
  cases target with
  | none => exact PosSemidef.one
  | some A => exact (hg A rfl).1

/-- **C266** The covariance returned by Tyler's estimator is the last of a run of Tyler steps: the run starts from the sample
covariance, every step re-weights the deviations by the inverse squared distance under the scatter before it, the run stops at
the first step whose relative change is within the tolerance or after exactly `max_iter` steps, and the last scatter is
rescaled by (total sample variance)/N². -/
theorem C266_fixed_point {pinv : Matrix (Fin N) (Fin N) ℝ → Matrix (Fin N) (Fin N) ℝ} {R : Fin T → Fin N → ℝ}
    {shrinkage tol : ℝ} {target : Option (Matrix (Fin N) (Fin N) ℝ)} (hg : GoodTarget target) {maxIter : ℤ} {guard : Bool}
    {C : Matrix (Fin N) (Fin N) ℝ} (hpos : 0 < (npCov1 R).trace)
    (h : tyler pinv R shrinkage tol target maxIter guard = .ok C) :
    ∃ (k : ℕ) (run : ℕ → Matrix (Fin N) (Fin N) ℝ), ((k : ℤ) + 1 ≤ maxIter) ∧
      (∀ i j, run 0 i j = (N : ℝ) ^ 2 / (npCov1 R).trace * npCov1 R i j) ∧
      (∀ j ≤ k, IsTylerStep pinv R shrinkage target (run j) (run (j + 1))) ∧
      (∀ j < k, ¬ TylerClose tol (run j) (run (j + 1))) ∧
      ((k : ℤ) + 1 = maxIter ∨ TylerClose tol (run k) (run (k + 1))) ∧
      ∀ i j, C i j = (npCov1 R).trace / (N : ℝ) ^ 2 * run (k + 1) i j := by
  unfold tyler at h
  split at h
  · cases h
  rename_i hTN
  have hT0 : T ≠ 0 := fun hc => hTN (Or.inl hc)
  have hN0 : N ≠ 0 := fun hc => hTN (Or.inr hc)
  split at h
  · cases h
  rename_i hs
  rw [not_not] at hs
  split at h
  · cases h
  rename_i h11
  have hNr : (0:ℝ) < N := by exact_mod_cast Nat.pos_of_ne_zero hN0
  rw [npCov1_centred R hT0, ensurePsd_of_psd (npCov1_psd R (by omega)) (by norm_num [defaultJitter])] at h
  simp only at h
  obtain ⟨F, hF, hFp⟩ := tylerTarget_ok (sh := shrinkage) hg hN0
  have hFis := tylerTarget_is (sh := shrinkage) hg hN0
  rw [hF] at hFis
  injection hFis with hFis
  rw [hF] at h
  simp only at h
  split at h
  · cases h
  rename_i hmi
  have hmax : ((max N 1 : ℕ) : ℝ) = N := by
    rw [max_eq_left (by omega : 1 ≤ N)]
  have htt : tylerTraceTarget (npCov1 R) = (npCov1 R).trace / N := by
    unfold tylerTraceTarget
    rw [hmax, if_neg (not_le.mpr (div_pos hpos hNr))]
  split at h
  · cases h
  rename_i C' hloop
  obtain ⟨n, hn⟩ : ∃ n, maxIter.toNat = n + 1 := ⟨maxIter.toNat - 1, by omega⟩
  rw [hn] at hloop
  obtain ⟨hCp, hCt⟩ := tylerLoop_inv hs.1 hs.2 hFp n hloop
  rw [hFis] at hloop
  obtain ⟨k, run, hk, hr0, hrk, hst, hncl, hend⟩ := tylerLoop_runs hs.1 n hloop
  have hDp : ((tylerTraceTarget (npCov1 R) / N) • C').PosSemidef := by
    refine hCp.smul ?_
    rw [htt]
    exact div_nonneg (div_nonneg hpos.le hNr.le) hNr.le
  rw [half_of_symm (symm_of_psd hDp)] at h
  have hfin : C = (tylerTraceTarget (npCov1 R) / N) • C' := by
    split at h
    · rw [ensurePsd_of_psd hDp (by norm_num [defaultJitter])] at h
      injection h with h; exact h.symm
    · injection h with h; exact h.symm
  refine ⟨k, run, by omega, ?_, hst, hncl, ?_, ?_⟩
  · intro i j
    rw [hr0, htt, Matrix.smul_apply, smul_eq_mul]
    congr 1
    field_simp
  · rcases hend with rfl | hcl
    · exact Or.inl (by omega)
    · exact Or.inr hcl
  · intro i j
    rw [hfin, hrk, htt, Matrix.smul_apply, smul_eq_mul]
    congr 1
    field_simp

/-- A Tyler step is never below the shrunk target. -/
theorem step_floor {pinv : Matrix (Fin N) (Fin N) ℝ → Matrix (Fin N) (Fin N) ℝ} {R : Fin T → Fin N → ℝ}
    {s : ℝ} (h1 : s ≤ 1) {target : Option (Matrix (Fin N) (Fin N) ℝ)} {V' V : Matrix (Fin N) (Fin N) ℝ}
    (h : IsTylerStep pinv R s target V' V) (x : Fin N → ℝ) :
    s * ((N : ℝ) / (askedTarget target).trace * (x ⬝ᵥ (askedTarget target *ᵥ x))) ≤ x ⬝ᵥ (V *ᵥ x) := by
  obtain ⟨W, hW, htr, hV⟩ := h
  have hc : ∀ t, 0 ≤ tylerCounts R (pinv V') t := fun t =>
    le_min (div_nonneg (Nat.cast_nonneg _) (le_max_of_le_right (by positivity))) (by positivity)
  have hWp : W.PosSemidef := by
    have : W = Matrix.of (fun i j => ∑ t, deviation R t i * deviation R t j * (tylerCounts R (pinv V') t * (1 / T))) := by
      ext i j
      rw [hW, of_apply, Finset.sum_div]
      exact Finset.sum_congr rfl fun t _ => by ring
    rw [this]
    exact gram_psd (deviation R) (q := fun t => tylerCounts R (pinv V') t * (1 / T))
      (fun t => mul_nonneg (hc t) (by positivity))
  have hVm : V = ((1 - s) * ((N : ℝ) / W.trace)) • W + (s * ((N : ℝ) / (askedTarget target).trace)) • askedTarget target := by
    ext i j
    rw [hV]
    simp only [Matrix.add_apply, Matrix.smul_apply, smul_eq_mul]
    ring
  rw [hVm, add_mulVec, dotProduct_add, smul_mulVec, smul_mulVec, dotProduct_smul, dotProduct_smul, smul_eq_mul,
    smul_eq_mul]
  have h2 : 0 ≤ x ⬝ᵥ (W *ᵥ x) := by simpa using hWp.dotProduct_mulVec_nonneg x
  have h3 : 0 ≤ (1 - s) * ((N : ℝ) / W.trace) * (x ⬝ᵥ (W *ᵥ x)) :=
    mul_nonneg (mul_nonneg (by linarith) (div_nonneg (Nat.cast_nonneg _) (trace_nonneg_of_psd hWp))) h2
  linarith [mul_assoc s ((N : ℝ) / (askedTarget target).trace) (x ⬝ᵥ (askedTarget target *ᵥ x))]

/-- **C266** Shrinkage sets a floor under the risk of every portfolio: its variance under the returned covariance is at least
the shrinkage intensity times its variance under the target, the target being scaled to the same total variance. -/
theorem C266_floor {pinv : Matrix (Fin N) (Fin N) ℝ → Matrix (Fin N) (Fin N) ℝ} {R : Fin T → Fin N → ℝ}
    {shrinkage tol : ℝ} {target : Option (Matrix (Fin N) (Fin N) ℝ)} (hg : GoodTarget target) {maxIter : ℤ} {guard : Bool}
    {C : Matrix (Fin N) (Fin N) ℝ} (hpos : 0 < (npCov1 R).trace)
    (h : tyler pinv R shrinkage tol target maxIter guard = .ok C) (x : Fin N → ℝ) :
    shrinkage * (C.trace / (askedTarget target).trace * (x ⬝ᵥ (askedTarget target *ᵥ x))) ≤ x ⬝ᵥ (C *ᵥ x) := by
  obtain ⟨hN2, -, hCt⟩ := C41_trace_partial hg hpos h
  have hs : shrinkage ≤ 1 := by
    by_contra hc
    unfold tyler at h
    rw [if_pos (show ¬ (0 ≤ shrinkage ∧ shrinkage ≤ 1) from fun hh => hc hh.2)] at h
    split at h <;> cases h
  obtain ⟨k, run, -, -, hst, -, -, hC⟩ := C266_fixed_point hg hpos h
  have hf := step_floor hs (hst k le_rfl) x
  have hNr : (0:ℝ) < N := by exact_mod_cast (by omega : 0 < N)
  have hCm : C = ((npCov1 R).trace / (N : ℝ) ^ 2) • run (k + 1) := by
    ext i j; rw [hC, Matrix.smul_apply, smul_eq_mul]
  have hxC : x ⬝ᵥ (C *ᵥ x) = (npCov1 R).trace / (N : ℝ) ^ 2 * (x ⬝ᵥ (run (k + 1) *ᵥ x)) := by
    rw [hCm, smul_mulVec, dotProduct_smul, smul_eq_mul]
  rw [hxC, hCt]
  have := mul_le_mul_of_nonneg_left hf (div_nonneg hpos.le (by positivity : (0:ℝ) ≤ (N : ℝ) ^ 2))
  refine le_trans (le_of_eq ?_) this
  field_simp

/-- **C266** With the default identity target and a positive shrinkage the result is positive definite. -/
theorem C266_positive_definite {pinv : Matrix (Fin N) (Fin N) ℝ → Matrix (Fin N) (Fin N) ℝ} {R : Fin T → Fin N → ℝ}
    {shrinkage tol : ℝ} (hs : 0 < shrinkage) {maxIter : ℤ} {guard : Bool}
    {C : Matrix (Fin N) (Fin N) ℝ} (hpos : 0 < (npCov1 R).trace)
    (h : tyler pinv R shrinkage tol none maxIter guard = .ok C) : C.PosDef := by
  have hg : GoodTarget (N := N) none := fun A hA => by cases hA
  obtain ⟨hN2, hCp, hCt⟩ := C41_trace_partial hg hpos h
  have hNr : (0:ℝ) < N := by exact_mod_cast (by omega : 0 < N)
  refine PosDef.of_dotProduct_mulVec_pos hCp.isHermitian fun x hx => ?_
  have hf := C266_floor hg hpos h x
  have hxx : 0 < x ⬝ᵥ x := by
    have := Matrix.dotProduct_star_self_pos_iff.mpr hx
    simpa using this
  simp only [askedTarget, Option.getD_none, one_mulVec, trace_one, Fintype.card_fin] at hf
  simp only [star_trivial]
  refine lt_of_lt_of_le (mul_pos hs (mul_pos (div_pos ?_ hNr) hxx)) hf
  rw [hCt]
  exact div_pos hpos hNr

/-- **C266** Full shrinkage ignores the pattern of the data altogether: the result is the target scaled to (total sample
variance)/N. -/
theorem C266_full_shrinkage {pinv : Matrix (Fin N) (Fin N) ℝ → Matrix (Fin N) (Fin N) ℝ} {R : Fin T → Fin N → ℝ}
    {tol : ℝ} {target : Option (Matrix (Fin N) (Fin N) ℝ)} (hg : GoodTarget target) {maxIter : ℤ} {guard : Bool}
    {C : Matrix (Fin N) (Fin N) ℝ} (hpos : 0 < (npCov1 R).trace)
    (h : tyler pinv R 1 tol target maxIter guard = .ok C) (i j : Fin N) :
    C i j = (npCov1 R).trace / N / (askedTarget target).trace * askedTarget target i j := by
  obtain ⟨k, run, -, -, hst, -, -, hC⟩ := C266_fixed_point hg hpos h
  obtain ⟨W, -, -, hV⟩ := hst k le_rfl
  obtain ⟨hN2, -, -⟩ := C41_trace_partial hg hpos h
  have hNr : (N : ℝ) ≠ 0 := by exact_mod_cast (by omega : N ≠ 0)
  rw [hC, hV]
  field_simp
  ring

/-- Two assets, three observations: every hypothesis above is met, for any pseudo-inverse routine. -/
example (pinv : Matrix (Fin 2) (Fin 2) ℝ → Matrix (Fin 2) (Fin 2) ℝ) :
    let R : Fin 3 → Fin 2 → ℝ := ![![1, 2], ![3, 1], ![2, 6]]
    0 < (npCov1 R).trace ∧ ∃ C, tyler pinv R (1 / 10) (1 / 10 ^ 6) none 100 true = .ok C ∧ C.PosDef := by
  intro R
  obtain ⟨hp, C, hC⟩ := C41_succeeds (R := R) pinv (shrinkage := 1 / 10) (tol := 1 / 10 ^ 6) (by norm_num)
    (target := none) (fun A hA => by cases hA) (maxIter := 100) (by norm_num) true (by norm_num) (by norm_num)
    (t := 0) (i := 0) (by simp [R, colMean, Fin.sum_univ_three]; norm_num)
  exact ⟨hp, C, hC, C266_positive_definite (by norm_num) hp hC⟩

end PyV.Props
