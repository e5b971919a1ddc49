import Verif.Lemmas.MomentsRobust

/-! # Properties C41–C44: Tyler, POET, robust means -/

namespace PyV.Props

open PyV PyV.Valid PyV.Psd PyV.Mom Matrix

variable {T N : ℕ}

/-! ## C41 -/

/-- A custom target is acceptable when it is symmetric PSD and not zero; `None` is the identity. -/
def GoodTarget (target : Option (Matrix (Fin N) (Fin N) ℝ)) : Prop := ∀ A, target = some A → A.PosSemidef ∧ A ≠ 0

theorem tylerTarget_ok {sh : ℝ} {target : Option (Matrix (Fin N) (Fin N) ℝ)} (hg : GoodTarget target) (hN : N ≠ 0) :
    ∃ F, tylerTarget sh target = .ok F ∧ F.PosSemidef ∧ F.trace = N := by
  have hN' : (N:ℝ) ≠ 0 := by exact_mod_cast hN
  unfold tylerTarget
  cases target with
  | none =>
    refine ⟨_, rfl, smul_one_psd (div_nonneg (Nat.cast_nonneg _) (by simp)), ?_⟩
    rw [trace_smul, trace_one, Fintype.card_fin, smul_eq_mul, div_mul_cancel₀ _ hN']
  | some A =>
    obtain ⟨hp, hne⟩ := hg A rfl
    simp only
    rw [half_of_symm (symm_of_psd hp), ensurePsd_of_psd hp (by norm_num [defaultJitter])]
    simp only
    have ht : A.trace ≠ 0 := fun hc => hne (hp.trace_eq_zero_iff.mp hc)
    rw [if_neg (fun hc => ht hc.1)]
    refine ⟨_, rfl, hp.smul (div_nonneg (Nat.cast_nonneg _) (trace_nonneg_of_psd hp)), ?_⟩
    rw [trace_smul, smul_eq_mul, div_mul_cancel₀ _ ht]

/-- **C41** (what the code does) Whenever Tyler's estimator returns (positive sample variance), the result is PSD and its
trace is the sample trace **divided by the number of assets**. -/
theorem C41_trace_partial {pinv : Matrix (Fin N) (Fin N) ℝ → Matrix (Fin N) (Fin N) ℝ} {R : Fin T → Fin N → ℝ}
    {shrinkage tol : ℝ} {target : Option (Matrix (Fin N) (Fin N) ℝ)} (hg : GoodTarget target) {maxIter : ℤ} {guard : Bool}
    {C : Matrix (Fin N) (Fin N) ℝ} (hpos : 0 < (npCov1 R).trace)
    (h : tyler pinv R shrinkage tol target maxIter guard = .ok C) :
    2 ≤ N ∧ C.PosSemidef ∧ C.trace = (npCov1 R).trace / N := by
  unfold tyler at h
  split at h
  · cases h
  rename_i hTN
  have hT0 : T ≠ 0 := fun hc => hTN (Or.inl hc)
  have hN0 : N ≠ 0 := fun hc => hTN (Or.inr hc)
  split at h
  · cases h
  rename_i hs
  rw [not_not] at hs
  split at h
  · cases h
  rename_i h11
  have hN2 : 2 ≤ N := by
    have : N ≠ 1 := fun hc => h11 (Or.inr hc)
    omega
  refine ⟨hN2, ?_⟩
  have hNr : (0:ℝ) < N := by exact_mod_cast Nat.pos_of_ne_zero hN0
  rw [npCov1_centred R hT0, ensurePsd_of_psd (npCov1_psd R (by omega)) (by norm_num [defaultJitter])] at h
  simp only at h
  obtain ⟨F, hF, hFp⟩ := tylerTarget_ok (sh := shrinkage) hg hN0
  rw [hF] at h
  simp only at h
  split at h
  · cases h
  rename_i hmi
  have hmax : ((max N 1 : ℕ) : ℝ) = N := by
    rw [max_eq_left (by omega : 1 ≤ N)]
  have htt : tylerTraceTarget (npCov1 R) = (npCov1 R).trace / N := by
    unfold tylerTraceTarget
    rw [hmax, if_neg (not_le.mpr (div_pos hpos hNr))]
  split at h
  · cases h
  rename_i C' hloop
  obtain ⟨n, hn⟩ : ∃ n, maxIter.toNat = n + 1 := ⟨maxIter.toNat - 1, by omega⟩
  rw [hn] at hloop
  obtain ⟨hCp, hCt⟩ := tylerLoop_inv hs.1 hs.2 hFp n hloop
  have hDp : ((tylerTraceTarget (npCov1 R) / N) • C').PosSemidef := by
    refine hCp.smul ?_
    rw [htt]
    exact div_nonneg (div_nonneg hpos.le hNr.le) hNr.le
  have hDt : ((tylerTraceTarget (npCov1 R) / N) • C').trace = (npCov1 R).trace / N := by
    rw [trace_smul, hCt, smul_eq_mul, htt, div_mul_cancel₀ _ hNr.ne']
  rw [half_of_symm (symm_of_psd hDp)] at h
  have hfin : C = (tylerTraceTarget (npCov1 R) / N) • C' := by
    split at h
    · rw [ensurePsd_of_psd hDp (by norm_num [defaultJitter])] at h
      injection h with h; exact h.symm
    · injection h with h; exact h.symm
  rw [hfin]
  exact ⟨hDp, hDt⟩

/-- **C41** is false of the code: *every* successful call on data with positive variance returns a matrix whose trace
differs from (is `1/N` of) the sample trace. -/
theorem C41_counterexample {pinv : Matrix (Fin N) (Fin N) ℝ → Matrix (Fin N) (Fin N) ℝ} {R : Fin T → Fin N → ℝ}
    {shrinkage tol : ℝ} {target : Option (Matrix (Fin N) (Fin N) ℝ)} (hg : GoodTarget target) {maxIter : ℤ} {guard : Bool}
    {C : Matrix (Fin N) (Fin N) ℝ} (hpos : 0 < (npCov1 R).trace)
    (h : tyler pinv R shrinkage tol target maxIter guard = .ok C) : C.trace < (npCov1 R).trace := by
  obtain ⟨hN, -, ht⟩ := C41_trace_partial hg hpos h
  rw [ht]
  exact div_lt_self hpos (by exact_mod_cast hN)

/-- **C41** The estimator does return, for any pseudo-inverse routine, on any non-constant sample of at least two
observations of at least two assets. -/
theorem C41_succeeds (pinv : Matrix (Fin N) (Fin N) ℝ → Matrix (Fin N) (Fin N) ℝ) {R : Fin T → Fin N → ℝ}
    {shrinkage tol : ℝ} (hs : 0 ≤ shrinkage ∧ shrinkage ≤ 1) {target : Option (Matrix (Fin N) (Fin N) ℝ)}
    (hg : GoodTarget target) {maxIter : ℤ} (hm : 0 < maxIter) (guard : Bool) (hT : 2 ≤ T) (hN : 2 ≤ N)
    {t : Fin T} {i : Fin N} (hne : R t i ≠ colMean R i) :
    0 < (npCov1 R).trace ∧ ∃ C, tyler pinv R shrinkage tol target maxIter guard = .ok C := by
  have hT0 : T ≠ 0 := by omega
  have hX : centred R t i ≠ 0 := sub_ne_zero.mpr hne
  constructor
  · simp only [trace, diag_apply, npCov1, of_apply]
    have hT' : (1:ℝ) < T := by exact_mod_cast (by omega : 1 < T)
    refine Finset.sum_pos' (fun j _ => div_nonneg (Finset.sum_nonneg (fun s _ => mul_self_nonneg _)) (by linarith))
      ⟨i, Finset.mem_univ _, div_pos ?_ (by linarith)⟩
    exact Finset.sum_pos' (fun s _ => mul_self_nonneg _) ⟨t, Finset.mem_univ _, mul_self_pos.mpr hX⟩
  · unfold tyler
    rw [if_neg (by omega), if_neg (not_not.mpr hs), if_neg (by omega), npCov1_centred R hT0,
      ensurePsd_of_psd (npCov1_psd R (by omega)) (by norm_num [defaultJitter])]
    simp only
    obtain ⟨F, hF, hFp⟩ := tylerTarget_ok (sh := shrinkage) hg (by omega)
    rw [hF]
    simp only
    rw [if_neg (by omega)]
    obtain ⟨C', hC'⟩ := tylerLoop_succeeds (pinv := pinv) (s := shrinkage) (tol := tol) (F := F) hX maxIter.toNat
      (((N : ℝ) / tylerTraceTarget (npCov1 R)) • npCov1 R)
    rw [hC']
    simp only
    split
    · obtain ⟨k, -, hk, -⟩ := ensurePsd_spec ((1 / 2 : ℝ) • (((tylerTraceTarget (npCov1 R) / N) • C') +
        ((tylerTraceTarget (npCov1 R) / N) • C')ᵀ)) (jitter := defaultJitter) (by norm_num [defaultJitter])
      exact ⟨_, hk⟩
    · exact ⟨_, rfl⟩

/-- **C41** One asset is always rejected, with `ValueError`. -/
theorem C41_single_asset_fails (pinv) (R : Fin T → Fin 1 → ℝ) (shrinkage tol : ℝ) (target) (maxIter : ℤ) (guard : Bool) :
    tyler pinv R shrinkage tol target maxIter guard = .error .valueError := by
  unfold tyler
  split
  · rfl
  · split
    · rfl
    · rw [if_pos (Or.inr rfl)]

/-! ## C42 -/

theorem poetScale_pos (b : Bool) (X : Fin T → Fin N → ℝ) (i : Fin N) : 0 < poetScale b X i := by
  unfold poetScale
  simp only
  split
  · split
    · exact one_pos
    · rename_i h
      exact lt_trans (by positivity) (not_le.mp h)
  · exact one_pos

theorem median_abs_nonneg {l : List ℝ} (hl : ∀ x ∈ l, 0 ≤ x) {m : ℝ} (h : median l = some m) : 0 ≤ m := by
  have hs : ∀ x ∈ l, x ≤ l.sum := fun x hx => List.single_le_sum hl x hx
  exact (median_mem_range h hl hs).1

theorem poetTau_nonneg {n : ℕ} {res : Matrix (Fin N) (Fin N) ℝ} {th : PoetThresh} {tau : ℝ}
    (h : poetTau n res th = .ok tau) : 0 ≤ tau := by
  cases th with
  | auto =>
    simp only [poetTau] at h
    split at h
    · injection h with h; rw [← h]
    · rename_i m hm
      injection h with h; subst h
      refine mul_nonneg (median_abs_nonneg ?_ hm) (Real.sqrt_nonneg _)
      intro x hx
      simp only [List.mem_flatMap, List.mem_map] at hx
      obtain ⟨i, -, j, -, rfl⟩ := hx
      exact abs_nonneg _
  | num t =>
    simp only [poetTau] at h
    split at h
    · cases h
    · rename_i ht
      injection h with h; subst h
      exact not_lt.mp ht

/-- **C42** Before the PSD guard, for every eigen-decomposition routine, number of factors and threshold: the variances are
the sample variances; there is a PSD "factor part" `F` such that off the diagonal the deviation from `F` is never larger
than the sample's and never changes sign; the estimate is symmetric. -/
theorem C42_variances_and_shrinkage {eigh} {R : Fin T → Fin N → ℝ} {k : PoetK} {thresh : PoetThresh} {standardize : Bool}
    {C : Matrix (Fin N) (Fin N) ℝ} (h : poetRaw eigh R k thresh standardize = .ok C) :
    Cᵀ = C ∧ (∀ i, C i i = npCov1 R i i) ∧
    ∃ F : Matrix (Fin N) (Fin N) ℝ, F.PosSemidef ∧
      ∀ i j, i ≠ j → |C i j - F i j| ≤ |npCov1 R i j - F i j| ∧ 0 ≤ (C i j - F i j) * (npCov1 R i j - F i j) := by
  unfold poetRaw at h
  split at h
  · cases h
  rename_i hTN
  have hT0 : T ≠ 0 := by omega
  simp only at h
  set scale := poetScale standardize (centred R) with hsc
  set S := npCov1 (fun t i => centred R t i / scale i) with hS
  have hSe : ∀ i j, scale i * scale j * S i j = npCov1 R i j := by
    intro i j
    rw [hS, npCov1_scaled, npCov1_centred R hT0]
    have h1 := (poetScale_pos standardize (centred R) i).ne'
    have h2 := (poetScale_pos standardize (centred R) j).ne'
    rw [← hsc] at h1 h2
    field_simp
  have hSs : Sᵀ = S := npCov1_symm _
  split at h
  · cases h
  rename_i ks hks
  set Sf := poetFactor ks (eigh S).1 (eigh S).2 with hSf
  have hSfs : Sfᵀ = Sf := poetFactor_symm _ _ _
  have hres : (S - Sf)ᵀ = S - Sf := by rw [transpose_sub, hSs, hSfs]
  rw [half_of_symm hres] at h
  split at h
  · cases h
  rename_i tau htau
  injection h with h
  have ht0 := poetTau_nonneg htau
  have hent : ∀ i j, C i j = scale i * scale j * (Sf i j + softOff tau (S - Sf) i j) := by
    intro i j; rw [← h]; exact poetCombine_apply hSfs hres i j
  have hcs : ∀ i j, C i j = C j i := by
    intro i j
    have e1 : Sf j i = Sf i j := by
      have := congrFun (congrFun hSfs i) j
      simpa [transpose_apply] using this
    have e2 : softOff tau (S - Sf) j i = softOff tau (S - Sf) i j := by
      have := congrFun (congrFun (softOff_symm hres tau) i) j
      simpa [transpose_apply] using this
    rw [hent, hent, e1, e2]; ring
  refine ⟨?_, ?_, diagonal scale * Sf * diagonal scale, ?_, ?_⟩
  · ext i j; exact hcs j i
  · intro i
    rw [hent, ← hSe]
    simp [softOff]
  · have := (poetFactor_psd ks (eigh S).1 (eigh S).2).mul_mul_conjTranspose_same (diagonal scale)
    rwa [conjTranspose_eq_transpose_of_trivial, diagonal_transpose] at this
  · intro i j hij
    have hF : (diagonal scale * Sf * diagonal scale) i j = scale i * scale j * Sf i j := by
      rw [mul_diagonal, diagonal_mul]; ring
    have hpos : 0 < scale i * scale j := mul_pos (poetScale_pos _ _ i) (poetScale_pos _ _ j)
    rw [hF, hent, ← hSe]
    have e1 : scale i * scale j * (Sf i j + softOff tau (S - Sf) i j) - scale i * scale j * Sf i j =
        scale i * scale j * (Real.sign (S i j - Sf i j) * max (|S i j - Sf i j| - tau) 0) := by
      simp only [softOff, of_apply, if_neg hij, Matrix.sub_apply]; ring
    have e2 : scale i * scale j * S i j - scale i * scale j * Sf i j = scale i * scale j * (S i j - Sf i j) := by ring
    rw [e1, e2, abs_mul (scale i * scale j), abs_mul (scale i * scale j), abs_of_pos hpos]
    obtain ⟨p1, p2⟩ := soft_props tau (S i j - Sf i j) ht0
    constructor
    · exact mul_le_mul_of_nonneg_left p1 hpos.le
    · have := mul_nonneg (mul_self_nonneg (scale i * scale j)) p2
      nlinarith

/-- **C42** With threshold 0 POET reproduces the (unbiased) sample covariance exactly, for every number of factors and
every eigen-decomposition routine (and the PSD guard leaves it alone). -/
theorem C42_zero_threshold {eigh} {R : Fin T → Fin N → ℝ} {k : PoetK} {standardize : Bool}
    {C : Matrix (Fin N) (Fin N) ℝ} (h : poet eigh R k (.num 0) standardize = .ok C) : C = npCov1 R := by
  unfold poet at h
  split at h
  · cases h
  rename_i C0 h0
  have hC0 : C0 = npCov1 R ∧ 1 ≤ T := by
    unfold poetRaw at h0
    split at h0
    · cases h0
    rename_i hTN
    have hT0 : T ≠ 0 := by omega
    simp only at h0
    set scale := poetScale standardize (centred R) with hsc
    set S := npCov1 (fun t i => centred R t i / scale i) with hS
    have hSs : Sᵀ = S := npCov1_symm _
    split at h0
    · cases h0
    rename_i ks hks
    set Sf := poetFactor ks (eigh S).1 (eigh S).2 with hSf
    have hSfs : Sfᵀ = Sf := poetFactor_symm _ _ _
    have hres : (S - Sf)ᵀ = S - Sf := by rw [transpose_sub, hSs, hSfs]
    rw [half_of_symm hres] at h0
    simp only [poetTau, lt_irrefl, if_false] at h0
    injection h0 with h0
    refine ⟨?_, by omega⟩
    ext i j
    rw [← h0, poetCombine_apply hSfs hres]
    have : softOff 0 (S - Sf) i j = (S - Sf) i j := by
      simp only [softOff, of_apply]
      split
      · rfl
      · exact soft_zero _
    rw [this, Matrix.sub_apply, hS, npCov1_scaled, npCov1_centred R hT0]
    have h1 := (poetScale_pos standardize (centred R) i).ne'
    have h2 := (poetScale_pos standardize (centred R) j).ne'
    rw [← hsc] at h1 h2
    field_simp
    ring
  rw [hC0.1, ensurePsd_of_psd (npCov1_psd R hC0.2) (by norm_num [defaultJitter])] at h
  injection h with h
  exact h.symm

/-- **C42** The final (guarded) estimate keeps all off-diagonal entries and raises all variances by one common amount
`c ≥ 0`; in particular no variance is understated. -/
theorem C42_after_guard {eigh} {R : Fin T → Fin N → ℝ} {k : PoetK} {thresh : PoetThresh} {standardize : Bool}
    {C : Matrix (Fin N) (Fin N) ℝ} (h : poet eigh R k thresh standardize = .ok C) :
    ∃ c : ℝ, 0 ≤ c ∧ ∀ i, C i i = npCov1 R i i + c := by
  unfold poet at h
  split at h
  · cases h
  rename_i C0 h0
  obtain ⟨hs, hd, -⟩ := C42_variances_and_shrinkage h0
  obtain ⟨c, hc, e, -⟩ := ensurePsd_spec C0 (jitter := defaultJitter) (by norm_num [defaultJitter])
  rw [h, half_of_symm hs] at e
  injection e with e
  refine ⟨c, hc, fun i => ?_⟩
  rw [e, Matrix.add_apply, hd]
  simp

/-- POET returns on every sample with at least two rows and columns when `k` is a positive number and the threshold is
non-negative. -/
theorem C42_succeeds (eigh) {R : Fin T → Fin N → ℝ} {k : ℤ} (hk : 0 < k) {t : ℝ} (ht : 0 ≤ t) (standardize : Bool)
    (hT : 2 ≤ T) (hN : 2 ≤ N) : ∃ C, poet eigh R (.num k) (.num t) standardize = .ok C := by
  have hraw : ∃ C0, poetRaw eigh R (.num k) (.num t) standardize = .ok C0 := by
    unfold poetRaw
    rw [if_neg (by omega)]
    simp only [poetSelect, if_neg (not_le.mpr hk), poetTau, if_neg (not_lt.mpr ht)]
    exact ⟨_, rfl⟩
  obtain ⟨C0, h0⟩ := hraw
  obtain ⟨c, -, e, -⟩ := ensurePsd_spec C0 (jitter := defaultJitter) (by norm_num [defaultJitter])
  unfold poet
  rw [h0]
  exact ⟨_, e⟩

/-- **C42** A number of factors that is not positive, or a negative threshold, is rejected. -/
theorem C42_rejects (eigh) (R : Fin T → Fin N → ℝ) (standardize : Bool) (hT : 2 ≤ T) (hN : 2 ≤ N) :
    (∀ (k : ℤ) (th : PoetThresh), k ≤ 0 → poet eigh R (.num k) th standardize = .error .valueError) ∧
    ∀ (k : PoetK) (t : ℝ), t < 0 → poet eigh R k (.num t) standardize = .error .valueError := by
  constructor
  · intro k th hk
    unfold poet poetRaw
    rw [if_neg (by omega)]
    simp only [poetSelect, if_pos hk]
  · intro k t ht
    unfold poet poetRaw
    rw [if_neg (by omega)]
    cases hsel : poetSelect (eigh (npCov1 fun t i => centred R t i / poetScale standardize (centred R) i)).1 k with
    | ok ks => simp only [hsel, poetTau, if_pos ht]
    | error e =>
      simp only [hsel]
      cases k with
      | auto =>
        simp only [poetSelect] at hsel
        split at hsel
        · cases hsel
        · split at hsel
          · cases hsel
          · cases hsel; rfl
      | num k =>
        simp only [poetSelect] at hsel
        split at hsel
        · cases hsel; rfl
        · cases hsel

/-! ## C43 -/

theorem weighted_mean_range {w : ℝ → ℝ} {xs : List ℝ} (hw : ∀ x ∈ xs, 0 < w x) (hne : xs ≠ []) {lo hi : ℝ}
    (hlo : ∀ x ∈ xs, lo ≤ x) (hhi : ∀ x ∈ xs, x ≤ hi) :
    lo ≤ (xs.map (fun x => w x * x)).sum / (xs.map w).sum ∧ (xs.map (fun x => w x * x)).sum / (xs.map w).sum ≤ hi := by
  have hpos : 0 < (xs.map w).sum := by
    refine List.sum_pos _ (fun y hy => ?_) (by simpa using hne)
    rw [List.mem_map] at hy
    obtain ⟨x, hx, rfl⟩ := hy
    exact hw x hx
  have h1 : lo * (xs.map w).sum ≤ (xs.map (fun x => w x * x)).sum := by
    rw [← List.sum_map_mul_left]
    refine List.sum_le_sum (fun x hx => ?_)
    have := mul_le_mul_of_nonneg_left (hlo x hx) (hw x hx).le
    linarith
  have h2 : (xs.map (fun x => w x * x)).sum ≤ hi * (xs.map w).sum := by
    rw [← List.sum_map_mul_left]
    refine List.sum_le_sum (fun x hx => ?_)
    have := mul_le_mul_of_nonneg_left (hhi x hx) (hw x hx).le
    linarith
  exact ⟨by rw [le_div_iff₀ hpos]; exact h1, by rw [div_le_iff₀ hpos]; exact h2⟩

theorem huberWeight_pos {tau : ℝ} (ht : 0 < tau) (mu x : ℝ) : 0 < huberWeight tau mu x :=
  lt_min one_pos (div_pos ht (lt_max_of_lt_right (by positivity)))

theorem huberLoop_range {tau tol : ℝ} (ht : 0 < tau) {xs : List ℝ} (hne : xs ≠ []) {lo hi : ℝ}
    (hlo : ∀ x ∈ xs, lo ≤ x) (hhi : ∀ x ∈ xs, x ≤ hi) (n : ℕ) {mu : ℝ} (hmu : lo ≤ mu ∧ mu ≤ hi) :
    lo ≤ huberLoop tau tol xs n mu ∧ huberLoop tau tol xs n mu ≤ hi := by
  induction n generalizing mu with
  | zero => exact hmu
  | succ n ih =>
    have := weighted_mean_range (w := huberWeight tau mu) (fun x _ => huberWeight_pos ht mu x) hne hlo hhi
    simp only [huberLoop]
    split
    · exact this
    · exact ih this

/-- **C43** (Huber) For every non-empty column, tolerance and iteration limit, the Huber estimate exists and lies between
the smallest and the largest observation. -/
theorem C43_huber_range (tol : ℝ) (maxIter : ℕ) {xs : List ℝ} (hne : xs ≠ []) :
    ∃ m, huberColumn tol maxIter xs = some m ∧
      ∀ lo hi, (∀ x ∈ xs, lo ≤ x) → (∀ x ∈ xs, x ≤ hi) → lo ≤ m ∧ m ≤ hi := by
  obtain ⟨m, hm⟩ := median_isSome hne
  obtain ⟨mad, hmad⟩ := median_isSome (l := xs.map (fun x => |x - m|)) (by simpa using hne)
  unfold huberColumn
  simp only [hm, hmad]
  refine ⟨_, rfl, fun lo hi hlo hhi => huberLoop_range ?_ hne hlo hhi _ (median_mem_range hm hlo hhi)⟩
  have hmad0 : 0 ≤ mad := median_abs_nonneg (by
    intro x hx
    rw [List.mem_map] at hx
    obtain ⟨y, -, rfl⟩ := hx
    exact abs_nonneg _) hmad
  have hlen : (0:ℝ) < xs.length := by exact_mod_cast List.length_pos_iff.mpr hne
  refine mul_pos ?_ (Real.sqrt_pos.mpr (div_pos hlen (lt_max_of_lt_right (by norm_num))))
  have : (0:ℝ) < 1 / 10 ^ 12 := by positivity
  have : 0 ≤ 1.4826 * mad := mul_nonneg (by norm_num) hmad0
  linarith

theorem momBlocks_bounds {n : ℕ} (hn : 1 ≤ n) {b : Blocks} {B : ℕ} (h : momBlocks n b = .ok B) : 1 ≤ B ∧ B ≤ n := by
  cases b with
  | auto =>
    simp only [momBlocks] at h
    injection h with h; subst h
    exact ⟨le_max_left _ _, max_le hn (min_le_right _ _)⟩
  | num k =>
    simp only [momBlocks] at h
    split at h
    · cases h
    · injection h with h; subst h
      exact ⟨le_max_left _ _, max_le hn (min_le_right _ _)⟩

theorem blockSizes_bounds {n B : ℕ} (hB : 1 ≤ B) (hBn : B ≤ n) {s : ℕ} (hs : s ∈ blockSizes n B) :
    n / B ≤ s ∧ s ≤ n / B + 1 ∧ 1 ≤ s := by
  unfold blockSizes at hs
  rw [List.mem_map] at hs
  obtain ⟨b, -, rfl⟩ := hs
  have : 1 ≤ n / B := (Nat.one_le_div_iff (by omega)).mpr hBn
  split <;> omega

/-- The blocks that `median-of-means` averages: slices of the permuted observations. -/
def momBlocksOf (perm : Equiv.Perm (Fin T)) (B : ℕ) : List (List (Fin T)) :=
  splitBySizes (blockSizes T B) ((List.finRange T).map (fun t => perm t))

theorem mom_slices (perm : Equiv.Perm (Fin T)) (x : Fin T → ℝ) (B : ℕ) :
    splitBySizes (blockSizes T B) ((List.finRange T).map (fun t => x (perm t))) = (momBlocksOf perm B).map (List.map x) := by
  unfold momBlocksOf
  rw [← splitBySizes_map, List.map_map]
  rfl

/-! ## C44 -/

/-- **C44** For every sample size `T ≥ 1`, drawn permutation and accepted number of blocks: there are between 1 and `T`
blocks, none is empty, their sizes differ by at most one, and every observation is in exactly one block exactly once. -/
theorem C44_partition (perm : Equiv.Perm (Fin T)) (hT : 1 ≤ T) {b : Blocks} {B : ℕ} (h : momBlocks T b = .ok B) :
    1 ≤ B ∧ B ≤ T ∧ (momBlocksOf perm B).length = B ∧ (∀ l ∈ momBlocksOf perm B, l ≠ []) ∧
    (∀ l ∈ momBlocksOf perm B, ∀ l' ∈ momBlocksOf perm B, l.length ≤ l'.length + 1) ∧
    ∀ t : Fin T, (momBlocksOf perm B).flatten.count t = 1 := by
  obtain ⟨h1, h2⟩ := momBlocks_bounds hT h
  have hsum : (blockSizes T B).sum = ((List.finRange T).map (fun t => perm t)).length := by
    rw [blockSizes_sum T B (by omega)]; simp
  have hlens := splitBySizes_lengths _ _ hsum
  have hlen : ∀ l ∈ momBlocksOf perm B, T / B ≤ l.length ∧ l.length ≤ T / B + 1 ∧ 1 ≤ l.length := by
    intro l hl
    refine blockSizes_bounds h1 h2 ?_
    rw [← hlens]
    exact List.mem_map_of_mem hl
  refine ⟨h1, h2, ?_, ?_, ?_, ?_⟩
  · have := congrArg List.length hlens
    simpa [blockSizes, momBlocksOf] using this
  · intro l hl hc
    have := (hlen l hl).2.2
    rw [hc] at this
    simp at this
  · intro l hl l' hl'
    have a := (hlen l hl).2.1
    have b := (hlen l' hl').1
    omega
  · intro t
    unfold momBlocksOf
    rw [splitBySizes_flatten _ _ hsum]
    refine List.count_eq_one_of_mem ?_ ?_
    · exact (List.nodup_finRange T).map perm.injective
    · rw [List.mem_map]
      exact ⟨perm.symm t, List.mem_finRange _, by simp⟩

theorem listMean_range {l : List ℝ} {m lo hi : ℝ} (h : listMean l = some m) (hlo : ∀ x ∈ l, lo ≤ x) (hhi : ∀ x ∈ l, x ≤ hi) :
    lo ≤ m ∧ m ≤ hi := by
  unfold listMean at h
  split at h
  · cases h
  · rename_i hne
    injection h with h; subst h
    have hn : l ≠ [] := by intro hc; exact hne (by rw [hc]; rfl)
    have := weighted_mean_range (w := fun _ => 1) (fun _ _ => one_pos) hn hlo hhi
    simpa using this

/-- The value computed from the blocks. -/
theorem medianOfMeans_eq (perm : Equiv.Perm (Fin T)) (hT : 1 ≤ T) {b : Blocks} {B : ℕ} (h : momBlocks T b = .ok B)
    (x : Fin T → ℝ) : medianOfMeans perm b x =
      .ok (median ((momBlocksOf perm B).map (fun l => (l.map x).sum / (l.length : ℝ)))) := by
  obtain ⟨-, -, -, hne, -⟩ := C44_partition perm hT h
  unfold medianOfMeans
  rw [h]
  simp only
  rw [mom_slices]
  have hm : ((momBlocksOf perm B).map (List.map x)).map listMean =
      (momBlocksOf perm B).map (fun l => some ((l.map x).sum / (l.length : ℝ))) := by
    rw [List.map_map]
    apply List.map_congr_left
    intro l hl
    have : l.length ≠ 0 := by
      exact fun hc => hne l hl (List.length_eq_zero_iff.mp hc)
    simp only [Function.comp, listMean, List.length_map, if_neg this]
  rw [hm, if_pos]
  · congr 2
    rw [List.filterMap_map]
    simp [Function.comp_def]
  · simp

/-- **C44** One block gives the plain average, whatever the permutation. -/
theorem C44_one_block (perm : Equiv.Perm (Fin T)) (hT : 1 ≤ T) (x : Fin T → ℝ) :
    medianOfMeans perm (.num 1) x = .ok (some ((∑ t, x t) / T)) := by
  have hB : momBlocks T (.num 1) = .ok 1 := by
    simp only [momBlocks]
    rw [if_neg (by norm_num)]
    congr 1
    simp only [Int.toNat_one]
    omega
  rw [medianOfMeans_eq perm hT hB]
  have hs : blockSizes T 1 = [T] := by simp [blockSizes, Nat.mod_one]
  have hb : momBlocksOf perm 1 = [(List.finRange T).map (fun t => perm t)] := by
    unfold momBlocksOf
    rw [hs]
    simp [splitBySizes]
  rw [hb]
  simp only [List.map_cons, List.map_nil, List.map_map, List.length_map, List.length_finRange]
  have hsum : ((List.finRange T).map (x ∘ fun t => perm t)).sum = ∑ t, x t := by
    rw [← Equiv.sum_comp perm]
    exact (Fin.sum_univ_def _).symm
  rw [hsum]
  congr 1
  simp [median]

/-- **C44** The automatic number of blocks is the least `B` with `B² ≥ T` (for `T ≥ 1`). -/
theorem C44_auto_blocks (hT : 1 ≤ T) : ∃ B, momBlocks T .auto = .ok B ∧ T ≤ B * B ∧ ∀ k, T ≤ k * k → B ≤ k := by
  have hc : T ≤ ceilSqrt T * ceilSqrt T ∧ (∀ k, T ≤ k * k → ceilSqrt T ≤ k) := by
    have h1 := Nat.sqrt_le T
    have h3 := Nat.lt_succ_sqrt T
    unfold ceilSqrt
    split
    · rename_i h
      refine ⟨h.ge, fun k hk => ?_⟩
      rw [← h] at hk
      exact Nat.mul_self_le_mul_self_iff.mp hk
    · rename_i h
      refine ⟨by simpa [Nat.succ_eq_add_one] using h3.le, fun k hk => ?_⟩
      by_contra hlt
      have : k ≤ Nat.sqrt T := by omega
      have := Nat.mul_self_le_mul_self this
      have : T = Nat.sqrt T * Nat.sqrt T := by omega
      exact h this.symm
  have hle : ceilSqrt T ≤ T := hc.2 T (Nat.le_mul_self T)
  have hpos : 1 ≤ ceilSqrt T := by
    by_contra h0
    have : ceilSqrt T = 0 := by omega
    have := hc.1
    rw [‹ceilSqrt T = 0›] at this
    omega
  refine ⟨ceilSqrt T, ?_, hc.1, hc.2⟩
  simp only [momBlocks]
  rw [max_eq_left hT, min_eq_left hle, max_eq_right hpos]

/-- **C44** A requested number of blocks that is not positive is rejected; a positive one is used as requested, capped at
the number of observations. -/
theorem C44_requested_blocks (hT : 1 ≤ T) (k : ℤ) (perm : Equiv.Perm (Fin T)) (x : Fin T → ℝ) :
    (k ≤ 0 → medianOfMeans perm (.num k) x = .error .valueError) ∧
    (0 < k → ∃ B : ℕ, (B : ℤ) = min k T ∧ momBlocks T (.num k) = .ok B) := by
  constructor
  · intro hk
    unfold medianOfMeans
    simp only [momBlocks, if_pos hk]
  · intro hk
    refine ⟨max 1 (min (min k.toNat T) T), ?_, by simp only [momBlocks, if_neg (not_le.mpr hk)]⟩
    omega

/-- **C43** (median of means) For every permutation and accepted block number the estimate exists, lies between the
smallest and the largest observation, and shifts by `c` when all observations shift by `c` (same permutation). -/
theorem C43_median_of_means (perm : Equiv.Perm (Fin T)) (hT : 1 ≤ T) {b : Blocks} {B : ℕ} (h : momBlocks T b = .ok B)
    (x : Fin T → ℝ) : ∃ m, medianOfMeans perm b x = .ok (some m) ∧
      (∀ lo hi, (∀ t, lo ≤ x t) → (∀ t, x t ≤ hi) → lo ≤ m ∧ m ≤ hi) ∧
      ∀ c, medianOfMeans perm b (fun t => x t + c) = .ok (some (m + c)) := by
  obtain ⟨h1, h2, hlen, hne, -⟩ := C44_partition perm hT h
  have hnel : momBlocksOf perm B ≠ [] := by
    intro hc; rw [hc] at hlen; simp at hlen; omega
  obtain ⟨m, hm⟩ := median_isSome (l := (momBlocksOf perm B).map (fun l => (l.map x).sum / (l.length : ℝ))) (by simpa using hnel)
  refine ⟨m, ?_, ?_, ?_⟩
  · rw [medianOfMeans_eq perm hT h, hm]
  · intro lo hi hlo hhi
    have key : ∀ l ∈ momBlocksOf perm B, lo ≤ (l.map x).sum / (l.length : ℝ) ∧ (l.map x).sum / (l.length : ℝ) ≤ hi := by
      intro l hl
      refine listMean_range (l := l.map x) ?_ ?_ ?_
      · unfold listMean
        rw [if_neg, List.length_map]
        simp only [List.length_map]
        exact fun hc => hne l hl (List.length_eq_zero_iff.mp hc)
      · intro y hy
        rw [List.mem_map] at hy
        obtain ⟨t, -, rfl⟩ := hy
        exact hlo t
      · intro y hy
        rw [List.mem_map] at hy
        obtain ⟨t, -, rfl⟩ := hy
        exact hhi t
    refine median_mem_range hm ?_ ?_
    · intro y hy
      rw [List.mem_map] at hy
      obtain ⟨l, hl, rfl⟩ := hy
      exact (key l hl).1
    · intro y hy
      rw [List.mem_map] at hy
      obtain ⟨l, hl, rfl⟩ := hy
      exact (key l hl).2
  · intro c
    rw [medianOfMeans_eq perm hT h]
    have e : (momBlocksOf perm B).map (fun l => (l.map (fun t => x t + c)).sum / (l.length : ℝ)) =
        ((momBlocksOf perm B).map (fun l => (l.map x).sum / (l.length : ℝ))).map (· + c) := by
      rw [List.map_map]
      apply List.map_congr_left
      intro l hl
      have hl0 : (l.length : ℝ) ≠ 0 := by
        have := hne l hl
        exact_mod_cast fun hc => this (List.length_eq_zero_iff.mp hc)
      simp only [Function.comp]
      rw [List.sum_map_add]
      simp only [List.map_const', List.sum_replicate, nsmul_eq_mul]
      field_simp
    rw [e, median_add, hm]
    rfl

/-- Non-vacuity: seven observations, automatic blocks (3 of them: sizes 3, 2, 2). -/
example : momBlocks 7 .auto = .ok 3 ∧ blockSizes 7 3 = [3, 2, 2] := by
  have : Nat.sqrt 7 = 2 := (Nat.eq_sqrt.mpr (by norm_num)).symm
  constructor
  · simp [momBlocks, ceilSqrt, this]
  · decide

/-- Non-vacuity of C41/C42: a two-asset, two-observation sample. -/
example : (![![1, 0], ![0, 0]] : Fin 2 → Fin 2 → ℝ) 0 0 ≠ colMean ![![1, 0], ![0, 0]] 0 := by
  simp [colMean, Fin.sum_univ_succ]

end PyV.Props
