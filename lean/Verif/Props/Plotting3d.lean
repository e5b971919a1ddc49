import Verif.Model.Plotting3d
import Verif.Props.Poet

/-! # Properties C176–C178: the three-dimensional picture of the assumptions -/

namespace PyV.Props

open PyV PyV.Mom PyV.Plot3d Matrix

variable {N T : ℕ}

/-! ## Specification -/

/-- The variance of the combination `w`. -/
def along (C : Matrix (Fin N) (Fin N) ℝ) (w : Fin N → ℝ) : ℝ := ∑ i, ∑ j, w i * C i j * w j

/-- The columns of `B` are the first three principal components of `C`: orthonormal, and each has the greatest variance among the unit
directions orthogonal to the ones before it. -/
structure Principal (C : Matrix (Fin N) (Fin N) ℝ) (B : Matrix (Fin N) (Fin 3) ℝ) : Prop where
  orthonormal : ∀ k l, ∑ i, B i k * B i l = if k = l then 1 else 0
  greatest : ∀ (l : Fin 3) (w : Fin N → ℝ), ∑ i, w i ^ 2 = 1 → (∀ k < l, ∑ i, B i k * w i = 0) → along C w ≤ along C (fun i => B i l)

private theorem sym_eq {C : Matrix (Fin N) (Fin N) ℝ} (h : Cᵀ = C) : sym C = C := by
  ext i j
  have : C j i = C i j := congrFun (congrFun h i) j
  simp [sym, this]

private theorem sym_sym (C : Matrix (Fin N) (Fin N) ℝ) : (sym C)ᵀ = sym C := by
  ext i j
  simp [sym, add_comm]

private theorem lower_eq {C : Matrix (Fin N) (Fin N) ℝ} (h : Cᵀ = C) : lower C = C := by
  ext i j
  have : C j i = C i j := congrFun (congrFun h i) j
  simp [lower, this]

private theorem along_eq (C : Matrix (Fin N) (Fin N) ℝ) (w : Fin N → ℝ) : along C w = w ⬝ᵥ C *ᵥ w := by
  simp only [along, dotProduct, mulVec, Finset.mul_sum, mul_assoc]

/-- The spectral data of a symmetric matrix in descending order. -/
private theorem spectral {argsort : (Fin N → ℝ) → Equiv.Perm (Fin N)} {eigh : Eigh N} (he : IsEigh eigh) {C : Matrix (Fin N) (Fin N) ℝ}
    (hC : Cᵀ = C) (V : Matrix (Fin N) (Fin N) ℝ) (d : Fin N → ℝ) (hV : V = (descending argsort eigh C).2) (hd : d = (descending argsort eigh C).1) :
    Vᵀ * V = 1 ∧ V * Vᵀ = 1 ∧ Vᵀ * C * V = diagonal d ∧ (∀ w, along C w = ∑ l, d l * (Vᵀ *ᵥ w) l ^ 2) ∧ (∀ w, ∑ l, (Vᵀ *ᵥ w) l ^ 2 = ∑ i, w i ^ 2) := by
  obtain ⟨h1, h2⟩ := descending_isEigh he argsort C hC
  rw [← hV] at h1 h2
  rw [← hd] at h2
  have h3 : Vᵀ * V = 1 := mul_eq_one_comm.mp h1
  refine ⟨h3, h1, ?_, fun w => ?_, fun w => ?_⟩
  · conv_lhs => rw [h2]
    rw [← Matrix.mul_assoc, ← Matrix.mul_assoc, h3, Matrix.one_mul, Matrix.mul_assoc, h3, Matrix.mul_one]
  · rw [along_eq]
    conv_lhs => rw [h2]
    rw [← Matrix.mulVec_mulVec, ← Matrix.mulVec_mulVec, Matrix.dotProduct_mulVec, ← Matrix.mulVec_transpose]
    simp only [dotProduct, mulVec_diagonal]
    exact Finset.sum_congr rfl fun l _ => by ring
  · have : (Vᵀ *ᵥ w) ⬝ᵥ (Vᵀ *ᵥ w) = w ⬝ᵥ w := by
      rw [Matrix.dotProduct_mulVec, ← Matrix.mulVec_transpose, Matrix.transpose_transpose, Matrix.mulVec_mulVec, h1, Matrix.one_mulVec]
    simp only [dotProduct] at this
    simpa [pow_two] using this

/-- **C176** For a symmetric covariance of three assets or more, the axes of the picture are the first three principal components, the
covariance shown is diagonal with their variances in non-increasing order. -/
theorem C176_axes_partial {argsort : (Fin N → ℝ) → Equiv.Perm (Fin N)} (hs : Sorts argsort) {eigh : Eigh N} (he : IsEigh eigh)
    {C : Matrix (Fin N) (Fin N) ℝ} (hC : Cᵀ = C) (hN : 3 ≤ N) :
    Principal C (components argsort eigh C) ∧
      (∀ k l, cov3 (components argsort eigh C) C k l = if k = l then along C (fun i => components argsort eigh C i k) else 0) ∧
      (∀ k l, k ≤ l → cov3 (components argsort eigh C) C l l ≤ cov3 (components argsort eigh C) C k k) := by
  obtain ⟨h1, h2, h3, h4, h5⟩ := spectral (argsort := argsort) he hC _ _ rfl rfl
  set V := (descending argsort eigh C).2 with hV
  set d := (descending argsort eigh C).1 with hd
  have hanti : Antitone d := descending_antitone hs eigh C
  have hB : ∀ i l, components argsort eigh C i l = V i (Fin.castLE hN l) := by
    intro i l
    unfold components
    rw [dif_pos hN, sym_eq hC]
    rfl
  have hcol : ∀ l : Fin N, along C (fun i => V i l) = d l := by
    intro l
    have hy : Vᵀ *ᵥ (fun i => V i l) = fun k => if k = l then 1 else 0 := by
      funext k
      have := congrFun (congrFun h1 k) l
      rw [Matrix.mul_apply, Matrix.one_apply] at this
      exact this
    rw [h4, hy]
    simp
  have hcov : ∀ k l, cov3 (components argsort eigh C) C k l = if k = l then d (Fin.castLE hN k) else 0 := by
    intro k l
    have := congrFun (congrFun h3 (Fin.castLE hN k)) (Fin.castLE hN l)
    rw [Matrix.diagonal_apply] at this
    unfold cov3
    rw [if_pos hN, sym_eq hC, Matrix.mul_apply]
    simp only [Matrix.mul_apply, Matrix.transpose_apply, hB]
    simp only [Matrix.mul_apply, Matrix.transpose_apply] at this
    rw [this]
    simp [Fin.ext_iff]
  refine ⟨⟨fun k l => ?_, fun l w hw hk => ?_⟩, fun k l => ?_, fun k l hkl => ?_⟩
  · have := congrFun (congrFun h1 (Fin.castLE hN k)) (Fin.castLE hN l)
    simp only [Matrix.mul_apply, Matrix.transpose_apply, Matrix.one_apply] at this
    simp only [hB, this]
    simp [Fin.ext_iff]
  · simp only [hB] at hk ⊢
    rw [hcol, h4]
    have hle : ∀ i, d i * (Vᵀ *ᵥ w) i ^ 2 ≤ d (Fin.castLE hN l) * (Vᵀ *ᵥ w) i ^ 2 := by
      intro i
      by_cases hi : (i : ℕ) < l
      · have : (Vᵀ *ᵥ w) i = 0 := hk ⟨i, by omega⟩ hi
        rw [this]; simp
      · exact mul_le_mul_of_nonneg_right (hanti (by rw [Fin.le_def]; simpa using hi)) (sq_nonneg _)
    calc ∑ i, d i * (Vᵀ *ᵥ w) i ^ 2 ≤ ∑ i, d (Fin.castLE hN l) * (Vᵀ *ᵥ w) i ^ 2 := Finset.sum_le_sum fun i _ => hle i
      _ = d (Fin.castLE hN l) := by rw [← Finset.mul_sum, h5, hw, mul_one]
  · rw [hcov]
    simp only [hB, hcol]
  · rw [hcov, hcov, if_pos rfl, if_pos rfl]
    exact hanti (by rw [Fin.le_def]; simpa using hkl)

private theorem ranked {argsort : (Fin N → ℝ) → Equiv.Perm (Fin N)} (hs : Sorts argsort) (eigh : Eigh N) {C : Matrix (Fin N) (Fin N) ℝ}
    (hC : Cᵀ = C) (l : Fin N) :
    clipped eigh C (argsort (clipped eigh C) (Fin.rev l)) = max ((descending argsort eigh C).1 l) 0 := by
  have hcl : clipped eigh C = fun i => max ((eigh C).1 i) 0 := by funext i; rw [clipped, lower_eq hC]
  have h1 : Monotone (clipped eigh C ∘ argsort (clipped eigh C)) := hs _
  have h2 : Monotone (clipped eigh C ∘ argsort (eigh C).1) := by
    intro a b hab
    have := hs (eigh C).1 hab
    simp only [hcl, Function.comp_apply] at this ⊢
    exact max_le_max_right 0 this
  have := congrFun (Tuple.unique_monotone h1 h2) (Fin.rev l)
  simp only [Function.comp_apply] at this
  rw [this, hcl]
  rfl

private theorem sum_desc (argsort : (Fin N → ℝ) → Equiv.Perm (Fin N)) (eigh : Eigh N) (C : Matrix (Fin N) (Fin N) ℝ) (g : ℝ → ℝ) :
    ∑ l, g ((descending argsort eigh C).1 l) = ∑ i, g ((eigh C).1 i) :=
  Equiv.sum_comp (Fin.revPerm.trans (argsort (eigh C).1)) (fun i => g ((eigh C).1 i))

private theorem trace_desc {argsort : (Fin N → ℝ) → Equiv.Perm (Fin N)} {eigh : Eigh N} (he : IsEigh eigh) {C : Matrix (Fin N) (Fin N) ℝ}
    (hC : Cᵀ = C) : ∑ l, (descending argsort eigh C).1 l = ∑ i, C i i := by
  obtain ⟨-, h2, h3, -, -⟩ := spectral (argsort := argsort) he hC _ _ rfl rfl
  have : trace (((descending argsort eigh C).2)ᵀ * C * (descending argsort eigh C).2) = trace C := by
    rw [Matrix.trace_mul_comm, ← Matrix.mul_assoc, h2, Matrix.one_mul]
  rw [h3, Matrix.trace_diagonal] at this
  exact this

private theorem desc_nonneg {argsort : (Fin N → ℝ) → Equiv.Perm (Fin N)} {eigh : Eigh N} (he : IsEigh eigh) {C : Matrix (Fin N) (Fin N) ℝ}
    (hC : Cᵀ = C) (hp : ∀ w, 0 ≤ along C w) (l : Fin N) : 0 ≤ (descending argsort eigh C).1 l := by
  obtain ⟨h1, -, -, h4, -⟩ := spectral (argsort := argsort) he hC _ _ rfl rfl
  set V := (descending argsort eigh C).2 with hV
  have hy : Vᵀ *ᵥ (fun i => V i l) = fun k => if k = l then 1 else 0 := by
    funext k
    have := congrFun (congrFun h1 k) l
    rw [Matrix.mul_apply, Matrix.one_apply] at this
    exact this
  have := hp (fun i => V i l)
  rw [h4, hy] at this
  simpa using this

/-- The share of an axis label in terms of the ordered eigenvalues. -/
private theorem share {argsort : (Fin N → ℝ) → Equiv.Perm (Fin N)} (hs : Sorts argsort) {eigh : Eigh N} (he : IsEigh eigh)
    {C : Matrix (Fin N) (Fin N) ℝ} (hC : Cᵀ = C) (hp : ∀ w, 0 ≤ along C w) (ht : 0 < ∑ i, C i i) (l : Fin 3) (hl : (l : ℕ) < N) :
    explained argsort eigh C l = (descending argsort eigh C).1 ⟨l, hl⟩ / ∑ i, C i i := by
  have hd := desc_nonneg (argsort := argsort) he hC hp
  have htot : total eigh C = ∑ i, C i i := by
    have : ∑ i, clipped eigh C i = ∑ i, C i i := by
      rw [← trace_desc (argsort := argsort) he hC]
      have h1 : ∑ i, clipped eigh C i = ∑ i, max ((eigh C).1 i) 0 := Finset.sum_congr rfl fun i _ => by rw [clipped, lower_eq hC]
      rw [h1, ← sum_desc argsort eigh C (fun x => max x 0)]
      exact Finset.sum_congr rfl fun l _ => max_eq_left (hd l)
    unfold total
    rw [this, if_pos ht]
  unfold explained pad
  rw [dif_pos hl, htot]
  simp only
  rw [ranked hs eigh hC, max_eq_left (hd _)]

/-- **C176** (the percentages) For a covariance (symmetric, positive semidefinite, not zero) of three assets or more, the percentage in the label of
an axis is the variance along that axis as a share of the total variance; the three shares are at most 100% together. -/
theorem C176_shares_partial {argsort : (Fin N → ℝ) → Equiv.Perm (Fin N)} (hs : Sorts argsort) {eigh : Eigh N} (he : IsEigh eigh)
    {C : Matrix (Fin N) (Fin N) ℝ} (hC : Cᵀ = C) (hp : ∀ w, 0 ≤ along C w) (ht : 0 < ∑ i, C i i) (hN : 3 ≤ N) :
    (∀ l, explained argsort eigh C l = cov3 (components argsort eigh C) C l l / ∑ i, C i i) ∧
      (∀ l, 0 ≤ explained argsort eigh C l) ∧ ∑ l, explained argsort eigh C l ≤ 1 := by
  have hd := desc_nonneg (argsort := argsort) he hC hp
  have hsh := share hs he hC hp ht
  obtain ⟨-, hcov, -⟩ := C176_axes_partial hs he hC hN
  obtain ⟨h1, -, -, h4, -⟩ := spectral (argsort := argsort) he hC _ _ rfl rfl
  refine ⟨fun l => ?_, fun l => ?_, ?_⟩
  · rw [hsh l (by omega), hcov, if_pos rfl]
    congr 1
    set V := (descending argsort eigh C).2 with hV
    have hB : (fun i => components argsort eigh C i l) = fun i => V i ⟨l, by omega⟩ := by
      funext i
      unfold components
      rw [dif_pos hN, sym_eq hC]
      rfl
    have hy : Vᵀ *ᵥ (fun i => V i ⟨l, by omega⟩) = fun k => if k = ⟨l, by omega⟩ then 1 else 0 := by
      funext k
      have := congrFun (congrFun h1 k) ⟨l, by omega⟩
      rw [Matrix.mul_apply, Matrix.one_apply] at this
      exact this
    rw [hB, h4, hy]
    simp
  · rw [hsh l (by omega)]
    exact div_nonneg (hd _) ht.le
  · have : ∑ l : Fin 3, explained argsort eigh C l = (∑ l : Fin 3, (descending argsort eigh C).1 (Fin.castLE hN l)) / ∑ i, C i i := by
      rw [Finset.sum_div]
      exact Finset.sum_congr rfl fun l _ => hsh l (by omega)
    rw [this, div_le_one ht, ← trace_desc (argsort := argsort) he hC]
    have himg : ∑ l : Fin 3, (descending argsort eigh C).1 (Fin.castLE hN l) =
        ∑ i ∈ Finset.univ.map (Fin.castLEEmb hN), (descending argsort eigh C).1 i := by
      rw [Finset.sum_map]; rfl
    rw [himg]
    exact Finset.sum_le_sum_of_subset_of_nonneg (Finset.subset_univ _) fun i _ _ => hd i

/-- **C176** (scenarios) If the mean and the covariance are those of the scenarios under some probabilities, the mean and the covariance shown
are those of the scenarios shown, whatever the number of assets and the directions of projection. -/
theorem C176_scenarios {B : Matrix (Fin N) (Fin 3) ℝ} {R : Fin T → Fin N → ℝ} {p : Fin T → ℝ} {m : Fin N → ℝ} {C : Matrix (Fin N) (Fin N) ℝ}
    (hm : ∀ i, m i = ∑ t, p t * R t i) (hC : ∀ i j, C i j = ∑ t, p t * ((R t i - m i) * (R t j - m j))) :
    (∀ l, mean3 B m l = ∑ t, p t * scen3 B R t l) ∧
      ∀ k l, cov3 B C k l = ∑ t, p t * ((scen3 B R t k - mean3 B m k) * (scen3 B R t l - mean3 B m l)) := by
  have hsymm : Cᵀ = C := by
    ext i j
    rw [Matrix.transpose_apply, hC, hC]
    exact Finset.sum_congr rfl fun t _ => by ring
  have hcs := sym_eq hsymm
  by_cases hN : 3 ≤ N
  · have hmean : ∀ l, mean3 B m l = ∑ t, p t * scen3 B R t l := by
      intro l
      simp only [mean3, scen3, if_pos hN, hm, Finset.mul_sum]
      rw [Finset.sum_comm]
      exact Finset.sum_congr rfl fun t _ => Finset.sum_congr rfl fun i _ => by ring
    refine ⟨hmean, fun k l => ?_⟩
    have hdev : ∀ t l, scen3 B R t l - mean3 B m l = ∑ i, B i l * (R t i - m i) := by
      intro t l
      simp only [mean3, scen3, if_pos hN, ← Finset.sum_sub_distrib]
      exact Finset.sum_congr rfl fun i _ => by ring
    simp only [hdev]
    unfold cov3
    rw [if_pos hN, hcs, Matrix.mul_apply]
    simp only [Matrix.mul_apply, Matrix.transpose_apply, hC, Finset.sum_mul, Finset.mul_sum]
    rw [Finset.sum_congr rfl fun j _ => Finset.sum_comm, Finset.sum_comm]
    refine Finset.sum_congr rfl fun t _ => ?_
    refine Finset.sum_congr rfl fun j _ => Finset.sum_congr rfl fun i _ => by ring
  · refine ⟨fun l => ?_, fun k l => ?_⟩
    · simp only [mean3, scen3, if_neg hN, pad]
      split
      · exact hm _
      · simp
    · simp only [mean3, scen3, cov3, if_neg hN, pad, hcs, Matrix.of_apply]
      by_cases hk : (k : ℕ) < N <;> by_cases hl : (l : ℕ) < N <;> simp [hk, hl, hC]

/-- **C176** (the full statement fails) With fewer than three assets the axes are the assets, not the principal components, but are labelled as
components: for two uncorrelated assets with variances 1 and 4 the first axis, labelled "PC1 (80%)", shows the asset with 20% of the variance. -/
theorem C176_counterexample {argsort : (Fin 2 → ℝ) → Equiv.Perm (Fin 2)} (hs : Sorts argsort) {eigh : Eigh 2} (he : IsEigh eigh) :
    explained argsort eigh !![1, 0; 0, 4] 0 = 4 / 5 ∧
      cov3 (components argsort eigh !![1, 0; 0, 4]) !![1, 0; 0, 4] 0 0 / (1 + 4) = 1 / 5 := by
  have hC : (!![1, 0; 0, 4] : Matrix (Fin 2) (Fin 2) ℝ)ᵀ = !![1, 0; 0, 4] := by
    ext i j; fin_cases i <;> fin_cases j <;> rfl
  have hp : ∀ w, 0 ≤ along (!![1, 0; 0, 4] : Matrix (Fin 2) (Fin 2) ℝ) w := by
    intro w
    simp only [along, Fin.sum_univ_two]
    simp
    nlinarith [sq_nonneg (w 0), sq_nonneg (w 1)]
  have ht : ∑ i, (!![1, 0; 0, 4] : Matrix (Fin 2) (Fin 2) ℝ) i i = 5 := by rw [Fin.sum_univ_two]; norm_num
  constructor
  · rw [share hs he hC hp (by rw [ht]; norm_num) 0 (by norm_num), ht]
    obtain ⟨-, h2, h3, -, -⟩ := spectral (argsort := argsort) he hC _ _ rfl rfl
    have hsum := trace_desc (argsort := argsort) he hC
    have hanti := descending_antitone hs eigh (!![1, 0; 0, 4] : Matrix (Fin 2) (Fin 2) ℝ)
    set d := (descending argsort eigh (!![1, 0; 0, 4] : Matrix (Fin 2) (Fin 2) ℝ)).1 with hd
    set V := (descending argsort eigh (!![1, 0; 0, 4] : Matrix (Fin 2) (Fin 2) ℝ)).2 with hV
    rw [ht, Fin.sum_univ_two] at hsum
    have hdet : d 0 * d 1 = 4 := by
      have h5 := congrArg det h3
      rw [det_mul, det_mul, det_transpose, det_diagonal, Fin.prod_univ_two] at h5
      have h6 : V.det * V.det = 1 := by
        have := congrArg det h2
        rwa [det_mul, det_transpose, det_one] at this
      have h7 : (!![1, 0; 0, 4] : Matrix (Fin 2) (Fin 2) ℝ).det = 4 := by rw [det_fin_two_of]; norm_num
      rw [h7] at h5
      linear_combination 4 * h6 - h5
    have hle : d 1 ≤ d 0 := hanti (by decide)
    have : d 0 = 4 := by nlinarith
    show d 0 / 5 = 4 / 5
    rw [this]
  · simp [cov3, pad, sym]
    norm_num

/-! ## The ellipsoid -/

/-- The point lies on the ellipsoid of radius `n` standard deviations of `C` (with `1e-16` added to the variances): `p` is `(C + 1e-16 I) q`
with `q · p = n²`; so `pᵀ (C + 1e-16 I)⁻¹ p = n²`. -/
def OnEllipsoid (C : Matrix (Fin 3) (Fin 3) ℝ) (n : ℝ) (p : Fin 3 → ℝ) : Prop :=
  ∃ q : Fin 3 → ℝ, (∀ i, p i = ∑ j, C i j * q j + q i / 10 ^ 16) ∧ ∑ i, q i * p i = n ^ 2

private theorem on_of_coords {C : Matrix (Fin 3) (Fin 3) ℝ} {V : Matrix (Fin 3) (Fin 3) ℝ} {d : Fin 3 → ℝ} (h1 : V * Vᵀ = 1)
    (h2 : C = V * diagonal d * Vᵀ) (hd : ∀ l, 0 ≤ d l) (n : ℝ) (u : Fin 3 → ℝ) (hu : ∑ l, u l ^ 2 = 1) :
    OnEllipsoid C n (V *ᵥ fun l => n * Real.sqrt (d l + 1 / 10 ^ 16) * u l) := by
  have h3 : Vᵀ * V = 1 := mul_eq_one_comm.mp h1
  have hpos : ∀ l, 0 < d l + 1 / 10 ^ 16 := fun l => by have := hd l; positivity
  set y : Fin 3 → ℝ := fun l => n * Real.sqrt (d l + 1 / 10 ^ 16) * u l with hy
  set z : Fin 3 → ℝ := fun l => y l / (d l + 1 / 10 ^ 16) with hz
  refine ⟨V *ᵥ z, fun i => ?_, ?_⟩
  · have e1 : C *ᵥ (V *ᵥ z) = V *ᵥ (fun l => d l * z l) := by
      rw [h2, ← Matrix.mulVec_mulVec, ← Matrix.mulVec_mulVec, Matrix.mulVec_mulVec z Vᵀ V, h3, Matrix.one_mulVec]
      congr 1
      funext l
      rw [mulVec_diagonal]
    have e2 : y = (fun l => d l * z l) + (1 / 10 ^ 16 : ℝ) • z := by
      funext l
      have := (hpos l).ne'
      simp only [Pi.add_apply, Pi.smul_apply, smul_eq_mul]
      have : y l = z l * (d l + 1 / 10 ^ 16) := (div_mul_cancel₀ _ this).symm
      rw [this]; ring
    have e3 : V *ᵥ y = C *ᵥ (V *ᵥ z) + (1 / 10 ^ 16 : ℝ) • (V *ᵥ z) := by
      rw [e1, ← Matrix.mulVec_smul, ← Matrix.mulVec_add, ← e2]
    have := congrFun e3 i
    rw [this]
    simp only [Pi.add_apply, Pi.smul_apply, smul_eq_mul]
    rw [show (C *ᵥ (V *ᵥ z)) i = ∑ j, C i j * (V *ᵥ z) j from rfl]
    ring
  · have e4 : (V *ᵥ z) ⬝ᵥ (V *ᵥ y) = z ⬝ᵥ y := by
      rw [Matrix.dotProduct_mulVec, ← Matrix.mulVec_transpose, Matrix.mulVec_mulVec, h3, Matrix.one_mulVec]
    show (V *ᵥ z) ⬝ᵥ (V *ᵥ y) = n ^ 2
    rw [e4]
    have e5 : ∀ l, z l * y l = n ^ 2 * u l ^ 2 := by
      intro l
      have hs := Real.sq_sqrt (hpos l).le
      have := (hpos l).ne'
      have e : z l * y l = y l ^ 2 / (d l + 1 / 10 ^ 16) := by rw [hz]; ring
      have e' : y l ^ 2 = n ^ 2 * u l ^ 2 * (d l + 1 / 10 ^ 16) := by rw [hy]; simp only [mul_pow, hs]; ring
      rw [e, e', mul_div_assoc, div_self this, mul_one]
    simp only [dotProduct, e5]
    rw [← Finset.mul_sum, hu, mul_one]

private theorem eigh_nonneg {eigh : Eigh 3} (he : IsEigh eigh) {C : Matrix (Fin 3) (Fin 3) ℝ} (hC : Cᵀ = C) (hp : ∀ w, 0 ≤ along C w) (l : Fin 3) :
    0 ≤ (eigh C).1 l := by
  obtain ⟨h1, h2⟩ := he C hC
  generalize (eigh C).2 = V at *
  generalize (eigh C).1 = d at *
  have h3 : Vᵀ * V = 1 := mul_eq_one_comm.mp h1
  have := hp (fun i => V i l)
  rw [along_eq] at this
  have e : C *ᵥ (fun i => V i l) = d l • fun i => V i l := by
    have hcol : (fun i => V i l) = V *ᵥ Pi.single l 1 := by rw [Matrix.mulVec_single_one]; rfl
    rw [hcol]
    conv_lhs => rw [h2]
    rw [← Matrix.mulVec_mulVec, ← Matrix.mulVec_mulVec, Matrix.mulVec_mulVec _ (V)ᵀ, h3, Matrix.one_mulVec, ← Matrix.mulVec_smul]
    congr 1
    funext k
    rw [mulVec_diagonal]
    by_cases hk : k = l
    · subst hk; simp
    · simp [Pi.single_eq_of_ne hk]
  rw [e] at this
  have e2 : (fun i => V i l) ⬝ᵥ (fun i => V i l) = 1 := by
    have := congrFun (congrFun h3 l) l
    rw [Matrix.mul_apply, Matrix.one_apply_eq] at this
    exact this
  rw [dotProduct_smul, e2, smul_eq_mul, mul_one] at this
  exact this

/-- **C177** Every point of the mesh lies on the ellipsoid of `n_std` standard deviations, and the principal axes end on the ellipsoid of one
standard deviation, at both ends. -/
theorem C177_mesh {argsort : (Fin 3 → ℝ) → Equiv.Perm (Fin 3)} {eigh : Eigh 3} (he : IsEigh eigh)
    {C : Matrix (Fin 3) (Fin 3) ℝ} (hC : Cᵀ = C) (hp : ∀ w, 0 ≤ along C w) :
    (∀ nStd n a b, OnEllipsoid C nStd (mesh eigh C nStd n a b)) ∧
      ∀ k, OnEllipsoid C 1 (halfAxis argsort eigh C k) ∧ OnEllipsoid C 1 (fun i => -halfAxis argsort eigh C k i) := by
  have hs := sym_eq hC
  refine ⟨fun nStd n a b => ?_, fun k => ?_⟩
  · obtain ⟨h1, h2⟩ := he C hC
    have hd := eigh_nonneg he hC hp
    have := on_of_coords h1 h2 hd nStd ![Real.cos (angle (2 * Real.pi) n a) * Real.sin (angle Real.pi n b),
      Real.sin (angle (2 * Real.pi) n a) * Real.sin (angle Real.pi n b), Real.cos (angle Real.pi n b)] (by
        have e1 := Real.sin_sq_add_cos_sq (angle (2 * Real.pi) n a)
        have e2 := Real.sin_sq_add_cos_sq (angle Real.pi n b)
        simp only [Fin.sum_univ_three, cons_val_zero, cons_val_one, cons_val]
        linear_combination Real.sin (angle Real.pi n b) ^ 2 * e1 + e2)
    unfold mesh
    rw [hs]
    convert this using 2
    funext l
    fin_cases l <;> simp [radius, max_eq_left (hd _)]
  · have he' := descending_isEigh he argsort
    obtain ⟨h1, h2⟩ := he' C hC
    have hd := eigh_nonneg he' hC hp
    have key : ∀ s : ℝ, s ^ 2 = 1 → OnEllipsoid C 1 (fun i => s * halfAxis argsort eigh C k i) := by
      intro s hs1
      have := on_of_coords h1 h2 hd 1 (fun l => if l = k then s else 0) (by simp [hs1])
      have e : (fun i => s * halfAxis argsort eigh C k i) = (descending argsort eigh C).2 *ᵥ
          fun l => 1 * Real.sqrt ((descending argsort eigh C).1 l + 1 / 10 ^ 16) * if l = k then s else 0 := by
        funext i
        unfold halfAxis
        rw [hs, max_eq_left (hd k)]
        simp only [mulVec, dotProduct, mul_ite, mul_zero, Finset.sum_ite_eq', Finset.mem_univ, if_true]
        ring
      rw [e]
      exact this
    refine ⟨?_, ?_⟩
    · simpa using key 1 (by norm_num)
    · simpa using key (-1) (by norm_num)

/-- **C177** (symmetric part) A covariance that is not symmetric is drawn as its symmetric part. -/
theorem C177_symmetric_part (argsort : (Fin 3 → ℝ) → Equiv.Perm (Fin 3)) (eigh : Eigh 3) (C : Matrix (Fin 3) (Fin 3) ℝ) (nStd : ℝ) (n a b : ℕ) (k : Fin 3) :
    mesh eigh C nStd n a b = mesh eigh ((1 / 2 : ℝ) • (C + Cᵀ)) nStd n a b ∧
      halfAxis argsort eigh C k = halfAxis argsort eigh ((1 / 2 : ℝ) • (C + Cᵀ)) k := by
  have e1 : (1 / 2 : ℝ) • (C + Cᵀ) = sym C := by
    ext i j
    simp [sym]
    ring
  have e2 : sym ((1 / 2 : ℝ) • (C + Cᵀ)) = sym C := by
    rw [e1]
    exact sym_eq (sym_sym C)
  unfold mesh halfAxis
  rw [e2]
  exact ⟨rfl, rfl⟩

/-- **C177** (closed) The mesh closes up: its first and last meridian coincide, the first and last parallel are one point each, and these two poles are
opposite. -/
theorem C177_closed (eigh : Eigh 3) (C : Matrix (Fin 3) (Fin 3) ℝ) (nStd : ℝ) {n : ℕ} (hn : 2 ≤ n) :
    (∀ b, mesh eigh C nStd n (n - 1) b = mesh eigh C nStd n 0 b) ∧ (∀ a a', mesh eigh C nStd n a 0 = mesh eigh C nStd n a' 0) ∧
      ∀ a a', mesh eigh C nStd n a (n - 1) = -mesh eigh C nStd n a' 0 := by
  have h0 : ∀ s, angle s n 0 = 0 := fun s => by simp [angle]
  have h1 : ∀ s, angle s n (n - 1) = s := fun s => by
    have : ((n - 1 : ℕ) : ℝ) = (n : ℝ) - 1 := by rw [Nat.cast_sub (by omega)]; simp
    have h2 : (2 : ℝ) ≤ n := by exact_mod_cast hn
    unfold angle
    rw [this, mul_div_assoc, div_self (by linarith), mul_one]
  refine ⟨fun b => ?_, fun a a' => ?_, fun a a' => ?_⟩
  · simp only [mesh, h0, h1, Real.cos_two_pi, Real.sin_two_pi, Real.cos_zero, Real.sin_zero]
  · simp only [mesh, h0, Real.sin_zero, mul_zero]
  · simp only [mesh, h0, h1, Real.sin_zero, Real.cos_zero, Real.sin_pi, Real.cos_pi, mul_zero]
    rw [← mulVec_neg]
    congr 1
    funext i
    fin_cases i <;> simp

/-- **C177** (extent) In every direction the ellipsoid stays within `n` standard deviations of the mean (up to the `1e-16` added to the variances). -/
theorem C177_extent {C : Matrix (Fin 3) (Fin 3) ℝ} (hC : Cᵀ = C) (hp : ∀ w, 0 ≤ along C w) {n : ℝ} {p : Fin 3 → ℝ} (h : OnEllipsoid C n p)
    (w : Fin 3 → ℝ) : (∑ i, w i * p i) ^ 2 ≤ n ^ 2 * (along C w + (∑ i, w i ^ 2) / 10 ^ 16) := by
  obtain ⟨q, hq, hn⟩ := h
  -- Cauchy–Schwarz for the form of `C + 1e-16 I`
  set F : (Fin 3 → ℝ) → (Fin 3 → ℝ) → ℝ := fun a b => ∑ i, a i * (∑ j, C i j * b j + b i / 10 ^ 16) with hF
  have hFw : F w w = along C w + (∑ i, w i ^ 2) / 10 ^ 16 := by
    simp only [hF, along, Finset.sum_div, ← Finset.sum_add_distrib, Finset.mul_sum, mul_add]
    exact Finset.sum_congr rfl fun i _ => by
      congr 1
      · exact Finset.sum_congr rfl fun j _ => by ring
      · ring
  have hFwq : F w q = ∑ i, w i * p i := by simp only [hF, hq]
  have hFqq : F q q = n ^ 2 := by rw [← hn]; simp only [hF, hq]
  have hCij : ∀ i j, C j i = C i j := fun i j => congrFun (congrFun hC i) j
  have hFs : F q w = F w q := by
    simp only [hF, Fin.sum_univ_three, hCij 0 1, hCij 0 2, hCij 1 2]
    ring
  have hnn : ∀ a, 0 ≤ F a a := by
    intro a
    have h1 := hp a
    have : F a a = along C a + (∑ i, a i ^ 2) / 10 ^ 16 := by
      simp only [hF, along, Finset.sum_div, ← Finset.sum_add_distrib, Finset.mul_sum, mul_add]
      exact Finset.sum_congr rfl fun i _ => by
        congr 1
        · exact Finset.sum_congr rfl fun j _ => by ring
        · ring
    rw [this]
    have : 0 ≤ ∑ i, a i ^ 2 := Finset.sum_nonneg fun i _ => sq_nonneg _
    positivity
  have hquad : ∀ x : ℝ, 0 ≤ F w w + 2 * x * F w q + x ^ 2 * F q q := by
    intro x
    have := hnn (fun i => w i + x * q i)
    have e : F (fun i => w i + x * q i) (fun i => w i + x * q i) = F w w + x * F w q + x * F q w + x ^ 2 * F q q := by
      simp only [hF, Fin.sum_univ_three]
      ring
    rw [e, hFs] at this
    linarith
  rw [← hFw, ← hFwq, ← hFqq]
  by_cases h0 : F q q = 0
  · have hz : F w q = 0 := by
      by_contra hne
      have := hquad (-(F w w + 1) / (2 * F w q))
      rw [h0] at this
      have e : 2 * (-(F w w + 1) / (2 * F w q)) * F w q = -(F w w + 1) := by field_simp
      linarith
    rw [hz, h0]; simp
  · have hpos : 0 < F q q := lt_of_le_of_ne (hnn q) (Ne.symm h0)
    have := hquad (-(F w q) / F q q)
    have e : F w w + 2 * (-(F w q) / F q q) * F w q + (-(F w q) / F q q) ^ 2 * F q q = F w w - F w q ^ 2 / F q q := by
      field_simp; ring
    rw [e, sub_nonneg, div_le_iff₀ hpos] at this
    linarith

/-- Non-vacuity: a covariance of three assets. -/
example : ((1 : Matrix (Fin 3) (Fin 3) ℝ)ᵀ = 1) ∧ (∀ w, 0 ≤ along (1 : Matrix (Fin 3) (Fin 3) ℝ) w) ∧
    0 < ∑ i, (1 : Matrix (Fin 3) (Fin 3) ℝ) i i := by
  refine ⟨transpose_one, fun w => ?_, by simp⟩
  rw [along_eq, one_mulVec]
  exact Finset.sum_nonneg fun i _ => mul_self_nonneg _

/-! ## Thinning of scenarios -/

/-- **C178** At most `max_points` scenarios are drawn: all when there are no more than that, otherwise `max_points` of them in their order, without
repetition, from the first to the last, at gaps that differ by at most one. -/
theorem C178_thinned (T maxPoints : ℕ) :
    (T ≤ maxPoints → thinned T maxPoints = List.range T) ∧
    (maxPoints < T → (thinned T maxPoints).length = maxPoints ∧ (∀ i ∈ thinned T maxPoints, i < T) ∧ (thinned T maxPoints).Pairwise (· < ·) ∧
      (2 ≤ maxPoints → (thinned T maxPoints).head? = some 0 ∧ (thinned T maxPoints).getLast? = some (T - 1) ∧
        ∀ k i j, (thinned T maxPoints)[k]? = some i → (thinned T maxPoints)[k + 1]? = some j →
          (T - 1) / (maxPoints - 1) ≤ j - i ∧ j - i ≤ (T - 1) / (maxPoints - 1) + 1)) := by
  have hget : ∀ k i, maxPoints < T → ((thinned T maxPoints)[k]? = some i ↔ k < maxPoints ∧ k * (T - 1) / (maxPoints - 1) = i) := by
    intro k i h
    unfold thinned
    rw [if_pos h, List.getElem?_map]
    by_cases hk : k < maxPoints
    · simp [hk]
    · simp [hk]
  have hstep : ∀ k, maxPoints < T → 2 ≤ maxPoints → k * (T - 1) / (maxPoints - 1) + (T - 1) / (maxPoints - 1) ≤ (k + 1) * (T - 1) / (maxPoints - 1) ∧
      (k + 1) * (T - 1) / (maxPoints - 1) ≤ k * (T - 1) / (maxPoints - 1) + (T - 1) / (maxPoints - 1) + 1 := by
    intro k h h2
    have hm : 0 < maxPoints - 1 := by omega
    have e : (k + 1) * (T - 1) = k * (T - 1) + (T - 1) := by ring
    rw [e, Nat.add_div hm]
    split <;> omega
  have hone : maxPoints < T → 2 ≤ maxPoints → 1 ≤ (T - 1) / (maxPoints - 1) := fun h h2 =>
    (Nat.one_le_div_iff (by omega)).mpr (by omega)
  refine ⟨fun h => by unfold thinned; rw [if_neg (by omega)], fun h => ?_⟩
  have hlen : (thinned T maxPoints).length = maxPoints := by unfold thinned; rw [if_pos h]; simp
  refine ⟨hlen, fun i hi => ?_, ?_, fun h2 => ⟨?_, ?_, fun k i j hi hj => ?_⟩⟩
  · obtain ⟨k, hk⟩ := List.mem_iff_getElem?.mp hi
    obtain ⟨hk1, rfl⟩ := (hget k i h).mp hk
    have : k * (T - 1) / (maxPoints - 1) ≤ T - 1 := by
      apply Nat.div_le_of_le_mul
      exact Nat.mul_le_mul_right _ (by omega)
    omega
  · rw [List.pairwise_iff_getElem]
    intro a b ha hb hab
    have ea := (hget a _ h).mp (List.getElem?_eq_getElem ha)
    have eb := (hget b _ h).mp (List.getElem?_eq_getElem hb)
    rw [← ea.2, ← eb.2]
    have h2 : 2 ≤ maxPoints := by omega
    have hmono : ∀ n, a * (T - 1) / (maxPoints - 1) < (a + n + 1) * (T - 1) / (maxPoints - 1) := by
      intro n
      induction n with
      | zero => have := hstep a h h2; have := hone h h2; simp only [Nat.add_zero]; omega
      | succ n ih => have := hstep (a + n + 1) h h2; have := hone h h2; rw [show a + (n + 1) + 1 = a + n + 1 + 1 by ring]; omega
    have := hmono (b - a - 1)
    rwa [show a + (b - a - 1) + 1 = b by omega] at this
  · rw [List.head?_eq_getElem?]
    exact (hget 0 0 h).mpr ⟨by omega, by simp⟩
  · rw [List.getLast?_eq_getElem?, hlen]
    exact (hget _ _ h).mpr ⟨by omega, Nat.mul_div_cancel_left _ (by omega)⟩
  · obtain ⟨-, rfl⟩ := (hget k i h).mp hi
    obtain ⟨-, rfl⟩ := (hget (k + 1) j h).mp hj
    have := hstep k h h2
    omega

/-- Three of five scenarios: the first, the middle one and the last. -/
example : thinned 5 3 = [0, 2, 4] := by decide


end PyV.Props
