import Verif.Model.Poet
import Verif.Props.MomentsRobust
import Verif.Lemmas.Glasso
import Mathlib.Data.Fin.Rev
import Mathlib.Data.Fin.Tuple.Sort

/-! # C142: the factor decomposition returned by `factor_covariance_poet` -/

namespace PyV.Props

open PyV PyV.Valid PyV.Psd PyV.Mom Matrix

variable {T N : ℕ}

/-- The unit in which POET measures an asset: its sample standard deviation when standardising (unless that is below `1e-12`), else
one. -/
noncomputable def poetUnit (standardize : Bool) (R : Fin T → Fin N → ℝ) (i : Fin N) : ℝ := by
  classical
  exact if standardize = true ∧ 1 / 10 ^ 12 < Real.sqrt (npCov1 R i i) then Real.sqrt (npCov1 R i i) else 1

/-- Sample variance of a vector of scores. -/
noncomputable def scoreVar (f : Fin T → ℝ) : ℝ := (∑ t, f t ^ 2) / ((T : ℝ) - 1)

/-- The routine sorts in increasing order. -/
def Sorts (argsort : (Fin N → ℝ) → Equiv.Perm (Fin N)) : Prop := ∀ x, Monotone (x ∘ argsort x)

theorem descending_antitone {argsort : (Fin N → ℝ) → Equiv.Perm (Fin N)} (hs : Sorts argsort) (eigh : Eigh N)
    (A : Matrix (Fin N) (Fin N) ℝ) : Antitone (descending argsort eigh A).1 := by
  intro a b hab
  exact hs (eigh A).1 (Fin.rev_le_rev.mpr hab)

theorem descending_isEigh {eigh : Eigh N} (he : IsEigh eigh) (argsort : (Fin N → ℝ) → Equiv.Perm (Fin N)) :
    IsEigh (descending argsort eigh) := by
  intro A hA
  obtain ⟨h1, h2⟩ := he A hA
  set V := (eigh A).2 with hV
  set d := (eigh A).1 with hd
  set σ : Equiv.Perm (Fin N) := Fin.revPerm.trans (argsort d) with hσ
  have e2 : (descending argsort eigh A).2 = V.submatrix id σ := by
    ext i l; simp [descending, hσ, hV, hd]
  have e1 : (descending argsort eigh A).1 = d ∘ σ := by
    funext l; simp [descending, hσ, hd]
  have hsum : ∀ (g : Fin N → ℝ), ∑ l, g (σ l) = ∑ l, g l := fun g => Equiv.sum_comp σ g
  constructor
  · rw [e2, ← h1]
    ext i j
    simp only [mul_apply, submatrix_apply, transpose_apply, id]
    exact hsum (fun l => V i l * V j l)
  · rw [e2, e1]
    conv_lhs => rw [h2]
    ext i j
    rw [mul_apply, mul_apply]
    simp only [mul_diagonal, submatrix_apply, transpose_apply, id, Function.comp]
    exact (hsum (fun l => V i l * d l * V j l)).symm

theorem poetScale_unit (standardize : Bool) (R : Fin T → Fin N → ℝ) (hT : T ≠ 0) (i : Fin N) :
    poetScale standardize (centred R) i = poetUnit standardize R i := by
  unfold poetScale poetUnit
  have : (∑ t, centred (centred R) t i ^ 2) / ((T : ℝ) - 1) = npCov1 R i i := by
    rw [centred_centred R hT]
    simp only [npCov1, of_apply, sq]
  simp only [this]
  by_cases h : standardize = true
  · simp only [h, if_true, true_and]
    by_cases h2 : Real.sqrt (npCov1 R i i) ≤ 1 / 10 ^ 12
    · rw [if_pos h2, if_neg (not_lt.mpr h2)]
    · rw [if_neg h2, if_pos (not_le.mp h2)]
  · simp [h]

theorem poetSelect_range {vals : Fin N → ℝ} {k : PoetK} {ks : ℕ} (h : poetSelect vals k = .ok ks) (hN : 1 ≤ N) :
    1 ≤ ks ∧ ks ≤ N ∧ ∀ n, k = .num n → (ks : ℤ) = min n N := by
  cases k with
  | auto =>
    simp only [poetSelect] at h
    split at h
    · injection h with h; subst h
      refine ⟨le_max_left _ _, by omega, fun n hn => by cases hn⟩
    · split at h
      · injection h with h; subst h
        rename_i l _
        have := l.2
        refine ⟨le_max_left _ _, by omega, fun n hn => by cases hn⟩
      · cases h
  | num n =>
    simp only [poetSelect] at h
    split at h
    · cases h
    rename_i hn
    injection h with h; subst h
    refine ⟨le_max_left _ _, by omega, fun m hm => ?_⟩
    injection hm with hm
    subst hm
    omega

/-- The unguarded estimate, entry by entry. -/
theorem poetRaw_entries {eigh : Eigh N} {R : Fin T → Fin N → ℝ} {k : PoetK} {thresh : PoetThresh} {standardize : Bool}
    {C : Matrix (Fin N) (Fin N) ℝ} (h : poetRaw eigh R k thresh standardize = .ok C) :
    2 ≤ T ∧ 2 ≤ N ∧ ∃ ks tau, poetSelect (eigh (npCov1 (poetScaled standardize R))).1 k = .ok ks ∧
      (∀ t, thresh = .num t → tau = t) ∧ 0 ≤ tau ∧
      ∀ i j, C i j = poetScale standardize (centred R) i * poetScale standardize (centred R) j *
        (poetFactor ks (eigh (npCov1 (poetScaled standardize R))).1 (eigh (npCov1 (poetScaled standardize R))).2 i j +
          softOff tau (npCov1 (poetScaled standardize R) -
            poetFactor ks (eigh (npCov1 (poetScaled standardize R))).1 (eigh (npCov1 (poetScaled standardize R))).2) i j) := by
  unfold poetRaw at h
  split at h
  · cases h
  rename_i hTN
  refine ⟨by omega, by omega, ?_⟩
  simp only at h
  set scale := poetScale standardize (centred R) with hsc
  change (match poetSelect (eigh (npCov1 (poetScaled standardize R))).1 k with
    | .error e => .error e
    | .ok ks =>
      match poetTau T ((1 / 2 : ℝ) • ((npCov1 (poetScaled standardize R) -
          poetFactor ks (eigh (npCov1 (poetScaled standardize R))).1 (eigh (npCov1 (poetScaled standardize R))).2) +
          (npCov1 (poetScaled standardize R) -
          poetFactor ks (eigh (npCov1 (poetScaled standardize R))).1 (eigh (npCov1 (poetScaled standardize R))).2)ᵀ)) thresh with
      | .error e => .error e
      | .ok tau => .ok (poetCombine scale tau
          (poetFactor ks (eigh (npCov1 (poetScaled standardize R))).1 (eigh (npCov1 (poetScaled standardize R))).2)
          ((1 / 2 : ℝ) • ((npCov1 (poetScaled standardize R) -
          poetFactor ks (eigh (npCov1 (poetScaled standardize R))).1 (eigh (npCov1 (poetScaled standardize R))).2) +
          (npCov1 (poetScaled standardize R) -
          poetFactor ks (eigh (npCov1 (poetScaled standardize R))).1 (eigh (npCov1 (poetScaled standardize R))).2)ᵀ)))) = Except.ok C at h
  set S := npCov1 (poetScaled standardize R) with hS
  have hSs : Sᵀ = S := npCov1_symm _
  split at h
  · cases h
  rename_i ks hks
  set Sf := poetFactor ks (eigh S).1 (eigh S).2 with hSf
  have hSfs : Sfᵀ = Sf := poetFactor_symm _ _ _
  have hres : (S - Sf)ᵀ = S - Sf := by rw [transpose_sub, hSs, hSfs]
  rw [half_of_symm hres] at h
  split at h
  · cases h
  rename_i tau htau
  injection h with h
  refine ⟨ks, tau, hks, ?_, poetTau_nonneg htau, ?_⟩
  · intro t ht
    subst ht
    simp only [poetTau] at htau
    split at htau
    · cases htau
    · injection htau with htau; exact htau.symm
  · intro i j; rw [← h]; exact poetCombine_apply hSfs hres i j

/-- **C142** The decomposition `(covariance, loadings, scores)` of POET, for any exact eigen-decomposition and sorting routines.
With `k` factors (`k` as requested but at most `N`; at least one): the scores have mean zero, are uncorrelated and their variances
do not increase; the loadings are the covariances of the returns with the scores, per standard deviation of the score; the
variance explained by the loadings never exceeds the sample's in any direction, and what they leave unexplained, measured in the
units of POET, is in no direction more than the variance of any retained factor; the covariance that is returned is, up to one
common non-negative amount on the diagonal, `loadings loadings' +` the unexplained part with its off-diagonal entries
soft-thresholded by a common threshold (the given one, if a number) in those units. -/
theorem C142_poet_decomposition {eigh : Eigh N} (he : IsEigh eigh) {argsort : (Fin N → ℝ) → Equiv.Perm (Fin N)} (hs : Sorts argsort)
    {R : Fin T → Fin N → ℝ} {k : PoetK} {thresh : PoetThresh} {standardize : Bool} {out : PoetOut T N}
    (h : poetDecomp eigh argsort R k thresh standardize = .ok out) :
    1 ≤ out.k ∧ out.k ≤ N ∧ (∀ n, k = .num n → (out.k : ℤ) = min n N) ∧
    (∀ l, ∑ t, out.scores t l = 0) ∧
    (∀ l m, l ≠ m → ∑ t, out.scores t l * out.scores t m = 0) ∧
    (∀ l m, l ≤ m → scoreVar (fun t => out.scores t m) ≤ scoreVar (fun t => out.scores t l)) ∧
    (∀ i l, (∑ t, centred R t i * out.scores t l) / ((T : ℝ) - 1) =
      out.loadings i l * Real.sqrt (scoreVar (fun t => out.scores t l))) ∧
    (∀ x : Fin N → ℝ, 0 ≤ x ⬝ᵥ ((npCov1 R - out.loadings * out.loadingsᵀ) *ᵥ x) ∧
      ∀ l, x ⬝ᵥ ((npCov1 R - out.loadings * out.loadingsᵀ) *ᵥ x) ≤
        scoreVar (fun t => out.scores t l) * ∑ i, (poetUnit standardize R i * x i) ^ 2) ∧
    ∃ tau c : ℝ, 0 ≤ tau ∧ (∀ t, thresh = .num t → tau = t) ∧ 0 ≤ c ∧
      (∀ i, out.cov i i = npCov1 R i i + c) ∧
      ∀ i j, i ≠ j → out.cov i j = (out.loadings * out.loadingsᵀ) i j +
        Real.sign ((npCov1 R - out.loadings * out.loadingsᵀ) i j) *
          max (|(npCov1 R - out.loadings * out.loadingsᵀ) i j| - tau * (poetUnit standardize R i * poetUnit standardize R j)) 0 := by
  unfold poetDecomp at h
  simp only at h
  set X := poetScaled standardize R with hX
  set S := npCov1 X with hS
  set eg := descending argsort eigh with heg
  set V := (eg S).2 with hV
  set d := (eg S).1 with hd
  set scale := poetScale standardize (centred R) with hsc
  have hSs : Sᵀ = S := npCov1_symm _
  obtain ⟨hVV, hSV⟩ := descending_isEigh he argsort S hSs
  rw [← heg, ← hV] at hVV
  rw [← heg, ← hV, ← hd] at hSV
  have hanti : Antitone d := descending_antitone hs eigh S
  have hVV' : Vᵀ * V = 1 := mul_eq_one_comm.mp hVV
  split at h
  · cases h
  rename_i ks hks
  split at h
  · cases h
  rename_i cov hcov
  injection h with h
  subst h
  unfold poet at hcov
  split at hcov
  · cases hcov
  rename_i C0 hC0
  obtain ⟨hT, hN, ks', tau, hks', htau, htau0, hent⟩ := poetRaw_entries hC0
  rw [← hX, ← hS, ← hd, hks] at hks'
  injection hks' with hks'
  subst hks'
  rw [← hX, ← hS, ← hd, ← hV, ← hsc] at hent
  obtain ⟨k1, k2, k3⟩ := poetSelect_range hks (by omega)
  have hT0 : T ≠ 0 := by omega
  have hT1 : (0 : ℝ) < (T : ℝ) - 1 := by
    have : (2 : ℝ) ≤ T := by exact_mod_cast hT
    linarith
  have hpos : ∀ i, 0 < scale i := fun i => poetScale_pos _ _ i
  have hunit : ∀ i, poetUnit standardize R i = scale i := fun i => (poetScale_unit standardize R hT0 i).symm
  -- columns of the scaled sample are centred
  have hXc : ∀ i, ∑ t, X t i = 0 := by
    intro i
    have h0 := colMean_centred R hT0 i
    have hT' : (T:ℝ) ≠ 0 := by exact_mod_cast hT0
    have h1 : ∑ t, centred R t i = 0 := by
      have : (∑ t, centred R t i) / T = 0 := h0
      rcases div_eq_zero_iff.mp this with h | h
      · exact h
      · exact absurd h hT'
    simp only [hX, poetScaled, ← Finset.sum_div, h1, zero_div]
  have hcX : centred X = X := by
    funext t i
    simp [centred, colMean, hXc i]
  have hSe : ∀ i j, S i j = (∑ t, X t i * X t j) / ((T : ℝ) - 1) := by
    intro i j; rw [hS]; simp only [npCov1, hcX, of_apply]
  have hRX : ∀ t i, centred R t i = scale i * X t i := by
    intro t i
    have := (hpos i).ne'
    simp only [hX, poetScaled, ← hsc]; field_simp
  have hRS : ∀ i j, npCov1 R i j = scale i * scale j * S i j := by
    intro i j
    rw [hSe]
    simp only [npCov1, of_apply, hRX]
    rw [← mul_div_assoc, Finset.mul_sum]
    congr 1
    exact Finset.sum_congr rfl fun t _ => by ring
  -- eigenvector equations
  have hVSV : Vᵀ * S * V = diagonal d := by
    rw [hSV]
    calc Vᵀ * (V * diagonal d * Vᵀ) * V = (Vᵀ * V) * diagonal d * (Vᵀ * V) := by simp only [Matrix.mul_assoc]
      _ = diagonal d := by rw [hVV', Matrix.one_mul, Matrix.mul_one]
  have hSVd : S * V = V * diagonal d := by
    conv_lhs => rw [hSV]
    rw [Matrix.mul_assoc, hVV', Matrix.mul_one]
  have hat : ∀ (l : Fin ks) (i : Fin N), atCol 0 (V i) l = V i (Fin.castLE k2 l) := by
    intro l i; unfold atCol; rw [dif_pos (lt_of_lt_of_le l.2 k2)]; rfl
  have hatd : ∀ (l : Fin ks), atCol 0 d l = d (Fin.castLE k2 l) := by
    intro l; unfold atCol; rw [dif_pos (lt_of_lt_of_le l.2 k2)]; rfl
  have hF : ∀ t (l : Fin ks), poetScores ks X V t l = ∑ i, X t i * V i (Fin.castLE k2 l) := by
    intro t l; simp only [poetScores, of_apply, hat]
  set W : Matrix (Fin N) (Fin ks) ℝ := V.submatrix id (Fin.castLE k2) with hW
  set Xm : Matrix (Fin T) (Fin N) ℝ := Matrix.of X with hXm
  have hFm : poetScores ks X V = Xm * W := by
    ext t l; rw [hF]; rfl
  have hXX : Xmᵀ * Xm = ((T : ℝ) - 1) • S := by
    ext i j
    rw [Matrix.smul_apply, hSe, smul_eq_mul, mul_div_cancel₀ _ hT1.ne']
    rfl
  have hFF : (Xm * W)ᵀ * (Xm * W) = ((T : ℝ) - 1) • (Wᵀ * S * W) := by
    rw [transpose_mul, Matrix.mul_assoc, ← Matrix.mul_assoc Xmᵀ, hXX, Matrix.smul_mul, Matrix.mul_smul, Matrix.mul_assoc]
  have hWSW : ∀ l m : Fin ks, (Wᵀ * S * W) l m = if l = m then d (Fin.castLE k2 l) else 0 := by
    intro l m
    have : (Wᵀ * S * W) l m = (Vᵀ * S * V) (Fin.castLE k2 l) (Fin.castLE k2 m) := rfl
    rw [this, hVSV, diagonal_apply]
    simp only [Fin.castLE_inj]
  have hprod : ∀ l m : Fin ks, ∑ t, poetScores ks X V t l * poetScores ks X V t m =
      ((T : ℝ) - 1) * if l = m then d (Fin.castLE k2 l) else 0 := by
    intro l m
    rw [hFm, ← hWSW, ← smul_eq_mul, ← Matrix.smul_apply, ← hFF]
    rfl
  have hvar : ∀ l : Fin ks, scoreVar (fun t => poetScores ks X V t l) = d (Fin.castLE k2 l) := by
    intro l
    have := hprod l l
    simp only [if_true, ← sq] at this
    unfold scoreVar
    rw [this, mul_div_cancel_left₀ _ hT1.ne']
  have hd0 : ∀ l, 0 ≤ d l := by
    intro l
    have h1 : (Vᵀ * S * V).PosSemidef := by
      have := (npCov1_psd X (by omega)).conjTranspose_mul_mul_same V
      rwa [conjTranspose_eq_transpose_of_trivial, ← hS] at this
    have h2 := h1.diag_nonneg (i := l)
    rwa [hVSV, diagonal_apply_eq] at h2
  have hL : ∀ i (l : Fin ks), poetLoadings ks scale d V i l = scale i * (V i (Fin.castLE k2 l) * Real.sqrt (d (Fin.castLE k2 l))) := by
    intro i l
    simp only [poetLoadings, of_apply, hat, hatd, max_eq_left (hd0 _)]
  have hsplit : ∀ g : Fin N → ℝ, (∑ l : Fin N, if (l : ℕ) < ks then g l else 0) = ∑ l : Fin ks, g (Fin.castLE k2 l) := by
    intro g
    rw [← Finset.sum_filter]
    symm
    refine Finset.sum_bij (fun l _ => Fin.castLE k2 l) ?_ ?_ ?_ ?_
    · intro l _; simp
    · intro a _ b _ hab; exact (Fin.castLE_inj).mp hab
    · intro b hb
      have := (Finset.mem_filter.mp hb).2
      exact ⟨⟨b, this⟩, Finset.mem_univ _, by ext; rfl⟩
    · intro l _; rfl
  set Sf := poetFactor ks d V with hSf
  have hSfe : ∀ i j, Sf i j = ∑ l : Fin N, if (l : ℕ) < ks then d l * V i l * V j l else 0 := by
    intro i j
    simp only [hSf, poetFactor, of_apply, max_eq_left (hd0 _)]
    refine Finset.sum_congr rfl fun l _ => ?_
    split
    · have := Real.mul_self_sqrt (hd0 l)
      calc V i l * Real.sqrt (d l) * (V j l * Real.sqrt (d l)) = V i l * V j l * (Real.sqrt (d l) * Real.sqrt (d l)) := by ring
        _ = _ := by rw [this]; ring
    · rfl
  have hSee : ∀ i j, S i j = ∑ l : Fin N, d l * V i l * V j l := by
    intro i j
    conv_lhs => rw [hSV]
    rw [mul_apply]
    simp only [mul_diagonal, transpose_apply]
    exact Finset.sum_congr rfl fun l _ => by ring
  have hLL : ∀ i j, (poetLoadings ks scale d V * (poetLoadings ks scale d V)ᵀ) i j = scale i * scale j * Sf i j := by
    intro i j
    rw [hSfe, hsplit, mul_apply, Finset.mul_sum]
    refine Finset.sum_congr rfl fun l _ => ?_
    rw [transpose_apply, hL, hL]
    have := Real.mul_self_sqrt (hd0 (Fin.castLE k2 l))
    calc _ = scale i * scale j * (V i (Fin.castLE k2 l) * V j (Fin.castLE k2 l) *
          (Real.sqrt (d (Fin.castLE k2 l)) * Real.sqrt (d (Fin.castLE k2 l)))) := by ring
      _ = _ := by rw [this]; ring
  have hgap : ∀ i j, (npCov1 R - poetLoadings ks scale d V * (poetLoadings ks scale d V)ᵀ) i j =
      scale i * scale j * (S i j - Sf i j) := by
    intro i j
    rw [Matrix.sub_apply, hLL, hRS]; ring
  have hquad : ∀ x : Fin N → ℝ, x ⬝ᵥ ((npCov1 R - poetLoadings ks scale d V * (poetLoadings ks scale d V)ᵀ) *ᵥ x) =
      ∑ l : Fin N, if (l : ℕ) < ks then 0 else d l * (∑ i, V i l * (scale i * x i)) ^ 2 := by
    intro x
    have e1 : ∀ i j, S i j - Sf i j = ∑ l : Fin N, if (l : ℕ) < ks then 0 else d l * V i l * V j l := by
      intro i j
      rw [hSee, hSfe, ← Finset.sum_sub_distrib]
      refine Finset.sum_congr rfl fun l _ => ?_
      split <;> simp
    simp only [dotProduct, mulVec, hgap, e1]
    simp only [Finset.mul_sum, Finset.sum_mul]
    have : ∀ l : Fin N, (if (l : ℕ) < ks then (0 : ℝ) else d l * (∑ i, V i l * (scale i * x i)) ^ 2) =
        ∑ i, ∑ j, x i * (scale i * scale j * (if (l : ℕ) < ks then 0 else d l * V i l * V j l) * x j) := by
      intro l
      split
      · simp
      · rw [sq, Finset.sum_mul_sum, Finset.mul_sum]
        refine Finset.sum_congr rfl fun i _ => ?_
        rw [Finset.mul_sum]
        exact Finset.sum_congr rfl fun j _ => by ring
    simp only [this]
    symm
    rw [Finset.sum_comm]
    refine Finset.sum_congr rfl fun i _ => ?_
    rw [Finset.sum_comm]
  have hnorm : ∀ y : Fin N → ℝ, ∑ l, (∑ i, V i l * y i) ^ 2 = ∑ i, y i ^ 2 := by
    intro y
    have h1 : (Vᵀ *ᵥ y) ⬝ᵥ (Vᵀ *ᵥ y) = y ⬝ᵥ y := by
      rw [dotProduct_mulVec, vecMul_transpose, mulVec_mulVec, hVV, one_mulVec]
    simpa [dotProduct, mulVec, sq] using h1
  refine ⟨k1, k2, k3, ?_, ?_, ?_, ?_, ?_, ?_⟩
  · intro l
    simp only [hF]
    rw [Finset.sum_comm]
    refine Finset.sum_eq_zero fun i _ => ?_
    rw [← Finset.sum_mul, hXc, zero_mul]
  · intro l m hlm
    show ∑ t, poetScores ks X V t l * poetScores ks X V t m = 0
    rw [hprod, if_neg hlm, mul_zero]
  · intro l m hlm
    show scoreVar (fun t => poetScores ks X V t m) ≤ scoreVar (fun t => poetScores ks X V t l)
    rw [hvar, hvar]
    exact hanti hlm
  · intro i l
    show (∑ t, centred R t i * poetScores ks X V t l) / ((T : ℝ) - 1) =
      poetLoadings ks scale d V i l * Real.sqrt (scoreVar (fun t => poetScores ks X V t l))
    rw [hvar, hL]
    have h1 : ∑ t, centred R t i * poetScores ks X V t l = scale i * (Xmᵀ * (Xm * W)) i l := by
      rw [hFm, mul_apply, Finset.mul_sum]
      refine Finset.sum_congr rfl fun t _ => ?_
      rw [hRX, transpose_apply, mul_assoc]; rfl
    have h2 : (S * W) i l = V i (Fin.castLE k2 l) * d (Fin.castLE k2 l) := by
      have : (S * W) i l = (S * V) i (Fin.castLE k2 l) := rfl
      rw [this, hSVd, mul_diagonal]
    rw [h1, ← Matrix.mul_assoc, hXX, Matrix.smul_mul, Matrix.smul_apply, h2, smul_eq_mul]
    have h3 := Real.mul_self_sqrt (hd0 (Fin.castLE k2 l))
    have hne := hT1.ne'
    field_simp
    rw [Real.sq_sqrt (hd0 _)]
  · intro x
    show 0 ≤ x ⬝ᵥ ((npCov1 R - poetLoadings ks scale d V * (poetLoadings ks scale d V)ᵀ) *ᵥ x) ∧ ∀ l : Fin ks,
      x ⬝ᵥ ((npCov1 R - poetLoadings ks scale d V * (poetLoadings ks scale d V)ᵀ) *ᵥ x) ≤
        scoreVar (fun t => poetScores ks X V t l) * ∑ i, (poetUnit standardize R i * x i) ^ 2
    rw [hquad]
    constructor
    · refine Finset.sum_nonneg fun l _ => ?_
      split
      · exact le_refl _
      · exact mul_nonneg (hd0 l) (sq_nonneg _)
    · intro m
      simp only [hunit]
      rw [hvar, ← hnorm (fun i => scale i * x i), Finset.mul_sum]
      refine Finset.sum_le_sum fun l _ => ?_
      split
      · exact mul_nonneg (hd0 _) (sq_nonneg _)
      · rename_i hl
        refine mul_le_mul_of_nonneg_right (hanti ?_) (sq_nonneg _)
        rw [Fin.le_def]
        have := m.2
        simp only [Fin.val_castLE]
        omega
  · have hCs := (C42_variances_and_shrinkage hC0).1
    obtain ⟨c, hc, e, -⟩ := ensurePsd_spec C0 (jitter := defaultJitter) (by norm_num [defaultJitter])
    rw [hcov, half_of_symm hCs] at e
    injection e with e
    refine ⟨tau, c, htau0, htau, hc, ?_, ?_⟩
    · intro i
      show cov i i = _
      rw [e, Matrix.add_apply, (C42_variances_and_shrinkage hC0).2.1]
      simp
    · intro i j hij
      show cov i j = (poetLoadings ks scale d V * (poetLoadings ks scale d V)ᵀ) i j +
        Real.sign ((npCov1 R - poetLoadings ks scale d V * (poetLoadings ks scale d V)ᵀ) i j) *
          max (|(npCov1 R - poetLoadings ks scale d V * (poetLoadings ks scale d V)ᵀ) i j| -
            tau * (poetUnit standardize R i * poetUnit standardize R j)) 0
      have hp : 0 < scale i * scale j := mul_pos (hpos i) (hpos j)
      rw [hgap, hLL, hunit, hunit, e, Matrix.add_apply, hent]
      have hsign : Real.sign (scale i * scale j * (S i j - Sf i j)) = Real.sign (S i j - Sf i j) := by
        rcases lt_trichotomy (S i j - Sf i j) 0 with h | h | h
        · rw [Real.sign_of_neg h, Real.sign_of_neg (mul_neg_of_pos_of_neg hp h)]
        · rw [h, mul_zero]
        · rw [Real.sign_of_pos h, Real.sign_of_pos (mul_pos hp h)]
      rw [hsign, abs_mul, abs_of_pos hp]
      have hmax : max (scale i * scale j * |S i j - Sf i j| - tau * (scale i * scale j)) 0 =
          scale i * scale j * max (|S i j - Sf i j| - tau) 0 := by
        rw [mul_max_of_nonneg _ _ hp.le, mul_zero]
        congr 1
        ring
      rw [hmax]
      simp only [softOff, of_apply, if_neg hij, Matrix.sub_apply, Matrix.smul_apply, Matrix.one_apply_ne hij, smul_zero, add_zero]
      ring

/-- **C142** The decomposition is returned for every sample with at least two rows and two columns, every positive number of
factors and every non-negative threshold. -/
theorem C142_succeeds (eigh : Eigh N) (argsort : (Fin N → ℝ) → Equiv.Perm (Fin N)) (R : Fin T → Fin N → ℝ) {k : ℤ} (hk : 0 < k)
    {t : ℝ} (ht : 0 ≤ t) (standardize : Bool) (hT : 2 ≤ T) (hN : 2 ≤ N) :
    ∃ out, poetDecomp eigh argsort R (.num k) (.num t) standardize = .ok out := by
  obtain ⟨C, hC⟩ := C42_succeeds (descending argsort eigh) (R := R) hk ht standardize hT hN
  unfold poetDecomp
  simp only [poetSelect, if_neg (not_le.mpr hk), hC]
  exact ⟨_, rfl⟩

/-- Exact eigen-decomposition and sorting routines exist, so the hypotheses of C142 are met, for instance by two observations of
two assets and one factor. -/
example : ∃ (eigh : Eigh 2) (argsort : (Fin 2 → ℝ) → Equiv.Perm (Fin 2)) (out : PoetOut 2 2), IsEigh eigh ∧ Sorts argsort ∧
    poetDecomp eigh argsort ![![1, 2], ![3, 0]] (.num 1) (.num (1 / 10)) true = .ok out ∧ out.k = 1 := by
  obtain ⟨eigh, he⟩ := eigh_exists 2
  have hs : Sorts (fun x : Fin 2 → ℝ => Tuple.sort x) := fun x => Tuple.monotone_sort x
  obtain ⟨out, h⟩ := C142_succeeds eigh (fun x => Tuple.sort x) ![![1, 2], ![3, 0]] (k := 1) (by norm_num) (t := 1 / 10) (by norm_num) true
    (le_refl 2) (le_refl 2)
  refine ⟨eigh, _, out, he, hs, h, ?_⟩
  have := (C142_poet_decomposition he hs h).2.2.1 1 rfl
  simpa using this

end PyV.Props
