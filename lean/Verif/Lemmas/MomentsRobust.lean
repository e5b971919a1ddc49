import Verif.Model.MomentsRobust
import Verif.Lemmas.Moments

namespace PyV.Mom

open PyV PyV.Valid PyV.Psd Matrix

variable {T N : ℕ}

/-! ### median -/

theorem median_mem_range {l : List ℝ} {m lo hi : ℝ} (h : median l = some m) (hlo : ∀ x ∈ l, lo ≤ x) (hhi : ∀ x ∈ l, x ≤ hi) :
    lo ≤ m ∧ m ≤ hi := by
  have hmem : ∀ {k : ℕ} {a : ℝ}, (l.insertionSort (· ≤ ·))[k]? = some a → lo ≤ a ∧ a ≤ hi := by
    intro k a ha
    have := List.mem_of_getElem? ha
    rw [List.mem_insertionSort] at this
    exact ⟨hlo a this, hhi a this⟩
  unfold median at h
  simp only at h
  split at h
  · cases h
  · split at h
    · exact hmem h
    · split at h
      · rename_i a b ha hb
        injection h with h; subst h
        have h1 := hmem ha
        have h2 := hmem hb
        constructor <;> linarith [h1.1, h1.2, h2.1, h2.2]
      · cases h

theorem median_isSome {l : List ℝ} (hl : l ≠ []) : ∃ m, median l = some m := by
  have hlen : (l.insertionSort (· ≤ ·)).length = l.length := List.length_insertionSort _ _
  have hpos : 0 < l.length := List.length_pos_iff.mpr hl
  unfold median
  simp only
  rw [if_neg (by omega)]
  split
  · exact ⟨_, List.getElem?_eq_getElem (by omega)⟩
  · rw [List.getElem?_eq_getElem (show (l.insertionSort (· ≤ ·)).length / 2 - 1 < _ by omega),
      List.getElem?_eq_getElem (show (l.insertionSort (· ≤ ·)).length / 2 < _ by omega)]
    exact ⟨_, rfl⟩

theorem insertionSort_map_add (l : List ℝ) (c : ℝ) :
    (l.map (· + c)).insertionSort (· ≤ ·) = (l.insertionSort (· ≤ ·)).map (· + c) := by
  refine List.Perm.eq_of_pairwise' (r := (· ≤ ·)) ?_ ?_ ?_
  · exact List.pairwise_insertionSort _ _
  · rw [List.pairwise_map]
    exact (List.pairwise_insertionSort (· ≤ ·) l).imp (fun h => by linarith)
  · exact (List.perm_insertionSort _ _).trans ((List.perm_insertionSort (· ≤ ·) l).map _).symm

theorem median_add (l : List ℝ) (c : ℝ) : median (l.map (· + c)) = (median l).map (· + c) := by
  unfold median
  simp only [insertionSort_map_add, List.length_map, List.getElem?_map]
  split
  · rfl
  · split
    · rfl
    · rcases (l.insertionSort (· ≤ ·))[(l.insertionSort (· ≤ ·)).length / 2 - 1]? with _ | a <;>
      rcases (l.insertionSort (· ≤ ·))[(l.insertionSort (· ≤ ·)).length / 2]? with _ | b <;> simp
      ring

/-! ### column means -/

theorem colMean_centred (R : Fin T → Fin N → ℝ) (hT : T ≠ 0) (i : Fin N) : colMean (centred R) i = 0 := by
  have hT' : (T:ℝ) ≠ 0 := by exact_mod_cast hT
  simp only [colMean, centred, Finset.sum_sub_distrib, Finset.sum_const, Finset.card_univ, Fintype.card_fin, nsmul_eq_mul]
  field_simp
  simp

theorem centred_centred (R : Fin T → Fin N → ℝ) (hT : T ≠ 0) : centred (centred R) = centred R := by
  funext t i
  show centred R t i - colMean (centred R) i = _
  rw [colMean_centred R hT, sub_zero]

theorem npCov1_centred (R : Fin T → Fin N → ℝ) (hT : T ≠ 0) : npCov1 (centred R) = npCov1 R := by
  unfold npCov1
  rw [centred_centred R hT]

theorem npCov1_scaled (R : Fin T → Fin N → ℝ) (s : Fin N → ℝ) (i j : Fin N) :
    npCov1 (fun t i => R t i / s i) i j = npCov1 R i j / (s i * s j) := by
  have hc : ∀ t i, centred (fun t i => R t i / s i) t i = centred R t i / s i := by
    intro t i
    simp only [centred, colMean]
    rw [← Finset.sum_div, sub_div]
    ring
  simp only [npCov1, of_apply, hc]
  have : ∀ t, centred R t i / s i * (centred R t j / s j) = (centred R t i * centred R t j) * (1 / (s i * s j)) := by
    intro t; rw [div_mul_div_comm]; ring
  simp only [this, ← Finset.sum_mul]
  ring

theorem npCov1_eq_gram (R : Fin T → Fin N → ℝ) :
    npCov1 R = Matrix.of (fun i j => ∑ t, centred R t i * centred R t j * (1 / ((T:ℝ) - 1))) := by
  ext i j
  simp only [npCov1, of_apply, ← Finset.sum_mul]
  ring

theorem npCov1_psd (R : Fin T → Fin N → ℝ) (hT : 1 ≤ T) : (npCov1 R).PosSemidef := by
  rw [npCov1_eq_gram]
  have : (1:ℝ) ≤ T := by exact_mod_cast hT
  exact gram_psd (centred R) (fun _ => by apply div_nonneg zero_le_one; linarith)

theorem npCov1_symm (R : Fin T → Fin N → ℝ) : (npCov1 R)ᵀ = npCov1 R := by
  rw [npCov1_eq_gram]
  exact gram_symm (centred R) _

/-! ### soft threshold -/

theorem soft_props (tau a : ℝ) (ht : 0 ≤ tau) :
    |Real.sign a * max (|a| - tau) 0| ≤ |a| ∧ 0 ≤ (Real.sign a * max (|a| - tau) 0) * a := by
  rcases lt_trichotomy a 0 with h | h | h
  · rw [Real.sign_of_neg h, abs_of_neg h]
    have hm0 : 0 ≤ max (-a - tau) 0 := le_max_right _ _
    have hm1 : max (-a - tau) 0 ≤ -a := max_le (by linarith) (by linarith)
    constructor
    · rw [abs_le]; constructor <;> linarith
    · nlinarith
  · subst h; simp
  · rw [Real.sign_of_pos h, abs_of_pos h]
    have hm0 : 0 ≤ max (a - tau) 0 := le_max_right _ _
    have hm1 : max (a - tau) 0 ≤ a := max_le (by linarith) (by linarith)
    constructor
    · rw [abs_le]; constructor <;> linarith
    · nlinarith

theorem soft_zero (a : ℝ) : Real.sign a * max (|a| - 0) 0 = a := by
  rw [sub_zero, max_eq_left (abs_nonneg a)]
  rcases lt_trichotomy a 0 with h | h | h
  · rw [Real.sign_of_neg h, abs_of_neg h]; ring
  · subst h; simp
  · rw [Real.sign_of_pos h, abs_of_pos h]; ring

theorem poetFactor_symm (k : ℕ) (vals : Fin N → ℝ) (vecs : Matrix (Fin N) (Fin N) ℝ) :
    (poetFactor k vals vecs)ᵀ = poetFactor k vals vecs := by
  ext i j
  simp only [poetFactor, transpose_apply, of_apply]
  refine Finset.sum_congr rfl (fun l _ => ?_)
  split
  · ring
  · rfl

theorem poetFactor_psd (k : ℕ) (vals : Fin N → ℝ) (vecs : Matrix (Fin N) (Fin N) ℝ) :
    (poetFactor k vals vecs).PosSemidef := by
  have e : poetFactor k vals vecs = Matrix.of (fun i j => ∑ l : Fin N, vecs i l * vecs j l *
      (if (l:ℕ) < k then Real.sqrt (max (vals l) 0) * Real.sqrt (max (vals l) 0) else 0)) := by
    ext i j
    simp only [poetFactor, of_apply]
    refine Finset.sum_congr rfl (fun l _ => ?_)
    split
    · ring
    · ring
  rw [e]
  exact gram_psd (fun l i => vecs i l) (fun l => by split <;> positivity)

theorem softOff_symm {A : Matrix (Fin N) (Fin N) ℝ} (h : Aᵀ = A) (tau : ℝ) : (softOff tau A)ᵀ = softOff tau A := by
  have h' : ∀ i j, A j i = A i j := fun i j => by
    have := congrFun (congrFun h i) j
    simpa [transpose_apply] using this
  ext i j
  simp only [softOff, transpose_apply, of_apply, h' i j]
  by_cases hij : i = j
  · subst hij; rfl
  · rw [if_neg hij, if_neg (Ne.symm hij)]

theorem poetCombine_apply {scale : Fin N → ℝ} {tau : ℝ} {Sf res : Matrix (Fin N) (Fin N) ℝ} (h1 : Sfᵀ = Sf)
    (h2 : resᵀ = res) (i j : Fin N) :
    poetCombine scale tau Sf res i j = scale i * scale j * (Sf i j + softOff tau res i j) := by
  have hA : (Sf + softOff tau res)ᵀ = Sf + softOff tau res := by rw [transpose_add, h1, softOff_symm h2]
  unfold poetCombine
  rw [half_of_symm hA]
  have hC : (diagonal scale * (Sf + softOff tau res) * diagonal scale)ᵀ =
      diagonal scale * (Sf + softOff tau res) * diagonal scale := by
    rw [transpose_mul, transpose_mul, diagonal_transpose, hA, Matrix.mul_assoc]
  rw [half_of_symm hC, mul_diagonal, diagonal_mul, Matrix.add_apply]
  ring

/-! ### block splitting -/

theorem splitBySizes_flatten {α : Type*} (ss : List ℕ) (l : List α) (h : ss.sum = l.length) :
    (splitBySizes ss l).flatten = l := by
  induction ss generalizing l with
  | nil =>
    simp only [List.sum_nil] at h
    rw [List.length_eq_zero_iff.mp h.symm]; rfl
  | cons s ss ih =>
    simp only [splitBySizes, List.flatten_cons]
    rw [ih (l.drop s) (by rw [List.length_drop]; simp only [List.sum_cons] at h; omega), List.take_append_drop]

theorem splitBySizes_lengths {α : Type*} (ss : List ℕ) (l : List α) (h : ss.sum = l.length) :
    (splitBySizes ss l).map List.length = ss := by
  induction ss generalizing l with
  | nil => rfl
  | cons s ss ih =>
    simp only [splitBySizes, List.map_cons]
    simp only [List.sum_cons] at h
    rw [ih (l.drop s) (by rw [List.length_drop]; omega), List.length_take, min_eq_left (by omega)]

theorem splitBySizes_map {α β : Type*} (f : α → β) (ss : List ℕ) (l : List α) :
    splitBySizes ss (l.map f) = (splitBySizes ss l).map (List.map f) := by
  induction ss generalizing l with
  | nil => rfl
  | cons s ss ih => simp only [splitBySizes, List.map_cons, ← List.map_take, ← List.map_drop, ih]

theorem range_map_sum_split (B q r : ℕ) (hr : r ≤ B) :
    ((List.range B).map (fun b => q + if b < r then 1 else 0)).sum = B * q + r := by
  induction B generalizing r with
  | zero => simp; omega
  | succ B ih =>
    rw [List.range_succ, List.map_append, List.sum_append]
    simp only [List.map_cons, List.map_nil, List.sum_cons, List.sum_nil, add_zero]
    rcases Nat.lt_or_ge B r with h | h
    · have hr' : r = B + 1 := by omega
      subst hr'
      have : (List.range B).map (fun b => q + if b < B + 1 then 1 else 0) =
          (List.range B).map (fun b => q + if b < B then 1 else 0) := by
        apply List.map_congr_left
        intro b hb
        rw [List.mem_range] at hb
        rw [if_pos (by omega), if_pos hb]
      rw [this, ih B le_rfl, if_pos (by omega), Nat.succ_mul]
      omega
    · rw [ih r h, if_neg (by omega), Nat.succ_mul]
      omega

theorem blockSizes_sum (n B : ℕ) (hB : 0 < B) : (blockSizes n B).sum = n := by
  unfold blockSizes
  rw [range_map_sum_split B (n / B) (n % B) (Nat.mod_lt _ hB).le]
  exact Nat.div_add_mod n B

/-! ### Tyler -/

theorem trace_half {A : Matrix (Fin N) (Fin N) ℝ} : ((1 / 2 : ℝ) • (A + Aᵀ)).trace = A.trace := by
  rw [trace_smul, trace_add, trace_transpose, smul_eq_mul]; ring

theorem tylerWeight_nonneg (G : Matrix (Fin N) (Fin N) ℝ) (x : Fin N → ℝ) : 0 ≤ tylerWeight G x :=
  le_min (le_max_right _ _) (by positivity)

theorem tylerWeight_pos (hN : N ≠ 0) (G : Matrix (Fin N) (Fin N) ℝ) (x : Fin N → ℝ) : 0 < tylerWeight G x := by
  refine lt_min (lt_max_of_lt_left (div_pos ?_ (lt_max_of_lt_right (by positivity)))) (by positivity)
  exact_mod_cast Nat.pos_of_ne_zero hN

/-- The unnormalised update as a Gram matrix. -/
theorem tyler_gram (G : Matrix (Fin N) (Fin N) ℝ) (X : Fin T → Fin N → ℝ) :
    (Matrix.of (fun i j =>
      (∑ t, (X t i * Real.sqrt (tylerWeight G (X t))) * (X t j * Real.sqrt (tylerWeight G (X t)))) / T) :
        Matrix (Fin N) (Fin N) ℝ) = Matrix.of (fun i j => ∑ t, X t i * X t j * (tylerWeight G (X t) * (1 / T))) := by
  ext i j
  simp only [of_apply]
  rw [Finset.sum_div]
  refine Finset.sum_congr rfl (fun t _ => ?_)
  have := Real.mul_self_sqrt (tylerWeight_nonneg G (X t))
  rw [show X t i * Real.sqrt (tylerWeight G (X t)) * (X t j * Real.sqrt (tylerWeight G (X t))) =
    X t i * X t j * (Real.sqrt (tylerWeight G (X t)) * Real.sqrt (tylerWeight G (X t))) by ring, this]
  ring

theorem tylerUpdate_ok {G : Matrix (Fin N) (Fin N) ℝ} {X : Fin T → Fin N → ℝ} {U : Matrix (Fin N) (Fin N) ℝ}
    (h : tylerUpdate G X = .ok U) : U.PosSemidef ∧ U.trace = N := by
  unfold tylerUpdate at h
  simp only at h
  rw [tyler_gram, half_of_symm (gram_symm X _)] at h
  have hp := gram_psd X (q := fun t => tylerWeight G (X t) * (1 / T))
    (fun t => mul_nonneg (tylerWeight_nonneg G (X t)) (by positivity))
  split at h
  · cases h
  · rename_i ht
    injection h with h; subst h
    refine ⟨hp.smul (div_nonneg (Nat.cast_nonneg _) (trace_nonneg_of_psd hp)), ?_⟩
    rw [trace_smul, smul_eq_mul, div_mul_cancel₀ _ ht]

theorem tylerUpdate_succeeds {G : Matrix (Fin N) (Fin N) ℝ} {X : Fin T → Fin N → ℝ} {t : Fin T} {i : Fin N}
    (h : X t i ≠ 0) : ∃ U, tylerUpdate G X = .ok U := by
  unfold tylerUpdate
  simp only
  rw [tyler_gram, half_of_symm (gram_symm X _)]
  have hN : N ≠ 0 := by rintro rfl; exact i.elim0
  have hT : 0 < T := by
    rcases Nat.eq_zero_or_pos T with h0 | h0
    · subst h0; exact t.elim0
    · exact h0
  have hT' : (0:ℝ) < T := by exact_mod_cast hT
  have hpos : 0 < (Matrix.of (fun i j => ∑ t, X t i * X t j * (tylerWeight G (X t) * (1 / T))) :
      Matrix (Fin N) (Fin N) ℝ).trace := by
    simp only [trace, diag_apply, of_apply]
    refine Finset.sum_pos' (fun j _ => Finset.sum_nonneg (fun s _ => ?_)) ⟨i, Finset.mem_univ _, ?_⟩
    · exact mul_nonneg (mul_self_nonneg _) (mul_nonneg (tylerWeight_nonneg _ _) (by positivity))
    · refine Finset.sum_pos' (fun s _ => ?_) ⟨t, Finset.mem_univ _, ?_⟩
      · exact mul_nonneg (mul_self_nonneg _) (mul_nonneg (tylerWeight_nonneg _ _) (by positivity))
      · exact mul_pos (mul_self_pos.mpr h) (mul_pos (tylerWeight_pos hN _ _) (by positivity))
  rw [if_neg hpos.ne']
  exact ⟨_, rfl⟩

theorem tylerStep_inv {s : ℝ} (h0 : 0 ≤ s) (h1 : s ≤ 1) {F U : Matrix (Fin N) (Fin N) ℝ} (hF : F.PosSemidef ∧ F.trace = N)
    (hU : U.PosSemidef ∧ U.trace = N) :
    (if 0 < s then (1 - s) • U + s • F else U).PosSemidef ∧ (if 0 < s then (1 - s) • U + s • F else U).trace = N := by
  split
  · refine ⟨(hU.1.smul (by linarith)).add (hF.1.smul h0), ?_⟩
    rw [trace_add, trace_smul, trace_smul, hU.2, hF.2, smul_eq_mul, smul_eq_mul]; ring
  · exact hU

theorem tylerLoop_inv {pinv} {X : Fin T → Fin N → ℝ} {s tol : ℝ} (h0 : 0 ≤ s) (h1 : s ≤ 1)
    {F : Matrix (Fin N) (Fin N) ℝ} (hF : F.PosSemidef ∧ F.trace = N) (n : ℕ) {C C' : Matrix (Fin N) (Fin N) ℝ}
    (h : tylerLoop pinv X s tol F (n + 1) C = .ok C') : C'.PosSemidef ∧ C'.trace = N := by
  induction n generalizing C with
  | zero =>
    simp only [tylerLoop] at h
    split at h
    · cases h
    · rename_i U hU
      have := tylerStep_inv h0 h1 hF (tylerUpdate_ok hU)
      generalize (if 0 < s then (1 - s) • U + s • F else U) = V at h this
      split at h <;> injection h with h <;> subst h <;> exact this
  | succ n ih =>
    rw [tylerLoop] at h
    split at h
    · cases h
    · rename_i U hU
      have := tylerStep_inv h0 h1 hF (tylerUpdate_ok hU)
      simp only at h
      generalize (if 0 < s then (1 - s) • U + s • F else U) = V at h this
      split at h
      · injection h with h; subst h; exact this
      · exact ih h

theorem tylerLoop_succeeds {pinv} {X : Fin T → Fin N → ℝ} {s tol : ℝ} {F : Matrix (Fin N) (Fin N) ℝ} {t : Fin T} {i : Fin N}
    (hX : X t i ≠ 0) (n : ℕ) (C : Matrix (Fin N) (Fin N) ℝ) : ∃ C', tylerLoop pinv X s tol F n C = .ok C' := by
  induction n generalizing C with
  | zero => exact ⟨_, rfl⟩
  | succ n ih =>
    obtain ⟨U, hU⟩ := tylerUpdate_succeeds (G := pinv C) hX
    simp only [tylerLoop, hU]
    split <;> split
    · exact ⟨_, rfl⟩
    · exact ih _
    · exact ⟨_, rfl⟩
    · exact ih _

end PyV.Mom
