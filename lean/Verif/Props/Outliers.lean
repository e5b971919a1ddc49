import Verif.Props.HuberLoss

/-! # Property C259: outliers cannot carry the robust means away -/

namespace PyV.Props

open PyV PyV.Mom

variable {T N : ℕ}

/-- How many of the observations lie in `[lo, hi]`. -/
noncomputable def inside {n : ℕ} (x : Fin n → ℝ) (lo hi : ℝ) : ℕ := by
  classical
  exact (Finset.univ.filter fun t => lo ≤ x t ∧ x t ≤ hi).card

/-! ## A majority holds the median -/

private theorem median_majority {xs : List ℝ} {m lo hi : ℝ} (h : IsMedian xs m) (p : ℝ → Bool) (hp : ∀ x, p x = true ↔ lo ≤ x ∧ x ≤ hi)
    (hc : xs.length < 2 * xs.countP p) : lo ≤ m ∧ m ≤ hi := by
  obtain ⟨s, hperm, hs, a, b, ha, hb, rfl⟩ := h
  rw [← hperm.countP_eq, ← hperm.length_eq] at hc
  have hlt : s.length / 2 < s.length := (List.getElem?_eq_some_iff.1 hb).1
  obtain ⟨h1, ha⟩ := List.getElem?_eq_some_iff.1 ha
  obtain ⟨h2, hb⟩ := List.getElem?_eq_some_iff.1 hb
  have hmono : ∀ i j (hi : i < s.length) (hj : j < s.length), i ≤ j → s[i] ≤ s[j] := by
    intro i j hi hj hij
    rcases hij.lt_or_eq with h | rfl
    · exact List.pairwise_iff_getElem.1 hs i j hi hj h
    · exact le_rfl
  have hbhi : b ≤ hi := by
    by_contra hbad
    push Not at hbad
    have e : s.countP p = (s.take (s.length / 2)).countP p + (s.drop (s.length / 2)).countP p := by
      rw [← List.countP_append, List.take_append_drop]
    have z : (s.drop (s.length / 2)).countP p = 0 := by
      rw [List.countP_eq_zero]
      intro y hy hpy
      obtain ⟨i, hi, rfl⟩ := List.mem_iff_getElem.1 hy
      rw [List.getElem_drop] at hpy
      have := hmono (s.length / 2) (s.length / 2 + i) hlt (by rw [List.length_drop] at hi; omega) (by omega)
      have := ((hp _).1 hpy).2
      linarith
    have l : (s.take (s.length / 2)).countP p ≤ s.length / 2 := List.countP_le_length.trans (by rw [List.length_take]; omega)
    omega
  have halo : lo ≤ a := by
    by_contra hbad
    push Not at hbad
    have e : s.countP p = (s.take ((s.length - 1) / 2 + 1)).countP p + (s.drop ((s.length - 1) / 2 + 1)).countP p := by
      rw [← List.countP_append, List.take_append_drop]
    have z : (s.take ((s.length - 1) / 2 + 1)).countP p = 0 := by
      rw [List.countP_eq_zero]
      intro y hy hpy
      obtain ⟨i, hi, rfl⟩ := List.mem_iff_getElem.1 hy
      rw [List.getElem_take] at hpy
      rw [List.length_take] at hi
      have := hmono i ((s.length - 1) / 2) (by omega) h1 (by omega)
      have := ((hp _).1 hpy).1
      linarith
    have l : (s.drop ((s.length - 1) / 2 + 1)).countP p ≤ s.length - ((s.length - 1) / 2 + 1) :=
      List.countP_le_length.trans (by rw [List.length_drop])
    omega
  have := hmono _ _ h1 h2 (show (s.length - 1) / 2 ≤ s.length / 2 by omega)
  constructor <;> linarith

/-! ## Huber -/

private theorem pen_upper {tau r : ℝ} (ht : 0 < tau) : huberPenalty tau r ≤ tau * |r| := by
  unfold huberPenalty
  split_ifs with h
  · nlinarith [sq_abs r, abs_nonneg r]
  · nlinarith

private theorem pen_lower {tau : ℝ} (r : ℝ) : tau * |r| - tau ^ 2 / 2 ≤ huberPenalty tau r := by
  unfold huberPenalty
  split_ifs with h
  · nlinarith [sq_abs r, sq_nonneg (|r| - tau)]
  · exact le_rfl

private theorem pen_lip {tau : ℝ} (ht : 0 < tau) (r s : ℝ) : huberPenalty tau s - tau * |s - r| ≤ huberPenalty tau r := by
  have h1 : |s| ≤ |r| + |s - r| := by
    have := abs_add_le r (s - r)
    rwa [add_sub_cancel] at this
  have hr := abs_nonneg r
  have hs := abs_nonneg s
  have hsr := abs_nonneg (s - r)
  unfold huberPenalty
  split_ifs with a b b
  · rcases le_total |s| |r| with c | c
    · nlinarith [sq_abs r, sq_abs s]
    · nlinarith [sq_abs r, sq_abs s]
  · nlinarith [sq_abs r, sq_abs s, sq_nonneg (|r| - tau)]
  · push Not at a
    nlinarith [sq_abs r, sq_abs s, sq_nonneg (|r| - tau)]
  · nlinarith

private theorem sum_majority (f g : ℝ → ℝ) (p : ℝ → Bool) (A B : ℝ) (xs : List ℝ) (h1 : ∀ x ∈ xs, p x = true → g x + A ≤ f x)
    (h2 : ∀ x ∈ xs, g x - B ≤ f x) :
    (xs.map g).sum + (xs.countP p : ℝ) * A - ((xs.length : ℝ) - xs.countP p) * B ≤ (xs.map f).sum := by
  induction xs with
  | nil => simp
  | cons x xs ih =>
    have := ih (fun y hy => h1 y (List.mem_cons_of_mem _ hy)) (fun y hy => h2 y (List.mem_cons_of_mem _ hy))
    have e1 := h1 x (List.mem_cons_self ..)
    have e2 := h2 x (List.mem_cons_self ..)
    simp only [List.map_cons, List.sum_cons, List.length_cons, List.countP_cons]
    by_cases hx : p x = true
    · rw [if_pos hx]; push_cast; linarith [e1 hx]
    · rw [if_neg hx]; push_cast; linarith

private theorem countP_ofFn {n : ℕ} (x : Fin n → ℝ) (lo hi : ℝ) (p : ℝ → Bool) (hp : ∀ y, p y = true ↔ lo ≤ y ∧ y ≤ hi) :
    (List.ofFn x).countP p = inside x lo hi := by
  classical
  unfold inside
  rw [List.ofFn_eq_map, List.countP_map, List.countP_eq_length_filter, Finset.card_def]
  have : (Finset.univ.filter fun t => lo ≤ x t ∧ x t ≤ hi).val = ((List.finRange n).filter (p ∘ x) : List (Fin n)) := by
    rw [Finset.filter_val]
    show Multiset.filter _ (List.finRange n : Multiset (Fin n)) = _
    rw [Multiset.filter_coe]
    congr 1
    apply List.filter_congr
    intro t _
    rw [Bool.eq_iff_iff, decide_eq_true_iff]
    exact (hp (x t)).symm
  rw [this, Multiset.coe_card]

/-- **C259** (Huber) If more than half of the observations of an asset lie in `[lo, hi]`, the Huber mean lies within an explicit distance
of `[lo, hi]`, however large the other observations are. -/
theorem C259_huber (x : Fin T → Fin N → ℝ) (i : Fin N) {tol : ℝ} (htol : 0 ≤ tol) {maxIter : ℕ} (hmax : 0 < maxIter) {lo hi : ℝ} {c : ℕ}
    (hc : inside (fun t => x t i) lo hi = c) (hmaj : T < 2 * c) :
    let D := hi - lo
    let K := c * (2 * D + (1.4826 * D + 1 / 10 ^ 12) * Real.sqrt (T / max (Real.log (max T 3)) 2) / 2) / (2 * c - T)
    lo - K ≤ huberMean tol maxIter x i ∧ huberMean tol maxIter x i ≤ hi + K := by
  classical
  intro D K
  have hT : 0 < T := by
    rcases Nat.eq_zero_or_pos T with rfl | h
    · exfalso
      simp [inside] at hc
      omega
    · exact h
  set xs := List.ofFn fun t => x t i with hxs
  have hlen : xs.length = T := by rw [hxs, List.length_ofFn]
  have hne : xs ≠ [] := by
    intro e
    rw [e, List.length_nil] at hlen
    omega
  have hp : ∀ y, decide (lo ≤ y ∧ y ≤ hi) = true ↔ lo ≤ y ∧ y ≤ hi := fun y => decide_eq_true_iff
  have hcount : xs.countP (fun y => decide (lo ≤ y ∧ y ≤ hi)) = c := by
    rw [hxs, countP_ofFn _ lo hi _ hp, hc]
  obtain ⟨tau, ⟨med, mad, hmed, hmad, htau⟩, -⟩ := C258_threshold hne
  have hmr : lo ≤ med ∧ med ≤ hi := median_majority hmed _ hp (by rw [hcount, hlen]; exact hmaj)
  have hD : 0 ≤ D := by show 0 ≤ hi - lo; linarith [hmr.1, hmr.2]
  have hmadr : 0 ≤ mad ∧ mad ≤ D := by
    refine median_majority hmad (fun y => decide (0 ≤ y ∧ y ≤ D)) (fun y => decide_eq_true_iff) ?_
    rw [List.length_map, List.countP_map, hlen]
    refine lt_of_lt_of_le hmaj (Nat.mul_le_mul_left 2 ?_)
    rw [← hcount]
    refine List.countP_mono_left fun y _ hy => ?_
    have hy := (hp y).1 hy
    refine decide_eq_true_iff.2 ⟨abs_nonneg _, abs_le.2 ⟨?_, ?_⟩⟩
    · show -(hi - lo) ≤ y - med; linarith [hmr.2]
    · show y - med ≤ hi - lo; linarith [hmr.1]
  set root := Real.sqrt ((T : ℝ) / max (Real.log (max T 3)) 2) with hroot
  rw [hlen, ← hroot] at htau
  have hroot0 : 0 < root := by
    have : (0 : ℝ) < T := by exact_mod_cast hT
    exact Real.sqrt_pos.2 (div_pos this (lt_max_of_lt_right (by norm_num)))
  have h12 : (0 : ℝ) < 1 / 10 ^ 12 := by positivity
  have htau0 : 0 < tau := by
    rw [htau]
    exact mul_pos (by have := hmadr.1; positivity) hroot0
  have htauD : tau ≤ (1.4826 * D + 1 / 10 ^ 12) * root := by
    rw [htau]
    refine mul_le_mul_of_nonneg_right ?_ hroot0.le
    have := mul_le_mul_of_nonneg_left hmadr.2 (show (0 : ℝ) ≤ 1.4826 by norm_num)
    linarith
  have hloss := (C258_huber x hT i htol hmax (tau := tau) ⟨med, mad, hmed, hmad, by rw [List.length_ofFn, htau, hroot]⟩).1 med hmed
  set out := huberMean tol maxIter x i with hout
  have hsum := sum_majority (fun y => huberPenalty tau (y - out)) (fun y => huberPenalty tau (y - med)) (fun y => decide (lo ≤ y ∧ y ≤ hi))
    (tau * |out - med| - 2 * tau * D - tau ^ 2 / 2) (tau * |out - med|) xs (by
      intro y _ hy
      have hy := (hp y).1 hy
      have h1 : |y - med| ≤ D := abs_le.2 ⟨by show -(hi - lo) ≤ y - med; linarith [hmr.2], by show y - med ≤ hi - lo; linarith [hmr.1]⟩
      have h2 : |out - med| ≤ |y - out| + |y - med| := by
        have := abs_sub_le out y med
        rwa [abs_sub_comm out y] at this
      have h3 := pen_upper (r := y - med) htau0
      have h4 := pen_lower (tau := tau) (y - out)
      have h5 := mul_le_mul_of_nonneg_left h1 htau0.le
      have h6 := mul_le_mul_of_nonneg_left h2 htau0.le
      linarith) (by
      intro y _
      have := pen_lip htau0 (y - out) (y - med)
      rwa [show y - med - (y - out) = out - med by ring] at this)
  rw [hcount, hlen] at hsum
  have hbound : ((2 : ℝ) * c - T) * |out - med| ≤ c * (2 * D + tau / 2) := by
    have h0 : ((2 : ℝ) * c - T) * |out - med| * tau ≤ c * (2 * D + tau / 2) * tau := by
      unfold huberLossAt at hloss
      nlinarith
    exact le_of_mul_le_mul_right h0 htau0
  have hden : (0 : ℝ) < 2 * c - T := by
    have : (T : ℝ) < 2 * c := by exact_mod_cast hmaj
    linarith
  have hK : |out - med| ≤ K := by
    show _ ≤ (c : ℝ) * (2 * D + (1.4826 * D + 1 / 10 ^ 12) * root / 2) / (2 * c - T)
    rw [le_div_iff₀ hden, mul_comm]
    refine hbound.trans (mul_le_mul_of_nonneg_left ?_ (Nat.cast_nonneg c))
    linarith
  have := abs_le.1 hK
  constructor <;> linarith [hmr.1, hmr.2]

/-! ## Median of means -/

private theorem bad_blocks {α : Type*} (bad : α → Bool) (ls : List (List α)) :
    ls.countP (fun l => l.any bad) ≤ ls.flatten.countP bad := by
  induction ls with
  | nil => simp
  | cons l ls ih =>
    rw [List.countP_cons, List.flatten_cons, List.countP_append]
    by_cases h : l.any bad = true
    · rw [if_pos h]
      have : 0 < l.countP bad := by
        rw [List.countP_pos_iff]
        exact List.any_eq_true.1 h
      omega
    · rw [if_neg h]
      omega

/-- **C259** (median of means) If fewer observations lie outside `[lo, hi]` than half the number of blocks, the estimate lies in
`[lo, hi]`, however large those observations are and however the rows are drawn into blocks. -/
theorem C259_median_of_means (perm : Equiv.Perm (Fin T)) (hT : 1 ≤ T) {b : Blocks} {B : ℕ} (h : momBlocks T b = .ok B) (x : Fin T → ℝ)
    {lo hi : ℝ} (hfew : 2 * (T - inside x lo hi) < B) :
    ∃ m, medianOfMeans perm b x = .ok (some m) ∧ lo ≤ m ∧ m ≤ hi := by
  classical
  obtain ⟨-, -, hlen, hne, -, hcov⟩ := C44_partition perm hT h
  obtain ⟨m, hm, -⟩ := C43_median_of_means perm hT h x
  refine ⟨m, hm, ?_⟩
  rw [medianOfMeans_eq perm hT h] at hm
  injection hm with hm
  refine median_majority (median_isMedian hm) (fun y => decide (lo ≤ y ∧ y ≤ hi)) (fun y => decide_eq_true_iff) ?_
  rw [List.length_map, hlen, List.countP_map]
  set bad : Fin T → Bool := fun t => ! decide (lo ≤ x t ∧ x t ≤ hi) with hbad
  have h1 : (momBlocksOf perm B).countP (fun l => l.any bad) ≤ T - inside x lo hi := by
    refine (bad_blocks bad _).trans ?_
    have hperm : ((momBlocksOf perm B).flatten).Perm (List.finRange T) := by
      rw [List.perm_iff_count]
      intro t
      rw [hcov t, List.count_eq_one_of_mem (List.nodup_finRange T) (List.mem_finRange t)]
    rw [hperm.countP_eq]
    have h2 := List.length_eq_countP_add_countP (l := List.finRange T) (fun t => decide (lo ≤ x t ∧ x t ≤ hi))
    rw [List.length_finRange] at h2
    have h3 : (List.finRange T).countP (fun t => decide (lo ≤ x t ∧ x t ≤ hi)) = inside x lo hi := by
      rw [← countP_ofFn x lo hi (fun y => decide (lo ≤ y ∧ y ≤ hi)) (fun y => decide_eq_true_iff), List.ofFn_eq_map, List.countP_map]
      rfl
    have h4 : (List.finRange T).countP bad =
        (List.finRange T).countP (fun t => decide ¬ (decide (lo ≤ x t ∧ x t ≤ hi) = true)) := by
      refine List.countP_congr fun t _ => ?_
      simp [hbad]
    rw [h4]
    omega
  have h2 := List.length_eq_countP_add_countP (l := momBlocksOf perm B) (fun l => l.any bad)
  rw [hlen] at h2
  have h3 : (momBlocksOf perm B).countP (fun l => decide ¬ (l.any bad = true)) ≤
      (momBlocksOf perm B).countP ((fun y => decide (lo ≤ y ∧ y ≤ hi)) ∘ fun l => (l.map x).sum / (l.length : ℝ)) := by
    refine List.countP_mono_left fun l hl hgood => ?_
    have hgood : ∀ t ∈ l, lo ≤ x t ∧ x t ≤ hi := by
      intro t ht
      by_contra hc
      refine (decide_eq_true_iff.1 hgood) (List.any_eq_true.2 ⟨t, ht, ?_⟩)
      simp only [hbad, decide_eq_false hc, Bool.not_false]
    refine decide_eq_true_iff.2 ?_
    refine listMean_range (l := l.map x) ?_ ?_ ?_
    · unfold listMean
      rw [if_neg, List.length_map]
      simp only [List.length_map]
      exact fun hc => hne l hl (List.length_eq_zero_iff.mp hc)
    · intro y hy
      rw [List.mem_map] at hy
      obtain ⟨t, ht, rfl⟩ := hy
      exact (hgood t ht).1
    · intro y hy
      rw [List.mem_map] at hy
      obtain ⟨t, ht, rfl⟩ := hy
      exact (hgood t ht).2
  omega

/-- Four of five observations within `[0, 1]`, the fifth enormous: a strict majority, so the Huber bound applies. -/
example : inside (![0, 1, 10 ^ 6, 1 / 2, 1 / 4] : Fin 5 → ℝ) 0 1 = 4 ∧ 5 < 2 * 4 := by
  refine ⟨?_, by norm_num⟩
  rw [← countP_ofFn _ 0 1 (fun y => decide (0 ≤ y ∧ y ≤ 1)) (fun y => decide_eq_true_iff)]
  norm_num [List.countP_cons]

/-- With five blocks of one observation each, one outlier is fewer than half of them. -/
example (perm : Equiv.Perm (Fin 5)) : ∃ m, medianOfMeans perm (.num 5) ![0, 1, 10 ^ 6, 1 / 2, 1 / 4] = .ok (some m) ∧ 0 ≤ m ∧ m ≤ 1 := by
  refine C259_median_of_means perm (by norm_num) (B := 5) (by simp [momBlocks]) _ ?_
  have : inside (![0, 1, 10 ^ 6, 1 / 2, 1 / 4] : Fin 5 → ℝ) 0 1 = 4 := by
    rw [← countP_ofFn _ 0 1 (fun y => decide (0 ≤ y ∧ y ≤ 1)) (fun y => decide_eq_true_iff)]
    norm_num [List.countP_cons]
  rw [this]
  norm_num

end PyV.Props
