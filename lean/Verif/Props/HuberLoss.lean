import Verif.Props.MomentsRobust
import Verif.Props.MomentsApi

/-! # Property C258: the Huber mean minimises the Huber loss -/

namespace PyV.Props

open PyV PyV.Mom

variable {T N : ℕ}

/-! ## Specification -/

/-- `m` is the median of the numbers `xs`: written in increasing order, the middle one, or the average of the two
middle ones. -/
def IsMedian (xs : List ℝ) (m : ℝ) : Prop :=
  ∃ s : List ℝ, s.Perm xs ∧ s.Pairwise (· ≤ ·) ∧
    ∃ a b, s[(s.length - 1) / 2]? = some a ∧ s[s.length / 2]? = some b ∧ m = (a + b) / 2

/-- Huber's penalty with threshold `tau`: quadratic inside, linear outside. -/
noncomputable def huberPenalty (tau r : ℝ) : ℝ := if |r| ≤ tau then r ^ 2 / 2 else tau * |r| - tau ^ 2 / 2

/-- Huber's loss of the location `m` on the observations. -/
noncomputable def huberLossAt (tau : ℝ) (xs : List ℝ) (m : ℝ) : ℝ := (xs.map fun x => huberPenalty tau (x - m)).sum

/-- The adaptive threshold: `1.4826` times the median absolute deviation (plus `1e-12`), times the square root of the
number of observations over its logarithm (at least 2). -/
def IsHuberThreshold (xs : List ℝ) (tau : ℝ) : Prop :=
  ∃ m mad, IsMedian xs m ∧ IsMedian (xs.map fun x => |x - m|) mad ∧
    tau = (1.4826 * mad + 1 / 10 ^ 12) * Real.sqrt (xs.length / max (Real.log (max xs.length 3)) 2)

/-! ## The median -/

theorem median_isMedian {xs : List ℝ} {m : ℝ} (h : median xs = some m) : IsMedian xs m := by
  refine ⟨xs.insertionSort (· ≤ ·), List.perm_insertionSort _ _, List.pairwise_insertionSort _ _, ?_⟩
  unfold median at h
  generalize xs.insertionSort (· ≤ ·) = s at h ⊢
  dsimp only at h
  by_cases h0 : s.length = 0
  · rw [if_pos h0] at h; cases h
  rw [if_neg h0] at h
  by_cases h1 : s.length % 2 = 1
  · rw [if_pos h1] at h
    refine ⟨m, m, ?_, h, by ring⟩
    rw [show (s.length - 1) / 2 = s.length / 2 by omega]
    exact h
  · rw [if_neg h1] at h
    have e : (s.length - 1) / 2 = s.length / 2 - 1 := by omega
    rw [e]
    rcases ha : s[s.length / 2 - 1]? with _ | a
    · rw [ha] at h; cases h
    rcases hb : s[s.length / 2]? with _ | b
    · rw [ha, hb] at h; cases h
    rw [ha, hb] at h
    injection h with h
    exact ⟨a, b, rfl, rfl, h.symm⟩

theorem isMedian_unique {xs : List ℝ} {m m' : ℝ} (h : IsMedian xs m) (h' : IsMedian xs m') : m = m' := by
  obtain ⟨s, hp, hs, a, b, ha, hb, rfl⟩ := h
  obtain ⟨s', hp', hs', a', b', ha', hb', rfl⟩ := h'
  have : s = s' := (hp.trans hp'.symm).eq_of_pairwise (fun _ _ _ _ h1 h2 => le_antisymm h1 h2) hs hs'
  subst this
  rw [ha] at ha'; rw [hb] at hb'
  injection ha' with e1; injection hb' with e2
  rw [e1, e2]

theorem isMedian_median {xs : List ℝ} (hne : xs ≠ []) {m : ℝ} (h : IsMedian xs m) : median xs = some m := by
  obtain ⟨m', hm'⟩ := median_isSome hne
  rw [hm', isMedian_unique h (median_isMedian hm')]

/-! ## One step -/

private theorem weight_cases {tau : ℝ} (ht : 1 / 10 ^ 12 ≤ tau) (mu x : ℝ) :
    (|x - mu| ≤ tau ∧ huberWeight tau mu x = 1) ∨
      (tau < |x - mu| ∧ huberWeight tau mu x * |x - mu| = tau ∧ 0 < huberWeight tau mu x ∧ huberWeight tau mu x ≤ 1) := by
  have h12 : (0 : ℝ) < 1 / 10 ^ 12 := by positivity
  have ht0 : 0 < tau := lt_of_lt_of_le h12 ht
  have hpos : 0 < max |x - mu| (1 / 10 ^ 12) := lt_max_of_lt_right h12
  by_cases h : |x - mu| ≤ tau
  · left
    refine ⟨h, min_eq_left ?_⟩
    rw [le_div_iff₀ hpos, one_mul]
    exact max_le h ht
  · right
    push Not at h
    have hm : max |x - mu| (1 / 10 ^ 12) = |x - mu| := max_eq_left (ht.trans h.le)
    have hr : 0 < |x - mu| := ht0.trans h
    have hle : tau / |x - mu| ≤ 1 := by rw [div_le_one hr]; exact h.le
    have e : huberWeight tau mu x = tau / |x - mu| := by
      unfold huberWeight
      rw [hm, min_eq_right hle]
    refine ⟨h, ?_, ?_, ?_⟩
    · rw [e]; field_simp
    · rw [e]; positivity
    · rw [e]; exact hle

private theorem pen_major {tau w r s : ℝ} (ht : 0 < tau) (h : (|r| ≤ tau ∧ w = 1) ∨ (tau < |r| ∧ w * |r| = tau ∧ 0 < w ∧ w ≤ 1)) :
    huberPenalty tau s ≤ huberPenalty tau r + w / 2 * (s ^ 2 - r ^ 2) := by
  unfold huberPenalty
  rcases h with ⟨h, rfl⟩ | ⟨h, hw, hw0, hw1⟩
  · rw [if_pos h]
    split_ifs with hs
    · linarith
    · nlinarith [sq_abs s, sq_nonneg (|s| - tau)]
  · rw [if_neg (not_le.2 h)]
    split_ifs with hs
    · -- ρ(s) = s²/2 ≤ tau|r| − tau²/2 + (w/2)(s² − r²); w r² = tau |r|
      have e : w * r ^ 2 = tau * |r| := by rw [← sq_abs r, pow_two, ← mul_assoc, hw]
      have hs2 : s ^ 2 ≤ tau ^ 2 := by rw [← sq_abs s]; exact pow_le_pow_left₀ (abs_nonneg s) hs 2
      have : (1 - w) * s ^ 2 ≤ (1 - w) * tau ^ 2 := mul_le_mul_of_nonneg_left hs2 (by linarith)
      have hr : 0 ≤ w * (|r| - tau) ^ 2 := by positivity
      have e2 : w * (|r| - tau) ^ 2 = tau * |r| - 2 * tau * tau + w * tau ^ 2 := by
        have : w * (|r| - tau) ^ 2 = w * |r| * |r| - 2 * (w * |r|) * tau + w * tau ^ 2 := by ring
        rw [this, hw]
      nlinarith
    · have e : w * r ^ 2 = tau * |r| := by rw [← sq_abs r, pow_two, ← mul_assoc, hw]
      have hr : 0 ≤ w * (|r| - |s|) ^ 2 := by positivity
      have e2 : w * (|r| - |s|) ^ 2 = tau * |r| - 2 * tau * |s| + w * s ^ 2 := by
        have : w * (|r| - |s|) ^ 2 = w * |r| * |r| - 2 * (w * |r|) * |s| + w * |s| ^ 2 := by ring
        rw [this, hw, sq_abs]
      nlinarith

private theorem pen_convex {tau w r s : ℝ} (ht : 0 < tau) (h : (|r| ≤ tau ∧ w = 1) ∨ (tau < |r| ∧ w * |r| = tau ∧ 0 < w ∧ w ≤ 1)) :
    huberPenalty tau r + w * r * (s - r) ≤ huberPenalty tau s := by
  unfold huberPenalty
  rcases h with ⟨h, rfl⟩ | ⟨h, hw, hw0, hw1⟩
  · rw [if_pos h]
    split_ifs with hs
    · nlinarith [sq_nonneg (s - r)]
    · push Not at hs
      have h1 : r * s ≤ |r| * |s| := by rw [← abs_mul]; exact le_abs_self _
      have h2 : 0 ≤ (tau - |r|) * (|s| - tau) := mul_nonneg (by linarith) (by linarith)
      nlinarith [sq_abs r, sq_nonneg (tau - |r|)]
  · rw [if_neg (not_le.2 h)]
    have e : w * r ^ 2 = tau * |r| := by rw [← sq_abs r, pow_two, ← mul_assoc, hw]
    have h1 : w * r * s ≤ tau * |s| := by
      calc w * r * s = w * (r * s) := by ring
        _ ≤ w * (|r| * |s|) := mul_le_mul_of_nonneg_left (by rw [← abs_mul]; exact le_abs_self _) hw0.le
        _ = tau * |s| := by rw [← mul_assoc, hw]
    split_ifs with hs
    · nlinarith [sq_abs s, sq_nonneg (|s| - tau)]
    · nlinarith

/-- Sums of `w · x` rewritten around a centre. -/
private theorem sum_centre (w : ℝ → ℝ) (xs : List ℝ) (c : ℝ) :
    (xs.map fun x => w x * (x - c)).sum = (xs.map fun x => w x * x).sum - (xs.map w).sum * c := by
  induction xs with
  | nil => simp
  | cons x xs ih => simp only [List.map_cons, List.sum_cons, ih]; ring

private theorem sum_major (f g w : ℝ → ℝ) (xs : List ℝ) (a b : ℝ) (h : ∀ x ∈ xs, f x ≤ g x + w x / 2 * ((x - b) ^ 2 - (x - a) ^ 2)) :
    (xs.map f).sum ≤ (xs.map g).sum + (xs.map w).sum / 2 * (b - a) ^ 2 - (b - a) * (xs.map fun x => w x * (x - a)).sum := by
  induction xs with
  | nil => simp
  | cons x xs ih =>
    have h1 := h x (List.mem_cons_self ..)
    have h2 := ih fun y hy => h y (List.mem_cons_of_mem _ hy)
    simp only [List.map_cons, List.sum_cons]
    nlinarith

private theorem sum_convex (f g w : ℝ → ℝ) (xs : List ℝ) (a b : ℝ) (h : ∀ x ∈ xs, g x + w x * (x - a) * ((x - b) - (x - a)) ≤ f x) :
    (xs.map g).sum + (a - b) * (xs.map fun x => w x * (x - a)).sum ≤ (xs.map f).sum := by
  induction xs with
  | nil => simp
  | cons x xs ih =>
    have h1 := h x (List.mem_cons_self ..)
    have h2 := ih fun y hy => h y (List.mem_cons_of_mem _ hy)
    simp only [List.map_cons, List.sum_cons]
    nlinarith

private theorem weights_sum {tau : ℝ} (ht : 1 / 10 ^ 12 ≤ tau) {xs : List ℝ} (hne : xs ≠ []) (mu : ℝ) :
    0 < (xs.map (huberWeight tau mu)).sum ∧ (xs.map (huberWeight tau mu)).sum ≤ xs.length := by
  have ht0 : 0 < tau := lt_of_lt_of_le (by positivity) ht
  refine ⟨List.sum_pos _ ?_ (by simpa using hne), ?_⟩
  · intro y hy
    rw [List.mem_map] at hy
    obtain ⟨x, -, rfl⟩ := hy
    exact huberWeight_pos ht0 mu x
  · clear hne
    induction xs with
    | nil => simp
    | cons x xs ih =>
      have : huberWeight tau mu x ≤ 1 := min_le_left _ _
      simp only [List.map_cons, List.sum_cons, List.length_cons, Nat.cast_add, Nat.cast_one]
      linarith

private theorem next_slope {tau : ℝ} (ht : 1 / 10 ^ 12 ≤ tau) {xs : List ℝ} (hne : xs ≠ []) (mu : ℝ) :
    (xs.map fun x => huberWeight tau mu x * (x - mu)).sum = (xs.map (huberWeight tau mu)).sum * (huberNext tau xs mu - mu) := by
  have hW := (weights_sum ht hne mu).1
  rw [sum_centre]
  unfold huberNext
  generalize (xs.map fun x => huberWeight tau mu x * x).sum = A at *
  generalize (xs.map (huberWeight tau mu)).sum = W at *
  field_simp

private theorem step_descent {tau : ℝ} (ht : 1 / 10 ^ 12 ≤ tau) {xs : List ℝ} (hne : xs ≠ []) (mu : ℝ) :
    huberLossAt tau xs (huberNext tau xs mu) ≤
      huberLossAt tau xs mu - (xs.map (huberWeight tau mu)).sum / 2 * (huberNext tau xs mu - mu) ^ 2 := by
  have ht0 : 0 < tau := lt_of_lt_of_le (by positivity) ht
  have := sum_major (fun x => huberPenalty tau (x - huberNext tau xs mu)) (fun x => huberPenalty tau (x - mu)) (huberWeight tau mu) xs mu
    (huberNext tau xs mu) fun x _ => pen_major ht0 (weight_cases ht mu x)
  rw [next_slope ht hne] at this
  unfold huberLossAt
  linarith

private theorem step_gap {tau : ℝ} (ht : 1 / 10 ^ 12 ≤ tau) {xs : List ℝ} (hne : xs ≠ []) (mu m : ℝ) :
    huberLossAt tau xs mu - huberLossAt tau xs m ≤ (xs.map (huberWeight tau mu)).sum * (|huberNext tau xs mu - mu| * |m - mu|) := by
  have ht0 : 0 < tau := lt_of_lt_of_le (by positivity) ht
  have hW := (weights_sum ht hne mu).1
  have := sum_convex (fun x => huberPenalty tau (x - m)) (fun x => huberPenalty tau (x - mu)) (huberWeight tau mu) xs mu m
    fun x _ => pen_convex ht0 (weight_cases ht mu x)
  rw [next_slope ht hne] at this
  unfold huberLossAt
  have h1 : (m - mu) * (huberNext tau xs mu - mu) ≤ |huberNext tau xs mu - mu| * |m - mu| := by
    rw [mul_comm, ← abs_mul]; exact le_abs_self _
  have := mul_le_mul_of_nonneg_left h1 hW.le
  linarith

/-! ## The loop -/

private theorem rate {e e' C k : ℝ} (hk : k * e ≤ C) (hsq : 0 < e → e ^ 2 ≤ C * (e - e')) (hle : e' ≤ e) (hk0 : 0 ≤ k) (hC : 0 ≤ C) :
    (k + 1) * e' ≤ C := by
  rcases le_or_gt e' 0 with h | h
  · nlinarith
  · have he : 0 < e := h.trans_le hle
    have := hsq he
    by_contra hc
    push Not at hc
    have h1 : C * e < (k + 1) * e' * e := mul_lt_mul_of_pos_right hc he
    nlinarith

private theorem loop_bound {tau tol : ℝ} (ht : 1 / 10 ^ 12 ≤ tau) (htol : 0 ≤ tol) {xs : List ℝ} (hne : xs ≠ []) {lo hi B : ℝ}
    (hlo : ∀ x ∈ xs, lo ≤ x) (hhi : ∀ x ∈ xs, x ≤ hi) (hB : ∀ y, lo ≤ y → y ≤ hi → |y| ≤ B) {m : ℝ} (hm : lo ≤ m ∧ m ≤ hi) (n : ℕ) :
    ∀ {mu : ℝ}, lo ≤ mu ∧ mu ≤ hi → ∀ k : ℝ, 0 ≤ k → k * (huberLossAt tau xs mu - huberLossAt tau xs m) ≤ 2 * xs.length * (hi - lo) ^ 2 →
      (huberLossAt tau xs (huberLoop tau tol xs n mu) ≤ huberLossAt tau xs mu) ∧
      (huberLossAt tau xs (huberLoop tau tol xs n mu) - huberLossAt tau xs m ≤ xs.length * (tol * (1 + B) * (hi - lo)) ∨
        (k + n) * (huberLossAt tau xs (huberLoop tau tol xs n mu) - huberLossAt tau xs m) ≤ 2 * xs.length * (hi - lo) ^ 2) := by
  have ht0 : 0 < tau := lt_of_lt_of_le (by positivity) ht
  induction n with
  | zero =>
    intro mu hmu k hk h
    refine ⟨le_rfl, .inr ?_⟩
    simpa [huberLoop] using h
  | succ n ih =>
    intro mu hmu k hk h
    have hW := weights_sum ht hne mu
    have hdesc := step_descent ht hne mu
    have hgap := step_gap ht hne mu m
    have hrange : lo ≤ huberNext tau xs mu ∧ huberNext tau xs mu ≤ hi :=
      weighted_mean_range (w := huberWeight tau mu) (fun x _ => huberWeight_pos ht0 mu x) hne hlo hhi
    have hD : |m - mu| ≤ hi - lo := abs_le.2 ⟨by linarith [hm.1, hmu.2], by linarith [hm.2, hmu.1]⟩
    have hle : huberLossAt tau xs (huberNext tau xs mu) ≤ huberLossAt tau xs mu := by
      have : 0 ≤ (xs.map (huberWeight tau mu)).sum / 2 * (huberNext tau xs mu - mu) ^ 2 := by
        have := hW.1; positivity
      linarith
    have hgap' : huberLossAt tau xs mu - huberLossAt tau xs m ≤
        (xs.map (huberWeight tau mu)).sum * (|huberNext tau xs mu - mu| * (hi - lo)) :=
      hgap.trans (mul_le_mul_of_nonneg_left (mul_le_mul_of_nonneg_left hD (abs_nonneg _)) hW.1.le)
    simp only [huberLoop]
    split_ifs with hstop
    · refine ⟨hle, .inl ?_⟩
      have h1 : |huberNext tau xs mu - mu| ≤ tol * (1 + B) := by
        refine hstop.trans (mul_le_mul_of_nonneg_left ?_ htol)
        linarith [hB mu hmu.1 hmu.2]
      have hD0 : 0 ≤ hi - lo := by linarith [hm.1, hm.2]
      have h2 : (xs.map (huberWeight tau mu)).sum * (|huberNext tau xs mu - mu| * (hi - lo)) ≤ xs.length * (tol * (1 + B) * (hi - lo)) :=
        mul_le_mul hW.2 (mul_le_mul_of_nonneg_right h1 hD0) (by positivity) (by positivity)
      linarith
    · have hsq : 0 < huberLossAt tau xs mu - huberLossAt tau xs m →
          (huberLossAt tau xs mu - huberLossAt tau xs m) ^ 2 ≤ 2 * xs.length * (hi - lo) ^ 2 *
            ((huberLossAt tau xs mu - huberLossAt tau xs m) - (huberLossAt tau xs (huberNext tau xs mu) - huberLossAt tau xs m)) := by
        intro hpos
        generalize (xs.map (huberWeight tau mu)).sum = W at *
        have h1 := pow_le_pow_left₀ hpos.le hgap' 2
        have e1 : (W * (|huberNext tau xs mu - mu| * (hi - lo))) ^ 2 = W * (hi - lo) ^ 2 * (W * (huberNext tau xs mu - mu) ^ 2) := by
          rw [mul_pow, mul_pow, sq_abs]; ring
        rw [e1] at h1
        have h2 : W * (huberNext tau xs mu - mu) ^ 2 ≤ 2 * (huberLossAt tau xs mu - huberLossAt tau xs (huberNext tau xs mu)) := by linarith
        have h3 : 0 ≤ huberLossAt tau xs mu - huberLossAt tau xs (huberNext tau xs mu) := by linarith
        calc _ ≤ W * (hi - lo) ^ 2 * (W * (huberNext tau xs mu - mu) ^ 2) := h1
          _ ≤ W * (hi - lo) ^ 2 * (2 * (huberLossAt tau xs mu - huberLossAt tau xs (huberNext tau xs mu))) :=
              mul_le_mul_of_nonneg_left h2 (mul_nonneg hW.1.le (sq_nonneg _))
          _ ≤ xs.length * (hi - lo) ^ 2 * (2 * (huberLossAt tau xs mu - huberLossAt tau xs (huberNext tau xs mu))) :=
              mul_le_mul_of_nonneg_right (mul_le_mul_of_nonneg_right hW.2 (sq_nonneg _)) (by linarith)
          _ = _ := by ring
      have hk' := rate h hsq (by linarith) hk (by positivity)
      obtain ⟨a, b⟩ := ih hrange (k + 1) (by linarith) hk'
      refine ⟨a.trans hle, ?_⟩
      rcases b with b | b
      · exact .inl b
      · refine .inr ?_
        rw [Nat.cast_add, Nat.cast_one, show k + ((n : ℝ) + 1) = k + 1 + n by ring]
        exact b

/-! ## Clamping into the data range -/

private theorem pen_mono {tau r s : ℝ} (ht : 0 < tau) (h : |r| ≤ |s|) : huberPenalty tau r ≤ huberPenalty tau s := by
  unfold huberPenalty
  have hr := abs_nonneg r
  split_ifs with h1 h2 h2
  · nlinarith [sq_abs r, sq_abs s]
  · nlinarith [sq_abs r, sq_abs s, sq_nonneg (|s| - tau), sq_nonneg (|r| - tau)]
  · exact absurd (h.trans h2) h1
  · nlinarith

private theorem clamp {tau : ℝ} (ht : 0 < tau) {xs : List ℝ} {lo hi : ℝ} (hlh : lo ≤ hi) (hlo : ∀ x ∈ xs, lo ≤ x) (hhi : ∀ x ∈ xs, x ≤ hi) (m : ℝ) :
    ∃ m', (lo ≤ m' ∧ m' ≤ hi) ∧ huberLossAt tau xs m' ≤ huberLossAt tau xs m := by
  refine ⟨max lo (min m hi), ⟨le_max_left _ _, max_le hlh (min_le_right _ _)⟩, List.sum_le_sum fun x hx => pen_mono ht ?_⟩
  have h1 := hlo x hx
  have h2 := hhi x hx
  rcases le_total m hi with a | a
  · rw [min_eq_left a]
    rcases le_total lo m with b | b
    · rw [max_eq_right b]
    · rw [max_eq_left b, abs_of_nonneg (by linarith), abs_of_nonneg (by linarith)]
      linarith
  · rw [min_eq_right a, max_eq_right hlh, abs_of_nonpos (by linarith), abs_of_nonpos (by linarith)]
    linarith

/-! ## The threshold -/

private theorem tau_ge {xs : List ℝ} (hn : 2 ≤ xs.length) {mad : ℝ} (hmad : 0 ≤ mad) :
    1 / 10 ^ 12 ≤ (1.4826 * mad + 1 / 10 ^ 12) * Real.sqrt ((xs.length : ℝ) / max (Real.log (max (xs.length : ℝ) 3)) 2) := by
  have hn' : (2 : ℝ) ≤ xs.length := by exact_mod_cast hn
  generalize (xs.length : ℝ) = n at hn' ⊢
  have hmax : max (Real.log (max n 3)) 2 ≤ n := by
    refine max_le ?_ hn'
    rcases le_total n 3 with h | h
    · rw [max_eq_right h]
      have := Real.log_le_sub_one_of_pos (show (0 : ℝ) < 3 by norm_num)
      linarith
    · rw [max_eq_left h]
      have := Real.log_le_sub_one_of_pos (show (0 : ℝ) < n by linarith)
      linarith
  have hpos : 0 < max (Real.log (max n 3)) 2 := lt_max_of_lt_right (by norm_num)
  have h1 : 1 ≤ Real.sqrt (n / max (Real.log (max n 3)) 2) := by
    rw [Real.one_le_sqrt, le_div_iff₀ hpos, one_mul]
    exact hmax
  have h2 : (0 : ℝ) ≤ 1.4826 * mad := mul_nonneg (by norm_num) hmad
  have h3 : (1 : ℝ) / 10 ^ 12 ≤ 1.4826 * mad + 1 / 10 ^ 12 := by linarith
  calc (1 : ℝ) / 10 ^ 12 ≤ 1.4826 * mad + 1 / 10 ^ 12 := h3
    _ ≤ _ := le_mul_of_one_le_right (by linarith [show (0 : ℝ) < 1 / 10 ^ 12 by positivity]) h1


private theorem mad_nonneg {xs : List ℝ} {m mad : ℝ} (h : IsMedian (xs.map fun x => |x - m|) mad) : 0 ≤ mad := by
  have hne : xs.map (fun x => |x - m|) ≠ [] := by
    rintro e
    obtain ⟨s, hp, -, a, b, ha, -, -⟩ := h
    rw [e] at hp
    rw [List.perm_nil.1 hp] at ha
    cases ha
  refine median_abs_nonneg ?_ (isMedian_median hne h)
  intro x hx
  rw [List.mem_map] at hx
  obtain ⟨y, -, rfl⟩ := hx
  exact abs_nonneg _

private theorem column_eq {xs : List ℝ} {tau : ℝ} (hne : xs ≠ []) (h : IsHuberThreshold xs tau) (tol : ℝ) (n : ℕ) :
    ∃ m, IsMedian xs m ∧ huberColumn tol n xs = some (huberLoop tau tol xs n m) := by
  obtain ⟨m, mad, hm, hmad, rfl⟩ := h
  refine ⟨m, hm, ?_⟩
  unfold huberColumn
  rw [isMedian_median hne hm]
  dsimp only
  rw [isMedian_median (by simpa using hne) hmad]

/-- A non-empty list has exactly one threshold. -/
theorem C258_threshold {xs : List ℝ} (hne : xs ≠ []) : ∃! tau, IsHuberThreshold xs tau := by
  obtain ⟨m, hm⟩ := median_isSome hne
  obtain ⟨mad, hmad⟩ := median_isSome (l := xs.map (fun x => |x - m|)) (by simpa using hne)
  refine ⟨_, ⟨m, mad, median_isMedian hm, median_isMedian hmad, rfl⟩, ?_⟩
  rintro tau ⟨m', mad', h1, h2, rfl⟩
  have := isMedian_unique h1 (median_isMedian hm)
  subst this
  have := isMedian_unique h2 (median_isMedian hmad)
  subst this
  rfl

private theorem column_loss {xs : List ℝ} (hne : xs ≠ []) {tau : ℝ} (htau : IsHuberThreshold xs tau) {tol : ℝ} (htol : 0 ≤ tol) (n : ℕ) :
    ∃ out, huberColumn tol n xs = some out ∧
      (∀ m, IsMedian xs m → huberLossAt tau xs out ≤ huberLossAt tau xs m) ∧
      ∀ lo hi, (∀ x ∈ xs, lo ≤ x) → (∀ x ∈ xs, x ≤ hi) → ∀ m,
        huberLossAt tau xs out - huberLossAt tau xs m ≤ xs.length * (tol * (1 + max |lo| |hi|) * (hi - lo)) ∨
          n * (huberLossAt tau xs out - huberLossAt tau xs m) ≤ 2 * xs.length * (hi - lo) ^ 2 := by
  obtain ⟨med, hmed, hcol⟩ := column_eq hne htau tol n
  refine ⟨_, hcol, ?_⟩
  have hlen := List.length_pos_iff.mpr hne
  have htau0 : 0 < tau := by
    obtain ⟨m, mad, -, hmad, rfl⟩ := htau
    have h0 := mad_nonneg hmad
    have hl : (0 : ℝ) < xs.length := by exact_mod_cast hlen
    refine mul_pos ?_ (Real.sqrt_pos.mpr (div_pos hl (lt_max_of_lt_right (by norm_num))))
    have : (0:ℝ) < 1 / 10 ^ 12 := by positivity
    have : 0 ≤ 1.4826 * mad := mul_nonneg (by norm_num) h0
    linarith
  have main : ∀ lo hi, (∀ x ∈ xs, lo ≤ x) → (∀ x ∈ xs, x ≤ hi) →
      huberLossAt tau xs (huberLoop tau tol xs n med) ≤ huberLossAt tau xs med ∧ ∀ m,
        huberLossAt tau xs (huberLoop tau tol xs n med) - huberLossAt tau xs m ≤ xs.length * (tol * (1 + max |lo| |hi|) * (hi - lo)) ∨
          n * (huberLossAt tau xs (huberLoop tau tol xs n med) - huberLossAt tau xs m) ≤ 2 * xs.length * (hi - lo) ^ 2 := by
    intro lo hi hlo hhi
    have hr := median_mem_range (isMedian_median hne hmed) hlo hhi
    have hlh : lo ≤ hi := hr.1.trans hr.2
    rcases Nat.lt_or_ge 1 xs.length with h2 | h1
    · have ht : 1 / 10 ^ 12 ≤ tau := by
        obtain ⟨m, mad, -, hmad, rfl⟩ := htau
        exact tau_ge h2 (mad_nonneg hmad)
      have go := fun m hm => loop_bound (tol := tol) ht htol hne hlo hhi (B := max |lo| |hi|) (fun y h1 h2 => abs_le_max_abs_abs h1 h2) (m := m) hm n hr 0
        le_rfl (by rw [zero_mul]; positivity)
      refine ⟨(go lo ⟨le_rfl, hlh⟩).1, fun m => ?_⟩
      obtain ⟨m', hm', hle⟩ := clamp htau0 hlh hlo hhi m
      rcases (go m' hm').2 with h | h
      · exact .inl (by linarith)
      · refine .inr (le_trans ?_ h)
        rw [zero_add]
        exact mul_le_mul_of_nonneg_left (by linarith) (by positivity)
    · obtain ⟨x, rfl⟩ : ∃ x, xs = [x] := List.length_eq_one_iff.1 (by omega)
      have hx : huberLoop tau tol [x] n med = x := by
        have hr := median_mem_range (isMedian_median hne hmed) (lo := x) (hi := x) (by simp) (by simp)
        have := huberLoop_range (tol := tol) htau0 hne (lo := x) (hi := x) (by simp) (by simp) n hr
        exact le_antisymm this.2 this.1
      have hz : huberLossAt tau [x] x = 0 := by simp [huberLossAt, huberPenalty, htau0.le]
      have hp : ∀ m, 0 ≤ huberLossAt tau [x] m := by
        intro m
        have := pen_mono htau0 (r := 0) (s := x - m) (by simp)
        simp only [huberLossAt, List.map_cons, List.map_nil, List.sum_cons, List.sum_nil, add_zero]
        refine le_trans ?_ this
        simp [huberPenalty, htau0.le]
      rw [hx, hz]
      refine ⟨hp med, fun m => .inl ?_⟩
      have h3 : (0 : ℝ) ≤ (([x] : List ℝ).length : ℝ) * (tol * (1 + max |lo| |hi|) * (hi - lo)) := by
        have : 0 ≤ hi - lo := by linarith
        positivity
      linarith [hp m]
  have hex : ∃ lo hi, (∀ x ∈ xs, lo ≤ x) ∧ (∀ x ∈ xs, x ≤ hi) := by
    obtain ⟨hi, hhi⟩ := (List.finite_toSet xs).bddAbove
    obtain ⟨lo, hlo⟩ := (List.finite_toSet xs).bddBelow
    exact ⟨lo, hi, fun x hx => hlo hx, fun x hx => hhi hx⟩
  obtain ⟨lo, hi, hlo, hhi⟩ := hex
  refine ⟨fun m hm => ?_, fun lo hi hlo hhi m => (main lo hi hlo hhi).2 m⟩
  rw [isMedian_unique hm hmed]
  exact (main lo hi hlo hhi).1

/-- **C258** For every panel with at least one row, every column, tolerance and iteration limit, the Huber mean is at least as
good, in Huber's loss at the adaptive threshold, as the median, and its loss exceeds the loss of any other location by no more than
the larger of `2·T·range²/max_iter` and `T·tol·(1 + largest observation)·range`. -/
theorem C258_huber (x : Fin T → Fin N → ℝ) (hT : 0 < T) (i : Fin N) {tol : ℝ} (htol : 0 ≤ tol) {maxIter : ℕ} (hmax : 0 < maxIter) {tau : ℝ}
    (htau : IsHuberThreshold (List.ofFn fun t => x t i) tau) :
    (∀ m, IsMedian (List.ofFn fun t => x t i) m →
      huberLossAt tau (List.ofFn fun t => x t i) (huberMean tol maxIter x i) ≤ huberLossAt tau (List.ofFn fun t => x t i) m) ∧
    ∀ lo hi, (∀ t, lo ≤ x t i ∧ x t i ≤ hi) → ∀ m,
      huberLossAt tau (List.ofFn fun t => x t i) (huberMean tol maxIter x i) ≤ huberLossAt tau (List.ofFn fun t => x t i) m +
        max (T * (tol * (1 + max |lo| |hi|) * (hi - lo))) (2 * T * (hi - lo) ^ 2 / maxIter) := by
  have hne : (List.ofFn fun t => x t i) ≠ [] := by
    intro e
    have := congrArg List.length e
    rw [List.length_ofFn, List.length_nil] at this
    omega
  obtain ⟨out, hout, h1, h2⟩ := column_loss hne htau htol maxIter
  have e : huberMean tol maxIter x i = out := by rw [huberMean, hout]; rfl
  rw [e]
  refine ⟨h1, fun lo hi hb m => ?_⟩
  have hm' : (0 : ℝ) < maxIter := by exact_mod_cast hmax
  rcases h2 lo hi (by simp only [List.forall_mem_ofFn_iff]; exact fun t => (hb t).1) (by simp only [List.forall_mem_ofFn_iff]; exact fun t => (hb t).2) m with h | h
  · rw [List.length_ofFn] at h
    have := le_max_left (T * (tol * (1 + max |lo| |hi|) * (hi - lo))) (2 * T * (hi - lo) ^ 2 / maxIter)
    linarith
  · rw [List.length_ofFn] at h
    have := le_max_right (T * (tol * (1 + max |lo| |hi|) * (hi - lo))) (2 * T * (hi - lo) ^ 2 / maxIter)
    have h3 : huberLossAt tau (List.ofFn fun t => x t i) out - huberLossAt tau (List.ofFn fun t => x t i) m ≤ 2 * T * (hi - lo) ^ 2 / maxIter := by
      rw [le_div_iff₀ hm', mul_comm]; exact h
    linarith

/-- **C258** (through `estimate_moments`) The mean reported under the key `huber` is that estimate, column by column. -/
theorem C258_estimate {T' : ℕ} {ext : Ext T N} {R : Panel T N} {p : Option (ProbVec T')} {mk ck : String} {mkw : MeanKw T N}
    {ckw : CovKw N} {mu : MeanOut N} {S : CovOut N} (h : estimateMoments ext R p mk ck mkw ckw = .ok (mu, S))
    (hmk : mk.toLower ∈ ["huber", "robust_huber"]) (hT : 0 < T) (htol : 0 ≤ mkw.tol) (hmax : 0 < mkw.maxIter) (i : Fin N) {tau : ℝ}
    (htau : IsHuberThreshold (List.ofFn fun t => R.x t i) tau) {lo hi : ℝ} (hb : ∀ t, lo ≤ R.x t i ∧ R.x t i ≤ hi) (m : ℝ) :
    huberLossAt tau (List.ofFn fun t => R.x t i) (mu.v i) ≤ huberLossAt tau (List.ofFn fun t => R.x t i) m +
        max (T * (mkw.tol * (1 + max |lo| |hi|) * (hi - lo))) (2 * T * (hi - lo) ^ 2 / mkw.maxIter) := by
  obtain ⟨_, _, -, -, -, -, hh, -⟩ := C127_mean h
  have := (C258_huber R.x hT i htol hmax htau).2 lo hi hb m
  rwa [huberMean, hh hmk hT i] at this

/-- The observations 0 and 2: median 1, median absolute deviation 1, threshold 1.4826 (plus `1e-12`). -/
example : IsHuberThreshold (List.ofFn fun t : Fin 2 => (![![0], ![2]] : Fin 2 → Fin 1 → ℝ) t 0) (1.4826 + 1 / 10 ^ 12) := by
  have e : (List.ofFn fun t : Fin 2 => (![![0], ![2]] : Fin 2 → Fin 1 → ℝ) t 0) = [0, 2] := by simp
  rw [e]
  refine ⟨1, 1, ⟨[0, 2], .refl _, by simp, 0, 2, rfl, rfl, by norm_num⟩,
    ⟨[1, 1], ?_, by simp, 1, 1, rfl, rfl, by norm_num⟩, ?_⟩
  · have : ([0, 2] : List ℝ).map (fun x => |x - 1|) = [1, 1] := by norm_num
    rw [this]
  · have h3 : Real.log 3 ≤ 2 := by
      have := Real.log_le_sub_one_of_pos (show (0 : ℝ) < 3 by norm_num)
      linarith
    have e2 : ((([0, 2] : List ℝ).length : ℕ) : ℝ) = 2 := by norm_num
    rw [e2, max_eq_right (show (2 : ℝ) ≤ 3 by norm_num), max_eq_right h3, div_self (by norm_num), Real.sqrt_one]
    ring

end PyV.Props
