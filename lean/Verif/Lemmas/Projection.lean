import Verif.Model.Projection
import Verif.Lemmas.Ensembles
import Mathlib.Algebra.Order.BigOperators.Group.List
import Mathlib.Algebra.Order.Field.Basic
import Mathlib.Tactic.Linarith
import Mathlib.Tactic.FieldSimp
import Mathlib.Tactic.Ring

set_option linter.unusedSectionVars false

namespace PyV.Proj

open PyV

variable {K : Type*} [Field K] [LinearOrder K] [IsStrictOrderedRing K] {T N : ℕ}

/-- The count of a downward closed predicate over `0..L-1` marks where it stops holding. -/
theorem count_down (P : ℕ → Bool) (hP : ∀ t, P (t + 1) = true → P t = true) (L : ℕ) :
    ((List.range L).filter P).length ≤ L ∧ ∀ t < L, P t = true ↔ t < ((List.range L).filter P).length := by
  have hdown : ∀ s t, s ≤ t → P t = true → P s = true := by
    intro s t hst
    induction t, hst using Nat.le_induction with
    | base => exact id
    | succ n _ ih => exact fun h => ih (hP n h)
  induction L with
  | zero => simp
  | succ L ih =>
    obtain ⟨h1, h2⟩ := ih
    rw [List.range_succ, List.filter_append, List.length_append]
    by_cases hL : P L = true
    · have hall : ((List.range L).filter P) = List.range L :=
        List.filter_eq_self.mpr (fun a ha => hdown a L (List.mem_range.mp ha).le hL)
      rw [hall]
      simp only [List.length_range, List.filter_cons, hL, if_true, List.filter_nil, List.length_singleton]
      exact ⟨le_refl _, fun t ht => ⟨fun _ => ht, fun _ => hdown t L (by omega) hL⟩⟩
    · simp only [List.filter_cons, hL, List.filter_nil]
      simp only [Bool.false_eq_true, if_false, List.length_nil, Nat.add_zero]
      refine ⟨by omega, fun t ht => ?_⟩
      rcases Nat.lt_succ_iff_lt_or_eq.mp ht with h | rfl
      · exact h2 t h
      · exact ⟨fun h => absurd h hL, fun h => absurd h (by omega)⟩

theorem take_sum_mono {w : List K} (hw : ∀ x ∈ w, 0 ≤ x) (t : ℕ) : (w.take t).sum ≤ (w.take (t + 1)).sum := by
  rw [List.take_add_one, List.sum_append]
  have : 0 ≤ (w[t]?.toList).sum := by
    apply List.sum_nonneg
    intro x hx
    cases h : w[t]? with
    | none => rw [h] at hx; simp at hx
    | some y =>
      rw [h] at hx
      simp only [Option.toList_some, List.mem_singleton] at hx
      subst hx
      exact hw _ (List.mem_of_getElem? h)
  linarith

/-- Inversion of the cumulative distribution: row `t` is drawn exactly for the uniform numbers of its own interval. -/
theorem searchRight_iff {w : List K} (hw : ∀ x ∈ w, 0 ≤ x) (hs : 0 < w.sum) {u : K} (h0 : 0 ≤ u) (h1 : u < 1) (t : ℕ) :
    searchRight w u = t ↔ t < w.length ∧ (w.take t).sum / w.sum ≤ u ∧ u < (w.take (t + 1)).sum / w.sum := by
  have hP : ∀ t, decide (cdf w (t + 1) ≤ u) = true → decide (cdf w t ≤ u) = true := by
    intro t h
    simp only [decide_eq_true_eq] at h ⊢
    refine le_trans ?_ h
    exact div_le_div_of_nonneg_right (take_sum_mono hw _) hs.le
  obtain ⟨hle, hiff⟩ := count_down (fun t => decide (cdf w t ≤ u)) hP w.length
  change searchRight w u ≤ w.length at hle
  change ∀ t < w.length, _ ↔ t < searchRight w u at hiff
  have hL : 0 < w.length := by
    rcases Nat.eq_zero_or_pos w.length with h | h
    · rw [List.length_eq_zero_iff] at h; subst h; simp at hs
    · exact h
  have hlt : searchRight w u < w.length := by
    refine lt_of_le_of_ne hle (fun h => ?_)
    have := (hiff (w.length - 1) (by omega)).mpr (by omega)
    simp only [decide_eq_true_eq] at this
    unfold cdf at this
    rw [show w.length - 1 + 1 = w.length by omega, List.take_length, div_self hs.ne'] at this
    linarith
  have hspec : (w.take (searchRight w u)).sum / w.sum ≤ u ∧ u < (w.take (searchRight w u + 1)).sum / w.sum := by
    constructor
    · rcases Nat.eq_zero_or_pos (searchRight w u) with h | h
      · rw [h]; simpa using h0
      · have := (hiff (searchRight w u - 1) (by omega)).mpr (by omega)
        simp only [decide_eq_true_eq] at this
        unfold cdf at this
        rwa [show searchRight w u - 1 + 1 = searchRight w u by omega] at this
    · have : ¬ (decide (cdf w (searchRight w u) ≤ u) = true) := fun h => absurd ((hiff _ hlt).mp h) (lt_irrefl _)
      simp only [decide_eq_true_eq, not_le] at this
      exact this
  constructor
  · rintro rfl; exact ⟨hlt, hspec⟩
  · rintro ⟨ht, ha, hb⟩
    have hmono : ∀ s t, s ≤ t → (w.take s).sum / w.sum ≤ (w.take t).sum / w.sum := by
      intro s t hst
      induction t, hst using Nat.le_induction with
      | base => exact le_refl _
      | succ n _ ih => exact le_trans ih (div_le_div_of_nonneg_right (take_sum_mono hw _) hs.le)
    rcases lt_trichotomy (searchRight w u) t with h | h | h
    · have := hmono (searchRight w u + 1) t h
      linarith [hspec.2]
    · exact h
    · have := hmono (t + 1) (searchRight w u) h
      linarith [hspec.1]

theorem searchRight_pos {w : List K} (hw : ∀ x ∈ w, 0 ≤ x) (hs : 0 < w.sum) {u : K} (h0 : 0 ≤ u) (h1 : u < 1) :
    ∃ x, w[searchRight w u]? = some x ∧ 0 < x := by
  obtain ⟨hlt, ha, hb⟩ := (searchRight_iff hw hs h0 h1 _).mp rfl
  refine ⟨w[searchRight w u], List.getElem?_eq_getElem hlt, ?_⟩
  have h2 : (w.take (searchRight w u)).sum / w.sum < (w.take (searchRight w u + 1)).sum / w.sum := lt_of_le_of_lt ha hb
  rw [div_lt_div_iff_of_pos_right hs, List.take_add_one, List.sum_append, List.getElem?_eq_getElem hlt] at h2
  simpa using h2

theorem cdf_scale (w : List K) {c : K} (hc : c ≠ 0) (t : ℕ) : cdf (w.map (· / c)) t = cdf w t := by
  have hsum : ∀ l : List K, (l.map (· / c)).sum = l.sum / c := by
    intro l
    induction l with
    | nil => simp
    | cons a l ih => simp [ih, add_div]
  unfold cdf
  rw [← List.map_take, hsum, hsum, div_div_div_cancel_right₀ hc]

theorem searchRight_scale (w : List K) {c : K} (hc : c ≠ 0) (u : K) : searchRight (w.map (· / c)) u = searchRight w u := by
  unfold searchRight
  simp only [cdf_scale w hc, List.length_map]

theorem sum_map_div (w : List K) (c : K) : (w.map (· / c)).sum = w.sum / c := by
  induction w with
  | nil => simp
  | cons a l ih => simp [ih, add_div]

/-- What `choice` guarantees about the weights it accepts. -/
theorem choice_ok {n h T : ℕ} {w : List K} {u : Fin n → Fin h → K} {idx : Fin n → Fin h → ℕ} (hc : choice T w u = .ok idx) :
    w.length = T ∧ (∀ x ∈ w, 0 ≤ x) ∧ 0 < w.sum ∧ idx = fun a b => searchRight w (u a b) := by
  unfold choice at hc
  split at hc
  · cases hc
  rename_i h1
  split at hc
  · cases hc
  rename_i h2
  split at hc
  · cases hc
  rename_i h3
  injection hc with hc
  push Not at h1 h3
  refine ⟨h1, ?_, ?_, hc.symm⟩
  · intro x hx
    by_contra hneg
    exact h2 (List.any_eq_true.mpr ⟨x, hx, by simpa using hneg⟩)
  · have := (abs_le.mp h3).1
    have h4 : (1 : K) / 2 ^ 26 < 1 := by norm_num
    linarith

theorem gather_ok {n h : ℕ} {R : Fin T → Fin N → K} {idx : Fin n → Fin h → ℕ} {s} (hg : gather R idx = .ok s) :
    ∃ j : Fin n → Fin h → Fin T, (∀ a b, (j a b : ℕ) = idx a b) ∧ ∀ a b i, s a b i = R (j a b) i := by
  unfold gather at hg
  split at hg
  · rename_i hlt
    injection hg with hg
    exact ⟨fun a b => ⟨idx a b, hlt a b⟩, fun _ _ => rfl, fun a b i => by rw [← hg]; simp [row, hlt a b]⟩
  · cases hg

theorem projWeights_some {v : List (PyFloat K)} {w : List K} (h : projWeights T (some v) = .ok w) :
    v.length = T ∧ (∃ x : List K, v = x.map PyFloat.fin ∧ (∀ y ∈ x, 0 ≤ y) ∧ 0 < x.sum ∧
      ((Probs.isclose1 x.sum = true ∧ w = x) ∨ (Probs.isclose1 x.sum = false ∧ w = x.map (· / x.sum)))) := by
  unfold projWeights at h
  simp only at h
  split at h
  · cases h
  rename_i h1
  split at h
  · cases h
  rename_i h2
  split at h
  · cases h
  rename_i h3
  split at h
  · cases h
  rename_i h4
  push Not at h1 h4
  have hv : v = (v.map PyFloat.val).map PyFloat.fin := by
    rw [List.map_map]
    conv_lhs => rw [← List.map_id v]
    refine List.map_congr_left (fun x hx => ?_)
    simp only [Bool.not_eq_false, List.all_eq_true] at h3
    have := h3 x hx
    cases x <;> simp_all [PyFloat.isFinite, PyFloat.val]
  refine ⟨h1, v.map PyFloat.val, hv, ?_, h4, ?_⟩
  · intro y hy
    by_contra hneg
    apply h2
    rw [hv]
    exact List.any_eq_true.mpr ⟨.fin y, List.mem_map_of_mem hy, by simpa [PyFloat.lt] using hneg⟩
  · split at h
    · rename_i hc; injection h with h; exact .inl ⟨hc, h.symm⟩
    · rename_i hc; injection h with h; exact .inr ⟨by simpa using hc, h.symm⟩

end PyV.Proj
