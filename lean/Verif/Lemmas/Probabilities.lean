import Verif.Model.Probabilities
import Verif.Lemmas.Gibbs
import Mathlib.Tactic.Linarith
import Mathlib.Tactic.Ring
import Mathlib.Tactic.NormNum
import Mathlib.Algebra.BigOperators.Field
import Mathlib.Algebra.Order.BigOperators.Group.List
import Mathlib.Algebra.BigOperators.Ring.List

set_option linter.unusedSectionVars false

namespace PyV.Probs

open PyV PyV.Spec

section field
variable {K : Type*} [Field K] [LinearOrder K] [IsStrictOrderedRing K]

theorem sum_map_div (l : List K) (c : K) : (l.map (· / c)).sum = l.sum / c := by
  induction l with
  | nil => simp
  | cons a l ih => simp [ih, add_div]

/-- All checks of `normalize`, as conditions on the input. -/
structure Acceptable (xs : List (PyFloat K)) (strict : Bool) : Prop where
  ne : xs ≠ []
  finite : ∀ x ∈ xs, ∃ v, x = .fin v
  sign : ∀ v, PyFloat.fin v ∈ xs → (strict = true → 0 < v) ∧ 0 ≤ v
  pos : 0 < (xs.map PyFloat.val).sum

theorem isFinite_iff {x : PyFloat K} : x.isFinite = true ↔ ∃ v, x = .fin v := by
  cases x <;> simp [PyFloat.isFinite]

theorem normalize_ok_iff {xs : List (PyFloat K)} {strict : Bool} {ps : List K} :
    normalize xs strict = .ok ps ↔ Acceptable xs strict ∧
      ps = (if isclose1 (xs.map PyFloat.val).sum then xs.map PyFloat.val
        else (xs.map PyFloat.val).map (· / (xs.map PyFloat.val).sum)) := by
  unfold normalize
  by_cases h1 : xs = []
  · subst h1
    simp only [List.isEmpty_nil, if_true]
    constructor
    · intro h; cases h
    · rintro ⟨h, -⟩; exact absurd rfl h.ne
  rw [if_neg (by simpa using h1)]
  by_cases h2 : ∀ x ∈ xs, ∃ v, x = PyFloat.fin v
  swap
  · have : ¬ xs.all PyFloat.isFinite = true := by
      intro h; apply h2; intro x hx
      exact isFinite_iff.mp (List.all_eq_true.mp h x hx)
    rw [if_pos this]
    constructor
    · intro h; cases h
    · rintro ⟨h, -⟩; exact absurd h.finite h2
  have h2' : xs.all PyFloat.isFinite = true := List.all_eq_true.mpr fun x hx => isFinite_iff.mpr (h2 x hx)
  rw [if_neg (not_not.mpr h2')]
  by_cases h3 : strict = true ∧ ∃ v, PyFloat.fin v ∈ xs ∧ v ≤ 0
  · obtain ⟨hs, v, hv, hle⟩ := h3
    have : (strict && xs.any (fun x => x.le (.fin 0))) = true := by
      rw [hs, Bool.true_and, List.any_eq_true]
      exact ⟨_, hv, by simp [PyFloat.le, hle]⟩
    rw [if_pos this]
    constructor
    · intro h; cases h
    · rintro ⟨h, -⟩; exact absurd ((h.sign v hv).1 hs) (not_lt.mpr hle)
  have h3' : ¬ (strict && xs.any (fun x => x.le (.fin 0))) = true := by
    rw [Bool.and_eq_true, List.any_eq_true]
    rintro ⟨hs, x, hx, hle⟩
    obtain ⟨v, rfl⟩ := h2 x hx
    exact h3 ⟨hs, v, hx, by simpa [PyFloat.le] using hle⟩
  rw [if_neg h3']
  by_cases h4 : strict = false ∧ ∃ v, PyFloat.fin v ∈ xs ∧ v < 0
  · obtain ⟨hs, v, hv, hlt⟩ := h4
    have : (!strict && xs.any (fun x => x.lt (.fin 0))) = true := by
      rw [hs, Bool.not_false, Bool.true_and, List.any_eq_true]
      exact ⟨_, hv, by simp [PyFloat.lt, hlt]⟩
    rw [if_pos this]
    constructor
    · intro h; cases h
    · rintro ⟨h, -⟩; exact absurd (h.sign v hv).2 (not_le.mpr hlt)
  have h4' : ¬ (!strict && xs.any (fun x => x.lt (.fin 0))) = true := by
    rw [Bool.and_eq_true, List.any_eq_true]
    rintro ⟨hs, x, hx, hlt⟩
    obtain ⟨v, rfl⟩ := h2 x hx
    exact h4 ⟨by simpa using hs, v, hx, by simpa [PyFloat.lt] using hlt⟩
  rw [if_neg h4']
  have hsign : ∀ v, PyFloat.fin v ∈ xs → (strict = true → 0 < v) ∧ 0 ≤ v := by
    intro v hv
    cases hs : strict with
    | true =>
      have : 0 < v := by
        by_contra hc; exact h3 ⟨hs, v, hv, not_lt.mp hc⟩
      exact ⟨fun _ => this, this.le⟩
    | false =>
      refine ⟨fun h => (by cases h), ?_⟩
      by_contra hc; exact h4 ⟨hs, v, hv, not_le.mp hc⟩
  simp only
  by_cases h5 : (xs.map PyFloat.val).sum ≤ 0
  · rw [if_pos h5]
    constructor
    · intro h; cases h
    · rintro ⟨h, -⟩; exact absurd h.pos (not_lt.mpr h5)
  rw [if_neg h5]
  have hacc : Acceptable xs strict := ⟨h1, h2, hsign, not_le.mp h5⟩
  cases hc : isclose1 (xs.map PyFloat.val).sum with
  | true =>
    simp only [Bool.not_true, Bool.false_eq_true, if_false, if_true, Except.ok.injEq, hacc, true_and]
    exact eq_comm
  | false =>
    simp only [Bool.not_false, if_true, Bool.false_eq_true, if_false, Except.ok.injEq, hacc, true_and]
    exact eq_comm

theorem normalize_error {xs : List (PyFloat K)} {strict : Bool} {e : PyErr} (h : normalize xs strict = .error e) :
    e = .valueError := by
  unfold normalize at h
  simp only at h
  repeat' split at h
  all_goals first
    | (injection h with h; exact h.symm)
    | cases h

theorem map_val_eq {xs : List (PyFloat K)} (h : ∀ x ∈ xs, ∃ v, x = PyFloat.fin v) :
    (xs.map PyFloat.val).map PyFloat.fin = xs := by
  rw [List.map_map]
  conv_rhs => rw [← List.map_id xs]
  apply List.map_congr_left
  intro x hx
  obtain ⟨v, rfl⟩ := h x hx
  rfl

end field

theorem log2_pos : (0:ℝ) < Real.log 2 := Real.log_pos (by norm_num)

end PyV.Probs
