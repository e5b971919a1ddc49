import Verif.Model.Py
import Mathlib.Data.Fintype.Lattice

namespace PyV

variable {n : ℕ} {K : Type*} [LinearOrder K]

theorem firstArgmax_spec {f : Fin n → K} {c : Fin n} (h : firstArgmax f = some c) : ∀ j, f j ≤ f c := by
  have := List.find?_some h
  simpa using this

theorem firstArgmin_spec {f : Fin n → K} {c : Fin n} (h : firstArgmin f = some c) : ∀ j, f c ≤ f j := by
  have := List.find?_some h
  simpa using this

theorem exists_max (hn : 0 < n) (f : Fin n → K) : ∃ i, ∀ j, f j ≤ f i := by
  have : Nonempty (Fin n) := ⟨⟨0, hn⟩⟩
  exact Finite.exists_max f

theorem exists_min (hn : 0 < n) (f : Fin n → K) : ∃ i, ∀ j, f i ≤ f j := by
  have : Nonempty (Fin n) := ⟨⟨0, hn⟩⟩
  exact Finite.exists_min f

theorem firstArgmax_ne_none (hn : 0 < n) (f : Fin n → K) : ∃ c, firstArgmax f = some c := by
  obtain ⟨i, hi⟩ := exists_max hn f
  have : (firstArgmax f).isSome := by
    unfold firstArgmax
    rw [List.find?_isSome]
    exact ⟨i, List.mem_finRange i, by simpa using hi⟩
  exact Option.isSome_iff_exists.mp this

theorem firstArgmin_ne_none (hn : 0 < n) (f : Fin n → K) : ∃ c, firstArgmin f = some c := by
  obtain ⟨i, hi⟩ := exists_min hn f
  have : (firstArgmin f).isSome := by
    unfold firstArgmin
    rw [List.find?_isSome]
    exact ⟨i, List.mem_finRange i, by simpa using hi⟩
  exact Option.isSome_iff_exists.mp this

private theorem find_first {l : List (Fin n)} (hl : l.Pairwise (· < ·)) {P : Fin n → Bool} {c : Fin n}
    (h : l.find? P = some c) : ∀ j ∈ l, j < c → P j = false := by
  induction l with
  | nil => simp at h
  | cons a l ih =>
    rw [List.pairwise_cons] at hl
    rw [List.find?_cons] at h
    intro j hj hjc
    cases hP : P a with
    | true =>
      rw [hP] at h
      simp only [Option.some.injEq] at h
      subst h
      rcases List.mem_cons.mp hj with rfl | hj
      · exact absurd hjc (lt_irrefl _)
      · exact absurd (hl.1 j hj) (not_lt.mpr hjc.le)
    | false =>
      rw [hP] at h
      rcases List.mem_cons.mp hj with rfl | hj
      · exact hP
      · exact ih hl.2 h j hj hjc

theorem firstArgmax_first {f : Fin n → K} {c : Fin n} (h : firstArgmax f = some c) :
    ∀ j, j < c → f j < f c := by
  intro j hj
  have h1 := find_first (List.pairwise_lt_finRange n) h j (List.mem_finRange j) hj
  simp only [decide_eq_false_iff_not, not_forall, not_le] at h1
  obtain ⟨k, hk⟩ := h1
  exact lt_of_lt_of_le hk (firstArgmax_spec h k)

theorem firstArgmin_first {f : Fin n → K} {c : Fin n} (h : firstArgmin f = some c) :
    ∀ j, j < c → f c < f j := by
  intro j hj
  have h1 := find_first (List.pairwise_lt_finRange n) h j (List.mem_finRange j) hj
  simp only [decide_eq_false_iff_not, not_forall, not_le] at h1
  obtain ⟨k, hk⟩ := h1
  exact lt_of_le_of_lt (firstArgmin_spec h k) hk

end PyV
