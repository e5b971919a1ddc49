import Verif.Spec.Frontier
import Verif.Lemmas.Py
import Verif.Lemmas.Envelope

/-! # Selection lemmas -/

namespace PyV.Fr

open PyV PyV.Spec.Frontier

variable {K : Type*} [Field K] [LinearOrder K] [IsStrictOrderedRing K] {N M : ℕ} {L : Type*} [DecidableEq L]

theorem riskVector_ok {f : Frontier L K N M} {label : Option L} {r : Fin M → K} :
    f.riskVector label = .ok r ↔ RiskUnder f label r := by
  cases label with
  | none => simp only [Frontier.riskVector, RiskUnder]; constructor <;> simp [eq_comm]
  | some l =>
    simp only [Frontier.riskVector, RiskUnder]
    by_cases h : l = f.riskMeasure
    · subst h; simp [eq_comm]
    · rw [if_neg h]
      cases hl : f.alternates.lookup l with
      | none => simp [h, hl]
      | some r' => simp [h, hl]

theorem riskVector_err {f : Frontier L K N M} {label : Option L} :
    (∀ r, ¬ RiskUnder f label r) → f.riskVector label = .error .keyError := by
  intro h
  cases label with
  | none => exact absurd (Or.inl ⟨Or.inl rfl, rfl⟩) (h f.risks)
  | some l =>
    simp only [Frontier.riskVector]
    by_cases hl : l = f.riskMeasure
    · exact absurd (Or.inl ⟨Or.inr (by rw [hl]), rfl⟩) (h f.risks)
    · rw [if_neg hl]
      cases hk : f.alternates.lookup l with
      | none => rfl
      | some r' => exact absurd (Or.inr ⟨l, rfl, hl, hk⟩) (h r')

private theorem find_first {l : List (Fin M)} (hl : l.Pairwise (· < ·)) {P : Fin M → Bool} {c : Fin M}
    (h : l.find? P = some c) : ∀ j ∈ l, j < c → P j = false := by
  induction l with
  | nil => simp at h
  | cons a l ih =>
    rw [List.pairwise_cons] at hl
    rw [List.find?_cons] at h
    intro j hj hjc
    cases hP : P a with
    | true =>
      rw [hP] at h
      simp only [Option.some.injEq] at h
      subst h
      rcases List.mem_cons.mp hj with rfl | hj
      · exact absurd hjc (lt_irrefl _)
      · exact absurd (hl.1 j hj) (not_lt.mpr hjc.le)
    | false =>
      rw [hP] at h
      rcases List.mem_cons.mp hj with rfl | hj
      · exact hP
      · exact ih hl.2 h j hj hjc

theorem FirstMin.unique {V : Type*} [LinearOrder V] {S : Fin M → Prop} {v : Fin M → V} {i j : Fin M} (hi : FirstMin S v i)
    (hj : FirstMin S v j) : i = j := by
  rcases lt_trichotomy i j with h | h | h
  · exact absurd (hj.2.2 i h hi.1) (not_lt.mpr (hi.2.1 j hj.1))
  · exact h
  · exact absurd (hi.2.2 j h hj.1) (not_lt.mpr (hj.2.1 i hi.1))

theorem FirstMax.unique {V : Type*} [LinearOrder V] {S : Fin M → Prop} {v : Fin M → V} {i j : Fin M} (hi : FirstMax S v i)
    (hj : FirstMax S v j) : i = j := by
  rcases lt_trichotomy i j with h | h | h
  · exact absurd (hj.2.2 i h hi.1) (not_lt.mpr (hi.2.1 j hj.1))
  · exact h
  · exact absurd (hi.2.2 j h hj.1) (not_lt.mpr (hj.2.1 i hi.1))

theorem firstArgmin_iff {V : Type*} [LinearOrder V] {v : Fin M → V} {i : Fin M} :
    firstArgmin v = some i ↔ FirstMin (fun _ => True) v i := by
  constructor
  · intro h
    exact ⟨trivial, fun j _ => firstArgmin_spec h j, fun j hj _ => firstArgmin_first h j hj⟩
  · intro h
    obtain ⟨c, hc⟩ := firstArgmin_ne_none i.pos v
    rw [hc]
    congr 1
    exact FirstMin.unique (S := fun _ => True)
      ⟨trivial, fun j _ => firstArgmin_spec hc j, fun j hj _ => firstArgmin_first hc j hj⟩ h

theorem firstArgmax_iff {V : Type*} [LinearOrder V] {v : Fin M → V} {i : Fin M} :
    firstArgmax v = some i ↔ FirstMax (fun _ => True) v i := by
  constructor
  · intro h
    exact ⟨trivial, fun j _ => firstArgmax_spec h j, fun j hj _ => firstArgmax_first h j hj⟩
  · intro h
    obtain ⟨c, hc⟩ := firstArgmax_ne_none i.pos v
    rw [hc]
    congr 1
    exact FirstMax.unique (S := fun _ => True)
      ⟨trivial, fun j _ => firstArgmax_spec hc j, fun j hj _ => firstArgmax_first hc j hj⟩ h

theorem argminOn_none {S : Fin M → Bool} {v : Fin M → K} : argminOn S v = none ↔ ∀ i, S i = false := by
  constructor
  · intro h i
    by_contra hi
    simp only [Bool.not_eq_false] at hi
    obtain ⟨m, hm, hmin⟩ := Finset.exists_min_image (Finset.univ.filter (fun j => S j = true)) v ⟨i, by simp [hi]⟩
    have := List.find?_eq_none.mp h m (List.mem_finRange m)
    simp only [Finset.mem_filter, Finset.mem_univ, true_and] at hm hmin
    simp only [hm, Bool.true_and, decide_eq_true_eq] at this
    exact this hmin
  · intro h
    rw [argminOn, List.find?_eq_none]
    intro i _
    simp [h i]

theorem argminOn_iff {S : Fin M → Bool} {v : Fin M → K} {i : Fin M} :
    argminOn S v = some i ↔ FirstMin (fun j => S j = true) v i := by
  have fwd : ∀ i, argminOn S v = some i → FirstMin (fun j => S j = true) v i := by
    intro i h
    have h1 := List.find?_some h
    simp only [Bool.and_eq_true, decide_eq_true_eq] at h1
    refine ⟨h1.1, h1.2, ?_⟩
    intro j hj hS
    have h2 := find_first (List.pairwise_lt_finRange M) h j (List.mem_finRange j) hj
    simp only [hS, Bool.true_and, decide_eq_false_iff_not, not_forall, not_le] at h2
    obtain ⟨k, hk, hlt⟩ := h2
    exact lt_of_le_of_lt (h1.2 k hk) hlt
  refine ⟨fwd i, fun h => ?_⟩
  cases hc : argminOn S v with
  | none => exact absurd (argminOn_none.mp hc i) (by rw [h.1]; simp)
  | some c => rw [FirstMin.unique (fwd c hc) h]

theorem argmaxOn_none {S : Fin M → Bool} {v : Fin M → K} : argmaxOn S v = none ↔ ∀ i, S i = false := by
  constructor
  · intro h i
    by_contra hi
    simp only [Bool.not_eq_false] at hi
    obtain ⟨m, hm, hmin⟩ := Finset.exists_max_image (Finset.univ.filter (fun j => S j = true)) v ⟨i, by simp [hi]⟩
    have := List.find?_eq_none.mp h m (List.mem_finRange m)
    simp only [Finset.mem_filter, Finset.mem_univ, true_and] at hm hmin
    simp only [hm, Bool.true_and, decide_eq_true_eq] at this
    exact this hmin
  · intro h
    rw [argmaxOn, List.find?_eq_none]
    intro i _
    simp [h i]

theorem argmaxOn_iff {S : Fin M → Bool} {v : Fin M → K} {i : Fin M} :
    argmaxOn S v = some i ↔ FirstMax (fun j => S j = true) v i := by
  have fwd : ∀ i, argmaxOn S v = some i → FirstMax (fun j => S j = true) v i := by
    intro i h
    have h1 := List.find?_some h
    simp only [Bool.and_eq_true, decide_eq_true_eq] at h1
    refine ⟨h1.1, h1.2, ?_⟩
    intro j hj hS
    have h2 := find_first (List.pairwise_lt_finRange M) h j (List.mem_finRange j) hj
    simp only [hS, Bool.true_and, decide_eq_false_iff_not, not_forall, not_le] at h2
    obtain ⟨k, hk, hlt⟩ := h2
    exact lt_of_lt_of_le hlt (h1.2 k hk)
  refine ⟨fwd i, fun h => ?_⟩
  cases hc : argmaxOn S v with
  | none => exact absurd (argmaxOn_none.mp hc i) (by rw [h.1]; simp)
  | some c => rw [FirstMax.unique (fwd c hc) h]

theorem pick_iff {f : Frontier L K N M} {r : Fin M → K} {i : Fin M} {p : Pick K N} : f.pick r i = p ↔ Reports f r i p := by
  cases p with
  | mk w ret risk =>
    simp only [Frontier.pick, Reports, Pick.mk.injEq, funext_iff, eq_comm]

end PyV.Fr
