import Verif.Props.Constraints

set_option linter.unusedSectionVars false

/-! # Property C292: which exception a rejected constraint specification raises -/

namespace PyV.Props

open PyV PyV.Con PyV.Spec.Con

variable {K : Type*} [Field K] [LinearOrder K] [IsStrictOrderedRing K]

/-! ## Specification -/

/-- Every asset a bounds mapping, relative limit or group names exists. -/
structure AssetsExist (nAssets : ℤ) (c : Con.Spec K) : Prop where
  bounds : ∀ l, c.bounds = some (.dict l) → ∀ e ∈ l, 0 ≤ e.1 ∧ e.1 < nAssets
  relative : ∀ e ∈ c.relative, (0 ≤ e.1 ∧ e.1 < nAssets) ∧ 0 ≤ e.2.1 ∧ e.2.1 < nAssets
  groups : ∀ e ∈ c.groups, ∀ i ∈ e.2.1, 0 ≤ i ∧ i < nAssets

/-- Accepted bounds, wherever the assets may be. -/
def BoundsGood (n : ℕ) : Option (Bounds K) → Prop
  | none => True
  | some (.pair lo hi) => PairOK lo hi
  | some (.dict l) => ∀ e ∈ l, PairOK e.2.1 e.2.2
  | some (.seq l) => l.length = n ∧ ∀ e ∈ l, PairOK e.1 e.2

/-- Nothing is wrong with the specification except, perhaps, that it names assets that do not exist. -/
structure NumbersGood (nAssets : ℤ) (c : Con.Spec K) : Prop where
  pos : 0 < nAssets
  total : FinOpt c.totalWeight
  bounds : BoundsGood nAssets.toNat c.bounds
  relative : ∀ e ∈ c.relative, e.1 ≠ e.2.1 ∧ Fin' e.2.2
  groups : ∀ e ∈ c.groups, ∃ lo hi, e.2.2.1 = .fin lo ∧ e.2.2.2 = .fin hi ∧ lo ≤ hi
  ineq : ∀ e ∈ c.ineqRows, (e.1.length : ℤ) = nAssets ∧ Fin' e.2
  eq : ∀ e ∈ c.eqRows, (e.1.length : ℤ) = nAssets ∧ Fin' e.2

/-- The two together are the acceptance conditions of C11. -/
theorem valid_iff (nAssets : ℤ) (c : Con.Spec K) : Valid nAssets c ↔ NumbersGood nAssets c ∧ AssetsExist nAssets c := by
  constructor
  · intro h
    have hn : ((nAssets.toNat : ℕ) : ℤ) = nAssets := Int.toNat_of_nonneg h.pos.le
    have hb := h.bounds
    refine ⟨⟨h.pos, h.total, ?_, fun e he => ⟨(h.relative e he).2.2.1, (h.relative e he).2.2.2⟩, fun e he => (h.groups e he).2, h.ineq, h.eq⟩,
      ⟨fun l hl e he => ?_, fun e he => ⟨(h.relative e he).1, (h.relative e he).2.1⟩, fun e he => (h.groups e he).1⟩⟩
    · cases hc : c.bounds with
      | none => trivial
      | some d =>
        rw [hc] at hb
        cases d with
        | pair lo hi => exact hb
        | dict l => exact fun e he => (hb e he).2
        | seq l => exact hb
    · rw [hl] at hb
      have := (hb e he).1
      rwa [hn] at this
  · rintro ⟨h, g⟩
    have hn : ((nAssets.toNat : ℕ) : ℤ) = nAssets := Int.toNat_of_nonneg h.pos.le
    refine ⟨h.pos, h.total, ?_, fun e he => ⟨(g.relative e he).1, (g.relative e he).2, (h.relative e he).1, (h.relative e he).2⟩,
      fun e he => ⟨g.groups e he, h.groups e he⟩, h.ineq, h.eq⟩
    have hb := h.bounds
    cases hc : c.bounds with
    | none => trivial
    | some d =>
      rw [hc] at hb
      cases d with
      | pair lo hi => exact hb
      | dict l =>
        intro e he
        have := g.bounds l hc e he
        refine ⟨?_, hb e he⟩
        rw [hn]
        exact this
      | seq l => exact hb

/-! ## Proof -/

private theorem mapE_err {α β : Type*} {f : α → Except PyErr β} {l : List α} {e : PyErr} (h : mapE f l = .error e) : ∃ a ∈ l, f a = .error e := by
  induction l with
  | nil => simp [mapE] at h
  | cons a l ih =>
    simp only [mapE] at h
    split at h
    · rename_i e' he
      injection h with h
      exact ⟨a, by simp, h ▸ he⟩
    · split at h
      · rename_i e' he
        injection h with h
        obtain ⟨b, hb, hb'⟩ := ih (h ▸ he)
        exact ⟨b, by simp [hb], hb'⟩
      · cases h

private theorem joinE_err {n : ℕ} {α : Type*} {f : α → Except PyErr (Block n K)} {l : List α} {e : PyErr} (h : joinE (mapE f l) = .error e) :
    ∃ a ∈ l, f a = .error e := by
  unfold joinE at h
  split at h
  · rename_i e' he
    injection h with h
    exact mapE_err (h ▸ he)
  · cases h

private theorem checkNumber_err {x : PyFloat K} {e : PyErr} (h : checkNumber x = .error e) : e = .valueError ∧ ¬ Fin' x := by
  cases x with
  | fin v => simp [checkNumber] at h
  | nan => exact ⟨by simpa [checkNumber] using h.symm, by rintro ⟨v, hv⟩; cases hv⟩
  | posInf => exact ⟨by simpa [checkNumber] using h.symm, by rintro ⟨v, hv⟩; cases hv⟩
  | negInf => exact ⟨by simpa [checkNumber] using h.symm, by rintro ⟨v, hv⟩; cases hv⟩

private theorem checkOpt_err {x : Option (PyFloat K)} {e : PyErr} (h : checkOpt x = .error e) : e = .valueError ∧ ¬ FinOpt x := by
  cases x with
  | none => simp [checkOpt] at h
  | some y =>
    simp only [checkOpt] at h
    split at h
    · cases h
    · rename_i e' he
      injection h with h
      subst h
      obtain ⟨h1, h2⟩ := checkNumber_err he
      exact ⟨h1, fun h => h2 (h y rfl)⟩

private theorem checkPair_err {lo hi : Option (PyFloat K)} {e : PyErr} (h : checkPair lo hi = .error e) : e = .valueError ∧ ¬ PairOK lo hi := by
  refine ⟨?_, fun hp => ?_⟩
  · unfold checkPair at h
    split at h
    · rename_i e' he
      injection h with h
      exact h ▸ (checkOpt_err he).1
    · split at h
      · rename_i e' he
        injection h with h
        exact h ▸ (checkOpt_err he).1
      · split at h
        · split_ifs at h
          injection h with h
          exact h.symm
        · cases h
  · obtain ⟨p, hp⟩ := checkPair_isOk.2 hp
    rw [hp] at h
    cases h

private theorem bounds_err {n : ℕ} {b : Option (Bounds K)} {e : PyErr} (h : boundsBlock n b = .error e) :
    (e = .valueError ∧ ¬ BoundsGood n b) ∨ (e = .indexError ∧ ∃ l, b = some (.dict l) ∧ ¬ ∀ e ∈ l, 0 ≤ e.1 ∧ e.1 < n) := by
  cases b with
  | none => simp [boundsBlock] at h
  | some d =>
    cases d with
    | pair lo hi =>
      simp only [boundsBlock] at h
      split at h
      · rename_i e' he
        injection h with h
        exact Or.inl (h ▸ checkPair_err he)
      · cases h
    | dict l =>
      obtain ⟨a, ha, h⟩ := joinE_err (f := dictEntry n) (l := l) h
      unfold dictEntry at h
      split_ifs at h with h1
      · split at h
        · rename_i e' he
          injection h with h
          obtain ⟨h2, h3⟩ := checkPair_err he
          exact Or.inl ⟨h ▸ h2, fun hg => h3 (hg a ha)⟩
        · cases h
      · injection h with h
        exact Or.inr ⟨h.symm, l, rfl, fun hg => h1 (hg a ha)⟩
    | seq l =>
      simp only [boundsBlock] at h
      split_ifs at h with h1
      · injection h with h
        exact Or.inl ⟨h.symm, fun hg => h1 hg.1⟩
      · obtain ⟨a, ha, h⟩ := joinE_err h
        unfold seqEntry at h
        split at h
        · rename_i e' he
          injection h with h
          obtain ⟨h2, h3⟩ := checkPair_err he
          refine Or.inl ⟨h ▸ h2, fun hg => h3 (hg.2 a.1 ?_)⟩
          exact List.fst_mem_of_mem_zipIdx ha
        · cases h

private theorem rel_err {n : ℕ} {a : ℤ × ℤ × PyFloat K} {e : PyErr} (h : relEntry n a = .error e) :
    (e = .valueError ∧ ¬ (a.1 ≠ a.2.1 ∧ Fin' a.2.2)) ∨ (e = .indexError ∧ ¬ ((0 ≤ a.1 ∧ a.1 < n) ∧ 0 ≤ a.2.1 ∧ a.2.1 < n)) := by
  unfold relEntry at h
  split_ifs at h with h1 h2
  · injection h with h
    exact Or.inl ⟨h.symm, fun hg => hg.1 h2⟩
  · split at h
    · rename_i e' he
      injection h with h
      obtain ⟨h3, h4⟩ := checkNumber_err he
      exact Or.inl ⟨h ▸ h3, fun hg => h4 hg.2⟩
    · cases h
  · injection h with h
    exact Or.inr ⟨h.symm, h1⟩

private theorem group_err {n : ℕ} {a : String × List ℤ × PyFloat K × PyFloat K} {e : PyErr} (h : groupEntry n a = .error e) :
    (e = .valueError ∧ ¬ ∃ lo hi, a.2.2.1 = .fin lo ∧ a.2.2.2 = .fin hi ∧ lo ≤ hi) ∨ (e = .indexError ∧ ¬ ∀ i ∈ a.2.1, 0 ≤ i ∧ i < n) := by
  unfold groupEntry at h
  split_ifs at h with h1
  · refine Or.inl ?_
    split at h
    · rename_i e' he
      injection h with h
      obtain ⟨h3, h4⟩ := checkNumber_err he
      exact ⟨h ▸ h3, fun ⟨lo, hi, hl, _, _⟩ => h4 ⟨lo, hl⟩⟩
    · rename_i lo hlo
      split at h
      · rename_i e' he
        injection h with h
        obtain ⟨h3, h4⟩ := checkNumber_err he
        exact ⟨h ▸ h3, fun ⟨lo, hi, _, hl, _⟩ => h4 ⟨hi, hl⟩⟩
      · rename_i hi hhi
        split_ifs at h with h5
        injection h with h
        refine ⟨h.symm, fun ⟨lo', hi', hl, hh, hle⟩ => ?_⟩
        rw [checkNumber_ok.1 hlo] at hl
        rw [checkNumber_ok.1 hhi] at hh
        injection hl with hl
        injection hh with hh
        subst hl hh
        exact absurd h5 (not_lt.2 hle)
  · injection h with h
    exact Or.inr ⟨h.symm, h1⟩

private theorem row_err {n : ℕ} {a : List K × PyFloat K} {e : PyErr} (h : rowEntry n a = .error e) :
    e = .valueError ∧ ¬ (a.1.length = n ∧ Fin' a.2) := by
  unfold rowEntry at h
  split_ifs at h with h1
  · injection h with h
    exact ⟨h.symm, fun hg => h1 hg.1⟩
  · split at h
    · rename_i e' he
      injection h with h
      obtain ⟨h3, h4⟩ := checkNumber_err he
      exact ⟨h ▸ h3, fun hg => h4 hg.2⟩
    · cases h

/-- **C292** A rejected specification raises one of two exceptions: `ValueError` only if a number, shape or pair in it is wrong, `IndexError` only
if it names an asset that does not exist. -/
theorem C292_exceptions (nAssets : ℤ) (c : Con.Spec K) (rn : Bool) (e : PyErr) (h : build nAssets c rn = .error e) :
    (e = .valueError ∧ ¬ NumbersGood nAssets c) ∨ (e = .indexError ∧ ¬ AssetsExist nAssets c) := by
  unfold build at h
  split_ifs at h with hpos
  · injection h with h
    exact Or.inl ⟨h.symm, fun hg => absurd hg.pos (not_lt.2 hpos)⟩
  have hn : ((nAssets.toNat : ℕ) : ℤ) = nAssets := Int.toNat_of_nonneg (le_of_lt (not_le.1 hpos))
  have hrow : ∀ a : List K × PyFloat K, ¬ (a.1.length = nAssets.toNat ∧ Fin' a.2) → ¬ ((a.1.length : ℤ) = nAssets ∧ Fin' a.2) := by
    rintro a h1 ⟨h2, h3⟩
    exact h1 ⟨by omega, h3⟩
  dsimp only at h
  split at h
  · rename_i e' he
    injection h with h
    obtain ⟨h1, h2⟩ := checkOpt_err he
    exact Or.inl ⟨h ▸ h1, fun hg => h2 hg.total⟩
  split at h
  · rename_i e' he
    injection h with h
    subst h
    rcases bounds_err he with ⟨h1, h2⟩ | ⟨h1, l, h2, h3⟩
    · exact Or.inl ⟨h1, fun hg => h2 hg.bounds⟩
    · exact Or.inr ⟨h1, fun hg => h3 (by rw [hn]; exact hg.bounds l h2)⟩
  split at h
  · rename_i e' he
    injection h with h
    subst h
    obtain ⟨a, ha, he⟩ := joinE_err he
    rcases rel_err he with ⟨h1, h2⟩ | ⟨h1, h2⟩
    · exact Or.inl ⟨h1, fun hg => h2 (hg.relative a ha)⟩
    · exact Or.inr ⟨h1, fun hg => h2 (by rw [hn]; exact hg.relative a ha)⟩
  split at h
  · rename_i e' he
    injection h with h
    subst h
    obtain ⟨a, ha, he⟩ := joinE_err he
    rcases group_err he with ⟨h1, h2⟩ | ⟨h1, h2⟩
    · exact Or.inl ⟨h1, fun hg => h2 (hg.groups a ha)⟩
    · exact Or.inr ⟨h1, fun hg => h2 (by rw [hn]; exact hg.groups a ha)⟩
  split at h
  · rename_i e' he
    injection h with h
    subst h
    obtain ⟨a, ha, he⟩ := joinE_err he
    obtain ⟨h1, h2⟩ := row_err he
    exact Or.inl ⟨h1, fun hg => hrow a h2 (hg.ineq a ha)⟩
  split at h
  · rename_i e' he
    injection h with h
    subst h
    obtain ⟨a, ha, he⟩ := joinE_err he
    obtain ⟨h1, h2⟩ := row_err he
    exact Or.inl ⟨h1, fun hg => hrow a h2 (hg.eq a ha)⟩
  · cases h

/-- **C292** When only the one kind of thing is wrong the exception is determined. -/
theorem C292_determined (nAssets : ℤ) (c : Con.Spec K) (rn : Bool) :
    (NumbersGood nAssets c → ¬ AssetsExist nAssets c → build nAssets c rn = .error .indexError) ∧
    (AssetsExist nAssets c → ¬ NumbersGood nAssets c → build nAssets c rn = .error .valueError) := by
  have hbad : ¬ Valid nAssets c → ∃ e, build nAssets c rn = .error e := by
    intro hv
    cases hb : build nAssets c rn with
    | error e => exact ⟨e, rfl⟩
    | ok m => exact absurd (build_isOk.1 ⟨m, hb⟩) hv
  constructor
  · intro h1 h2
    obtain ⟨e, he⟩ := hbad fun hv => h2 ((valid_iff _ _).1 hv).2
    rcases C292_exceptions nAssets c rn e he with ⟨-, h3⟩ | ⟨rfl, -⟩
    · exact absurd h1 h3
    · exact he
  · intro h1 h2
    obtain ⟨e, he⟩ := hbad fun hv => h2 ((valid_iff _ _).1 hv).1
    rcases C292_exceptions nAssets c rn e he with ⟨rfl, -⟩ | ⟨-, h3⟩
    · exact he
    · exact absurd h1 h3

/-- The specification of `exSpec`, for three assets, given to two: its group names a third asset. -/
example : ¬ AssetsExist 2 exSpec := fun h => by
  have := h.groups ("g", [0, 2, 2], .fin (3/10), .fin (8/10)) (by simp [exSpec]) 2 (by simp)
  omega

/-- A group naming a fourth asset, otherwise in order: `IndexError`.  Crossed limits on existing assets: `ValueError`. -/
example :
    build 3 (⟨true, some (.fin 1), none, [], [("g", [0, 3], .fin (1/5), .fin (1/2))], [], []⟩ : Con.Spec ℚ) = .error .indexError ∧
    build 3 (⟨true, some (.fin 1), none, [], [("g", [0, 1], .fin (1/2), .fin (1/5))], [], []⟩ : Con.Spec ℚ) = .error .valueError := by
  constructor
  · refine (C292_determined _ _ _).1 ⟨by norm_num, fun y hy => ⟨1, by simpa using hy.symm⟩, trivial, by simp, ?_, by simp, by simp⟩ fun h => ?_
    · intro e he
      simp at he
      subst he
      exact ⟨_, _, rfl, rfl, by norm_num⟩
    · have := h.groups _ (List.mem_singleton.2 rfl) 3 (by simp)
      omega
  · refine (C292_determined _ _ _).2 ⟨by simp, by simp, ?_⟩ fun h => ?_
    · intro e he
      simp at he
      subst he
      simp
    · obtain ⟨lo, hi, h1, h2, h3⟩ := h.groups _ (List.mem_singleton.2 rfl)
      injection h1 with h1
      injection h2 with h2
      subst h1 h2
      norm_num at h3

end PyV.Props
