import Verif.Model.Samples
import Verif.Props.Ensembles

/-!
# Asset labels when portfolios are combined (C122, C123)
-/

namespace PyV.Props

open PyV PyV.Fr PyV.Ens PyV.Spec.Ens PyV.Spec.Frontier

variable {K : Type*} [Field K] [LinearOrder K] [IsStrictOrderedRing K] {A : Type*} [DecidableEq A]

/-! ## C122 -/

/-- The portfolios one entry contributes: every column of a sample matrix; exactly one column of a frontier, the requested one
(negative counts from the end) or else the first of smallest risk. -/
def Contributes (e : Entry A K) (sel : Option (List ℤ)) (b : List (List K)) : Prop :=
  match e with
  | .samples s => 0 < s.m ∧ b = List.ofFn (fun k => List.ofFn (fun i => s.w i k))
  | .frontier s risks => ∃ k : Fin s.m, b = [List.ofFn (fun i => s.w i k)] ∧
      ((sel = none ∧ FirstMin (fun _ => True) risks k) ∨ ∃ i, sel = some [i] ∧ (i = (k : ℤ) ∨ i = (k : ℤ) - s.m))

/-- The entry carries the (non-empty) label list `l`. -/
def Labelled (e : Entry A K) (l : List A) : Prop := e.set.names = some l ∧ l ≠ []

theorem pyIndex_iff {M : ℕ} {i : ℤ} {k : Fin M} : pyIndex M i = .ok k ↔ i = (k : ℤ) ∨ i = (k : ℤ) - M := by
  have hk := k.isLt
  constructor
  · intro h
    have := pyIndex_ok h
    split_ifs at this <;> omega
  · intro h
    unfold pyIndex
    have hb : 0 ≤ (if i < 0 then i + (M : ℤ) else i) ∧ (if i < 0 then i + (M : ℤ) else i) < M := by
      split_ifs <;> omega
    simp only
    rw [dif_pos hb]
    congr 1
    apply Fin.ext
    simp only
    split_ifs <;> omega

omit [IsStrictOrderedRing K] [DecidableEq A] in
theorem entryCols_iff [IsStrictOrderedRing K] {e : Entry A K} {sel : Option (List ℤ)} {b : List (List K)} :
    entryCols e sel = .ok b ↔ Contributes e sel b := by
  unfold entryCols Contributes
  cases e with
  | samples s =>
    simp only
    by_cases h : s.m = 0
    · rw [if_pos h]
      constructor
      · intro h; cases h
      · rintro ⟨h1, -⟩; omega
    · rw [if_neg h]
      simp only [Except.ok.injEq, List.ofFn_eq_map (n := s.m)]
      constructor
      · rintro rfl; exact ⟨by omega, rfl⟩
      · rintro ⟨-, rfl⟩; rfl
  | frontier s risks =>
    simp only
    match sel with
    | none =>
      simp only
      cases hk : firstArgmin risks with
      | none =>
        constructor
        · intro h; cases h
        · rintro ⟨k, -, ⟨-, h⟩ | ⟨i, h, -⟩⟩
          · rw [firstArgmin_iff.mpr h] at hk; cases hk
          · cases h
      | some k =>
        simp only [Except.ok.injEq]
        constructor
        · rintro rfl; exact ⟨k, rfl, Or.inl ⟨trivial, firstArgmin_iff.mp hk⟩⟩
        · rintro ⟨k', rfl, ⟨-, h⟩ | ⟨i, h, -⟩⟩
          · rw [firstArgmin_iff.mpr h] at hk; injection hk with hk; rw [hk]; rfl
          · cases h
    | some [i] =>
      simp only
      cases hk : pyIndex s.m i with
      | error x =>
        constructor
        · intro h; cases h
        · rintro ⟨k, -, ⟨h, -⟩ | ⟨j, h, hj⟩⟩
          · cases h
          · simp only [Option.some.injEq, List.cons.injEq, and_true] at h
            subst h
            rw [pyIndex_iff.mpr hj] at hk; cases hk
      | ok k =>
        simp only [Except.ok.injEq]
        constructor
        · rintro rfl; exact ⟨k, rfl, Or.inr ⟨i, rfl, pyIndex_iff.mp hk⟩⟩
        · rintro ⟨k', rfl, ⟨h, -⟩ | ⟨j, h, hj⟩⟩
          · cases h
          · simp only [Option.some.injEq, List.cons.injEq, and_true] at h
            subst h
            rw [pyIndex_iff.mpr hj] at hk; injection hk with hk; rw [hk]; rfl
    | some [] =>
      constructor
      · intro h; cases h
      · rintro ⟨k, -, ⟨h, -⟩ | ⟨j, h, -⟩⟩ <;> simp at h
    | some (i :: j :: l) =>
      constructor
      · intro h; cases h
      · rintro ⟨k, -, ⟨h, -⟩ | ⟨j, h, -⟩⟩ <;> simp at h

/-- Outcome of merging one entry's labels, when its dimension agrees with the labels already seen. -/
theorem mergeNames_iff {existing candidate r : Option (List A)} {dim : ℕ}
    (he : ∀ l, existing = some l → l.length = dim) :
    mergeNames existing candidate dim = .ok r ↔
      (∃ l, candidate = some l ∧ l ≠ [] ∧ (existing = none ∨ existing = some l) ∧ r = some l) ∨
        ((∀ l, candidate = some l → l = []) ∧ r = existing) := by
  unfold mergeNames
  match candidate with
  | some (a :: l) =>
    simp only
    cases existing with
    | none =>
      simp only [Except.ok.injEq]
      constructor
      · rintro rfl; exact Or.inl ⟨_, rfl, by simp, Or.inl (by trivial), rfl⟩
      · rintro (⟨l', h1, -, -, h2⟩ | ⟨h, -⟩)
        · rw [h2, h1]
        · exact absurd (h _ rfl) (by simp)
    | some e =>
      simp only
      by_cases h : e = a :: l
      · rw [if_pos h]
        simp only [Except.ok.injEq]
        constructor
        · rintro rfl; exact Or.inl ⟨_, rfl, by simp, Or.inr (by rw [h]), by rw [h]⟩
        · rintro (⟨l', h1, -, -, h2⟩ | ⟨h', -⟩)
          · rw [h2, h, ← h1]
          · exact absurd (h' _ rfl) (by simp)
      · rw [if_neg h]
        constructor
        · intro h; cases h
        · rintro (⟨l', h1, -, h3 | h3, -⟩ | ⟨h', -⟩)
          · cases h3
          · injection h3 with h3; injection h1 with h1; exact absurd (h3.trans h1.symm) h
          · exact absurd (h' _ rfl) (by simp)
  | none =>
    cases existing with
    | none => simp [eq_comm]
    | some e =>
      simp only
      rw [if_pos (he e rfl)]
      simp [eq_comm]
  | some [] =>
    cases existing with
    | none => simp [eq_comm]
    | some e =>
      simp only
      rw [if_pos (he e rfl)]
      simp only [Except.ok.injEq]
      constructor
      · rintro rfl; exact Or.inr ⟨fun l h => by injection h with h; exact h.symm, rfl⟩
      · rintro (⟨l', h1, h2, -⟩ | ⟨-, h⟩)
        · injection h1 with h1; exact absurd h1.symm h2
        · exact h.symm

theorem collectLoop_iff {n : ℕ} (ps : List (Entry A K × Option (List ℤ)))
    (hw : ∀ p ∈ ps, p.1.set.n = n ∧ ∀ l, p.1.set.names = some l → l.length = n)
    (cols : List (List K)) (names : Option (List A)) (hn : ∀ l, names = some l → l.length = n)
    (cols' : List (List K)) (names' : Option (List A)) :
    collectLoop ps cols names = .ok (cols', names') ↔
      (∃ bs, List.Forall₂ (fun p b => Contributes p.1 p.2 b) ps bs ∧ cols' = cols ++ bs.flatten) ∧
      (∀ p ∈ ps, ∀ l, Labelled p.1 l → names' = some l) ∧ (∀ l, names = some l → names' = some l) ∧
      (names' = names ∨ ∃ p ∈ ps, ∃ l, Labelled p.1 l ∧ names' = some l) := by
  induction ps generalizing cols names with
  | nil =>
    simp only [collectLoop, Except.ok.injEq, Prod.mk.injEq, List.forall₂_nil_left_iff, exists_eq_left, List.flatten_nil,
      List.append_nil, List.not_mem_nil, false_imp_iff, implies_true, true_and, false_and, exists_false, or_false]
    constructor
    · rintro ⟨rfl, rfl⟩; exact ⟨rfl, fun l h => h, rfl⟩
    · rintro ⟨rfl, -, rfl⟩; exact ⟨rfl, rfl⟩
  | cons p ps ih =>
    obtain ⟨e, sel⟩ := p
    have hw0 := hw _ List.mem_cons_self
    have hw1 := fun p hp => hw p (List.mem_cons_of_mem _ hp)
    rw [collectLoop]
    constructor
    · intro h
      cases hc : entryCols e sel with
      | error x => rw [hc] at h; cases h
      | ok c =>
        rw [hc] at h
        simp only at h
        cases hm : mergeNames names e.set.names e.set.n with
        | error x => rw [hm] at h; cases h
        | ok nm =>
          rw [hm] at h
          simp only at h
          have hm' := (mergeNames_iff (fun l hl => by rw [hn l hl, hw0.1])).mp hm
          have hnm : ∀ l, nm = some l → l.length = n := by
            rcases hm' with ⟨l, h1, -, -, h2⟩ | ⟨-, h2⟩
            · intro l' hl'
              rw [h2] at hl'; injection hl' with hl'; rw [← hl']; exact hw0.2 l h1
            · rw [h2]; exact hn
          obtain ⟨⟨bs, hbs, rfl⟩, h2, h3, h4⟩ := (ih hw1 _ _ hnm).mp h
          refine ⟨⟨c :: bs, .cons (entryCols_iff.mp hc) hbs, by simp⟩, ?_, ?_, ?_⟩
          · intro p hp l hl
            rcases List.mem_cons.mp hp with rfl | hp
            · rcases hm' with ⟨l', h5, h6, h7, h8⟩ | ⟨h5, -⟩
              · have : l' = l := by have := hl.1; simp only at this; rw [h5] at this; injection this
                rw [← this]; exact h3 _ h8
              · exact absurd (h5 l hl.1) hl.2
            · exact h2 p hp l hl
          · intro l hl
            rcases hm' with ⟨l', h5, h6, h7 | h7, h8⟩ | ⟨-, h5⟩
            · rw [hl] at h7; cases h7
            · rw [hl] at h7; rw [h7]; exact h3 _ h8
            · exact h3 l (h5.trans hl)
          · rcases h4 with h4 | ⟨p, hp, l, hl, h5⟩
            · rcases hm' with ⟨l', h5, h6, h7, h8⟩ | ⟨-, h5⟩
              · exact Or.inr ⟨_, List.mem_cons_self, l', ⟨h5, h6⟩, h4.trans h8⟩
              · exact Or.inl (h4.trans h5)
            · exact Or.inr ⟨p, List.mem_cons_of_mem _ hp, l, hl, h5⟩
    · rintro ⟨⟨bs, hbs, rfl⟩, h2, h3, h4⟩
      cases hbs with
      | @cons _ c _ bs hc hbs =>
        rw [entryCols_iff.mpr hc]
        simp only
        by_cases hlab : ∃ l, Labelled e l
        · obtain ⟨l, hl⟩ := hlab
          have h5 : names' = some l := h2 _ List.mem_cons_self l hl
          have hm : mergeNames names e.set.names e.set.n = .ok (some l) := by
            refine (mergeNames_iff (fun l hl => by rw [hn l hl, hw0.1])).mpr (Or.inl ⟨l, hl.1, hl.2, ?_, rfl⟩)
            cases hnn : names with
            | none => exact Or.inl rfl
            | some l' => right; rw [← h5]; exact (h3 l' hnn).symm
          rw [hm]
          simp only
          refine (ih hw1 _ _ (fun l' hl' => by injection hl' with hl'; rw [← hl']; exact hw0.2 l hl.1)).mpr
            ⟨⟨bs, hbs, by simp⟩, fun p hp => h2 p (List.mem_cons_of_mem _ hp), fun l' hl' => by rw [h5, hl'], Or.inl h5⟩
        · have hun : ∀ l, e.set.names = some l → l = [] := by
            intro l hl
            by_contra hne
            exact hlab ⟨l, hl, hne⟩
          have hm : mergeNames names e.set.names e.set.n = .ok names :=
            (mergeNames_iff (fun l hl => by rw [hn l hl, hw0.1])).mpr (Or.inr ⟨hun, rfl⟩)
          rw [hm]
          simp only
          refine (ih hw1 _ _ hn).mpr ⟨⟨bs, hbs, by simp⟩, fun p hp => h2 p (List.mem_cons_of_mem _ hp), h3, ?_⟩
          rcases h4 with h4 | ⟨p, hp, l, hl, h5⟩
          · exact Or.inl h4
          · rcases List.mem_cons.mp hp with rfl | hp
            · exact absurd ⟨l, hl⟩ hlab
            · exact Or.inr ⟨p, hp, l, hl, h5⟩

/-- **C122** combining portfolios and frontiers (`stack_portfolios`, `average_frontiers`, `exposure_stack_frontiers`) succeeds exactly
when there is an entry, the selections (if given) are as many as the entries, every entry contributes portfolios, all have the same
positive number of assets and all labelled entries carry the identical label list; the samples are then the contributions in order
and the labels that common list (none if no entry is labelled). Otherwise an exception is raised. -/
theorem C122_collect (entries : List (Entry A K)) (selections : Option (List (Option (List ℤ))))
    (hw : ∀ e ∈ entries, ∀ l, e.set.names = some l → l.length = e.set.n) (cols : List (List K)) (names : Option (List A)) :
    collectSamples entries selections = .ok (cols, names) ↔
      entries ≠ [] ∧ (∃ n, 0 < n ∧ ∀ e ∈ entries, e.set.n = n) ∧
      (∃ sels bs, (selections = some sels ∨ selections = none ∧ sels = entries.map (fun _ => none)) ∧
        sels.length = entries.length ∧ List.Forall₂ (fun p b => Contributes p.1 p.2 b) (entries.zip sels) bs ∧ cols = bs.flatten) ∧
      (∀ e ∈ entries, ∀ l, Labelled e l → names = some l) ∧
      (names = none ∨ ∃ e ∈ entries, ∃ l, Labelled e l ∧ names = some l) := by
  cases entries with
  | nil => simp [collectSamples]
  | cons e0 es =>
    unfold collectSamples
    simp only
    set sels := selections.getD (List.replicate (e0 :: es).length none) with hsels
    have hsel : ∀ s, (selections = some s ∨ selections = none ∧ s = (e0 :: es).map (fun _ => none)) ↔ s = sels := by
      intro s
      cases selections with
      | none =>
        rw [hsels, Option.getD_none]
        have : (e0 :: es).map (fun _ => (none : Option (List ℤ))) = List.replicate (e0 :: es).length none := by
          rw [List.map_const']
        rw [this]
        simp
      | some t => rw [hsels, Option.getD_some]; simp [eq_comm]
    by_cases hlen : sels.length ≠ (e0 :: es).length
    · rw [if_pos hlen]
      constructor
      · intro h; cases h
      · rintro ⟨-, -, ⟨s, bs, hs, hl, -⟩, -⟩
        rw [(hsel s).mp hs] at hl
        exact absurd hl hlen
    · rw [if_neg hlen]
      push Not at hlen
      have hzip : ∀ p ∈ (e0 :: es).zip sels, p.1 ∈ (e0 :: es) := fun p hp => (List.of_mem_zip (a := p.1) (b := p.2) hp).1
      have hmem : ∀ e ∈ (e0 :: es), ∃ s, (e, s) ∈ (e0 :: es).zip sels := by
        intro e he
        obtain ⟨i, hi, rfl⟩ := List.getElem_of_mem he
        refine ⟨sels[i]'(hlen ▸ hi), ?_⟩
        rw [← List.getElem_zip (h := by simpa [List.length_zip, hlen] using hi)]
        exact List.getElem_mem _
      by_cases hall : ∀ e ∈ (e0 :: es), e.set.n = e0.set.n
      · have hloop := collectLoop_iff (n := e0.set.n) ((e0 :: es).zip sels)
          (fun p hp => ⟨hall _ (hzip p hp), fun l hl => (hw _ (hzip p hp) l hl).trans (hall _ (hzip p hp))⟩) []
          none (by simp) cols names
        simp only [List.nil_append] at hloop
        constructor
        · intro h
          cases hl : collectLoop ((e0 :: es).zip sels) [] none with
          | error x => rw [hl] at h; cases h
          | ok r =>
            rw [hl] at h
            simp only at h
            rw [if_pos hall] at h
            split_ifs at h with h0
            injection h with h
            rw [h] at hl
            obtain ⟨⟨bs, hbs, hc⟩, h2, -, h4⟩ := hloop.mp hl
            refine ⟨by simp, ⟨e0.set.n, Nat.pos_of_ne_zero h0, hall⟩, ⟨sels, bs, (hsel _).mpr rfl, hlen, hbs, hc⟩, ?_, ?_⟩
            · intro e he l hlab
              obtain ⟨s, hs⟩ := hmem e he
              exact h2 _ hs l hlab
            · rcases h4 with h4 | ⟨p, hp, l, hlab, h5⟩
              · exact Or.inl h4
              · exact Or.inr ⟨p.1, hzip p hp, l, hlab, h5⟩
        · rintro ⟨-, ⟨n, hn, hn'⟩, ⟨s, bs, hs, -, hbs, hc⟩, h2, h4⟩
          rw [(hsel s).mp hs] at hbs
          have h5 := hloop.mpr ⟨⟨bs, hbs, hc⟩, fun p hp l hl => h2 _ (hzip p hp) l hl, by simp, by
            rcases h4 with h4 | ⟨e, he, l, hlab, h5⟩
            · exact Or.inl h4
            · obtain ⟨s', hs'⟩ := hmem e he
              exact Or.inr ⟨_, hs', l, hlab, h5⟩⟩
          rw [h5]
          simp only
          rw [if_pos hall, if_neg (by rw [hn' e0 List.mem_cons_self]; omega)]
      · constructor
        · intro h
          cases hl : collectLoop ((e0 :: es).zip sels) [] none with
          | error x => rw [hl] at h; cases h
          | ok r =>
            rw [hl] at h
            simp only at h
            rw [if_neg hall] at h
            cases h
        · rintro ⟨-, ⟨n, -, hn'⟩, -⟩
          exact absurd (fun e he => (hn' e he).trans (hn' e0 List.mem_cons_self).symm) hall

/-- Two labelled portfolios of two assets and the minimum-risk column of a frontier. -/
def exEntries : List (Entry String ℚ) :=
  [.samples ⟨some ["a", "b"], 2, 1, ![![1], ![0]]⟩,
   .frontier ⟨some ["a", "b"], 2, 2, ![![1/2, 1/4], ![1/2, 3/4]]⟩ ![3, 2],
   .samples ⟨none, 2, 1, ![![0], ![1]]⟩]

example : collectSamples exEntries none = .ok ([[1, 0], [1/4, 3/4], [0, 1]], some ["a", "b"]) := by decide +kernel

example : ∀ e ∈ exEntries, ∀ l, e.set.names = some l → l.length = e.set.n := by
  intro e he l hl
  simp only [exEntries, List.mem_cons, List.not_mem_nil, or_false] at he
  rcases he with rfl | rfl | rfl <;> simp only [Entry.set] at hl <;> cases hl <;> rfl

/-- The same two assets in a different order are rejected. -/
example : collectSamples ([.samples ⟨some ["a", "b"], 2, 1, ![![1], ![0]]⟩,
    .samples ⟨some ["b", "a"], 2, 1, ![![1], ![0]]⟩] : List (Entry String ℚ)) none = .error .valueError := by decide +kernel

/-! ## C123 -/

omit [LinearOrder K] [IsStrictOrderedRing K] in
theorem nanDot_fin : ∀ (row : List K) (v : List K), nanDot (row.map PyFloat.fin) v = .fin (List.zipWith (· * ·) row v).sum
  | [], _ => by simp [nanDot]
  | _ :: _, [] => by simp [nanDot]
  | x :: row, y :: v => by
    have ih := nanDot_fin row v
    unfold nanDot at ih ⊢
    simp only [List.map_cons, List.zipWith_cons_cons, List.foldr_cons, ih, nanMul, nanAdd, List.sum_cons]

omit [LinearOrder K] [IsStrictOrderedRing K] in
theorem nanDot_nan : ∀ (row : List (PyFloat K)) (v : List K), row.length ≤ v.length → PyFloat.nan ∈ row → nanDot row v = .nan
  | [], _, _, h => by simp at h
  | x :: row, [], h, _ => by simp at h
  | x :: row, y :: v, hl, h => by
    unfold nanDot
    simp only [List.zipWith_cons_cons, List.foldr_cons]
    rcases List.mem_cons.mp h with rfl | h
    · rfl
    · have ih := nanDot_nan row v (by simpa using hl) h
      unfold nanDot at ih
      rw [ih]
      unfold nanAdd
      split <;> simp_all

theorem mem_unionLabels {sel : List (List (A × K))} {a : A} : a ∈ unionLabels sel ↔ ∃ s ∈ sel, a ∈ s.map Prod.fst := by
  induction sel with
  | nil => simp [unionLabels]
  | cons s rest ih =>
    rw [unionLabels, List.mem_append, List.mem_filter]
    by_cases h : a ∈ s.map Prod.fst
    · simp only [h, true_or, true_iff]
      exact ⟨s, List.mem_cons_self, h⟩
    · simp only [h, false_or, ih, not_false_eq_true, decide_true, and_true]
      constructor
      · rintro ⟨t, ht, hta⟩; exact ⟨t, List.mem_cons_of_mem _ ht, hta⟩
      · rintro ⟨t, ht, hta⟩
        rcases List.mem_cons.mp ht with rfl | ht
        · exact absurd hta h
        · exact ⟨t, ht, hta⟩

theorem nodup_unionLabels {sel : List (List (A × K))} (h : ∀ s ∈ sel, (s.map Prod.fst).Nodup) : (unionLabels sel).Nodup := by
  induction sel with
  | nil => exact List.nodup_nil
  | cons s rest ih =>
    rw [unionLabels, List.nodup_append]
    refine ⟨h s List.mem_cons_self, (ih (fun t ht => h t (List.mem_cons_of_mem _ ht))).filter _, ?_⟩
    rintro a ha b hb rfl
    have := (List.mem_filter.mp hb).2
    simp only [decide_eq_true_eq] at this
    exact this ha

/-- The portfolio `s` holds weight `x` in the asset `a`. -/
def Holds (s : List (A × K)) (a : A) (x : K) : Prop := (a, x) ∈ s

variable {B : Type*} [DecidableEq B]

theorem normalizeWeights_length {w : WeightsArg B K} {num : ℕ} {names : Option (List B)} {v : List K}
    (h : normalizeWeights w num names = .ok v) : v.length = num := by
  unfold normalizeWeights at h
  split_ifs at h with h0
  cases w with
  | none =>
    simp only [Except.ok.injEq] at h
    rw [← h]; simp
  | array l =>
    simp only [alignWeights] at h
    unfold scaleWeights at h
    split_ifs at h with h1
    simp only at h
    split_ifs at h with h3
    injection h with h
    rw [← h]
    push Not at h1
    simpa using h1
  | series l =>
    simp only at h
    cases ha : alignWeights names (.series l) with
    | error e => rw [ha] at h; cases h
    | ok u =>
      rw [ha] at h
      simp only at h
      unfold scaleWeights at h
      split_ifs at h with h1
      simp only at h
      split_ifs at h with h3
      injection h with h
      rw [← h]
      push Not at h1
      simpa using h1

/-- **C123** (partial) the average of selected portfolios is taken asset by asset, by label: the result has one entry for every asset
held by some portfolio, and wherever every portfolio has the asset, whatever its position there, it is the weighted sum of those
weights. Missing: an asset that some portfolio lacks gets NaN without any error, see `C123_missing` and `C123_counterexample`. -/
theorem C123_aligned_partial (sel : List (List (A × K))) (hnd : ∀ s ∈ sel, (s.map Prod.fst).Nodup) (names : List B)
    (w : WeightsArg B K) (r : List (A × PyFloat K)) (h : averageSelected sel names w = .ok r) :
    ∃ v, normalizeWeights w sel.length (some names) = .ok v ∧ v.length = sel.length ∧ (r.map Prod.fst).Nodup ∧
      (∀ a, a ∈ r.map Prod.fst ↔ ∃ s ∈ sel, ∃ x, Holds s a x) ∧
      ∀ (a : A) (xs : List K), List.Forall₂ (fun s x => Holds s a x) sel xs →
        (a, PyFloat.fin (List.zipWith (· * ·) xs v).sum) ∈ r := by
  unfold averageSelected at h
  split_ifs at h with hne
  cases hv : normalizeWeights w sel.length (some names) with
  | error e => rw [hv] at h; cases h
  | ok v =>
    rw [hv] at h
    simp only [Except.ok.injEq] at h
    have hkeys : r.map Prod.fst = unionLabels sel := by rw [← h, List.map_map]; simp [Function.comp_def]
    refine ⟨v, rfl, normalizeWeights_length hv, hkeys ▸ nodup_unionLabels hnd, fun a => ?_, fun a xs hxs => ?_⟩
    · rw [hkeys, mem_unionLabels]
      constructor
      · rintro ⟨s, hs, ha⟩
        obtain ⟨p, hp, rfl⟩ := List.mem_map.mp ha
        exact ⟨s, hs, p.2, hp⟩
      · rintro ⟨s, hs, x, hx⟩
        exact ⟨s, hs, List.mem_map_of_mem (f := Prod.fst) hx⟩
    · have hrow : sel.map (fun s => concatCell s a) = xs.map PyFloat.fin := by
        clear h hkeys hv hne
        induction hxs with
        | nil => rfl
        | @cons s x sel xs h1 _ ih =>
          have hns := hnd s List.mem_cons_self
          have : s.lookup a = some x := (lookup_iff hns).mpr h1
          rw [List.map_cons, List.map_cons, ih (fun t ht => hnd t (List.mem_cons_of_mem _ ht))]
          simp only [concatCell, this]
      have ha : a ∈ unionLabels sel := by
        rw [mem_unionLabels]
        cases hxs with
        | nil => exact absurd rfl hne
        | cons h1 _ => exact ⟨_, List.mem_cons_self, List.mem_map_of_mem (f := Prod.fst) h1⟩
      rw [← h, List.mem_map]
      exact ⟨a, ha, by rw [hrow, nanDot_fin]⟩

/-- **C123** an asset held by one portfolio and absent from another comes out as NaN. -/
theorem C123_missing (sel : List (List (A × K))) (names : List B) (w : WeightsArg B K) (r : List (A × PyFloat K))
    (h : averageSelected sel names w = .ok r) (a : A) (s t : List (A × K)) (hs : s ∈ sel) (ht : t ∈ sel) (x : K) (hx : Holds s a x)
    (hno : ∀ y, ¬ Holds t a y) : (a, PyFloat.nan) ∈ r := by
  unfold averageSelected at h
  split_ifs at h with hne
  cases hv : normalizeWeights w sel.length (some names) with
  | error e => rw [hv] at h; cases h
  | ok v =>
    rw [hv] at h
    simp only [Except.ok.injEq] at h
    rw [← h, List.mem_map]
    refine ⟨a, mem_unionLabels.mpr ⟨s, hs, List.mem_map_of_mem (f := Prod.fst) hx⟩, ?_⟩
    rw [nanDot_nan _ _ (by simp [normalizeWeights_length hv])]
    rw [List.mem_map]
    refine ⟨t, ht, ?_⟩
    have : t.lookup a = none := by
      rw [List.lookup_eq_none_iff]
      intro p hp
      simp only [bne_iff_ne, ne_eq]
      rintro rfl
      exact hno p.2 hp
    simp only [concatCell, this]

/-- **C123** (counterexample) two valid single-asset portfolios over different universes: the average ensemble is returned, and both of
its weights are NaN. -/
theorem C123_counterexample :
    averageSelected ([[("A", 1)], [("B", 1)]] : List (List (String × ℚ))) ["x", "y"] .none =
      .ok [("A", .nan), ("B", .nan)] := by decide +kernel

/-- The same universe in a different order is aligned. -/
example : averageSelected ([[("A", 1/4), ("B", 3/4)], [("B", 1/2), ("A", 1/2)]] : List (List (String × ℚ))) ["x", "y"] .none =
    .ok [("A", .fin (3/8)), ("B", .fin (5/8))] := by decide +kernel

end PyV.Props
