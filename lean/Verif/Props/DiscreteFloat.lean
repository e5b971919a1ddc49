import Verif.Model.DiscreteFloat
import Verif.Props.Discrete
import Mathlib.Tactic

/-! # Property C167: non-finite inputs of the discrete allocator -/

namespace PyV.Props

open PyV PyV.Discrete PyV.Spec.Discrete

variable {K : Type*} [Field K] [LinearOrder K] [IsStrictOrderedRing K]

/-- A series all of whose entries are finite. -/
def finSeries (l : List (String × K)) : List (String × PyFloat K) := l.map (fun p => (p.1, .fin p.2))

private theorem lookup_fin (l : List (String × K)) (k : String) : (finSeries l).lookup k = (l.lookup k).map PyFloat.fin := by
  induction l with
  | nil => rfl
  | cons a l ih =>
    obtain ⟨a, v⟩ := a
    by_cases h : k == a
    · simp [finSeries, List.lookup, h]
    · simp only [finSeries, List.map_cons, List.lookup, h] at ih ⊢
      exact ih

private theorem sumF_ok (l : List (PyFloat K)) (h : ∀ x ∈ l, x ≠ .posInf ∧ x ≠ .negInf) : sumF l = .fin (l.map PyFloat.val).sum := by
  induction l with
  | nil => rfl
  | cons a l ih =>
    have ih' := ih (fun x hx => h x (List.mem_cons_of_mem _ hx))
    have ha := h a List.mem_cons_self
    unfold sumF at ih' ⊢
    cases a with
    | fin x =>
      rw [List.filter_cons_of_pos (by simp), List.foldr_cons, ih']
      simp [addF, PyFloat.val]
    | nan =>
      rw [List.filter_cons_of_neg (by simp), ih']
      simp [PyFloat.val]
    | posInf => exact absurd rfl ha.1
    | negInf => exact absurd rfl ha.2

private theorem sumF_fin (l : List (PyFloat K)) {t : K} (h : sumF l = .fin t) : ∀ x ∈ l, x ≠ .posInf ∧ x ≠ .negInf := by
  induction l generalizing t with
  | nil => intro x hx; cases hx
  | cons a l ih =>
    have hrec : (∃ t', sumF l = .fin t') ∧ a ≠ .posInf ∧ a ≠ .negInf := by
      unfold sumF at h ⊢
      cases a with
      | nan =>
        rw [List.filter_cons_of_neg (by simp)] at h
        exact ⟨⟨t, h⟩, by simp, by simp⟩
      | fin x =>
        rw [List.filter_cons_of_pos (by simp), List.foldr_cons] at h
        refine ⟨?_, by simp, by simp⟩
        revert h
        cases List.foldr addF (PyFloat.fin 0) (List.filter (fun x => decide (x ≠ .nan)) l) <;> simp [addF]
      | posInf =>
        exfalso
        rw [List.filter_cons_of_pos (by simp), List.foldr_cons] at h
        revert h
        cases List.foldr addF (PyFloat.fin 0) (List.filter (fun x => decide (x ≠ .nan)) l) <;> simp [addF]
      | negInf =>
        exfalso
        rw [List.filter_cons_of_pos (by simp), List.foldr_cons] at h
        revert h
        cases List.foldr addF (PyFloat.fin 0) (List.filter (fun x => decide (x ≠ .nan)) l) <;> simp [addF]
    obtain ⟨⟨t', ht'⟩, ha⟩ := hrec
    intro x hx
    rcases List.mem_cons.mp hx with rfl | hx
    · exact ha
    · exact ih ht' x hx

/-- The weights that count: everything but numbers of at most `1e-8` in size. -/
def CountsF (x : PyFloat K) : Prop := ∀ y, x = .fin y → 1 / 10 ^ 8 < |y|

/-- A positive number, or one that is not comparable to zero: infinity or NaN. -/
def NotBelow (x : PyFloat K) : Prop := x = .posInf ∨ x = .nan ∨ ∃ y, x = .fin y ∧ 0 < y

omit [IsStrictOrderedRing K] in
private theorem counts_iff (x : PyFloat K) : (!isclose0F x) = true ↔ CountsF x := by
  unfold CountsF
  cases x <;> simp [isclose0F, isclose0]

omit [IsStrictOrderedRing K] in
private theorem notBelow_iff (x : PyFloat K) : PyFloat.le x (.fin 0) = false ↔ NotBelow x := by
  unfold NotBelow
  cases x <;> simp [PyFloat.le]

/-- What the constructor asks of its inputs, NaN and infinities included: every weight that counts has a price which is not at or below zero and a
positive lot size; the amount is not at or below zero; no weight is infinite, and the weights that are numbers have a positive sum. -/
structure AcceptsF (weights prices : List (String × PyFloat K)) (total : PyFloat K) (lots : Option (List (String × ℤ))) : Prop where
  priced : ∀ p ∈ weights, ∃ x, prices.lookup p.1 = some x
  some_weight : ∃ p ∈ weights, CountsF p.2
  price : ∀ p ∈ weights, CountsF p.2 → ∀ x, prices.lookup p.1 = some x → NotBelow x
  amount : NotBelow total
  lot : ∀ p ∈ weights, CountsF p.2 → 0 < lotSize lots p.1
  bounded : ∀ p ∈ weights, p.2 ≠ .posInf ∧ p.2 ≠ .negInf
  total_weight : 0 < ((weights.filter (fun p => !isclose0F p.2)).map (fun p => p.2.val)).sum

/-- **C167** (what is accepted) -/
theorem C167_accepts_iff (weights prices : List (String × PyFloat K)) (total : PyFloat K) (lots : Option (List (String × ℤ))) :
    ((∃ r, validateF weights prices total lots = .ok r) ↔ AcceptsF weights prices total lots) ∧
    (¬ AcceptsF weights prices total lots → validateF weights prices total lots = .error .valueError) := by
  have hall : ∀ e, validateF weights prices total lots = .error e → e = .valueError := by
    intro e h
    unfold validateF normaliseF at h
    simp only at h
    repeat' split at h
    all_goals first
      | (injection h with h; exact h.symm)
      | cases h
  have hiff : (∃ r, validateF weights prices total lots = .ok r) ↔ AcceptsF weights prices total lots := by
    set kp := weights.filter (fun p => !isclose0F p.2) with hkp
    have hmem : ∀ p, p ∈ kp ↔ p ∈ weights ∧ CountsF p.2 := fun p => by
      rw [hkp, List.mem_filter, counts_iff]
    have hinf : (∀ x ∈ (alignF kp prices lots).map RowF.w, x ≠ .posInf ∧ x ≠ .negInf) ↔ ∀ p ∈ weights, p.2 ≠ .posInf ∧ p.2 ≠ .negInf := by
      constructor
      · intro h p hp
        by_cases hc : CountsF p.2
        · exact h p.2 (List.mem_map.mpr ⟨_, List.mem_map.mpr ⟨p, (hmem p).mpr ⟨hp, hc⟩, rfl⟩, rfl⟩)
        · unfold CountsF at hc
          push Not at hc
          obtain ⟨y, hy, -⟩ := hc
          rw [hy]; simp
      · intro h x hx
        obtain ⟨r, hr, rfl⟩ := List.mem_map.mp hx
        obtain ⟨p, hp, rfl⟩ := List.mem_map.mp hr
        exact h p ((hmem p).mp hp).1
    have hval : (((alignF kp prices lots).map RowF.w).map PyFloat.val).sum = (kp.map (fun p => p.2.val)).sum := by
      simp [alignF, Function.comp_def]
    constructor
    · rintro ⟨r, h⟩
      unfold validateF at h
      simp only [← hkp] at h
      split at h
      · cases h
      rename_i h1
      split at h
      · cases h
      rename_i h2
      split at h
      · cases h
      rename_i h3
      split at h
      · cases h
      rename_i h4
      split at h
      · cases h
      rename_i h5
      split at h
      · cases h
      rename_i h6
      split at h
      · cases h
      rename_i h7
      have hpr : ∀ p ∈ weights, ∃ x, prices.lookup p.1 = some x := by
        intro p hp
        have : ¬ (prices.lookup p.1).isNone = true := fun hn => h3 (List.any_eq_true.mpr ⟨p, hp, hn⟩)
        cases hl : prices.lookup p.1 with
        | none => rw [hl] at this; simp at this
        | some x => exact ⟨x, rfl⟩
      unfold normaliseF at h
      cases hs : sumF ((alignF kp prices lots).map RowF.w) with
      | fin t =>
        rw [hs] at h
        simp only at h
        have hb := sumF_fin _ hs
        rw [sumF_ok _ hb, hval] at hs
        injection hs with hs
        refine ⟨hpr, ?_, fun p hp hc x hx => ?_, ?_, fun p hp hc => ?_, hinf.mp hb, ?_⟩
        · obtain ⟨p, hp⟩ := List.exists_mem_of_ne_nil kp (by simpa using h4)
          exact ⟨p, (hmem p).mp hp⟩
        · rw [← notBelow_iff, ← Bool.not_eq_true]
          intro hle
          refine h5 (List.any_eq_true.mpr ⟨_, List.mem_map.mpr ⟨p, (hmem p).mpr ⟨hp, hc⟩, rfl⟩, ?_⟩)
          simpa [hx] using hle
        · rw [← notBelow_iff]; simpa using h6
        · rw [← lotOf_eq]
          by_contra hcon
          refine h7 (List.any_eq_true.mpr ⟨_, List.mem_map.mpr ⟨p, (hmem p).mpr ⟨hp, hc⟩, rfl⟩, ?_⟩)
          simpa using not_lt.mp hcon
        · rw [hs]
          by_contra hcon
          rw [if_pos (not_lt.mp hcon)] at h
          cases h
      | nan => rw [hs] at h; cases h
      | posInf => rw [hs] at h; cases h
      | negInf => rw [hs] at h; cases h
    · intro a
      obtain ⟨q, hq, hqc⟩ := a.some_weight
      have hne : weights ≠ [] := by rintro rfl; cases hq
      have hpne : prices ≠ [] := by
        rintro rfl
        obtain ⟨x, hx⟩ := a.priced q hq
        simp at hx
      have hkne : kp ≠ [] := by
        intro h
        have := (hmem q).mpr ⟨hq, hqc⟩
        rw [h] at this; cases this
      refine ⟨((alignF kp prices lots).map (fun r => { r with w := divF r.w (kp.map (fun p => p.2.val)).sum }),
        kp.any (fun p => PyFloat.lt p.2 (.fin 0))), ?_⟩
      unfold validateF
      simp only [← hkp]
      rw [if_neg (by simpa using hne), if_neg (by simpa using hpne), if_neg, if_neg (by simpa using hkne), if_neg, if_neg, if_neg]
      · unfold normaliseF
        rw [sumF_ok _ (hinf.mpr a.bounded), hval]
        simp only
        rw [if_neg (not_le.mpr a.total_weight)]
      · intro h
        obtain ⟨r, hr, hle⟩ := List.any_eq_true.mp h
        obtain ⟨p, hp, rfl⟩ := List.mem_map.mp hr
        obtain ⟨hpw, hpc⟩ := (hmem p).mp hp
        have := a.lot p hpw hpc
        rw [← lotOf_eq] at this
        simp only [decide_eq_true_eq] at hle
        omega
      · intro h
        rw [(notBelow_iff total).mpr a.amount] at h
        cases h
      · intro h
        obtain ⟨r, hr, hle⟩ := List.any_eq_true.mp h
        obtain ⟨p, hp, rfl⟩ := List.mem_map.mp hr
        obtain ⟨hpw, hpc⟩ := (hmem p).mp hp
        obtain ⟨x, hx⟩ := a.priced p hpw
        have := (notBelow_iff x).mpr (a.price p hpw hpc x hx)
        simp only [hx, Option.getD_some, this] at hle
        cases hle
      · intro h
        obtain ⟨p, hp, hn⟩ := List.any_eq_true.mp h
        obtain ⟨x, hx⟩ := a.priced p hp
        rw [hx] at hn; cases hn
  refine ⟨hiff, fun h => ?_⟩
  cases hv : validateF weights prices total lots with
  | ok r => exact absurd (hiff.mp ⟨r, hv⟩) h
  | error e => rw [hall e hv]

/-- **C167** is false of the code: a NaN weight, an infinite or NaN price, and an infinite or NaN amount are accepted by the constructor, each beside
ordinary inputs. -/
theorem C167_counterexample :
    (∃ r, validateF (K := ℚ) [("A", .fin (1 / 2)), ("B", .nan)] [("A", .fin 10), ("B", .fin 1000)] (.fin 100) none = .ok r) ∧
    (∀ bad : PyFloat ℚ, bad = .nan ∨ bad = .posInf →
      (∃ r, validateF [("A", .fin (1 / 2)), ("B", .fin (1 / 2))] [("A", .fin 10), ("B", bad)] (.fin 100) none = .ok r) ∧
      ∃ r, validateF [("A", .fin 1)] [("A", .fin 10)] bad none = .ok r) := by
  refine ⟨⟨([⟨"A", .fin 1, .fin 10, 1⟩, ⟨"B", .nan, .fin 1000, 1⟩], false), by decide +kernel⟩, ?_⟩
  rintro bad (rfl | rfl)
  · exact ⟨⟨([⟨"A", .fin (1 / 2), .fin 10, 1⟩, ⟨"B", .fin (1 / 2), .nan, 1⟩], false), by decide +kernel⟩,
      ⟨([⟨"A", .fin 1, .fin 10, 1⟩], false), by decide +kernel⟩⟩
  · exact ⟨⟨([⟨"A", .fin (1 / 2), .fin 10, 1⟩, ⟨"B", .fin (1 / 2), .posInf, 1⟩], false), by decide +kernel⟩,
      ⟨([⟨"A", .fin 1, .fin 10, 1⟩], false), by decide +kernel⟩⟩

/-- **C167** (what holds) An infinite weight, a price of minus infinity for a weight that counts, and an amount of minus infinity are rejected; and
finite inputs are accepted exactly under the documented conditions. -/
theorem C167_rejects_partial (weights prices : List (String × PyFloat K)) (total : PyFloat K) (lots : Option (List (String × ℤ))) :
    ((∃ p ∈ weights, p.2 = .posInf ∨ p.2 = .negInf) ∨ total = .negInf ∨
      (∃ p ∈ weights, CountsF p.2 ∧ prices.lookup p.1 = some .negInf) → validateF weights prices total lots = .error .valueError) ∧
    ∀ w p t, weights = finSeries w → prices = finSeries p → total = .fin t →
      ((∃ r, validateF weights prices total lots = .ok r) ↔ Valid w p t lots) := by
  constructor
  · intro h
    refine (C167_accepts_iff weights prices total lots).2 fun a => ?_
    rcases h with ⟨p, hp, h | h⟩ | rfl | ⟨p, hp, hc, hl⟩
    · exact (a.bounded p hp).1 h
    · exact (a.bounded p hp).2 h
    · have := a.amount
      simp [NotBelow] at this
    · have := a.price p hp hc _ hl
      simp [NotBelow] at this
  · rintro w p t rfl rfl rfl
    rw [(C167_accepts_iff _ _ _ lots).1]
    have hmem : ∀ q, q ∈ finSeries w ↔ ∃ y ∈ w, q = (y.1, .fin y.2) := by
      intro q
      unfold finSeries
      rw [List.mem_map]
      exact ⟨fun ⟨y, hy, e⟩ => ⟨y, hy, e.symm⟩, fun ⟨y, hy, e⟩ => ⟨y, hy, e.symm⟩⟩
    have hc : ∀ y : K, CountsF (.fin y) ↔ 1 / 10 ^ 8 < |y| := by
      intro y; unfold CountsF; simp
    have hnb : ∀ y : K, NotBelow (.fin y) ↔ 0 < y := by
      intro y; unfold NotBelow; simp
    have hkept : ∀ y, y ∈ kept w ↔ y ∈ w ∧ 1 / 10 ^ 8 < |y.2| := by
      intro y; unfold kept; rw [List.mem_filter, decide_eq_true_iff]
    have hsum : (((finSeries w).filter (fun p => !isclose0F p.2)).map (fun p => p.2.val)).sum = totalWeight w := by
      unfold totalWeight
      have hf : kept w = w.filter (fun p => !isclose0 p.2) := by
        unfold kept isclose0
        congr 1
        funext p
        rw [← decide_not]
        simp only [not_le]
      rw [hf]
      unfold finSeries
      rw [List.filter_map, List.map_map]
      rfl
    constructor
    · intro a
      refine ⟨fun q hq => ?_, ?_, fun q hq => ?_, ?_, fun q hq => ?_, by rw [← hsum]; exact a.total_weight⟩
      · obtain ⟨x, hx⟩ := a.priced _ ((hmem _).mpr ⟨q, hq, rfl⟩)
        rw [lookup_fin] at hx
        cases hl : p.lookup q.1 with
        | none => simp only [hl] at hx; cases hx
        | some v => exact ⟨v, rfl⟩
      · obtain ⟨q, hq, hqc⟩ := a.some_weight
        obtain ⟨y, hy, rfl⟩ := (hmem q).mp hq
        exact ⟨y, hy, (hc _).mp hqc⟩
      · obtain ⟨hqw, hqc⟩ := (hkept q).mp hq
        obtain ⟨x, hx⟩ := a.priced _ ((hmem _).mpr ⟨q, hqw, rfl⟩)
        have h1 := a.price _ ((hmem _).mpr ⟨q, hqw, rfl⟩) ((hc _).mpr hqc) x hx
        rw [lookup_fin] at hx
        simp only at hx
        unfold priceOf
        cases hl : p.lookup q.1 with
        | none => rw [hl] at hx; cases hx
        | some v =>
          rw [hl] at hx
          injection hx with hx
          rw [← hx] at h1
          exact (hnb v).mp h1
      · exact (hnb t).mp a.amount
      · obtain ⟨hqw, hqc⟩ := (hkept q).mp hq
        exact a.lot _ ((hmem _).mpr ⟨q, hqw, rfl⟩) ((hc _).mpr hqc)
    · intro v
      refine ⟨fun q hq => ?_, ?_, fun q hq hqc x hx => ?_, (hnb t).mpr v.total_pos, fun q hq hqc => ?_, fun q hq => ?_, by rw [hsum]; exact v.weight_pos⟩
      · obtain ⟨y, hy, rfl⟩ := (hmem q).mp hq
        obtain ⟨x, hx⟩ := v.priced y hy
        exact ⟨.fin x, by rw [lookup_fin]; simp only; rw [hx]; rfl⟩
      · obtain ⟨y, hy, hyc⟩ := v.some_weight
        exact ⟨_, (hmem _).mpr ⟨y, hy, rfl⟩, (hc _).mpr hyc⟩
      · obtain ⟨y, hy, rfl⟩ := (hmem q).mp hq
        have h1 := v.price_pos y ((hkept y).mpr ⟨hy, (hc _).mp hqc⟩)
        rw [lookup_fin] at hx
        simp only at hx
        cases hl : p.lookup y.1 with
        | none => rw [hl] at hx; cases hx
        | some z =>
          rw [hl] at hx
          injection hx with hx
          rw [← hx, hnb]
          simpa [priceOf, hl] using h1
      · obtain ⟨y, hy, rfl⟩ := (hmem q).mp hq
        exact v.lot_pos y ((hkept y).mpr ⟨hy, (hc _).mp hqc⟩)
      · obtain ⟨y, hy, rfl⟩ := (hmem q).mp hq
        simp

/-- C167: an ordinary input is accepted, one with an infinite weight is not. -/
example : (∃ r, validateF (K := ℚ) [("A", .fin (1 / 2)), ("B", .fin (1 / 2))] [("A", .fin 10), ("B", .fin 1000)] (.fin 100) none = .ok r) ∧
    validateF (K := ℚ) [("A", .posInf), ("B", .fin (1 / 2))] [("A", .fin 10), ("B", .fin 1000)] (.fin 100) none = .error .valueError :=
  ⟨⟨([⟨"A", .fin (1 / 2), .fin 10, 1⟩, ⟨"B", .fin (1 / 2), .fin 1000, 1⟩], false), by decide +kernel⟩,
    (C167_rejects_partial _ _ _ _).1 (.inl ⟨("A", .posInf), by simp, .inl rfl⟩)⟩

end PyV.Props
