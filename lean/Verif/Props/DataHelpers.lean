import Verif.Model.DataHelpers
import Verif.Lemmas.Ensembles
import Mathlib.Tactic

/-! # Properties C133–C135: returns from prices, labelled weights -/

namespace PyV.Props

open PyV PyV.Data

variable {N T : ℕ}

/-! ## Helpers -/

theorem returnRows_get (m : Method) (l : List (Fin N → PyFloat ℝ)) (t : ℕ) :
    (returnRows m l)[t]? = l[t]?.bind (fun p => l[t + 1]?.map (fun q => fun i => ret m (p i) (q i))) := by
  induction l generalizing t with
  | nil => simp [returnRows]
  | cons p l ih =>
    cases l with
    | nil => cases t <;> simp [returnRows]
    | cons q l =>
      cases t with
      | zero => simp [returnRows]
      | succ t => simp only [returnRows, List.getElem?_cons_succ]; rw [ih t]; simp

theorem returnRows_length (m : Method) (l : List (Fin N → PyFloat ℝ)) : (returnRows m l).length = l.length - 1 := by
  induction l with
  | nil => rfl
  | cons p l ih =>
    cases l with
    | nil => rfl
    | cons q l => simp only [returnRows, List.length_cons] at *; rw [ih]; omega

theorem ffill_length (c : Fin N → PyFloat ℝ) (l : List (Fin N → PyFloat ℝ)) : (ffill c l).length = l.length := by
  induction l generalizing c with
  | nil => rfl
  | cons r l ih => simp [ffill, ih]

theorem ffill_get (c : Fin N → PyFloat ℝ) (l : List (Fin N → PyFloat ℝ)) (t : ℕ) (r : Fin N → PyFloat ℝ) (h : l[t]? = some r) :
    ∃ r', (ffill c l)[t]? = some r' ∧ ∀ i, isNan (r i) = false → r' i = r i := by
  induction l generalizing c t with
  | nil => simp at h
  | cons a l ih =>
    cases t with
    | zero =>
      simp only [List.getElem?_cons_zero, Option.some.injEq] at h
      subst h
      refine ⟨fun i => if isNan (a i) then c i else a i, by simp [ffill], fun i hi => by simp [hi]⟩
    | succ t =>
      simp only [List.getElem?_cons_succ] at h
      obtain ⟨r', h1, h2⟩ := ih (fun i => if isNan (a i) then c i else a i) t h
      exact ⟨r', by simpa [ffill] using h1, h2⟩

theorem fillZero_no_nan (l : List (Fin N → PyFloat ℝ)) : ∀ r ∈ fillZero l, ∀ i, r i ≠ .nan := by
  intro r hr i
  unfold fillZero at hr
  rw [List.mem_map] at hr
  obtain ⟨a, -, rfl⟩ := hr
  simp only
  cases h : a i <;> simp [isNan]

theorem fillZero_get (l : List (Fin N → PyFloat ℝ)) (t : ℕ) (r : Fin N → PyFloat ℝ) (h : l[t]? = some r) :
    ∃ r', (fillZero l)[t]? = some r' ∧ ∀ i, isNan (r i) = false → r' i = r i := by
  refine ⟨fun i => if isNan (r i) then .fin 0 else r i, by simp [fillZero, h], fun i hi => by simp [hi]⟩

theorem fillZero_length (l : List (Fin N → PyFloat ℝ)) : (fillZero l).length = l.length := by simp [fillZero]

theorem fillRows_length (g : Fill) (hg : g ≠ .drop) (l : List (Fin N → PyFloat ℝ)) : (fillRows g l).length = l.length := by
  cases g <;> simp [fillRows, fillZero_length, ffill_length] at *

theorem fillRows_no_nan (g : Fill) (l : List (Fin N → PyFloat ℝ)) : ∀ r ∈ fillRows g l, ∀ i, r i ≠ .nan := by
  cases g
  · exact fillZero_no_nan _
  · exact fillZero_no_nan _
  · exact fillZero_no_nan _
  · exact fillZero_no_nan _

theorem fillRows_get (g : Fill) (hg : g ≠ .drop) (l : List (Fin N → PyFloat ℝ)) (t : ℕ) (r : Fin N → PyFloat ℝ) (h : l[t]? = some r) :
    ∃ r', (fillRows g l)[t]? = some r' ∧ ∀ i, isNan (r i) = false → r' i = r i := by
  cases g with
  | drop => exact absurd rfl hg
  | zero =>
    obtain ⟨r1, h1, e1⟩ := fillZero_get l t r h
    obtain ⟨r2, h2, e2⟩ := fillZero_get _ t r1 h1
    exact ⟨r2, h2, fun i hi => by rw [e2 i (by rw [e1 i hi]; exact hi), e1 i hi]⟩
  | ffill =>
    obtain ⟨r1, h1, e1⟩ := ffill_get (fun _ => .nan) l t r h
    obtain ⟨r2, h2, e2⟩ := fillZero_get _ t r1 h1
    exact ⟨r2, h2, fun i hi => by rw [e2 i (by rw [e1 i hi]; exact hi), e1 i hi]⟩
  | bfill =>
    have ht : t < l.length := by
      by_contra hc
      rw [List.getElem?_eq_none (by omega)] at h; cases h
    have hrev : l.reverse[l.length - 1 - t]? = some r := by
      rw [List.getElem?_reverse (by omega)]
      rw [← h]; congr 1; omega
    obtain ⟨r1, h1, e1⟩ := ffill_get (fun _ => .nan) l.reverse _ r hrev
    have h1' : (ffill (fun _ => .nan) l.reverse).reverse[t]? = some r1 := by
      rw [List.getElem?_reverse (by rw [ffill_length, List.length_reverse]; exact ht), ffill_length, List.length_reverse]
      exact h1
    obtain ⟨r2, h2, e2⟩ := fillZero_get _ t r1 h1'
    exact ⟨r2, h2, fun i hi => by rw [e2 i (by rw [e1 i hi]; exact hi), e1 i hi]⟩

theorem fillRows_clean (g : Fill) (l : List (Fin N → PyFloat ℝ)) (h : ∀ r ∈ l, ∀ i, isNan (r i) = false) : fillRows g l = l := by
  cases g with
  | drop =>
    have : l.filter (fun r => decide (∀ i, isNan (r i) = false)) = l := List.filter_eq_self.mpr (fun r hr => by simpa using h r hr)
    simp only [fillRows, this]
    unfold fillZero
    conv_rhs => rw [← List.map_id l]
    refine List.map_congr_left fun r hr => ?_
    funext i
    simp [h r hr i]
  | ffill =>
    apply List.ext_getElem?
    intro t
    by_cases ht : t < l.length
    · obtain ⟨r', h1, h2⟩ := fillRows_get .ffill (by simp) l t l[t] (by simp [ht])
      rw [h1, List.getElem?_eq_getElem ht]
      congr 1
      funext i
      exact h2 i (h _ (List.getElem_mem ht) i)
    · rw [List.getElem?_eq_none (by rw [fillRows_length _ (by simp)]; omega), List.getElem?_eq_none (by omega)]
  | bfill =>
    apply List.ext_getElem?
    intro t
    by_cases ht : t < l.length
    · obtain ⟨r', h1, h2⟩ := fillRows_get .bfill (by simp) l t l[t] (by simp [ht])
      rw [h1, List.getElem?_eq_getElem ht]
      congr 1
      funext i
      exact h2 i (h _ (List.getElem_mem ht) i)
    · rw [List.getElem?_eq_none (by rw [fillRows_length _ (by simp)]; omega), List.getElem?_eq_none (by omega)]
  | zero =>
    apply List.ext_getElem?
    intro t
    by_cases ht : t < l.length
    · obtain ⟨r', h1, h2⟩ := fillRows_get .zero (by simp) l t l[t] (by simp [ht])
      rw [h1, List.getElem?_eq_getElem ht]
      congr 1
      funext i
      exact h2 i (h _ (List.getElem_mem ht) i)
    · rw [List.getElem?_eq_none (by rw [fillRows_length _ (by simp)]; omega), List.getElem?_eq_none (by omega)]

theorem rowsOf_get (cols : List (Fin T → PyFloat ℝ)) (t : ℕ) (ht : t < T) :
    (rowsOf cols)[t]? = some (fun i => cols.get i ⟨t, ht⟩) := by
  simp [rowsOf, ht]

theorem rowsOf_length (cols : List (Fin T → PyFloat ℝ)) : (rowsOf cols).length = T := by simp [rowsOf]

/-! ## Specification -/

/-- The documented return between two positive prices. -/
noncomputable def returnOf (m : Method) (before after : ℝ) : ℝ :=
  match m with
  | .log => Real.log (after / before)
  | .simple => (after - before) / before

theorem ret_fin (m : Method) {x y : ℝ} (hx : 0 < x) (hy : 0 < y) : ret m (.fin x) (.fin y) = .fin (returnOf m x y) := by
  cases m with
  | log => simp [ret, fdiv, flog, returnOf, hx.ne', div_pos hy hx]
  | simple =>
    simp only [ret, fdiv, fpred, returnOf, ne_eq, hx.ne', not_false_eq_true, if_true]
    congr 1
    field_simp

/-- The columns a call uses: the named ones in the order named, or all numeric ones in frame order. -/
def Uses (f : PriceFrame T) (names : Option (List String)) (data : List (Fin T → PyFloat ℝ)) : Prop :=
  (∃ ns, names = some ns ∧ ns ≠ [] ∧ List.Forall₂ (fun n c => (n, true, c) ∈ f.cols) ns data) ∨
  ((names = none ∨ names = some []) ∧ T ≠ 0 ∧ data ≠ [] ∧ data = (f.cols.filter (fun c => c.2.1)).map (fun c => c.2.2))

theorem pickCol_iff {cols : List (String × Bool × (Fin T → PyFloat ℝ))} (hd : (cols.map Prod.fst).Nodup) (n : String)
    (c : Bool × (Fin T → PyFloat ℝ)) : pickCol cols n = .ok c ↔ (n, c) ∈ cols := by
  unfold pickCol
  cases hf : cols.find? (fun c => decide (c.1 = n)) with
  | none =>
    simp only [reduceCtorEq, false_iff]
    intro hm
    rw [List.find?_eq_none] at hf
    simpa using hf _ hm
  | some c' =>
    have h1 := List.find?_some hf
    have h2 := List.mem_of_find?_eq_some hf
    simp only [decide_eq_true_eq] at h1
    simp only [Except.ok.injEq]
    constructor
    · rintro rfl; rw [← h1]; exact h2
    · intro hm
      have := List.inj_on_of_nodup_map hd h2 hm (by rw [h1])
      rw [this]

theorem dropDate_none (f : PriceFrame T) : dropDate f none = .ok f.cols := rfl

theorem method_iff (s : String) : (∃ m, method? s = some m) ↔ s ∈ ["log", "simple"] := by
  unfold method?
  simp only [List.mem_cons, List.not_mem_nil, or_false]
  split_ifs <;> simp_all

theorem fill_iff (s : String) : (∃ m, fill? s = some m) ↔ s ∈ ["ffill", "bfill", "zero", "drop"] := by
  unfold fill?
  simp only [List.mem_cons, List.not_mem_nil, or_false]
  split_ifs <;> simp_all

theorem fill_drop {s : String} {g : Fill} (h : fill? s = some g) (hs : s ≠ "drop") : g ≠ .drop := by
  unfold fill? at h
  split_ifs at h <;> first | (injection h with h; subst h; simp) | contradiction

theorem toReturns_iff (f : PriceFrame T) (hd : (f.cols.map Prod.fst).Nodup) (names : Option (List String)) (method fillM : String)
    (out : Σ N, List (Fin N → PyFloat ℝ)) : toReturns f names none method fillM = .ok out ↔
      ∃ data m g, Uses f names data ∧ method? method = some m ∧ fill? fillM = some g ∧
        out = ⟨data.length, fillRows g (returnRows m (rowsOf data))⟩ := by
  have hdata : ∀ data, (∃ l, priceCols f.cols names = .ok l ∧ l.all (fun c => c.1) = true ∧ l.map Prod.snd = data) ↔ Uses f names data := by
    intro data
    unfold priceCols Uses
    rcases names with _ | _ | ⟨n, ns⟩
    · simp only [reduceCtorEq, false_and, exists_false, true_or, true_and, false_or]
      constructor
      · rintro ⟨l, h1, h2, rfl⟩
        split at h1
        · cases h1
        · rename_i hc
          rw [not_or] at hc
          injection h1 with h1; subst h1
          refine ⟨hc.1, by simpa using hc.2, by simp⟩
      · rintro ⟨h1, h2, rfl⟩
        refine ⟨_, if_neg (not_or.mpr ⟨h1, by simpa using h2⟩), by simp, by simp⟩
    · simp only [Option.some.injEq, or_true, true_and]
      constructor
      · rintro ⟨l, h1, h2, rfl⟩
        right
        split at h1
        · cases h1
        · rename_i hc
          rw [not_or] at hc
          injection h1 with h1; subst h1
          refine ⟨hc.1, by simpa using hc.2, by simp⟩
      · rintro (⟨ns, rfl, h, -⟩ | ⟨h1, h2, rfl⟩)
        · exact absurd rfl h
        · refine ⟨_, if_neg (not_or.mpr ⟨h1, by simpa using h2⟩), by simp, by simp⟩
    · simp only [Option.some.injEq, reduceCtorEq, or_self, false_and, or_false]
      constructor
      · rintro ⟨l, h1, h2, rfl⟩
        refine ⟨_, rfl, by simp, ?_⟩
        rw [Ens.mapE_iff] at h1
        rw [List.forall₂_map_right_iff]
        have hall : ∀ c ∈ l, c.1 = true := by simpa using h2
        clear h2
        generalize hn' : (n :: ns) = nn at h1 ⊢
        clear hn'
        induction h1 with
        | nil => exact .nil
        | @cons a b l1 l2 hab _ ih =>
          refine .cons ?_ (ih (fun c hc => hall c (List.mem_cons_of_mem _ hc)))
          have := (pickCol_iff hd _ _).mp hab
          have hb := hall b List.mem_cons_self
          rwa [← hb]
      · rintro ⟨nn, rfl, -, h⟩
        refine ⟨data.map (fun c => (true, c)), ?_, by simp, by simp [Function.comp_def]⟩
        rw [Ens.mapE_iff, List.forall₂_map_right_iff]
        exact h.imp (fun a b hab => (pickCol_iff hd _ _).mpr hab)
  · unfold toReturns
    rw [dropDate_none]
    simp only
    constructor
    · intro h
      split at h
      · cases h
      rename_i l hl
      split at h
      · cases h
      rename_i m hm
      split at h
      swap; · cases h
      rename_i ha
      split at h
      · cases h
      rename_i g hg
      injection h with h
      exact ⟨_, m, g, (hdata _).mp ⟨l, hl, ha, rfl⟩, hm, hg, h.symm⟩
    · rintro ⟨data, m, g, hu, h1, h2, rfl⟩
      obtain ⟨l, hl, ha, rfl⟩ := (hdata _).mpr hu
      rw [hl]
      simp only [h1, h2, ha, if_true]

/-- **C133** (acceptance and shape) Without a date column: the call succeeds exactly when the named columns exist and are numeric (or, with no
names, there is at least one row and one numeric column) and both method names are documented. The result then has one column per column used and
contains no NaN; it has `T - 1` rows unless incomplete rows are dropped, and at most that many then. -/
theorem C133_accepts_iff (f : PriceFrame T) (hd : (f.cols.map Prod.fst).Nodup) (names : Option (List String)) (method fillM : String) :
    ((∃ out, toReturns f names none method fillM = .ok out) ↔
      (∃ data, Uses f names data) ∧ method ∈ ["log", "simple"] ∧ fillM ∈ ["ffill", "bfill", "zero", "drop"]) ∧
    ∀ N rows, toReturns f names none method fillM = .ok ⟨N, rows⟩ →
      (∃ data, Uses f names data ∧ N = data.length) ∧ (∀ r ∈ rows, ∀ i, r i ≠ .nan) ∧
      (fillM ≠ "drop" → rows.length = T - 1) ∧ rows.length ≤ T - 1 := by
  constructor
  · constructor
    · rintro ⟨out, h⟩
      obtain ⟨data, m, g, hu, h1, h2, -⟩ := (toReturns_iff f hd names method fillM _).mp h
      exact ⟨⟨data, hu⟩, (method_iff _).mp ⟨m, h1⟩, (fill_iff _).mp ⟨g, h2⟩⟩
    · rintro ⟨⟨data, hu⟩, h1, h2⟩
      obtain ⟨m, h1⟩ := (method_iff _).mpr h1
      obtain ⟨g, h2⟩ := (fill_iff _).mpr h2
      exact ⟨_, (toReturns_iff f hd names method fillM _).mpr ⟨data, m, g, hu, h1, h2, rfl⟩⟩
  · intro N rows h
    obtain ⟨data, m, g, hu, h1, h2, h3⟩ := (toReturns_iff f hd names method fillM _).mp h
    cases h3
    refine ⟨⟨data, hu, rfl⟩, fillRows_no_nan _ _, ?_, ?_⟩
    · intro hs
      rw [fillRows_length g (fill_drop h2 hs), returnRows_length, rowsOf_length]
    · by_cases hg : g = .drop
      · subst hg
        simp only [fillRows, fillZero_length]
        refine (List.length_filter_le _ _).trans ?_
        rw [returnRows_length, rowsOf_length]
      · rw [fillRows_length g hg, returnRows_length, rowsOf_length]

/-- **C133** (errors) A call without a date column that fails is a `ValueError`, except that a named column without numbers, asked for with a
documented return method, is a `TypeError`. -/
theorem C133_errors (f : PriceFrame T) (hd : (f.cols.map Prod.fst).Nodup) (names : Option (List String)) (method fillM : String) {e}
    (h : toReturns f names none method fillM = .error e) :
    (e = .typeError ↔ method ∈ ["log", "simple"] ∧ ∃ ns, names = some ns ∧ (∀ n ∈ ns, n ∈ f.cols.map Prod.fst) ∧
      ∃ n ∈ ns, ∃ c, (n, false, c) ∈ f.cols) ∧ (e = .valueError ∨ e = .typeError) := by
  have hpick : ∀ n e, pickCol f.cols n = .error e → e = .valueError ∧ n ∉ f.cols.map Prod.fst := by
    intro n e hp
    unfold pickCol at hp
    split at hp
    · cases hp
    · rename_i hf
      injection hp with hp
      refine ⟨hp.symm, fun hm => ?_⟩
      obtain ⟨c, hc, rfl⟩ := List.mem_map.mp hm
      rw [List.find?_eq_none] at hf
      simpa using hf c hc
  have hmap : ∀ (ns : List String) e, mapE (pickCol f.cols) ns = .error e → e = .valueError ∧ ∃ n ∈ ns, n ∉ f.cols.map Prod.fst := by
    intro ns
    induction ns with
    | nil => intro e hm; cases hm
    | cons n ns ih =>
      intro e hm
      unfold mapE at hm
      cases hn : pickCol f.cols n with
      | error e' =>
        simp only [hn] at hm
        injection hm with hm; subst hm
        exact ⟨(hpick n _ hn).1, n, List.mem_cons_self, (hpick n _ hn).2⟩
      | ok c =>
        simp only [hn] at hm
        cases hr : mapE (pickCol f.cols) ns with
        | error e' =>
          simp only [hr] at hm
          injection hm with hm; subst hm
          obtain ⟨q1, n', q2, q3⟩ := ih _ hr
          exact ⟨q1, n', List.mem_cons_of_mem _ q2, q3⟩
        | ok cs => simp only [hr] at hm; cases hm
  have hmem : ∀ (ns : List String) l, mapE (pickCol f.cols) ns = .ok l →
      (∀ n ∈ ns, n ∈ f.cols.map Prod.fst) ∧ (l.all (fun c => c.1) = false ↔ ∃ n ∈ ns, ∃ c, (n, false, c) ∈ f.cols) := by
    intro ns l hl
    rw [Ens.mapE_iff] at hl
    clear h hmap
    induction hl with
    | nil => simp
    | @cons a b l1 l2 hab _ ih =>
      have hm := (pickCol_iff hd _ _).mp hab
      constructor
      · intro n hn
        rcases List.mem_cons.mp hn with rfl | hn
        · exact List.mem_map.mpr ⟨_, hm, rfl⟩
        · exact ih.1 n hn
      · rw [List.all_cons, Bool.and_eq_false_iff, ih.2]
        constructor
        · rintro (hb | ⟨n, q1, q2⟩)
          · exact ⟨a, List.mem_cons_self, b.2, by rw [← hb]; exact hm⟩
          · exact ⟨n, List.mem_cons_of_mem _ q1, q2⟩
        · rintro ⟨n, hn, c, hc⟩
          rcases List.mem_cons.mp hn with rfl | hn
          · left
            have := (pickCol_iff hd _ _).mpr hc
            rw [hab] at this
            injection this with this
            rw [this]
          · exact Or.inr ⟨n, hn, c, hc⟩
  have hval : ∀ e', e' = PyErr.valueError → ¬ (method ∈ ["log", "simple"] ∧ ∃ ns, names = some ns ∧ (∀ n ∈ ns, n ∈ f.cols.map Prod.fst) ∧
      ∃ n ∈ ns, ∃ c, (n, false, c) ∈ f.cols) → (e' = .typeError ↔ method ∈ ["log", "simple"] ∧ ∃ ns, names = some ns ∧
      (∀ n ∈ ns, n ∈ f.cols.map Prod.fst) ∧ ∃ n ∈ ns, ∃ c, (n, false, c) ∈ f.cols) ∧ (e' = .valueError ∨ e' = .typeError) := by
    rintro e' rfl hn
    exact ⟨⟨(fun h => nomatch h), fun h => absurd h hn⟩, Or.inl rfl⟩
  unfold toReturns at h
  rw [dropDate_none] at h
  simp only at h
  cases hp : priceCols f.cols names with
  | error e' =>
    simp only [hp] at h
    injection h with h; subst h
    unfold priceCols at hp
    rcases names with _ | _ | ⟨n, ns⟩
    · simp only at hp
      split at hp
      · injection hp with hp
        exact hval _ hp.symm (by simp)
      · cases hp
    · simp only at hp
      split at hp
      · injection hp with hp
        exact hval _ hp.symm (by simp)
      · cases hp
    · simp only at hp
      obtain ⟨q1, n', q2, q3⟩ := hmap _ _ hp
      refine hval _ q1 ?_
      rintro ⟨-, ns', hns, hall, -⟩
      injection hns with hns; subst hns
      exact q3 (hall n' q2)
  | ok l =>
    simp only [hp] at h
    cases hm : method? method with
    | none =>
      simp only [hm] at h
      injection h with h
      refine hval _ h.symm ?_
      rintro ⟨h1, -⟩
      obtain ⟨m, h1⟩ := (method_iff _).mpr h1
      rw [h1] at hm; cases hm
    | some m =>
      simp only [hm] at h
      have hl : l.all (fun c => c.1) = false ↔ ∃ ns, names = some ns ∧ (∀ n ∈ ns, n ∈ f.cols.map Prod.fst) ∧
          ∃ n ∈ ns, ∃ c, (n, false, c) ∈ f.cols := by
        unfold priceCols at hp
        rcases names with _ | _ | ⟨n, ns⟩
        · simp only at hp
          split at hp
          · cases hp
          · injection hp with hp; subst hp
            simp
        · simp only at hp
          split at hp
          · cases hp
          · injection hp with hp; subst hp
            simp
        · simp only at hp
          obtain ⟨q1, q2⟩ := hmem _ _ hp
          rw [q2]
          constructor
          · intro hx; exact ⟨_, rfl, q1, hx⟩
          · rintro ⟨ns', hns, -, hx⟩
            injection hns with hns; subst hns; exact hx
      by_cases ha : l.all (fun c => c.1) = true
      · rw [if_pos ha] at h
        cases hf : fill? fillM with
        | none =>
          simp only [hf] at h
          injection h with h
          refine hval _ h.symm ?_
          rintro ⟨-, hx⟩
          rw [hl.mpr hx] at ha; cases ha
        | some g => simp only [hf] at h; cases h
      · rw [if_neg ha] at h
        injection h with h; subst h
        exact ⟨⟨fun _ => ⟨(method_iff _).mp ⟨m, hm⟩, hl.mp (by simpa using ha)⟩, fun _ => rfl⟩, Or.inr rfl⟩

/-- **C133** (date column) A named date column becomes the index: if it already is, nothing changes; if it is a column whose values are dates, the
call is the same as without that column; otherwise it is a `ValueError`. -/
theorem C133_date (f : PriceFrame T) (names : Option (List String)) (d method fillM : String) (hd : d ≠ "") :
    (f.indexName = some d → toReturns f names (some d) method fillM = toReturns f names none method fillM) ∧
    (f.indexName ≠ some d → d ∈ f.cols.map Prod.fst → f.dates d = true → toReturns f names (some d) method fillM =
      toReturns { f with cols := f.cols.filter (fun c => decide (c.1 ≠ d)) } names none method fillM) ∧
    (f.indexName ≠ some d → (d ∉ f.cols.map Prod.fst ∨ f.dates d = false) → toReturns f names (some d) method fillM = .error .valueError) := by
  refine ⟨?_, ?_, ?_⟩
  · intro h
    unfold toReturns dropDate
    simp only [h, or_true, if_true]
  · intro h1 h2 h3
    unfold toReturns dropDate
    simp only [hd, h1, or_self, if_false, h2, h3, if_true]
  · intro h1 h2
    unfold toReturns dropDate
    simp only [hd, h1, or_self, if_false]
    by_cases hc : d ∈ f.cols.map Prod.fst
    · have h3 : f.dates d = false := by
        rcases h2 with h2 | h2
        · exact absurd hc h2
        · exact h2
      rw [if_pos hc, h3]
      rfl
    · rw [if_neg hc]

theorem ffill_spec (c : Fin N → PyFloat ℝ) (l : List (Fin N → PyFloat ℝ)) (t : ℕ) (r' : Fin N → PyFloat ℝ) (h : (ffill c l)[t]? = some r')
    (i : Fin N) :
    (∃ s r, s ≤ t ∧ l[s]? = some r ∧ isNan (r i) = false ∧ r' i = r i ∧ ∀ u r2, s < u → u ≤ t → l[u]? = some r2 → isNan (r2 i) = true) ∨
    ((∀ s r, s ≤ t → l[s]? = some r → isNan (r i) = true) ∧ r' i = c i) := by
  induction l generalizing c t with
  | nil => simp [ffill] at h
  | cons a l ih =>
    cases t with
    | zero =>
      simp only [ffill, List.getElem?_cons_zero, Option.some.injEq] at h
      subst h
      by_cases ha : isNan (a i) = true
      · right
        refine ⟨?_, by simp [ha]⟩
        intro s r hs hr
        obtain rfl : s = 0 := by omega
        simp only [List.getElem?_cons_zero, Option.some.injEq] at hr
        subst hr; exact ha
      · left
        refine ⟨0, a, le_rfl, rfl, by simpa using ha, by simp [ha], fun u r2 h1 h2 => by omega⟩
    | succ t =>
      simp only [ffill, List.getElem?_cons_succ] at h
      rcases ih _ t h with ⟨s, r, h1, h2, h3, h4, h5⟩ | ⟨h1, h2⟩
      · left
        refine ⟨s + 1, r, by omega, by simpa using h2, h3, h4, ?_⟩
        intro u r2 hu1 hu2 hr
        obtain ⟨v, rfl⟩ : ∃ v, u = v + 1 := ⟨u - 1, by omega⟩
        exact h5 v r2 (by omega) (by omega) (by simpa using hr)
      · by_cases ha : isNan (a i) = true
        · right
          refine ⟨?_, by rw [h2]; simp [ha]⟩
          intro s r hs hr
          cases s with
          | zero =>
            simp only [List.getElem?_cons_zero, Option.some.injEq] at hr
            subst hr; exact ha
          | succ s => exact h1 s r (by omega) (by simpa using hr)
        · left
          refine ⟨0, a, by omega, rfl, by simpa using ha, by rw [h2]; simp [ha], ?_⟩
          intro u r2 hu1 hu2 hr
          obtain ⟨v, rfl⟩ : ∃ v, u = v + 1 := ⟨u - 1, by omega⟩
          exact h1 v r2 (by omega) (by simpa using hr)

/-- The raw return of column `i` over period `t` (`none` outside the sample). -/
noncomputable def rawReturn (m : Method) (data : List (Fin T → PyFloat ℝ)) (t : ℕ) (i : Fin data.length) : PyFloat ℝ :=
  if h : t + 1 < T then ret m (data.get i ⟨t, by omega⟩) (data.get i ⟨t + 1, h⟩) else .nan

theorem rawRows_get (m : Method) (data : List (Fin T → PyFloat ℝ)) (t : ℕ) (ht : t + 1 < T) :
    (returnRows m (rowsOf data))[t]? = some (fun i => rawReturn m data t i) := by
  rw [returnRows_get, rowsOf_get _ t (by omega), rowsOf_get _ (t + 1) ht]
  simp [rawReturn, ht]

theorem rawRows_none (m : Method) (data : List (Fin T → PyFloat ℝ)) (t : ℕ) {r} (h : (returnRows m (rowsOf data))[t]? = some r) :
    t + 1 < T ∧ r = fun i => rawReturn m data t i := by
  have ht : t + 1 < T := by
    by_contra hc
    rw [List.getElem?_eq_none (by rw [returnRows_length, rowsOf_length]; omega)] at h
    cases h
  rw [rawRows_get m data t ht] at h
  injection h with h
  exact ⟨ht, h.symm⟩

/-- The value given to a missing return: the latest earlier available one (`ffill`), the earliest later one (`bfill`), or zero. -/
def Filled (raw : ℕ → PyFloat ℝ) (n : ℕ) (fillM : String) (t : ℕ) (v : PyFloat ℝ) : Prop :=
  if fillM = "ffill" then (∃ s ≤ t, raw s ≠ .nan ∧ v = raw s ∧ ∀ u, s < u → u ≤ t → raw u = .nan) ∨ ((∀ s ≤ t, raw s = .nan) ∧ v = .fin 0)
  else if fillM = "bfill" then (∃ s, t ≤ s ∧ s < n ∧ raw s ≠ .nan ∧ v = raw s ∧ ∀ u, t ≤ u → u < s → raw u = .nan) ∨
    ((∀ s, t ≤ s → s < n → raw s = .nan) ∧ v = .fin 0)
  else (raw t ≠ .nan ∧ v = raw t) ∨ (raw t = .nan ∧ v = .fin 0)

theorem isNan_iff (x : PyFloat ℝ) : isNan x = true ↔ x = .nan := by cases x <;> simp [isNan]

theorem isNan_false_iff (x : PyFloat ℝ) : isNan x = false ↔ x ≠ .nan := by cases x <;> simp [isNan]

theorem fillZero_entry (l : List (Fin N → PyFloat ℝ)) (t : ℕ) (r : Fin N → PyFloat ℝ) (h : (fillZero l)[t]? = some r) :
    ∃ r0, l[t]? = some r0 ∧ ∀ i, (r0 i = .nan → r i = .fin 0) ∧ (r0 i ≠ .nan → r i = r0 i) := by
  unfold fillZero at h
  rw [List.getElem?_map, Option.map_eq_some_iff] at h
  obtain ⟨r0, h0, rfl⟩ := h
  refine ⟨r0, h0, fun i => ⟨fun e => by simp [e, isNan], fun e => ?_⟩⟩
  have := (isNan_false_iff _).mpr e
  simp [this]

/-- **C134** (entries) Unless incomplete rows are dropped, entry `(t, i)` of the result is the return of column `i` over period `t` when it is
available, and otherwise the neighbouring return the filling method asks for (zero when there is none). Between two positive prices the return is
`log (after / before)` or `(after - before) / before`. -/
theorem C134_entries (f : PriceFrame T) (hd : (f.cols.map Prod.fst).Nodup) (names : Option (List String)) (method fillM : String)
    (hfill : fillM ≠ "drop") {out} (h : toReturns f names none method fillM = .ok out) :
    ∃ data rows m, Uses f names data ∧ (method = "log" ∧ m = Method.log ∨ method = "simple" ∧ m = Method.simple) ∧
      out = ⟨data.length, rows⟩ ∧ rows.length = T - 1 ∧
      (∀ (t : ℕ) r, rows[t]? = some r → ∀ i, Filled (fun s => rawReturn m data s i) (T - 1) fillM t (r i)) ∧
      ∀ (t : ℕ) (ht : t + 1 < T) (i : Fin data.length) (x y : ℝ), data.get i ⟨t, by omega⟩ = .fin x → data.get i ⟨t + 1, ht⟩ = .fin y → 0 < x → 0 < y →
        rawReturn m data t i = .fin (returnOf m x y) := by
  obtain ⟨data, m, g, hu, hm, hg, rfl⟩ := (toReturns_iff f hd names method fillM _).mp h
  have hgd := fill_drop hg hfill
  refine ⟨data, _, m, hu, ?_, rfl, ?_, ?_, ?_⟩
  · unfold method? at hm
    split_ifs at hm with h1 h2
    · left; injection hm with hm; exact ⟨h1, hm.symm⟩
    · right; injection hm with hm; exact ⟨h2, hm.symm⟩
  · rw [fillRows_length g hgd, returnRows_length, rowsOf_length]
  · intro t r hr i
    unfold fill? at hg
    unfold Filled
    split_ifs at hg with h1 h2 h3 h4
    · rw [if_pos h1]
      injection hg with hg; subst hg
      obtain ⟨r0, hr0, e⟩ := fillZero_entry _ t r hr
      rcases ffill_spec _ _ _ _ hr0 i with ⟨s, r1, q1, q2, q3, q4, q5⟩ | ⟨q1, q2⟩
      · obtain ⟨hs, rfl⟩ := rawRows_none m data s q2
        have q3' := (isNan_false_iff _).mp q3
        have htT : t + 1 < T := by
          by_contra hc
          rw [List.getElem?_eq_none (by rw [ffill_length, returnRows_length, rowsOf_length]; omega)] at hr0
          cases hr0
        left
        refine ⟨s, q1, q3', ?_, ?_⟩
        · rw [(e i).2 (by rw [q4]; exact q3'), q4]
        · intro u h1 h2
          exact (isNan_iff _).mp (q5 u _ h1 h2 (rawRows_get m data u (by omega)))
      · right
        have htT : t + 1 < T := by
          by_contra hc
          rw [List.getElem?_eq_none (by rw [ffill_length, returnRows_length, rowsOf_length]; omega)] at hr0
          cases hr0
        exact ⟨fun s hs => (isNan_iff _).mp (q1 s _ hs (rawRows_get m data s (by omega))), (e i).1 q2⟩
    · rw [if_neg h1, if_pos h2]
      injection hg with hg; subst hg
      obtain ⟨r0, hr0, e⟩ := fillZero_entry _ t r hr
      set l := returnRows m (rowsOf data) with hl
      have hlen : l.length = T - 1 := by rw [hl, returnRows_length, rowsOf_length]
      have ht : t < l.length := by
        by_contra hc
        rw [List.getElem?_eq_none (by rw [List.length_reverse, ffill_length, List.length_reverse]; omega)] at hr0
        cases hr0
      rw [List.getElem?_reverse (by rw [ffill_length, List.length_reverse]; exact ht), ffill_length, List.length_reverse] at hr0
      have hrev : ∀ s, s < l.length → l.reverse[l.length - 1 - s]? = some (fun i => rawReturn m data s i) := by
        intro s hs
        rw [List.getElem?_reverse (by omega)]
        rw [← rawRows_get m data s (by omega), ← hl]
        congr 1; omega
      rcases ffill_spec _ _ _ _ hr0 i with ⟨s, r1, q1, q2, q3, q4, q5⟩ | ⟨q1, q2⟩
      · have hs : s < l.length := by omega
        have q2' := hrev (l.length - 1 - s) (by omega)
        rw [show l.length - 1 - (l.length - 1 - s) = s by omega, q2] at q2'
        injection q2' with q2'
        subst q2'
        have q3' := (isNan_false_iff _).mp q3
        left
        refine ⟨l.length - 1 - s, by omega, by omega, q3', ?_, ?_⟩
        · rw [(e i).2 (by rw [q4]; exact q3'), q4]
        · intro u h1 h2
          exact (isNan_iff _).mp (q5 (l.length - 1 - u) _ (by omega) (by omega) (hrev u (by omega)))
      · right
        exact ⟨fun s h1 h2 => (isNan_iff _).mp (q1 (l.length - 1 - s) _ (by omega) (hrev s (by omega))), (e i).1 q2⟩
    · rw [if_neg h1, if_neg h2]
      injection hg with hg; subst hg
      obtain ⟨r0, hr0, e⟩ := fillZero_entry _ t r hr
      obtain ⟨r1, hr1, e1⟩ := fillZero_entry _ t r0 hr0
      obtain ⟨ht, rfl⟩ := rawRows_none m data t hr1
      by_cases hn : rawReturn m data t i = .nan
      · right
        refine ⟨hn, ?_⟩
        have := (e1 i).1 hn
        rw [(e i).2 (by rw [this]; simp), this]
      · left
        refine ⟨hn, ?_⟩
        have := (e1 i).2 hn
        rw [(e i).2 (by rw [this]; exact hn), this]
  · intro t ht i x y hx hy px py
    unfold rawReturn
    rw [dif_pos ht, hx, hy, ret_fin m px py]

/-- **C134** (every finite or missing price) The return of a period: NaN if either price is missing; the documented value between positive prices;
across a change of sign the log return is NaN; from a nonzero price to zero the log return is minus infinity and the simple return -1; from a zero
price to a positive one both are plus infinity, and from zero to zero both are NaN. -/
theorem C134_raw (m : Method) (data : List (Fin T → PyFloat ℝ)) (t : ℕ) (ht : t + 1 < T) (i : Fin data.length) :
    (data.get i ⟨t, by omega⟩ = .nan ∨ data.get i ⟨t + 1, ht⟩ = .nan → rawReturn m data t i = .nan) ∧
    ∀ x y : ℝ, data.get i ⟨t, by omega⟩ = .fin x → data.get i ⟨t + 1, ht⟩ = .fin y →
      (0 < x → 0 < y → rawReturn m data t i = .fin (returnOf m x y)) ∧
      (x ≠ 0 → m = .simple → rawReturn m data t i = .fin ((y - x) / x)) ∧
      (x * y < 0 → m = .log → rawReturn m data t i = .nan) ∧
      (x < 0 → y < 0 → m = .log → rawReturn m data t i = .fin (Real.log (y / x))) ∧
      (x ≠ 0 → y = 0 → m = .log → rawReturn m data t i = .negInf) ∧
      (x = 0 → y = 0 → rawReturn m data t i = .nan) ∧
      (x = 0 → 0 < y → rawReturn m data t i = .posInf) ∧
      (x = 0 → y < 0 → rawReturn m data t i = match m with | .log => .nan | .simple => .negInf) := by
  have hr : rawReturn m data t i = ret m (data.get i ⟨t, by omega⟩) (data.get i ⟨t + 1, ht⟩) := by
    unfold rawReturn
    rw [dif_pos ht]
  rw [hr]
  generalize data.get i ⟨t, by omega⟩ = a
  generalize data.get i ⟨t + 1, ht⟩ = b
  constructor
  · rintro (rfl | rfl)
    · cases m <;> cases b <;> simp [ret, fdiv, flog, fpred]
    · cases m <;> simp [ret, fdiv, flog, fpred]
  · rintro x y rfl rfl
    refine ⟨fun hx hy => ret_fin m hx hy, ?_, ?_, ?_, ?_, ?_, ?_, ?_⟩
    · rintro hx rfl
      simp only [ret, fdiv, fpred, ne_eq, hx, not_false_eq_true, if_true]
      congr 1
      field_simp
    · rintro hxy rfl
      have hx : x ≠ 0 := by rintro rfl; simp at hxy
      have : y / x < 0 := by
        rcases mul_neg_iff.mp hxy with ⟨h1, h2⟩ | ⟨h1, h2⟩
        · exact div_neg_of_neg_of_pos h2 h1
        · exact div_neg_of_pos_of_neg h2 h1
      simp [ret, fdiv, flog, hx, this.not_gt, this.ne]
    · rintro hx hy rfl
      simp [ret, fdiv, flog, hx.ne, div_pos_of_neg_of_neg hy hx]
    · rintro hx rfl rfl
      simp [ret, fdiv, flog, hx]
    · rintro rfl rfl
      cases m <;> simp [ret, fdiv, flog, fpred]
    · rintro rfl hy
      cases m <;> simp [ret, fdiv, flog, fpred, hy, hy.ne']
    · rintro rfl hy
      cases m <;> simp [ret, fdiv, flog, fpred, hy.ne, hy.not_gt]

theorem log_telescope (p : ℕ → ℝ) (n : ℕ) (hp : ∀ t ≤ n, 0 < p t) :
    ∑ t ∈ Finset.range n, Real.log (p (t + 1) / p t) = Real.log (p n / p 0) := by
  induction n with
  | zero => simp [div_self (hp 0 le_rfl).ne']
  | succ n ih =>
    rw [Finset.sum_range_succ, ih (fun t ht => hp t (by omega)), Real.log_div (hp n (by omega)).ne' (hp 0 (by omega)).ne',
      Real.log_div (hp (n + 1) le_rfl).ne' (hp n (by omega)).ne', Real.log_div (hp (n + 1) le_rfl).ne' (hp 0 (by omega)).ne']
    ring

theorem simple_telescope (p : ℕ → ℝ) (n : ℕ) (hp : ∀ t ≤ n, 0 < p t) :
    ∏ t ∈ Finset.range n, (1 + (p (t + 1) - p t) / p t) = p n / p 0 := by
  induction n with
  | zero => simp [div_self (hp 0 le_rfl).ne']
  | succ n ih =>
    rw [Finset.prod_range_succ, ih (fun t ht => hp t (by omega))]
    have h1 := (hp n (by omega)).ne'
    have h2 := (hp 0 (by omega)).ne'
    field_simp
    ring

/-- **C134** (complete data) With positive prices everywhere all four filling methods, including `drop`, give the same result: `T - 1` rows of
finite returns that compound to each column's total price change. -/
theorem C134_complete_partial (f : PriceFrame T) (hd : (f.cols.map Prod.fst).Nodup) (names : Option (List String)) (method fillM : String)
    (hT : 0 < T) {data : List (Fin T → PyFloat ℝ)} (hu : Uses f names data) (P : ℕ → Fin data.length → ℝ)
    (hP : ∀ t (ht : t < T) i, data.get i ⟨t, ht⟩ = .fin (P t i) ∧ 0 < P t i) (hm : method ∈ ["log", "simple"])
    (hf : fillM ∈ ["ffill", "bfill", "zero", "drop"]) :
    ∃ R : ℕ → Fin data.length → ℝ,
      toReturns f names none method fillM = .ok ⟨data.length, (List.range (T - 1)).map (fun t i => .fin (R t i))⟩ ∧
      (method = "log" → ∀ i, ∑ t ∈ Finset.range (T - 1), R t i = Real.log (P (T - 1) i / P 0 i)) ∧
      (method = "simple" → ∀ i, ∏ t ∈ Finset.range (T - 1), (1 + R t i) = P (T - 1) i / P 0 i) := by
  obtain ⟨m, hm'⟩ := (method_iff _).mpr hm
  obtain ⟨g, hg⟩ := (fill_iff _).mpr hf
  refine ⟨fun t i => returnOf m (P t i) (P (t + 1) i), ?_, ?_, ?_⟩
  · have hraw : ∀ t, t + 1 < T → (returnRows m (rowsOf data))[t]? = some (fun i => .fin (returnOf m (P t i) (P (t + 1) i))) := by
      intro t ht
      rw [rawRows_get m data t ht]
      congr 1
      funext i
      unfold rawReturn
      rw [dif_pos ht, (hP t (by omega) i).1, (hP (t + 1) ht i).1, ret_fin m (hP t (by omega) i).2 (hP (t + 1) ht i).2]
    have hrows : returnRows m (rowsOf data) = (List.range (T - 1)).map (fun t i => .fin (returnOf m (P t i) (P (t + 1) i))) := by
      apply List.ext_getElem?
      intro t
      by_cases ht : t + 1 < T
      · rw [hraw t ht, List.getElem?_map, List.getElem?_range (by omega)]
        rfl
      · rw [List.getElem?_eq_none (by rw [returnRows_length, rowsOf_length]; omega), List.getElem?_eq_none (by simp; omega)]
    rw [toReturns_iff f hd]
    refine ⟨data, m, g, hu, hm', hg, ?_⟩
    rw [fillRows_clean, hrows]
    intro r hr i
    rw [hrows, List.mem_map] at hr
    obtain ⟨t, -, rfl⟩ := hr
    rfl
  · rintro rfl i
    obtain rfl : m = .log := by simpa [method?] using hm'.symm
    exact log_telescope (fun t => P t i) (T - 1) (fun t ht => (hP t (by omega) i).2)
  · rintro rfl i
    obtain rfl : m = .simple := by simpa [method?] using hm'.symm
    exact simple_telescope (fun t => P t i) (T - 1) (fun t ht => (hP t (by omega) i).2)

/-- A one-column frame. -/
def onePrice (p : Fin T → PyFloat ℝ) : PriceFrame T := ⟨[("A", true, p)], none, fun _ => false⟩

theorem onePrice_uses (p : Fin T → PyFloat ℝ) (hT : T ≠ 0) : Uses (onePrice p) none [p] :=
  Or.inr ⟨Or.inl rfl, hT, by simp, by simp [onePrice]⟩

/-- **C134** is false of the code when a price is missing: with the default options the prices 100, 110, (missing), 121 give the log return of the
first period three times, compounding to 33.1% although the price rose by 21%. The hypotheses of `C134_complete_partial` are met by the same
prices without the gap. -/
theorem C134_counterexample :
    toReturns (onePrice ![.fin 100, .fin 110, .nan, .fin 121]) none none "log" "ffill" =
      .ok ⟨1, [fun _ => .fin (Real.log (11 / 10)), fun _ => .fin (Real.log (11 / 10)), fun _ => .fin (Real.log (11 / 10))]⟩ ∧
    Real.log (11 / 10) + Real.log (11 / 10) + Real.log (11 / 10) = Real.log (1331 / 1000) ∧ (1331 / 1000 : ℝ) ≠ 121 / 100 := by
  refine ⟨?_, ?_, by norm_num⟩
  · rw [toReturns_iff _ (by simp [onePrice])]
    refine ⟨_, .log, .ffill, onePrice_uses _ (by norm_num), by decide, by decide, ?_⟩
    have h1 : (rowsOf [(![.fin 100, .fin 110, .nan, .fin 121] : Fin 4 → PyFloat ℝ)]) =
        [fun _ => .fin 100, fun _ => .fin 110, fun _ => .nan, fun _ => .fin 121] := by
      simp only [rowsOf, List.ofFn_succ, List.ofFn_zero]
      simp [funext_iff]
    rw [h1]
    have h2 : (0:ℝ) < 110 / 100 := by norm_num
    have h3 : (110 / 100 : ℝ) = 11 / 10 := by norm_num
    simp only [returnRows, ret, fdiv, flog, fillRows, ffill, fillZero, isNan, List.map, ne_eq, List.length_cons, List.length_nil]
    norm_num
  · rw [← Real.log_mul (by norm_num) (by norm_num), ← Real.log_mul (by norm_num) (by norm_num)]
    norm_num

/-- **C134** (bad data) Prices that are not positive are not rejected: log returns across a change of sign become 0, and a price of zero gives an
infinite return. -/
theorem C134_counterexample_nonpositive :
    toReturns (onePrice ![.fin 100, .fin (-50)]) none none "log" "ffill" = .ok ⟨1, [fun _ => .fin 0]⟩ ∧
    toReturns (onePrice ![.fin 100, .fin 0]) none none "log" "ffill" = .ok ⟨1, [fun _ => .negInf]⟩ := by
  constructor
  · rw [toReturns_iff _ (by simp [onePrice])]
    refine ⟨_, .log, .ffill, onePrice_uses _ (by norm_num), by decide, by decide, ?_⟩
    have h1 : (rowsOf [(![.fin 100, .fin (-50)] : Fin 2 → PyFloat ℝ)]) = [fun _ => .fin 100, fun _ => .fin (-50)] := by
      simp only [rowsOf, List.ofFn_succ, List.ofFn_zero]
      simp [funext_iff]
    rw [h1]
    simp only [returnRows, ret, fdiv, flog, fillRows, ffill, fillZero, isNan, List.map, ne_eq, List.length_cons, List.length_nil]
    norm_num [isNan]
  · rw [toReturns_iff _ (by simp [onePrice])]
    refine ⟨_, .log, .ffill, onePrice_uses _ (by norm_num), by decide, by decide, ?_⟩
    have h1 : (rowsOf [(![.fin 100, .fin 0] : Fin 2 → PyFloat ℝ)]) = [fun _ => .fin 100, fun _ => .fin 0] := by
      simp only [rowsOf, List.ofFn_succ, List.ofFn_zero]
      simp [funext_iff]
    rw [h1]
    simp only [returnRows, ret, fdiv, flog, fillRows, ffill, fillZero, isNan, List.map, ne_eq, List.length_cons, List.length_nil]
    norm_num [isNan]

/-- **C134** (dropping) With `drop` every row of the result is the complete, unmodified row of returns of one period, and the periods keep their
order. -/
theorem C134_drop (f : PriceFrame T) (hd : (f.cols.map Prod.fst).Nodup) (names : Option (List String)) (method : String) {out}
    (h : toReturns f names none method "drop" = .ok out) :
    ∃ data rows m, Uses f names data ∧ (method = "log" ∧ m = Method.log ∨ method = "simple" ∧ m = Method.simple) ∧ out = ⟨data.length, rows⟩ ∧
      rows = ((List.range (T - 1)).filter (fun t => decide (∀ i, rawReturn m data t i ≠ .nan))).map (fun t i => rawReturn m data t i) := by
  obtain ⟨data, m, g, hu, hm, hg, rfl⟩ := (toReturns_iff f hd names method "drop" _).mp h
  obtain rfl : g = .drop := by simpa [fill?] using hg.symm
  have hm' : method = "log" ∧ m = Method.log ∨ method = "simple" ∧ m = Method.simple := by
    unfold method? at hm
    split_ifs at hm with h1 h2
    · left; injection hm with hm; exact ⟨h1, hm.symm⟩
    · right; injection hm with hm; exact ⟨h2, hm.symm⟩
  refine ⟨data, _, m, hu, hm', rfl, ?_⟩
  have hrows : returnRows m (rowsOf data) = (List.range (T - 1)).map (fun t i => rawReturn m data t i) := by
    apply List.ext_getElem?
    intro t
    by_cases ht : t + 1 < T
    · rw [rawRows_get m data t ht, List.getElem?_map, List.getElem?_range (by omega)]
      rfl
    · rw [List.getElem?_eq_none (by rw [returnRows_length, rowsOf_length]; omega), List.getElem?_eq_none (by simp; omega)]
  simp only [fillRows]
  have hz : ∀ l : List (Fin data.length → PyFloat ℝ), fillZero (l.filter (fun r => decide (∀ i, isNan (r i) = false))) =
      l.filter (fun r => decide (∀ i, isNan (r i) = false)) := by
    intro l
    unfold fillZero
    conv_rhs => rw [← List.map_id (l.filter _)]
    refine List.map_congr_left fun r hr => ?_
    have := (List.mem_filter.mp hr).2
    simp only [decide_eq_true_eq] at this
    funext i
    simp [this i]
  rw [hz, hrows, List.filter_map]
  congr 1
  apply List.filter_congr
  intro t _
  simp [isNan_false_iff]

/-- **C135** Weights become a Series exactly when they are a one-dimensional array and the names a list of strings of the same length; the `k`-th name
then carries the `k`-th weight. Anything else is a `ValueError`. -/
theorem C135_series (w : WeightsIn) (n : NamesIn) :
    (∀ s, weightsSeries w n = .ok s ↔ ∃ v l, w = .array1 v ∧ n = .strings l ∧ v.length = l.length ∧ s.length = l.length ∧
      ∀ k : ℕ, s[k]? = l[k]?.bind (fun a => v[k]?.map (fun x => (a, x)))) ∧
    (∀ e, weightsSeries w n = .error e → e = .valueError) := by
  have zip_get : ∀ (l : List String) (v : List ℝ) (k : ℕ), (l.zip v)[k]? = l[k]?.bind (fun a => v[k]?.map (fun x => (a, x))) := by
    intro l
    induction l with
    | nil => simp
    | cons a l ih =>
      intro v k
      cases v with
      | nil => cases k <;> simp
      | cons x v =>
        cases k with
        | zero => simp
        | succ k => simpa using ih v k
  constructor
  · intro s
    constructor
    · intro h
      unfold weightsSeries at h
      split at h
      · rename_i v l
        split at h
        · rename_i hl
          injection h with h; subst h
          exact ⟨v, l, rfl, rfl, hl, by simp [hl], zip_get l v⟩
        · cases h
      · cases h
    · rintro ⟨v, l, rfl, rfl, hl, -, hs⟩
      unfold weightsSeries
      simp only [hl, if_true, Except.ok.injEq]
      apply List.ext_getElem?
      intro k
      rw [zip_get, hs]
  · intro e h
    unfold weightsSeries at h
    repeat' split at h
    all_goals first | (injection h with h; exact h.symm) | cases h

/-- The hypotheses of `C134_complete_partial` are met by the prices 100, 110, 121. -/
example : ∃ R : ℕ → Fin 1 → ℝ, toReturns (onePrice ![.fin 100, .fin 110, .fin 121]) none none "simple" "drop" =
    .ok ⟨1, (List.range 2).map (fun t i => .fin (R t i))⟩ ∧ ∀ i, ∏ t ∈ Finset.range 2, (1 + R t i) = 121 / 100 := by
  obtain ⟨R, h, -, h2⟩ := C134_complete_partial (onePrice ![.fin 100, .fin 110, .fin 121]) (by simp [onePrice]) none "simple" "drop" (by norm_num)
    (onePrice_uses _ (by norm_num)) (fun t _ => if t = 0 then 100 else if t = 1 then 110 else 121) (by
      intro t ht i
      have hi : i = (0 : Fin 1) := Subsingleton.elim (α := Fin 1) _ _
      subst hi
      interval_cases t <;> constructor <;> first | rfl | norm_num) (by simp) (by simp)
  exact ⟨R, h, fun i => by rw [h2 rfl i]; norm_num⟩

end PyV.Props
