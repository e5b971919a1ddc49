import Verif.Model.FrontierEnsembles
import Verif.Props.Samples
import Verif.Props.Frontier
import Verif.Lemmas.Ensembles

/-!
# Blending frontiers (C136, C137, C138)
-/

namespace PyV.Props

open PyV PyV.Fr PyV.Ens PyV.Spec.Ens PyV.Spec.Frontier

variable {K : Type*} [Field K] [LinearOrder K] [IsStrictOrderedRing K] {A : Type*} [DecidableEq A] {B : Type*} [DecidableEq B]
  {L : Type*} [DecidableEq L]

/-- The portfolios `cols` (each of `n` weights) and labels `names` pooled from the entries: contributions in order, one common
positive number of assets, one common label list. -/
def Pooled (entries : List (Entry A K)) (selections : Option (List (Option (List ℤ)))) (n : ℕ) (cols : List (List K))
    (names : Option (List A)) : Prop :=
  entries ≠ [] ∧ 0 < n ∧ (∀ e ∈ entries, e.set.n = n) ∧
  (∃ sels bs, (selections = some sels ∨ selections = none ∧ sels = entries.map (fun _ => none)) ∧
    sels.length = entries.length ∧ List.Forall₂ (fun p b => Contributes p.1 p.2 b) (entries.zip sels) bs ∧ cols = bs.flatten) ∧
  (∀ e ∈ entries, ∀ l, Labelled e l → names = some l) ∧
  (names = none ∨ ∃ e ∈ entries, ∃ l, Labelled e l ∧ names = some l)

theorem collect_pooled {entries : List (Entry A K)} {selections : Option (List (Option (List ℤ)))}
    (hw : ∀ e ∈ entries, ∀ l, e.set.names = some l → l.length = e.set.n) {cols : List (List K)} {names : Option (List A)} :
    collectSamples entries selections = .ok (cols, names) ↔ Pooled entries selections (rowCount entries) cols names := by
  rw [C122_collect _ _ hw]
  unfold Pooled
  cases entries with
  | nil => simp
  | cons e es =>
    constructor
    · rintro ⟨h1, ⟨n, h2, h3⟩, h4, h5, h6⟩
      have h7 : rowCount (e :: es) = n := h3 e List.mem_cons_self
      rw [h7]
      exact ⟨h1, h2, h3, h4, h5, h6⟩
    · rintro ⟨h1, h2, h3, h4, h5, h6⟩
      exact ⟨h1, ⟨_, h2, h3⟩, h4, h5, h6⟩

theorem pooled_count {entries : List (Entry A K)} {selections : Option (List (Option (List ℤ)))} {n : ℕ} {cols : List (List K)}
    {names : Option (List A)} (h : Pooled entries selections n cols names) : rowCount entries = n := by
  cases entries with
  | nil => exact absurd rfl h.1
  | cons e es => exact h.2.2.1 e List.mem_cons_self

theorem pooled_series {entries : List (Entry A K)} {selections : Option (List (Option (List ℤ)))} {n : ℕ} {cols : List (List K)}
    {names : Option (List A)} (hw : ∀ e ∈ entries, ∀ l, e.set.names = some l → l.length = e.set.n)
    (h : Pooled entries selections n cols names) (v : Fin n → K) :
    seriesFromVector (List.ofFn v) names = .ok (List.ofFn v, names) := by
  rcases h.2.2.2.2.2 with h5 | ⟨e, he, l, hl, h5⟩
  · rw [h5]; rfl
  · rw [h5]
    have hlen : l.length = (List.ofFn v).length := by rw [List.length_ofFn, hw e he l hl.1, h.2.2.1 e he]
    obtain ⟨a, l', rfl⟩ := List.exists_cons_of_ne_nil hl.2
    simp only [seriesFromVector]
    rw [if_pos hlen]

/-! ## C136 -/

/-- **C136** `average_frontiers` succeeds exactly when the portfolios can be pooled and the weights (all equal by default, otherwise one
per pooled portfolio by position) have a positive sum; the result is the weighted mean of the pooled portfolios, with their labels. -/
theorem C136_average (entries : List (Entry A K)) (selections : Option (List (Option (List ℤ)))) (w : WeightsArg B K)
    (hw : ∀ e ∈ entries, ∀ l, e.set.names = some l → l.length = e.set.n) (v : List K) (names : Option (List A)) :
    averageFrontiers entries selections w = .ok (v, names) ↔
      ∃ n cols, Pooled entries selections n cols names ∧ ∃ raw : Fin cols.length → K, Requested none w raw ∧ 0 < ∑ k, raw k ∧
        v = List.ofFn (fun i : Fin n => (∑ k, raw k * (cols.get k).getD i 0) / ∑ k, raw k) := by
  unfold averageFrontiers
  constructor
  · intro h
    cases hc : collectSamples entries selections with
    | error x => rw [hc] at h; cases h
    | ok r =>
      obtain ⟨cols, nm⟩ := r
      rw [hc] at h
      simp only at h
      have hp := (collect_pooled hw).mp hc
      cases ha : averageExposures (hstack (rowCount entries) cols) none w with
      | error x => rw [ha] at h; cases h
      | ok u =>
        rw [ha] at h
        simp only at h
        rw [pooled_series hw hp] at h
        injection h with h
        injection h with h1 h2
        subst h2
        obtain ⟨raw, hr, hpos, hv⟩ := (C46_average _ _ _ _).mp ha
        refine ⟨_, cols, hp, raw, hr, hpos, ?_⟩
        rw [← h1]
        congr 1
        funext i
        rw [hv i]
        rfl
  · rintro ⟨n, cols, hp, raw, hr, hpos, rfl⟩
    obtain rfl := pooled_count hp
    rw [(collect_pooled hw).mpr hp]
    simp only
    have ha : averageExposures (hstack (rowCount entries) cols) none w =
        .ok (fun i => (∑ k, raw k * (cols.get k).getD i 0) / ∑ k, raw k) :=
      (C46_average _ _ _ _).mpr ⟨raw, hr, hpos, fun i => rfl⟩
    rw [ha]
    exact pooled_series hw hp _

/-- Every pooled portfolio is a column of some entry. -/
theorem pooled_mem {entries : List (Entry A K)} {selections : Option (List (Option (List ℤ)))} {n : ℕ} {cols : List (List K)}
    {names : Option (List A)} (h : Pooled entries selections n cols names) {c : List K} (hc : c ∈ cols) :
    ∃ e ∈ entries, ∃ k : Fin e.set.m, c = List.ofFn (fun i => e.set.w i k) := by
  obtain ⟨-, -, -, ⟨sels, bs, -, -, hbs, rfl⟩, -⟩ := h
  obtain ⟨b, hb, hcb⟩ := List.mem_flatten.mp hc
  obtain ⟨i, hi, rfl⟩ := List.getElem_of_mem hb
  rw [List.forall₂_iff_get] at hbs
  have hi' : i < (entries.zip sels).length := by rw [hbs.1]; exact hi
  have hcon := hbs.2 i hi' hi
  refine ⟨((entries.zip sels).get ⟨i, hi'⟩).1,
    (List.of_mem_zip (a := ((entries.zip sels).get ⟨i, hi'⟩).1) (b := ((entries.zip sels).get ⟨i, hi'⟩).2)
      (List.get_mem (entries.zip sels) ⟨i, hi'⟩)).1, ?_⟩
  simp only [List.get_eq_getElem] at hcon ⊢
  generalize ((entries.zip sels)[i]).2 = sel at hcon
  generalize ((entries.zip sels)[i]).1 = e at hcon
  generalize bs[i] = b at hcon hcb
  cases e with
  | samples s =>
    obtain ⟨-, rfl⟩ := hcon
    obtain ⟨k, rfl⟩ := (List.mem_ofFn' _ _).mp hcb
    exact ⟨k, rfl⟩
  | frontier s risks =>
    obtain ⟨k, rfl, -⟩ := hcon
    exact ⟨k, List.mem_singleton.mp hcb⟩

theorem pooled_sum {entries : List (Entry A K)} {selections : Option (List (Option (List ℤ)))} {n : ℕ} {cols : List (List K)}
    {names : Option (List A)} (h : Pooled entries selections n cols names) (c : ℕ → K) (P : K → Prop)
    (hP : ∀ e ∈ entries, ∀ k : Fin e.set.m, P (∑ i : Fin e.set.n, c i * e.set.w i k)) (k : Fin cols.length) :
    P (∑ i : Fin n, c i * (cols.get k).getD i 0) := by
  obtain ⟨e, he, j, hj⟩ := pooled_mem h (List.get_mem cols k)
  have hn := h.2.2.1 e he
  subst hn
  have h1 := hP e he j
  have h2 : ∑ i : Fin e.set.n, c i * (cols.get k).getD i 0 = ∑ i : Fin e.set.n, c i * e.set.w i j := by
    refine Finset.sum_congr rfl (fun i _ => ?_)
    rw [hj]
    simp [List.getD]
  rw [h2]
  exact h1

/-- **C136** every linear limit (budget, bound, group limit) that all portfolios of the blended frontiers satisfy is satisfied by their
average with non-negative weights. -/
theorem C136_linear (entries : List (Entry A K)) (selections : Option (List (Option (List ℤ)))) (w : WeightsArg B K)
    (hw : ∀ e ∈ entries, ∀ l, e.set.names = some l → l.length = e.set.n) (v : List K) (names : Option (List A))
    (h : averageFrontiers entries selections w = .ok (v, names))
    (hpos : ∀ S : ℕ, ∀ raw : Fin S → K, Requested none w raw → ∀ k, 0 ≤ raw k) (c : ℕ → K) (b : K)
    (hc : ∀ e ∈ entries, ∀ k : Fin e.set.m, ∑ i : Fin e.set.n, c i * e.set.w i k ≤ b) : ∑ i : Fin v.length, c i * v.get i ≤ b := by
  obtain ⟨n, cols, hp, raw, hr, hs, rfl⟩ := (C136_average entries selections w hw v names).mp h
  have ha : averageExposures (hstack n cols) none w = .ok (fun i => (∑ k, raw k * (cols.get k).getD i 0) / ∑ k, raw k) :=
    (C46_average _ _ _ _).mpr ⟨raw, hr, hs, fun i => rfl⟩
  have h1 := C46_linear _ _ _ _ ha (fun raw hr => hpos _ raw hr) (fun i => c i) b
    (fun k => pooled_sum hp c (· ≤ b) hc k)
  refine le_trans (le_of_eq ?_) h1
  rw [← (finCongr (List.length_ofFn (f := fun i : Fin n => (∑ k, raw k * (cols.get k).getD i 0) / ∑ k, raw k))).sum_comp]
  simp

/-- **C136** every linear equality (full investment, neutrality) that all portfolios of the blended frontiers satisfy is satisfied by
their average, whatever the signs of the weights. -/
theorem C136_equality (entries : List (Entry A K)) (selections : Option (List (Option (List ℤ)))) (w : WeightsArg B K)
    (hw : ∀ e ∈ entries, ∀ l, e.set.names = some l → l.length = e.set.n) (v : List K) (names : Option (List A))
    (h : averageFrontiers entries selections w = .ok (v, names)) (c : ℕ → K) (b : K)
    (hc : ∀ e ∈ entries, ∀ k : Fin e.set.m, ∑ i : Fin e.set.n, c i * e.set.w i k = b) : ∑ i : Fin v.length, c i * v.get i = b := by
  obtain ⟨n, cols, hp, raw, hr, hs, rfl⟩ := (C136_average entries selections w hw v names).mp h
  have ha : averageExposures (hstack n cols) none w = .ok (fun i => (∑ k, raw k * (cols.get k).getD i 0) / ∑ k, raw k) :=
    (C46_average _ _ _ _).mpr ⟨raw, hr, hs, fun i => rfl⟩
  have h1 := C46_equality _ _ _ _ ha (fun i => c i) b (fun k => pooled_sum hp c (· = b) hc k)
  refine Eq.trans ?_ h1
  rw [← (finCongr (List.length_ofFn (f := fun i : Fin n => (∑ k, raw k * (cols.get k).getD i 0) / ∑ k, raw k))).sum_comp]
  simp

/-- A family of frontiers over the same `n` assets with the same labels. -/
def family {F n : ℕ} (names : Option (List A)) (m : Fin F → ℕ) (f : ∀ j, Frontier L K n (m j)) : List (Held A L K) :=
  List.ofFn (fun j => ⟨n, m j, names, f j⟩)

theorem flatten_singles {α : Type*} (l : List α) : (l.map (fun x => [x])).flatten = l := by
  induction l with
  | nil => rfl
  | cons a l ih => simp [ih]

/-- Frontiers over common assets pool one column each: the requested ones, or the first of smallest risk. -/
theorem family_pooled {F n : ℕ} (hF : 0 < F) (hn : 0 < n) (names : Option (List A))
    (hl : ∀ l, names = some l → l.length = n) (m : Fin F → ℕ) (f : ∀ j, Frontier L K n (m j))
    (selections : Option (List (Option (List ℤ)))) (k : ∀ j, Fin (m j))
    (hk : (selections = none ∧ ∀ j, FirstMin (fun _ => True) (f j).risks (k j)) ∨
      selections = some (List.ofFn (fun j => some [((k j : ℕ) : ℤ)]))) :
    Pooled ((family names m f).map Held.entry) selections n (List.ofFn (fun j => List.ofFn (fun i => (f j).weights i (k j)))) names := by
  have hne : ∀ l, names = some l → l ≠ [] := by
    intro l hl' h0
    have := hl l hl'
    rw [h0] at this
    simp at this
    omega
  have hent : (family names m f).map Held.entry =
      List.ofFn (fun j => (Held.entry (⟨n, m j, names, f j⟩ : Held A L K))) := by
    simp [family, List.map_ofFn, Function.comp_def]
  rw [hent]
  refine ⟨?_, hn, ?_, ?_, ?_, ?_⟩
  · intro h
    have := congrArg List.length h
    simp at this
    omega
  · intro e he
    obtain ⟨j, rfl⟩ := (List.mem_ofFn' _ _).mp he
    rfl
  · refine ⟨match selections with
        | none => List.ofFn (fun _ : Fin F => none)
        | some s => s, List.ofFn (fun j => [List.ofFn (fun i => (f j).weights i (k j))]), ?_, ?_, ?_, ?_⟩
    · rcases hk with ⟨rfl, -⟩ | rfl
      · right; exact ⟨rfl, by simp [List.map_ofFn, Function.comp_def]⟩
      · left; rfl
    · rcases hk with ⟨rfl, -⟩ | rfl <;> simp
    · rcases hk with ⟨rfl, hk⟩ | rfl
      · rw [List.forall₂_iff_get]
        refine ⟨by simp, fun i h1 h2 => ?_⟩
        simp only [List.get_eq_getElem, List.getElem_zip, List.getElem_ofFn]
        exact ⟨k ⟨i, by simpa using h2⟩, rfl, Or.inl ⟨rfl, hk _⟩⟩
      · rw [List.forall₂_iff_get]
        refine ⟨by simp, fun i h1 h2 => ?_⟩
        simp only [List.get_eq_getElem, List.getElem_zip, List.getElem_ofFn]
        exact ⟨k ⟨i, by simpa using h2⟩, rfl, Or.inr ⟨_, rfl, Or.inl rfl⟩⟩
    · have h1 : List.ofFn (fun j => [List.ofFn (fun i => (f j).weights i (k j))]) =
          (List.ofFn (fun j => List.ofFn (fun i => (f j).weights i (k j)))).map (fun x => [x]) := by
        rw [List.map_ofFn]; rfl
      rw [h1]
      exact (flatten_singles _).symm
  · intro e he l hl'
    obtain ⟨j, rfl⟩ := (List.mem_ofFn' _ _).mp he
    exact hl'.1
  · cases hnm : names with
    | none => exact Or.inl rfl
    | some l =>
      right
      exact ⟨_, (List.mem_ofFn' _ _).mpr ⟨⟨0, hF⟩, rfl⟩, l, ⟨by rfl, hne l hnm⟩, rfl⟩

theorem family_named {F n : ℕ} (names : Option (List A)) (hl : ∀ l, names = some l → l.length = n) (m : Fin F → ℕ)
    (f : ∀ j, Frontier L K n (m j)) :
    ∀ e ∈ (family names m f).map Held.entry, ∀ l, e.set.names = some l → l.length = e.set.n := by
  intro e he l h
  obtain ⟨x, hx, rfl⟩ := List.mem_map.mp he
  obtain ⟨j, rfl⟩ := (List.mem_ofFn' _ _).mp hx
  exact hl l h

theorem getD_ofFn {n : ℕ} (g : Fin n → K) (i : Fin n) : (List.ofFn g).getD i 0 = g i := by
  simp [List.getD]

/-- **C136** averaging non-empty frontiers over the same assets always succeeds: with no selection it returns the plain mean of each
frontier's (first) minimum-risk portfolio, with one column index per frontier the plain mean of those columns. -/
theorem C136_columns {F n : ℕ} (hF : 0 < F) (hn : 0 < n) (names : Option (List A))
    (hl : ∀ l, names = some l → l.length = n) (m : Fin F → ℕ) (f : ∀ j, Frontier L K n (m j))
    (selections : Option (List (Option (List ℤ)))) (k : ∀ j, Fin (m j))
    (hk : (selections = none ∧ ∀ j, FirstMin (fun _ => True) (f j).risks (k j)) ∨
      selections = some (List.ofFn (fun j => some [((k j : ℕ) : ℤ)]))) :
    averageFrontiers ((family names m f).map Held.entry) selections (.none : WeightsArg B K) =
      .ok (List.ofFn (fun i => (∑ j, (f j).weights i (k j)) / F), names) := by
  rw [C136_average _ _ _ (family_named names hl m f)]
  refine ⟨n, _, family_pooled hF hn names hl m f selections k hk, fun _ => 1, fun _ => rfl, ?_, ?_⟩
  · simp only [Finset.sum_const, Finset.card_univ, Fintype.card_fin, List.length_ofFn, nsmul_eq_mul, mul_one]
    exact_mod_cast hF
  · congr 1
    funext i
    simp only [Finset.sum_const, Finset.card_univ, Fintype.card_fin, List.length_ofFn, nsmul_eq_mul, mul_one, one_mul]
    congr 1
    rw [← (finCongr (List.length_ofFn (f := fun j => List.ofFn (fun i => (f j).weights i (k j))))).symm.sum_comp]
    refine Finset.sum_congr rfl (fun j _ => ?_)
    simp [List.getD]

/-- Two labelled frontiers of two assets, one of two and one of three portfolios. -/
def exFam : ∀ j : Fin 2, Frontier String ℚ 2 (![2, 3] j)
  | 0 => ⟨![![1, 1/2], ![0, 1/2]], ![2, 1], ![4, 1], "Variance", []⟩
  | 1 => ⟨![![0, 1/4, 1/2], ![1, 3/4, 1/2]], ![1, 2, 3], ![1, 1, 5], "Variance", []⟩

example : averageFrontiers (B := String) ((family (some ["a", "b"]) ![2, 3] exFam).map Held.entry) none .none =
    .ok ([1/4, 3/4], some ["a", "b"]) := by decide +kernel

example : averageFrontiers (B := String) ((family (some ["a", "b"]) ![2, 3] exFam).map Held.entry)
    (some [some [0], some [2]]) (.array [.fin 1, .fin 3]) = .ok ([5/8, 3/8], some ["a", "b"]) := by decide +kernel

/-! ## C137 -/

/-- **C137** with a sound QP solver, a successful `exposure_stack_frontiers` or `stack_portfolios` returns a convex combination of the
pooled portfolios, carrying their labels, whose coefficients minimise the cross-validation loss over `L` folds splitting them. -/
theorem C137_stack {V : Type*} (solve : StackSolver K V) (hs : ∀ S, SolverSound (solve S)) (off : V) (entries : List (Entry A K))
    (Lf : ℤ) (selections : Option (List (Option (List ℤ)))) (o : Option (List (String × V))) (g : List (String × V))
    (hw : ∀ e ∈ entries, ∀ l, e.set.names = some l → l.length = e.set.n) (v : List K) (names : Option (List A))
    (h : (exposureStackFrontiers solve off entries Lf selections o g).1 = .ok (v, names)) :
    ∃ n cols, Pooled entries selections n cols names ∧ 2 ≤ Lf ∧ Lf ≤ cols.length ∧
      ∃ (Fs : List (Finset (Fin cols.length))) (x : Fin cols.length → K), SplitsSamples cols.length Lf.toNat Fs ∧ Simplex x ∧
        v = List.ofFn (fun i : Fin n => ∑ k, x k * (cols.get k).getD i 0) ∧
        ∀ y, Simplex y → cvLoss (fun (i : Fin n) k => (cols.get k).getD i 0) Fs x ≤
          cvLoss (fun (i : Fin n) k => (cols.get k).getD i 0) Fs y := by
  unfold exposureStackFrontiers at h
  cases hc : collectSamples entries selections with
  | error x => rw [hc] at h; cases h
  | ok r =>
    obtain ⟨cols, nm⟩ := r
    rw [hc] at h
    simp only at h
    have hp := (collect_pooled hw).mp hc
    generalize hr : exposureStacking (solve cols.length) off (hstack (rowCount entries) cols) Lf o g = r at h
    obtain ⟨r1, g'⟩ := r
    cases r1 with
    | error x => cases h
    | ok u =>
      simp only at h
      rw [pooled_series hw hp] at h
      injection h with h
      injection h with h1 h2
      subst h2
      have hb : 2 ≤ Lf ∧ Lf ≤ cols.length := by
        by_contra hb
        rw [C47_rejects _ _ _ _ _ _ (by omega)] at hr
        injection hr with hr
        cases hr
      obtain ⟨Fs, x, h3, h4, h5, h6⟩ := C48_result (solve cols.length) (hs _) off (hstack (rowCount entries) cols) Lf o g u
        (by rw [hr])
      refine ⟨_, cols, hp, hb.1, hb.2, Fs, x, h3, h4, ?_, h6⟩
      rw [← h1]
      congr 1
      funext i
      exact h5 i

/-- **C137** every linear limit that all portfolios of the blended frontiers satisfy is satisfied by the stacked portfolio. -/
theorem C137_linear {V : Type*} (solve : StackSolver K V) (hs : ∀ S, SolverSound (solve S)) (off : V) (entries : List (Entry A K))
    (Lf : ℤ) (selections : Option (List (Option (List ℤ)))) (o : Option (List (String × V))) (g : List (String × V))
    (hw : ∀ e ∈ entries, ∀ l, e.set.names = some l → l.length = e.set.n) (v : List K) (names : Option (List A))
    (h : (exposureStackFrontiers solve off entries Lf selections o g).1 = .ok (v, names)) (c : ℕ → K) (b : K)
    (hc : ∀ e ∈ entries, ∀ k : Fin e.set.m, ∑ i : Fin e.set.n, c i * e.set.w i k ≤ b) :
    ∑ i : Fin v.length, c i * v.get i ≤ b := by
  obtain ⟨n, cols, hp, -, -, Fs, x, -, ⟨hx0, hx1⟩, rfl, -⟩ := C137_stack solve hs off entries Lf selections o g hw v names h
  have hk := fun k => pooled_sum hp c (· ≤ b) hc k
  have h1 : ∑ i : Fin n, c i * ∑ k, x k * (cols.get k).getD i 0 = ∑ k, x k * ∑ i : Fin n, c i * (cols.get k).getD i 0 := by
    simp only [Finset.mul_sum]
    rw [Finset.sum_comm]
    exact Finset.sum_congr rfl (fun k _ => Finset.sum_congr rfl (fun i _ => by ring))
  have h2 : ∑ k, x k * ∑ i : Fin n, c i * (cols.get k).getD i 0 ≤ b := by
    calc _ ≤ ∑ k, x k * b := Finset.sum_le_sum (fun k _ => mul_le_mul_of_nonneg_left (hk k) (hx0 k))
      _ = b := by rw [← Finset.sum_mul, hx1, one_mul]
  refine le_trans (le_of_eq ?_) (h1 ▸ h2)
  rw [← (finCongr (List.length_ofFn (f := fun i : Fin n => ∑ k, x k * (cols.get k).getD i 0))).sum_comp]
  simp

/-- A solver that reports an optimal point whenever one exists. -/
def SolverComplete {n m k : ℕ} {V : Type*} (solve : QpSolver n m k K V) : Prop :=
  ∀ q g, (∃ x, QpOptimal q x) → ∃ x, (solve q g).1 = .ok (some x)

/-- **C137** with a solver that finds an optimum whenever there is one, stacking succeeds whenever the portfolios can be pooled and
`2 <= L <=` their number. -/
theorem C137_succeeds {V : Type*} (solve : StackSolver ℝ V) (hs : ∀ S, SolverComplete (solve S)) (off : V)
    (entries : List (Entry A ℝ)) (Lf : ℤ) (selections : Option (List (Option (List ℤ)))) (o : Option (List (String × V)))
    (g : List (String × V)) (hw : ∀ e ∈ entries, ∀ l, e.set.names = some l → l.length = e.set.n) (n : ℕ) (cols : List (List ℝ))
    (names : Option (List A)) (hp : Pooled entries selections n cols names) (h2 : 2 ≤ Lf) (hL : Lf ≤ cols.length) :
    ∃ v, (exposureStackFrontiers solve off entries Lf selections o g).1 = .ok (v, names) := by
  obtain rfl := pooled_count hp
  unfold exposureStackFrontiers
  rw [(collect_pooled hw).mpr hp]
  simp only
  obtain ⟨x, hx⟩ := hs cols.length (stackQp (hstack (rowCount entries) cols) Lf.toNat)
    (dictUpdate g (dictUpdate [("show_progress", off)] (o.getD [])))
    (C48_optimum_exists (hstack (rowCount entries) cols) Lf.toNat (by omega) (by omega))
  have hst : (exposureStacking (solve cols.length) off (hstack (rowCount entries) cols) Lf o g).1 =
      .ok (combine (hstack (rowCount entries) cols) x) := by
    unfold exposureStacking
    rw [if_neg (by omega), if_neg (by omega), if_neg (by omega)]
    simp only [withOptions]
    rw [hx]
  generalize exposureStacking (solve cols.length) off (hstack (rowCount entries) cols) Lf o g = r at hst
  obtain ⟨r1, g'⟩ := r
  simp only at hst
  subst hst
  exact ⟨_, pooled_series hw hp _⟩

/-- Solvers as assumed exist. -/
theorem exists_stackSolver {V : Type*} : ∃ solve : StackSolver K V, (∀ S, SolverSound (solve S)) ∧ ∀ S, SolverComplete (solve S) := by
  classical
  refine ⟨fun S q g => (.ok (if h : ∃ x, QpOptimal q x then some h.choose else none), g), fun S q g x h => ?_, fun S q g h => ?_⟩
  · simp only at h
    split_ifs at h with hex
    · injection h with h
      injection h with h
      rw [← h]
      exact hex.choose_spec
    · injection h with h
      cases h
  · exact ⟨h.choose, by simp only; rw [dif_pos h]⟩

/-- Two real portfolios, stacked with two folds. -/
example : ∃ (solve : StackSolver ℝ String) (v : List ℝ), (∀ S, SolverSound (solve S)) ∧
    (exposureStackFrontiers solve "off" ([.samples ⟨some ["a", "b"], 2, 1, ![![1], ![0]]⟩,
      .samples ⟨none, 2, 1, ![![0], ![1]]⟩] : List (Entry String ℝ)) 2 none none []).1 = .ok (v, some ["a", "b"]) := by
  obtain ⟨solve, h1, h2⟩ := exists_stackSolver (K := ℝ) (V := String)
  have hw : ∀ e ∈ ([.samples ⟨some ["a", "b"], 2, 1, ![![1], ![0]]⟩, .samples ⟨none, 2, 1, ![![0], ![1]]⟩] :
      List (Entry String ℝ)), ∀ l, e.set.names = some l → l.length = e.set.n := by
    intro e he l hl
    simp only [List.mem_cons, List.not_mem_nil, or_false] at he
    rcases he with rfl | rfl <;> simp only [Entry.set] at hl <;> cases hl <;> rfl
  have hc : collectSamples ([.samples ⟨some ["a", "b"], 2, 1, ![![1], ![0]]⟩, .samples ⟨none, 2, 1, ![![0], ![1]]⟩] :
      List (Entry String ℝ)) none = .ok ([[1, 0], [0, 1]], some ["a", "b"]) := by
    simp [collectSamples, collectLoop, entryCols, mergeNames, Entry.set, SampleSet.col, List.finRange, List.ofFn_succ]
  obtain ⟨v, hv⟩ := C137_succeeds solve h2 "off" _ 2 none none [] hw _ _ _ ((collect_pooled hw).mp hc) (by norm_num) (by norm_num)
  exact ⟨solve, v, h1, hv⟩

/-- The number of portfolios pooled from frontiers is the number of frontiers, however many portfolios each of them has. -/
theorem pooled_frontiers {hs : List (Held A L K)} {selections : Option (List (Option (List ℤ)))} {n : ℕ} {cols : List (List K)}
    {names : Option (List A)} (h : Pooled (hs.map Held.entry) selections n cols names) : cols.length = hs.length := by
  obtain ⟨-, -, -, ⟨sels, bs, -, hlen, hbs, rfl⟩, -⟩ := h
  have h1 : ∀ b ∈ bs, b.length = 1 := by
    intro b hb
    obtain ⟨i, hi, rfl⟩ := List.getElem_of_mem hb
    rw [List.forall₂_iff_get] at hbs
    have hi' : i < ((hs.map Held.entry).zip sels).length := by rw [hbs.1]; exact hi
    have hcon := hbs.2 i hi' hi
    simp only [List.get_eq_getElem, List.getElem_zip, List.getElem_map, Held.entry, Contributes] at hcon
    obtain ⟨k, hk, -⟩ := hcon
    rw [hk]
    rfl
  rw [List.length_flatten, List.map_congr_left h1, List.map_const', List.sum_replicate, ← hbs.length_eq]
  simp [hlen]

/-- **C137** `exposure_stack_frontiers` on frontiers only pools one portfolio per frontier, so asking for more folds than there are
frontiers always raises — in particular the documented call `exposure_stack_frontiers([frontier_a, frontier_b], L=3)`. -/
theorem C137_folds_bounded {V : Type*} (solve : StackSolver K V) (off : V) (hs : List (Held A L K)) (Lf : ℤ)
    (hL : (hs.length : ℤ) < Lf) (selections : Option (List (Option (List ℤ)))) (o : Option (List (String × V)))
    (g : List (String × V)) (hw : ∀ h ∈ hs, ∀ l, h.names = some l → l.length = h.n) :
    ∃ e, exposureStackFrontiers solve off (hs.map Held.entry) Lf selections o g = (.error e, g) := by
  unfold exposureStackFrontiers
  cases hc : collectSamples (hs.map Held.entry) selections with
  | error x => exact ⟨x, rfl⟩
  | ok r =>
    obtain ⟨cols, nm⟩ := r
    have hp := (collect_pooled (by
      intro e he l h
      obtain ⟨x, hx, rfl⟩ := List.mem_map.mp he
      exact hw x hx l h)).mp hc
    simp only
    rw [C47_rejects _ _ _ _ _ _ (Or.inr (by rw [pooled_frontiers hp]; exact hL))]
    exact ⟨_, rfl⟩

/-- **C137** (gap) the note "when `selections` is omitted the full frontier matrices are used" is false: two frontiers with five
portfolios between them cannot be stacked with `L = 3`, whatever the solver. -/
theorem C137_counterexample {V : Type*} (solve : StackSolver ℚ V) (off : V) (g : List (String × V)) :
    exposureStackFrontiers solve off ((family (some ["a", "b"]) ![2, 3] exFam).map Held.entry) 3 none none g =
      (.error .valueError, g) := by
  unfold exposureStackFrontiers
  have hc : collectSamples ((family (some ["a", "b"]) ![2, 3] exFam).map Held.entry) none =
      .ok ([[1/2, 1/2], [0, 1]], some ["a", "b"]) := by decide +kernel
  rw [hc]
  simp only
  rw [C47_rejects _ _ _ _ _ _ (Or.inr (by decide))]

/-! ## C138 -/

theorem forall₂_ofFn {α β : Type*} {R : α → β → Prop} {n : ℕ} {g : Fin n → α} {h : Fin n → β} (H : ∀ j, R (g j) (h j)) :
    List.Forall₂ R (List.ofFn g) (List.ofFn h) := by
  rw [List.forall₂_iff_get]
  refine ⟨by simp, fun i h1 h2 => ?_⟩
  simp only [List.get_eq_getElem, List.getElem_ofFn]
  exact H _

/-- **C138** `risk_percentile_selections` gives one column per frontier: the first whose risk percentile, under the requested risk
label, is nearest the requested percentile; it fails exactly when some frontier fails. -/
theorem C138_selections (argsort : AnySort K) (hs : List (Held A L K)) (x q : K)
    (hq : normalizePercentile (.fin x) = .ok (.fin q)) (label : Option L) (sels : List (Option (List ℤ))) :
    riskPercentileSelections argsort hs (.fin x) label = .ok sels ↔
      List.Forall₂ (fun (h : Held A L K) s => ∃ (r : Fin h.m → K) (k : Fin h.m), RiskUnder h.f label r ∧
        FirstMin (fun _ => True) (fun j => |percentiles (argsort h.m) r j - q|) k ∧ s = some [((k : ℕ) : ℤ)]) hs sels := by
  unfold riskPercentileSelections
  rw [Ens.mapE_iff]
  constructor <;> refine List.Forall₂.imp (fun h s hh => ?_)
  · unfold percentileSelection Frontier.indexAtPercentile at hh
    rw [hq] at hh
    simp only at hh
    cases hv : h.f.riskVector label with
    | error e => rw [hv] at hh; cases hh
    | ok r =>
      rw [hv] at hh
      simp only [nearestIndex] at hh
      cases hk : firstArgmin (fun i => |percentiles (argsort h.m) r i - q|) with
      | none => rw [hk] at hh; cases hh
      | some k =>
        rw [hk] at hh
        injection hh with hh
        exact ⟨r, k, riskVector_ok.mp hv, firstArgmin_iff.mp hk, hh.symm⟩
  · obtain ⟨r, k, h1, h2, rfl⟩ := hh
    unfold percentileSelection Frontier.indexAtPercentile
    rw [hq]
    simp only
    rw [riskVector_ok.mpr h1]
    simp only [nearestIndex]
    rw [firstArgmin_iff.mpr h2]

/-- **C138** blending at a risk percentile: with frontiers over the same assets that all carry the risk label, the percentile selections
exist and `average_frontiers` with them returns the plain mean of the aligned columns. -/
theorem C138_aligned {F n : ℕ} (hF : 0 < F) (hn : 0 < n) (names : Option (List A)) (hl : ∀ l, names = some l → l.length = n)
    (m : Fin F → ℕ) (hm : ∀ j, 0 < m j) (f : ∀ j, Frontier L K n (m j)) (argsort : AnySort K) (x q : K)
    (hq : normalizePercentile (.fin x) = .ok (.fin q)) (label : Option L) (r : ∀ j, Fin (m j) → K)
    (hr : ∀ j, RiskUnder (f j) label (r j)) :
    ∃ (sels : List (Option (List ℤ))) (k : ∀ j, Fin (m j)),
      riskPercentileSelections argsort (family names m f) (.fin x) label = .ok sels ∧
      (∀ j, FirstMin (fun _ => True) (fun i => |percentiles (argsort (m j)) (r j) i - q|) (k j)) ∧
      averageFrontiers ((family names m f).map Held.entry) (some sels) (.none : WeightsArg B K) =
        .ok (List.ofFn (fun i => (∑ j, (f j).weights i (k j)) / F), names) := by
  have hex : ∀ j, ∃ k, FirstMin (fun _ => True) (fun i => |percentiles (argsort (m j)) (r j) i - q|) k := by
    intro j
    obtain ⟨k, hk⟩ := firstArgmin_ne_none (hm j) (fun i => |percentiles (argsort (m j)) (r j) i - q|)
    exact ⟨k, firstArgmin_iff.mp hk⟩
  choose k hk using hex
  refine ⟨List.ofFn (fun j => some [((k j : ℕ) : ℤ)]), k, ?_, hk, C136_columns hF hn names hl m f _ k (Or.inr rfl)⟩
  rw [C138_selections argsort _ x q hq]
  exact forall₂_ofFn (fun j => ⟨r j, k j, hr j, hk j, rfl⟩)

/-- The hypotheses of the blending theorem hold for the two example frontiers at the 100th percentile. -/
example : ∃ (sels : List (Option (List ℤ))) (k : ∀ j, Fin ((![2, 3] : Fin 2 → ℕ) j)),
    riskPercentileSelections (fun _ x => Tuple.sort x) (family (some ["a", "b"]) ![2, 3] exFam) (.fin 100) none = .ok sels ∧
    averageFrontiers (B := String) ((family (some ["a", "b"]) ![2, 3] exFam).map Held.entry) (some sels) .none =
      .ok (List.ofFn (fun i => (∑ j, (exFam j).weights i (k j)) / (2 : ℕ)), some ["a", "b"]) := by
  obtain ⟨sels, k, h1, -, h2⟩ := C138_aligned (B := String) (F := 2) (by norm_num) (by norm_num) (some ["a", "b"])
    (by rintro l h; injection h with h; subst h; rfl) ![2, 3] (by intro j; fin_cases j <;> decide) exFam
    (fun _ x => Tuple.sort x) 100 1 (by decide +kernel) none (fun j => (exFam j).risks) (fun j => Or.inl ⟨Or.inl rfl, rfl⟩)
  exact ⟨sels, k, h1, h2⟩

end PyV.Props
