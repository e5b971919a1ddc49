import Verif.Model.Labels
import Verif.Lemmas.Frontier
import Verif.Props.Samples

/-!
# Frontiers as objects: construction, labels of the selections, risk measures (C200, C201, C202)
-/

namespace PyV.Props

open PyV PyV.Fr PyV.Ens PyV.Spec.Ens PyV.Spec.Frontier

variable {K : Type*} [Field K] [LinearOrder K] [IsStrictOrderedRing K] {A : Type*} [DecidableEq A] {L : Type*} [DecidableEq L]

/-! ## C200 -/

/-- The pieces of a frontier fit together: one return, one risk and one value of every further risk measure per column, and one name
per row when there are names. -/
structure Consistent (x : FrontierArgs A L K) : Prop where
  returns : x.returns.length = x.m
  risks : x.risks.length = x.m
  names : ∀ l, x.names = some l → l.length = x.n
  alternates : ∀ e ∈ x.alternates, e.2.length = x.m

/-- The frontier `h` holds the data `x`. -/
structure HoldsData (x : FrontierArgs A L K) (h : Held A L K) : Prop where
  weights : List.ofFn (fun i => List.ofFn (h.f.weights i)) = List.ofFn (fun i => List.ofFn (x.weights i))
  rows : h.n = x.n
  cols : h.m = x.m
  returns : List.ofFn h.f.returns = x.returns
  risks : List.ofFn h.f.risks = x.risks
  measure : h.f.riskMeasure = x.riskMeasure
  names : h.names = x.names
  alternates : h.f.alternates.map (fun e => (e.1, List.ofFn e.2)) = x.alternates

theorem series_cast_get {α : Type*} (l : List α) {n : ℕ} (e : n = l.length) : List.ofFn (fun k : Fin n => l.get (Fin.cast e k)) = l := by
  subst e
  exact List.ofFn_get l

theorem series_getD (l : List K) {n : ℕ} (e : l.length = n) : List.ofFn (fun k : Fin n => l.getD k 0) = l := by
  subst e
  conv_rhs => rw [← List.ofFn_get l]
  congr 1
  funext k
  simp

/-- **C200** a frontier whose pieces do not fit together is rejected with a `ValueError`; otherwise it is built and holds exactly what
it was given. -/
theorem C200_constructor (x : FrontierArgs A L K) :
    (Consistent x → ∃ h, mkFrontier x = .ok h ∧ HoldsData x h) ∧ (¬ Consistent x → mkFrontier x = .error .valueError) := by
  unfold mkFrontier
  by_cases h1 : x.m = x.returns.length
  swap
  · exact ⟨fun h => absurd h.returns.symm h1, fun _ => by rw [dif_pos h1]⟩
  rw [dif_neg (not_not.mpr h1)]
  by_cases h2 : x.risks.length = x.returns.length
  swap
  · exact ⟨fun h => absurd (h.risks.trans h1) h2, fun _ => by rw [dif_pos h2]⟩
  rw [dif_neg (not_not.mpr h2)]
  by_cases h3 : x.names.any (fun l => decide (l.length ≠ x.n)) = true
  · rw [if_pos h3]
    refine ⟨fun h => ?_, fun _ => rfl⟩
    cases hn : x.names with
    | none => rw [hn] at h3; simp at h3
    | some l => rw [hn] at h3; simp [h.names l hn] at h3
  rw [if_neg h3]
  by_cases h4 : x.alternates.any (fun e => decide (e.2.length ≠ x.returns.length)) = true
  · rw [if_pos h4]
    refine ⟨fun h => ?_, fun _ => rfl⟩
    obtain ⟨e, he, hl⟩ := List.any_eq_true.mp h4
    simp only [decide_eq_true_eq] at hl
    exact absurd ((h.alternates e he).trans h1) hl
  rw [if_neg h4]
  have ha : ∀ e ∈ x.alternates, e.2.length = x.m := fun e he => by
    by_contra hne
    refine h4 (List.any_eq_true.mpr ⟨e, he, ?_⟩)
    simp only [decide_eq_true_eq]
    omega
  have hc : Consistent x := by
    refine ⟨h1.symm, h2.trans h1.symm, fun l hl => ?_, ha⟩
    by_contra hne
    refine h3 ?_
    rw [hl]
    simp [hne]
  refine ⟨fun _ => ⟨_, rfl, rfl, rfl, rfl, series_cast_get _ _, series_cast_get _ _, rfl, rfl, ?_⟩, fun h => absurd hc h⟩
  show List.map _ (List.map _ _) = _
  rw [List.map_map]
  conv_rhs => rw [← List.map_id x.alternates]
  refine List.map_congr_left fun e he => ?_
  exact Prod.ext rfl (series_getD e.2 (ha e he))

/-! ## C201 -/

/-- Row `i` of a frontier with names `names` goes by `k`: its name, or its position when there are none. -/
def RowKey (names : Option (List A)) (i : ℕ) (k : Key A) : Prop :=
  (names = none ∧ k = .pos i) ∨ ∃ l a, names = some l ∧ l[i]? = some a ∧ k = .named a

/-- The Series lists the weights `w` in row order, each under the label of its row. -/
def LabelledBy {n : ℕ} (names : Option (List A)) (w : Fin n → K) (s : Series A K) : Prop :=
  s.cells.length = n ∧ ∀ i : Fin n, ∃ k, RowKey names i k ∧ s.cells[(i : ℕ)]? = some (k, w i)

theorem labelled_numbered {n : ℕ} (w : Fin n → K) (name : String) : LabelledBy (A := A) none w (numbered (List.ofFn w) name) := by
  refine ⟨by simp [numbered], fun i => ⟨.pos i, Or.inl ⟨rfl, rfl⟩, ?_⟩⟩
  simp [numbered]

theorem labelled_named {n : ℕ} (w : Fin n → K) (l : List A) (hl : l.length = n) (name : String) :
    ∃ s, labelledSeries (List.ofFn w) l name = .ok s ∧ s.name = name ∧ LabelledBy (some l) w s := by
  refine ⟨⟨(l.map Key.named).zip (List.ofFn w), name⟩, ?_, rfl, ?_, fun i => ?_⟩
  · unfold labelledSeries; rw [if_pos (by simpa using hl)]
  · simp [hl]
  · have hi : (i : ℕ) < l.length := hl ▸ i.isLt
    refine ⟨.named l[(i : ℕ)], Or.inr ⟨l, _, rfl, List.getElem?_eq_getElem hi, rfl⟩, ?_⟩
    rw [List.getElem?_eq_getElem (by simp [hi])]
    simp

theorem toPandas_spec {n : ℕ} (names : Option (List A)) (hn : ∀ l, names = some l → l.length = n) (w : Fin n → K) (name : String) :
    ∃ s, toPandas names (List.ofFn w) name = .ok s ∧ s.name = name ∧ LabelledBy names w s := by
  cases names with
  | none => exact ⟨_, rfl, rfl, labelled_numbered w name⟩
  | some l =>
    obtain ⟨s, hs, h1, h2⟩ := labelled_named w l (hn l rfl) name
    refine ⟨s, ?_, h1, h2⟩
    simp only [toPandas, wrapExposure, hs]

theorem made_names {x : FrontierArgs A L K} {h : Held A L K} (hx : mkFrontier x = .ok h) : ∀ l, h.names = some l → l.length = h.n := by
  by_cases hc : Consistent x
  · obtain ⟨h', hok, hd⟩ := (C200_constructor x).1 hc
    rw [hok] at hx
    injection hx with hx
    subst hx
    intro l hl
    rw [hd.names] at hl
    rw [hc.names l hl, hd.rows]
  · rw [(C200_constructor x).2 hc] at hx
    cases hx

/-- **C201** whatever a selection method picks, it succeeds in reporting it: the weights come back under the frontier's own row
labels, in row order, together with the return and the risk of the pick; a failed selection is passed on unchanged. -/
theorem C201_report (x : FrontierArgs A L K) (h : Held A L K) (hx : mkFrontier x = .ok h) (name : String) :
    (∀ p : Pick K h.n, ∃ s, reportOf h name (.ok p) = .ok (s, p.ret, p.risk) ∧ s.name = name ∧ LabelledBy x.names p.w s) ∧
      ∀ e, reportOf h name (.error e) = .error e := by
  have hnames : h.names = x.names := by
    by_cases hc : Consistent x
    · obtain ⟨h', hok, hd⟩ := (C200_constructor x).1 hc
      rw [hok] at hx
      injection hx with hx
      subst hx
      exact hd.names
    · rw [(C200_constructor x).2 hc] at hx
      cases hx
  refine ⟨fun p => ?_, fun e => rfl⟩
  obtain ⟨s, hs, h1, h2⟩ := toPandas_spec h.names (made_names hx) p.w name
  refine ⟨s, ?_, h1, hnames ▸ h2⟩
  simp only [reportOf, hs]

theorem coerceArray_spec (h : Held A L K) (hn : ∀ l, h.names = some l → l.length = h.n) (w : Fin h.n → K) (label : String) :
    ∃ s, coerceArray h (List.ofFn w) label = .ok s ∧ s.name = label ∧ LabelledBy h.names w s := by
  unfold coerceArray
  cases hh : h.names with
  | none => exact ⟨_, rfl, rfl, labelled_numbered w label⟩
  | some l =>
    cases l with
    | nil =>
      have h0 := hn [] hh
      refine ⟨_, rfl, rfl, by simp [numbered], fun i => ?_⟩
      have := i.isLt
      simp only [List.length_nil] at h0
      omega
    | cons a l => exact labelled_named w (a :: l) (hn _ hh) label

theorem seriesOf_eq (h : Held A L K) (v : List K) (label : String) : seriesOf v h.names label = coerceArray h v label := rfl

/-- **C201** the portfolio a built-in selector picks enters the selection table under the frontier's own row labels, in row order, in a
column with the specification's name; the column exists exactly when the selector succeeds, and otherwise its error is raised. -/
theorem C201_selection (argsort : AnySort K) (x : FrontierArgs A String K) (h : Held A String K) (hx : mkFrontier x = .ok h) (s : Sel K)
    (kw : SelKw K) (label : String) :
    (∀ w, (callSelector (argsort h.m) s kw h.f).1 = .ok w →
        ∃ r, selectionColumn argsort h s kw label = .ok r ∧ r.name = label ∧ LabelledBy h.names w r) ∧
      ∀ e, (callSelector (argsort h.m) s kw h.f).1 = .error e → selectionColumn argsort h s kw label = .error e := by
  have hn := made_names hx
  have hsel : (∀ w, (callSelector (argsort h.m) s kw h.f).1 = .ok w →
        ∃ r, selectedSeries argsort h s kw label = .ok r ∧ r.name = label ∧ LabelledBy h.names w r) ∧
      ∀ e, (callSelector (argsort h.m) s kw h.f).1 = .error e → selectedSeries argsort h s kw label = .error e := by
    constructor
    · intro w hw
      obtain ⟨r, hr, h1, h2⟩ := toPandas_spec h.names hn w ""
      obtain ⟨r', hr', h1', h2'⟩ := coerceArray_spec h hn w label
      cases s with
      | column i =>
        refine ⟨r', ?_, h1', h2'⟩
        unfold selectedSeries
        rw [hw]
        exact hr'
      | _ =>
        refine ⟨r.rename label, ?_, rfl, h2⟩
        unfold selectedSeries
        rw [hw]
        simp only [hr]
    · intro e he
      cases s <;> (unfold selectedSeries; rw [he])
  refine ⟨fun w hw => ?_, fun e he => ?_⟩
  · obtain ⟨r, hr, h1, h2⟩ := hsel.1 w hw
    refine ⟨r.rename label, ?_, rfl, h2⟩
    unfold selectionColumn
    rw [hr]
    rfl
  · unfold selectionColumn
    rw [hsel.2 e he]

/-- **C201** a selector of the caller's own: a Series, alone or first in a tuple, keeps its own labels and only takes the
specification's name; an array with one weight per asset is labelled like the frontier's rows. -/
theorem C201_custom (x : FrontierArgs A L K) (h : Held A L K) (hx : mkFrontier x = .ok h) (label : String) :
    (∀ s : Series A K, ∃ r, coerceWeights h (.series s) label = .ok r ∧ coerceWeights h (.tupleSeries s) label = .ok r ∧
        r.cells = s.cells ∧ r.name = label) ∧
      ∀ w : Fin h.n → K, ∃ r, coerceWeights h (.array (List.ofFn w)) label = .ok r ∧
        coerceWeights h (.tupleArray (List.ofFn w)) label = .ok r ∧ r.name = label ∧ LabelledBy h.names w r := by
  refine ⟨fun s => ⟨_, rfl, rfl, rfl, rfl⟩, fun w => ?_⟩
  obtain ⟨r, hr, h1, h2⟩ := coerceArray_spec h (made_names hx) w label
  exact ⟨r, hr, hr, h1, h2⟩

/-- **C201** an array of the wrong length is rejected with a `ValueError` when the frontier has names. -/
theorem C201_wrong_length (h : Held A L K) (a : A) (l : List A) (hn : h.names = some (a :: l)) (v : List K)
    (hv : v.length ≠ (a :: l).length) (label : String) : coerceWeights h (.array v) label = .error .valueError := by
  simp only [coerceWeights, coerceArray, hn, labelledSeries]
  rw [if_neg (fun e => hv e.symm)]

/-- One specification of an ensemble: the frontier as given, the portfolio its selector picks and the column it becomes. -/
structure PickedFrom (A K : Type*) [Field K] [LinearOrder K] [IsStrictOrderedRing K] [DecidableEq A] where
  args : FrontierArgs A String K
  held : Held A String K
  made : mkFrontier args = .ok held
  argsort : AnySort K
  sel : Sel K
  kw : SelKw K
  label : String
  w : Fin held.n → K
  picked : (callSelector (argsort held.m) sel kw held.f).1 = .ok w
  col : Series A K
  column : selectionColumn argsort held sel kw label = .ok col

theorem PickedFrom.labelled (c : PickedFrom A K) : LabelledBy c.held.names c.w c.col := by
  obtain ⟨r, hr, -, h2⟩ := (C201_selection c.argsort c.args c.held c.made c.sel c.kw c.label).1 c.w c.picked
  rw [c.column] at hr
  injection hr with hr
  exact hr ▸ h2

theorem series_nodup {n : ℕ} {names : Option (List A)} {w : Fin n → K} {s : Series A K} (h : LabelledBy names w s)
    (hn : ∀ l, names = some l → l.Nodup) : (s.cells.map Prod.fst).Nodup := by
  rw [List.nodup_iff_injective_get]
  intro i j hij
  have hi : (i : ℕ) < n := by have := i.isLt; simpa [h.1] using this
  have hj : (j : ℕ) < n := by have := j.isLt; simpa [h.1] using this
  obtain ⟨k, hk, hc⟩ := h.2 ⟨i, hi⟩
  obtain ⟨k', hk', hc'⟩ := h.2 ⟨j, hj⟩
  have e1 : (s.cells.map Prod.fst).get i = k := by
    have hl : (i : ℕ) < s.cells.length := by rw [h.1]; exact hi
    have hc : s.cells[(i : ℕ)]? = some (k, w ⟨i, hi⟩) := hc
    rw [List.getElem?_eq_getElem hl] at hc
    injection hc with hc
    simp [hc]
  have e2 : (s.cells.map Prod.fst).get j = k' := by
    have hl : (j : ℕ) < s.cells.length := by rw [h.1]; exact hj
    have hc' : s.cells[(j : ℕ)]? = some (k', w ⟨j, hj⟩) := hc'
    rw [List.getElem?_eq_getElem hl] at hc'
    injection hc' with hc'
    simp [hc']
  rw [e1, e2] at hij
  subst hij
  apply Fin.ext
  rcases hk with ⟨h0, rfl⟩ | ⟨l, a, hl, ha, rfl⟩
  · rcases hk' with ⟨-, he⟩ | ⟨l, a, hl, -, -⟩
    · injection he
    · rw [h0] at hl; cases hl
  · rcases hk' with ⟨h0, -⟩ | ⟨l', a', hl', ha', he⟩
    · rw [h0] at hl; cases hl
    · rw [hl] at hl'
      injection hl' with hl'
      subst hl'
      injection he with he
      subst he
      have hnd := hn l hl
      have hil : (i : ℕ) < l.length := (List.getElem?_eq_some_iff.mp ha).1
      exact (List.getElem?_inj hil hnd).mp (ha.trans ha'.symm)

/-- **C201** end to end: average the selections of any number of frontiers. If every frontier has the asset, possibly at a different row
each time, its average weight is the weighted sum of the weights the picks give it. -/
theorem C201_average {B : Type*} [DecidableEq B] (cs : List (PickedFrom A K)) (hnd : ∀ c ∈ cs, ∀ l, c.held.names = some l → l.Nodup)
    (names : List B) (w : WeightsArg B K) (r : List (Key A × PyFloat K))
    (h : averageSelected (cs.map (fun c => c.col.cells)) names w = .ok r) :
    ∃ v, normalizeWeights w cs.length (some names) = .ok v ∧ v.length = cs.length ∧
      ∀ (a : A) (xs : List K), List.Forall₂ (fun (c : PickedFrom A K) x => ∃ (l : List A) (i : Fin c.held.n), c.held.names = some l ∧
          l[(i : ℕ)]? = some a ∧ x = c.w i) cs xs →
        (Key.named a, PyFloat.fin (List.zipWith (· * ·) xs v).sum) ∈ r := by
  obtain ⟨v, h1, h2, -, -, h5⟩ := C123_aligned_partial (cs.map (fun c => c.col.cells))
    (fun s hs => by
      obtain ⟨c, hc, rfl⟩ := List.mem_map.mp hs
      exact series_nodup c.labelled (hnd c hc)) names w r h
  simp only [List.length_map] at h1 h2
  refine ⟨v, h1, h2, fun a xs hxs => h5 (.named a) xs ?_⟩
  rw [List.forall₂_map_left_iff]
  refine hxs.imp fun c x hx => ?_
  obtain ⟨l, i, hl, hi, rfl⟩ := hx
  obtain ⟨k, hk, hc⟩ := c.labelled.2 i
  have : k = .named a := by
    rcases hk with ⟨hno, -⟩ | ⟨l', a', hl', ha', rfl⟩
    · rw [hl] at hno; cases hno
    · rw [hl] at hl'
      injection hl' with hl'
      subst hl'
      rw [hi] at ha'
      injection ha' with ha'
      rw [ha']
  rw [this] at hc
  exact List.mem_of_getElem? hc

/-! ## C202 -/

/-- **C202** the measures a frontier advertises are exactly the ones its methods accept; any other label is a `KeyError`. -/
theorem C202_measures {N M : ℕ} (f : Frontier L K N M) (l : L) :
    (l ∈ f.available ↔ ∃ r, f.riskVector (some l) = .ok r) ∧ (l ∉ f.available → f.riskVector (some l) = .error .keyError) := by
  have key : l ∈ f.available ↔ ∃ r, RiskUnder f (some l) r := by
    unfold Frontier.available
    rw [List.mem_cons]
    constructor
    · intro h
      by_cases hl : l = f.riskMeasure
      · exact ⟨f.risks, Or.inl ⟨Or.inr (by rw [hl]), rfl⟩⟩
      · have h := h.resolve_left hl
        cases hk : f.alternates.lookup l with
        | some r => exact ⟨r, Or.inr ⟨l, rfl, hl, hk⟩⟩
        | none =>
          rw [List.lookup_eq_none_iff] at hk
          obtain ⟨e, he, hel⟩ := List.mem_map.mp h
          have := hk e he
          simp [hel] at this
    · rintro ⟨r, ⟨h | h, -⟩ | ⟨l', h, -, hk⟩⟩
      · cases h
      · injection h with h; exact Or.inl h
      · injection h with h
        subst h
        right
        by_contra hno
        have : f.alternates.lookup l = none := by
          rw [List.lookup_eq_none_iff]
          intro e he
          simp only [beq_eq_false_iff_ne, ne_eq, bne_iff_ne]
          intro hle
          exact hno (List.mem_map.mpr ⟨e, he, hle.symm⟩)
        rw [this] at hk
        cases hk
  constructor
  · rw [key]; simp only [riskVector_ok]
  · intro h
    exact riskVector_err fun r hr => h (key.mpr ⟨r, hr⟩)

/-! ## Non-vacuity -/

/-- Two assets, two portfolios, a second risk measure. -/
def exFrontierArgs : FrontierArgs String String ℚ where
  n := 2
  m := 2
  weights := ![![1, 1 / 4], ![0, 3 / 4]]
  returns := [1 / 20, 1 / 10]
  risks := [1 / 10, 1 / 5]
  riskMeasure := "Volatility"
  names := some ["A", "B"]
  alternates := [("CVaR", [3 / 10, 2 / 10])]

example : Consistent exFrontierArgs := by
  refine ⟨rfl, rfl, fun l hl => ?_, fun e he => ?_⟩
  · injection hl with hl; subst hl; rfl
  · simp only [exFrontierArgs, List.mem_singleton] at he; subst he; rfl

/-- Names that are one too few are rejected. -/
example : ¬ Consistent { exFrontierArgs with names := some ["A"] } := fun h => absurd (h.names _ rfl) (by decide)

/-- The minimum-CVaR portfolio as a labelled Series. -/
example : (match mkFrontier exFrontierArgs with
    | .ok h => (match reportOf h "Min CVaR" (h.f.minRisk (some "CVaR")) with
      | .ok (s, ret, risk) => some (s.cells, s.name, ret, risk)
      | .error _ => none)
    | .error _ => none) =
    some ([(Key.named "A", 1 / 4), (Key.named "B", 3 / 4)], "Min CVaR", 1 / 10, 2 / 10) := by decide +kernel

example : (match mkFrontier exFrontierArgs with | .ok h => h.f.available | .error _ => []) = ["Volatility", "CVaR"] := by decide +kernel

/-! ## The number of columns of an ensemble over frontiers -/

/-- **C122** With one column selected from each frontier, the number of columns collected is the sum of the selection sizes, the number
from which the default number of folds is computed. -/
theorem C122_size (hs : List (Held A L K)) (is : List ℤ) (hl : is.length = hs.length) {cols : List (List K)} {names : Option (List A)}
    (h : collectSamples (hs.map Held.entry) (some (is.map (fun i => some [i]))) = .ok (cols, names)) :
    cols.length = ((hs.zip is).map (fun p => selectionSize p.1 (some [p.2]))).sum := by
  have loop : ∀ (hs : List (Held A L K)) (is : List ℤ), is.length = hs.length → ∀ (c0 : List (List K)) (n0 : Option (List A)),
      collectLoop ((hs.map Held.entry).zip (is.map (fun i => some [i]))) c0 n0 = .ok (cols, names) →
      cols.length = c0.length + ((hs.zip is).map (fun p => selectionSize p.1 (some [p.2]))).sum := by
    intro hs
    induction hs with
    | nil =>
      intro is hl c0 n0 h
      cases is with
      | cons i is => simp at hl
      | nil =>
        injection h with h
        injection h with h h'
        simp [h]
    | cons x xs ih =>
      intro is hl c0 n0 h
      cases is with
      | nil => simp at hl
      | cons i is =>
        simp only [List.map_cons, List.zip_cons_cons, collectLoop] at h
        cases hc : entryCols x.entry (some [i]) with
        | error e => rw [hc] at h; cases h
        | ok c =>
          rw [hc] at h
          simp only at h
          cases hm : mergeNames n0 x.entry.set.names x.entry.set.n with
          | error e => rw [hm] at h; cases h
          | ok n1 =>
            rw [hm] at h
            have h1 := ih is (by simpa using hl) _ _ h
            have h2 : c.length = 1 := by
              unfold entryCols Held.entry at hc
              simp only at hc
              split at hc
              · cases hc
              · injection hc with hc
                rw [← hc]; rfl
            rw [h1]
            simp [h2, selectionSize]
            omega
  unfold collectSamples at h
  cases hs with
  | nil => cases h
  | cons x xs =>
    have h1 : ¬ (is.map (fun i => some [i])).length ≠ (x.entry :: xs.map Held.entry).length := by simpa using hl
    simp only [List.map_cons, Option.getD_some] at h
    rw [if_neg h1] at h
    cases hc : collectLoop ((x.entry :: xs.map Held.entry).zip (is.map (fun i => some [i]))) [] none with
    | error e => rw [hc] at h; cases h
    | ok r =>
      rw [hc] at h
      simp only at h
      split_ifs at h with h2 h3
      injection h with h
      subst h
      have := loop (x :: xs) is hl [] none hc
      simpa using this

end PyV.Props
