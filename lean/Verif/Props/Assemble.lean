import Verif.Props.Ensembles

/-!
# What `assemble_portfolio_ensemble` returns and rejects (C119)
-/

namespace PyV.Props

open PyV PyV.Fr PyV.Ens PyV.Spec.Ens

variable {K : Type*} [Field K] [LinearOrder K] [IsStrictOrderedRing K] {N S : ℕ}

/-- `L` is the number of folds used for `S` portfolios: the requested number brought into the range from 1 to `S`, or
`min(3, S)` when none is requested. -/
def FoldCount (requested : Option ℤ) (S : ℕ) (L : ℤ) : Prop :=
  (requested = none ∧ L = min 3 (S : ℤ)) ∨ ∃ s, requested = some s ∧ L = max 1 (min s (S : ℤ))

/-- `v` is the ensemble called `e` of the sample columns `cols`, labelled `names`. -/
def EnsembleOf {V : Type*} (solve : ∀ S, QpSolver S S 1 K V) (off : V) (g : List (String × V)) (cols : List (Fin N → K))
    (names : Option (List String)) (w : WeightsArg String K) (sf : Option ℤ) (kw : Option (List (String × V))) (e : String)
    (v : Fin N → K) : Prop :=
  (e = "average" ∧ averageExposures (matrixOf cols) names w = .ok v) ∨
    (e = "stack" ∧ ∃ L, FoldCount sf cols.length L ∧ (exposureStacking (solve _) off (matrixOf cols) L kw g).1 = .ok v)

theorem determineFolds_ok {sf : Option ℤ} {S : ℕ} (hS : 0 < S) {L : ℤ} (h : determineFolds sf S = .ok L) : FoldCount sf S L := by
  unfold determineFolds at h
  rw [if_neg hS.ne'] at h
  cases sf with
  | none =>
    left
    simp only [Option.getD_none, Except.ok.injEq] at h
    exact ⟨rfl, by omega⟩
  | some s =>
    right
    simp only [Option.getD_some, Except.ok.injEq] at h
    exact ⟨s, rfl, h.symm⟩

theorem foldCount_unique {sf : Option ℤ} {S : ℕ} {L L' : ℤ} (h : FoldCount sf S L) (h' : FoldCount sf S L') : L = L' := by
  rcases h with ⟨h1, h2⟩ | ⟨s, h1, h2⟩ <;> rcases h' with ⟨h3, h4⟩ | ⟨s', h3, h4⟩
  · rw [h2, h4]
  · rw [h1] at h3; cases h3
  · rw [h1] at h3; cases h3
  · rw [h1] at h3; injection h3 with h3; rw [h2, h4, h3]

theorem determineFolds_total (sf : Option ℤ) {S : ℕ} (hS : 0 < S) : ∃ L, determineFolds sf S = .ok L := by
  unfold determineFolds
  rw [if_neg hS.ne']
  exact ⟨_, rfl⟩

theorem oneEnsemble_iff {V : Type*} (solve : ∀ S, QpSolver S S 1 K V) (off : V) (g : List (String × V)) (cols : List (Fin N → K))
    (names : Option (List String)) (w : WeightsArg String K) (sf : Option ℤ) (kw : Option (List (String × V))) (e : String) {L : ℤ}
    (hL : FoldCount sf cols.length L) (p : String × (Fin N → K)) :
    oneEnsemble solve off g cols names w L kw e = .ok p ↔ p.1 = e ∧ EnsembleOf solve off g cols names w sf kw e p.2 := by
  obtain ⟨k, v⟩ := p
  unfold oneEnsemble EnsembleOf
  by_cases h1 : e = "average"
  · rw [if_pos h1]
    have h2 : e ≠ "stack" := by rw [h1]; decide
    subst h1
    cases hv : averageExposures (matrixOf cols) names w with
    | error x => simp
    | ok v' => simp [eq_comm]
  · rw [if_neg h1]
    by_cases h2 : e = "stack"
    · rw [if_pos h2]
      subst h2
      constructor
      · intro h
        cases hv : (exposureStacking (solve _) off (matrixOf cols) L kw g).1 with
        | error x => rw [hv] at h; cases h
        | ok v' =>
          rw [hv] at h
          simp only [Except.ok.injEq, Prod.mk.injEq] at h
          exact ⟨h.1.symm, Or.inr ⟨rfl, L, hL, by rw [hv, h.2]⟩⟩
      · rintro ⟨hk, ⟨h, -⟩ | ⟨-, L', hL', hv⟩⟩
        · exact absurd h h1
        · rw [foldCount_unique hL hL', hv]
          simp only at hk ⊢
          rw [hk]
    · rw [if_neg h2]
      constructor
      · intro h; cases h
      · rintro ⟨-, ⟨h, -⟩ | ⟨h, -⟩⟩
        · exact absurd h h1
        · exact absurd h h2

theorem ensembleOf_unique {V : Type*} {solve : ∀ S, QpSolver S S 1 K V} {off : V} {g : List (String × V)} {cols : List (Fin N → K)}
    {names : Option (List String)} {w : WeightsArg String K} {sf : Option ℤ} {kw : Option (List (String × V))} {e : String}
    {v v' : Fin N → K} (h : EnsembleOf solve off g cols names w sf kw e v) (h' : EnsembleOf solve off g cols names w sf kw e v') :
    v = v' := by
  rcases h with ⟨h1, h2⟩ | ⟨h1, L, hL, h2⟩ <;> rcases h' with ⟨h3, h4⟩ | ⟨h3, L', hL', h4⟩
  · rw [h2] at h4; injection h4
  · rw [h1] at h3; exact absurd h3 (by decide)
  · rw [h1] at h3; exact absurd h3 (by decide)
  · rw [foldCount_unique hL hL', h4] at h2; injection h2 with h2; exact h2.symm

/-- The tail of the assembly once the sample columns are known. -/
theorem assemble_columns {V : Type*} (solve : ∀ S, QpSolver S S 1 K V) (off : V) (g : List (String × V)) (specs : List (EnsSpec K N))
    (entries : List String) (mode : String) (sf : Option ℤ) (w : WeightsArg String K) (kw : Option (List (String × V)))
    (hmode : mode = "selected" ∨ mode = "frontier") {rs : List (String × AnyFrontier K N × (Fin N → K))} {cols : List (Fin N → K)}
    {names : Option (List String)} (hne : specs ≠ []) (hrs : mapE runSpec specs = .ok rs)
    (hc : ensembleColumns mode specs rs = .ok (cols, names)) (hlen : cols.length = specs.length) :
    ((∀ e ∈ entries, ∃ v, EnsembleOf solve off g cols names w sf kw e v) ↔
      ∃ r, assemble solve off g specs entries mode sf w kw = .ok r) ∧
    ∀ r, assemble solve off g specs entries mode sf w kw = .ok r →
      (r.map Prod.fst).Nodup ∧ (∀ e, e ∈ r.map Prod.fst ↔ e ∈ entries) ∧
      ∀ e v, (e, v) ∈ r → EnsembleOf solve off g cols names w sf kw e v := by
  have hpos : 0 < specs.length := List.length_pos_iff.mpr hne
  obtain ⟨L, hL⟩ := determineFolds_total sf hpos
  have hfc : FoldCount sf cols.length L := hlen ▸ determineFolds_ok hpos hL
  have hm : ¬ (mode ≠ "selected" ∧ mode ≠ "frontier") := by tauto
  have heq : assemble solve off g specs entries mode sf w kw =
      match mapE (oneEnsemble solve off g cols names w L kw) entries with
      | .error e => .error e
      | .ok vs => .ok (dictUpdate [] vs) := by
    unfold assemble
    rw [if_neg hne, hrs]
    simp only
    rw [if_neg hm]
    by_cases he : entries = []
    · rw [if_pos he, he]; rfl
    · rw [if_neg he, hc]
      simp only [hL]
      rfl
  rw [heq]
  constructor
  · constructor
    · intro h
      have : ∃ vs, mapE (oneEnsemble solve off g cols names w L kw) entries = .ok vs := by
        clear heq
        induction entries with
        | nil => exact ⟨[], rfl⟩
        | cons e es ih =>
          obtain ⟨vs, hvs⟩ := ih (fun x hx => h x (List.mem_cons_of_mem _ hx))
          obtain ⟨v, hv⟩ := h e List.mem_cons_self
          have := (oneEnsemble_iff solve off g cols names w sf kw e hfc (e, v)).mpr ⟨rfl, hv⟩
          exact ⟨(e, v) :: vs, by simp only [mapE, this, hvs]⟩
      obtain ⟨vs, hvs⟩ := this
      rw [hvs]
      exact ⟨_, rfl⟩
    · rintro ⟨r, hr⟩ e he
      cases hvs : mapE (oneEnsemble solve off g cols names w L kw) entries with
      | error x => rw [hvs] at hr; cases hr
      | ok vs =>
        rw [mapE_iff] at hvs
        obtain ⟨i, hi, rfl⟩ := List.getElem_of_mem he
        have h1 := (List.forall₂_iff_get.mp hvs).2 i hi (hvs.length_eq ▸ hi)
        exact ⟨_, ((oneEnsemble_iff solve off g cols names w sf kw _ hfc _).mp h1).2⟩
  · intro r hr
    cases hvs : mapE (oneEnsemble solve off g cols names w L kw) entries with
    | error x => rw [hvs] at hr; cases hr
    | ok vs =>
      rw [hvs] at hr
      simp only [Except.ok.injEq] at hr
      rw [mapE_iff] at hvs
      have hkeys : vs.map Prod.fst = entries := by
        clear hr heq
        induction hvs with
        | nil => rfl
        | cons h1 _ ih =>
          rw [List.map_cons, ih, ((oneEnsemble_iff solve off g cols names w sf kw _ hfc _).mp h1).1]
      have hnd : (r.map Prod.fst).Nodup := by rw [← hr]; exact nodup_dictUpdate (by simp)
      have hlk : ∀ e v, r.lookup e = some v → (e, v) ∈ vs := by
        intro e v h
        rw [← hr, lookup_dictUpdate] at h
        simp only [List.lookup_nil, Option.or_none] at h
        have : (e, v) ∈ vs.reverse := by
          clear hvs hkeys hr hnd
          generalize vs.reverse = l at h
          induction l with
          | nil => simp at h
          | cons p l ih =>
            obtain ⟨k, x⟩ := p
            rw [List.lookup_cons] at h
            by_cases hek : e = k
            · subst hek
              simp only [beq_self_eq_true, Option.some.injEq] at h
              rw [h]; exact List.mem_cons_self
            · have : (e == k) = false := by simpa using hek
              rw [this] at h
              exact List.mem_cons_of_mem _ (ih h)
        exact List.mem_reverse.mp this
      refine ⟨hnd, fun e => ?_, fun e v hv => ?_⟩
      · constructor
        · intro h
          obtain ⟨⟨k, v⟩, hkv, rfl⟩ := List.mem_map.mp h
          rw [← hkeys]
          exact List.mem_map_of_mem (hlk _ _ ((lookup_iff hnd).mpr hkv))
        · intro h
          rw [← hkeys] at h
          obtain ⟨v, hv⟩ : ∃ v, r.lookup e = some v := by
            rw [← hr, lookup_dictUpdate]
            simp only [List.lookup_nil, Option.or_none]
            obtain ⟨p, hp, rfl⟩ := List.mem_map.mp h
            have hp' := List.mem_reverse.mpr hp
            clear hvs hkeys hr hnd hlk h hp
            generalize vs.reverse = l at hp'
            induction l with
            | nil => simp at hp'
            | cons q l ih =>
              obtain ⟨k, x⟩ := q
              rw [List.lookup_cons]
              by_cases hek : p.1 = k
              · have : (p.1 == k) = true := by simpa using hek
                rw [this]; exact ⟨_, rfl⟩
              · have : (p.1 == k) = false := by simpa using hek
                rw [this]
                rcases List.mem_cons.mp hp' with rfl | h
                · exact absurd rfl hek
                · exact ih h
          exact List.mem_map_of_mem ((lookup_iff hnd).mp hv)
      · have h1 := hlk e v ((lookup_iff hnd).mpr hv)
        obtain ⟨i, hi, h2⟩ := List.getElem_of_mem h1
        have h3 := (List.forall₂_iff_get.mp hvs).2 i (hvs.length_eq ▸ hi) hi
        simp only [List.get_eq_getElem, h2] at h3
        have := (oneEnsemble_iff solve off g cols names w sf kw _ hfc _).mp h3
        rw [← this.1] at this
        exact this.2

/-- **C119** with `combine="selected"`, given working specifications, the call succeeds exactly when every requested ensemble can be
computed from the selected portfolios (labelled with the specification names), and then returns one weight vector per requested
name, computed from them. -/
theorem C119_selected {V : Type*} (solve : ∀ S, QpSolver S S 1 K V) (off : V) (g : List (String × V)) (specs : List (EnsSpec K N))
    (ws : List (Fin N → K)) (hne : specs ≠ []) (hp : Picked specs ws) (entries : List String) (sf : Option ℤ)
    (w : WeightsArg String K) (kw : Option (List (String × V))) :
    ((∀ e ∈ entries, ∃ v, EnsembleOf solve off g ws (some (specs.map EnsSpec.name)) w sf kw e v) ↔
      ∃ r, assemble solve off g specs entries "selected" sf w kw = .ok r) ∧
    ∀ r, assemble solve off g specs entries "selected" sf w kw = .ok r →
      (r.map Prod.fst).Nodup ∧ (∀ e, e ∈ r.map Prod.fst ↔ e ∈ entries) ∧
      ∀ e v, (e, v) ∈ r → EnsembleOf solve off g ws (some (specs.map EnsSpec.name)) w sf kw e v := by
  obtain ⟨rs, hrs, hws⟩ := mapE_runSpec hp
  exact assemble_columns solve off g specs entries "selected" sf w kw (Or.inl rfl) hne hrs
    (by simp only [ensembleColumns, if_pos, hws]) hp.length_eq.symm

/-- **C119** with `combine="frontier"` and distinct names, a successful call with at least one requested ensemble returns one weight
vector per requested name, computed from one column of each specification's own frontier, in the order of the specifications and
without sample labels. -/
theorem C119_frontier {V : Type*} (solve : ∀ S, QpSolver S S 1 K V) (off : V) (g : List (String × V)) (specs : List (EnsSpec K N))
    (hn : (specs.map EnsSpec.name).Nodup) (entries : List String) (he : entries ≠ []) (sf : Option ℤ)
    (w : WeightsArg String K) (kw : Option (List (String × V))) (r : List (String × (Fin N → K)))
    (hr : assemble solve off g specs entries "frontier" sf w kw = .ok r) :
    ∃ cols, List.Forall₂ OwnColumn specs cols ∧ (r.map Prod.fst).Nodup ∧ (∀ e, e ∈ r.map Prod.fst ↔ e ∈ entries) ∧
      ∀ e v, (e, v) ∈ r → EnsembleOf solve off g cols none w sf kw e v := by
  have hr0 := hr
  unfold assemble at hr
  split at hr
  · cases hr
  rename_i hne
  cases hrs : mapE runSpec specs with
  | error e => rw [hrs] at hr; cases hr
  | ok rs =>
    rw [hrs] at hr
    change (if _ then _ else _) = _ at hr
    rw [if_neg (by decide : ¬ (("frontier" : String) ≠ "selected" ∧ ("frontier" : String) ≠ "frontier"))] at hr
    cases hcols : ensembleColumns "frontier" specs rs with
    | error e => rw [hcols] at hr; cases hr
    | ok p =>
      obtain ⟨cols, names⟩ := p
      obtain ⟨rfl, hown⟩ := columns_own hn hrs hcols
      exact ⟨cols, hown, (assemble_columns solve off g specs entries "frontier" sf w kw (Or.inr rfl) hne hrs hcols
        hown.length_eq.symm).2 r hr0⟩

/-- **C119** no specification, or a `combine` mode other than "selected" and "frontier", raises `ValueError`; so does a single
requested ensemble other than "average" and "stack". -/
theorem C119_rejects {V : Type*} (solve : ∀ S, QpSolver S S 1 K V) (off : V) (g : List (String × V)) (specs : List (EnsSpec K N))
    (ws : List (Fin N → K)) (hp : Picked specs ws) (entries : List String) (mode : String) (sf : Option ℤ)
    (w : WeightsArg String K) (kw : Option (List (String × V))) :
    (assemble (N := N) solve off g [] entries mode sf w kw = .error .valueError) ∧
    (mode ≠ "selected" → mode ≠ "frontier" → assemble solve off g specs entries mode sf w kw = .error .valueError) ∧
    (∀ e, e ≠ "average" → e ≠ "stack" → assemble solve off g specs [e] "selected" sf w kw = .error .valueError) ∧
    (∀ e ∈ entries, e ≠ "average" → e ≠ "stack" → ∀ r, assemble solve off g specs entries "selected" sf w kw ≠ .ok r) ∧
    assemble solve off g specs [] "selected" sf w kw = if specs = [] then .error .valueError else .ok [] := by
  obtain ⟨rs, hrs, hws⟩ := mapE_runSpec hp
  refine ⟨by simp [assemble], fun h1 h2 => ?_, fun e h1 h2 => ?_, fun e he h1 h2 r hr => ?_, ?_⟩
  · unfold assemble
    by_cases hne : specs = []
    · rw [if_pos hne]
    · rw [if_neg hne, hrs]
      simp only
      rw [if_pos ⟨h1, h2⟩]
  · unfold assemble
    by_cases hne : specs = []
    · rw [if_pos hne]
    · rw [if_neg hne, hrs]
      simp only
      rw [if_neg (by decide), if_neg (by simp)]
      simp only [ensembleColumns, if_pos]
      obtain ⟨L, hL⟩ := determineFolds_total sf (List.length_pos_iff.mpr hne)
      simp only [hL, mapE, oneEnsemble]
      rw [if_neg h1, if_neg h2]
  · by_cases hne : specs = []
    · rw [hne] at hr; simp [assemble] at hr
    · obtain ⟨v, hv⟩ := (C119_selected solve off g specs ws hne hp entries sf w kw).1.mpr ⟨r, hr⟩ e he
      rcases hv with ⟨h, -⟩ | ⟨h, -⟩
      · exact h1 h
      · exact h2 h
  · unfold assemble
    by_cases hne : specs = []
    · rw [if_pos hne, if_pos hne]
    · rw [if_neg hne, hrs, if_neg hne]
      simp only
      rw [if_neg (by decide)]
      rfl

/-- A failing factory or selector makes the whole call fail with that specification's exception, the first in order. -/
theorem C119_propagates {V : Type*} (solve : ∀ S, QpSolver S S 1 K V) (off : V) (g : List (String × V))
    (before after : List (EnsSpec K N)) (ws : List (Fin N → K)) (hp : Picked before ws) (s : EnsSpec K N) (x : PyErr)
    (hs : s.factory = .error x ∨ ∃ f, s.factory = .ok f ∧ s.selector f = .error x) (entries : List String) (mode : String)
    (sf : Option ℤ) (w : WeightsArg String K) (kw : Option (List (String × V))) :
    assemble solve off g (before ++ s :: after) entries mode sf w kw = .error x := by
  have hrun : runSpec s = .error x := by
    unfold runSpec
    rcases hs with h | ⟨f, h1, h2⟩
    · rw [h]
    · rw [h1]; simp only [h2]
  have hm : mapE runSpec (before ++ s :: after) = .error x := by
    induction hp with
    | nil => simp only [List.nil_append, mapE, hrun]
    | cons h _ ih =>
      obtain ⟨f, hf, hw⟩ := h
      simp only [List.cons_append, mapE, runSpec, hf, hw]
      have := ih
      simp only [this]
  unfold assemble
  rw [if_neg (by simp), hm]

/-- Both ensembles can be requested together; the averaged portfolio of weights 1 and 3 is 2. -/
example : ∃ r, assemble (V := Unit) (fun _ _ _ => (.ok none, [])) () [] [oneSpec "x" 1, oneSpec "y" 3] ["average"] "selected" none
    .none none = .ok r ∧ "average" ∈ r.map Prod.fst := by
  have h := C119_selected (V := Unit) (fun _ _ _ => (.ok none, [])) () [] [oneSpec "x" 1, oneSpec "y" 3] [fun _ => 1, fun _ => 3]
    (by simp) (.cons ⟨_, rfl, by rfl⟩ (.cons ⟨_, rfl, by rfl⟩ .nil)) ["average"] none .none none
  obtain ⟨r, hr⟩ := h.1.mp (fun e he => ⟨fun _ => 2, Or.inl ⟨by simpa using he, by decide +kernel⟩⟩)
  exact ⟨r, hr, ((h.2 r hr).2.1 _).mpr (by simp)⟩

end PyV.Props
