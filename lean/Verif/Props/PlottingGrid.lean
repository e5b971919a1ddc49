import Verif.Props.Plotting

/-! # Property C172: the grid of frontier panels -/

namespace PyV.Props

open PyV PyV.Ens PyV.Fr PyV.Plot PyV.Spec.Frontier PyV.Spec.Plot

variable {K : Type*} [Field K] [LinearOrder K] [IsStrictOrderedRing K]

/-- The name a frontier gets in its panel: the label the caller gave it, else its risk measure. -/
def panelName (p : Option String × Item K) : String := firstText [p.1] p.2.held.f.riskMeasure

private theorem f2_mem {α β : Type*} {R : α → β → Prop} {l : List α} {r : List β} (h : List.Forall₂ R l r) {b : β} (hb : b ∈ r) :
    ∃ a ∈ l, R a b := by
  induction h with
  | nil => cases hb
  | cons hab _ ih =>
    rcases List.mem_cons.mp hb with rfl | h
    · exact ⟨_, by simp, hab⟩
    · obtain ⟨a, ha, e⟩ := ih h
      exact ⟨a, by simp [ha], e⟩

private theorem f2_map {α β γ : Type*} {R : α → β → Prop} {l : List α} {r : List β} {f : α → γ} {g : β → γ} (h : List.Forall₂ R l r)
    (hR : ∀ a b, R a b → g b = f a) : r.map g = l.map f := by
  induction h with
  | nil => rfl
  | cons hab _ ih => rw [List.map_cons, List.map_cons, hR _ _ hab, ih]

private theorem mem_firstSeen {l : List String} {a : String} : a ∈ firstSeen l ↔ a ∈ l := by
  induction l with
  | nil => simp [firstSeen]
  | cons b l ih =>
    simp only [firstSeen, List.mem_cons, List.mem_filter, ih, decide_eq_true_eq]
    by_cases h : a = b <;> simp [h]

private theorem firstSeen_append (l : List String) (a : String) :
    firstSeen (l ++ [a]) = if a ∈ l then firstSeen l else firstSeen l ++ [a] := by
  induction l with
  | nil => simp [firstSeen]
  | cons b l ih =>
    simp only [List.cons_append, firstSeen, ih, List.mem_cons]
    by_cases hb : a = b
    · subst hb
      by_cases hl : a ∈ l
      · simp [hl]
      · simp [hl, List.filter_append]
    · by_cases hl : a ∈ l
      · simp [hl]
      · simp [hl, hb, List.filter_append]

/-- What the groups should be: one per key, in the order in which the keys first occur, holding the frontiers of that key in order. -/
private def wanted (key : Option String × Item K → String) (l : List (Option String × Item K)) : List (String × List (String × Item K)) :=
  (firstSeen (l.map key)).map (fun k => (k, (l.filter (fun p => key p = k)).map (fun p => (panelName p, p.2))))

private theorem lookup_wanted {V : Type*} (f : String → V) (l : List String) (k : String) :
    (l.map (fun k => (k, f k))).lookup k = if k ∈ l then some (f k) else none := by
  induction l with
  | nil => simp
  | cons a l ih =>
    rw [List.map_cons, List.lookup_cons]
    by_cases h : k = a
    · subst h; simp
    · have : (k == a) = false := by simpa using h
      simp [this, ih, h]

private theorem groups_eq (by_ : Option String → Item K → String) (l : List (Option String × Item K))
    (hd : (l.map (fun p => (by_ p.1 p.2, panelName p))).Nodup) : groups by_ l = wanted (fun p => by_ p.1 p.2) l := by
  induction l using List.reverseRecOn with
  | nil => rfl
  | append_singleton l p ih =>
    rw [List.map_append, List.map_singleton, List.nodup_append] at hd
    obtain ⟨hd1, -, hd2⟩ := hd
    have hstep : groups by_ (l ++ [p]) = groupStep by_ (groups by_ l) p := by simp [groups]
    rw [hstep, ih hd1]
    have hname : pyOr p.1 p.2.held.f.riskMeasure = panelName p := by
      unfold panelName; cases p.1 <;> rfl
    unfold groupStep
    simp only [hname]
    set k := by_ p.1 p.2 with hk
    have hfresh : panelName p ∉ ((l.filter (fun q => by_ q.1 q.2 = k)).map (fun q => (panelName q, q.2))).map Prod.fst := by
      intro h
      simp only [List.map_map, List.mem_map, List.mem_filter, decide_eq_true_eq, Function.comp_apply] at h
      obtain ⟨q, ⟨hq, hqk⟩, he⟩ := h
      exact hd2 (by_ q.1 q.2, panelName q) (List.mem_map.mpr ⟨q, hq, rfl⟩) (k, panelName p) (List.mem_singleton.mpr rfl) (Prod.ext hqk he)
    have hL : (wanted (fun p => by_ p.1 p.2) l).lookup k = if k ∈ l.map (fun p => by_ p.1 p.2) then
        some ((l.filter (fun q => by_ q.1 q.2 = k)).map (fun q => (panelName q, q.2))) else none := by
      unfold wanted
      rw [lookup_wanted (fun k => (l.filter (fun q => by_ q.1 q.2 = k)).map (fun q => (panelName q, q.2)))]
      simp only [mem_firstSeen]
    have hfilt : ∀ k', (l ++ [p]).filter (fun q => by_ q.1 q.2 = k') = l.filter (fun q => by_ q.1 q.2 = k') ++ if k = k' then [p] else [] := by
      intro k'
      rw [List.filter_append]
      by_cases h : k = k'
      · simp [← hk, h]
      · simp [← hk, h]
    by_cases hmem : k ∈ l.map (fun p => by_ p.1 p.2)
    · rw [hL, if_pos hmem, Option.getD_some, dictSet_fresh hfresh]
      unfold dictSet
      rw [if_pos]
      · unfold wanted
        rw [List.map_map, List.map_append, List.map_singleton, firstSeen_append, if_pos hmem]
        refine List.map_congr_left fun k' _ => ?_
        simp only [Function.comp_apply]
        by_cases h : k' = k
        · subst h
          rw [if_pos rfl, hfilt]
          simp
        · rw [if_neg h, hfilt, if_neg (fun e => h e.symm), List.append_nil]
      · rw [List.any_eq_true]
        exact ⟨_, List.mem_map.mpr ⟨k, mem_firstSeen.mpr hmem, rfl⟩, by simp⟩
    · rw [hL, if_neg hmem, Option.getD_none, dictSet_fresh (d := []) (by simp), List.nil_append, dictSet_fresh]
      · unfold wanted
        rw [List.map_append, List.map_singleton, firstSeen_append, if_neg hmem, List.map_append]
        congr 1
        · refine List.map_congr_left fun k' hk' => ?_
          have : k ≠ k' := by rintro rfl; exact hmem (mem_firstSeen.mp hk')
          rw [hfilt, if_neg this, List.append_nil]
        · have : l.filter (fun q => by_ q.1 q.2 = k) = [] := by
            rw [List.filter_eq_nil_iff]
            intro q hq h
            exact hmem (List.mem_map.mpr ⟨q, hq, by simpa using h⟩)
          rw [List.map_singleton, hfilt, this, if_pos rfl]
          rfl
      · unfold wanted
        rw [List.map_map]
        simpa [Function.comp_def, mem_firstSeen] using hmem

private theorem grid_room {cols : Option ℕ} {n : ℕ} (hn : 0 < n) :
    n ≤ (gridShape cols n).1 * (gridShape cols n).2 ∧ (gridShape cols n).1 * (gridShape cols n).2 < n + (gridShape cols n).2 ∧
      ((cols = none ∨ cols = some 0) → gridShape cols n = (1, n)) ∧ ∀ c, 0 < c → cols = some c → (gridShape cols n).2 = c := by
  have key : ∀ c, 0 < c → n ≤ (n + c - 1) / c * c ∧ (n + c - 1) / c * c < n + c := by
    intro c hc
    have h1 := Nat.div_add_mod (n + c - 1) c
    have h2 := Nat.mod_lt (n + c - 1) hc
    rw [Nat.mul_comm] at h1
    omega
  have hone : (n + n - 1) / n = 1 := by
    rw [Nat.div_eq_iff hn]; omega
  unfold gridShape
  rcases cols with _ | _ | c
  · exact ⟨(key n hn).1, (key n hn).2, fun _ => by simp [hone], fun c _ h => by cases h⟩
  · exact ⟨(key n hn).1, (key n hn).2, fun _ => by simp [hone], fun c h1 h => by injection h with h; omega⟩
  · exact ⟨(key (c + 1) (Nat.succ_pos c)).1, (key (c + 1) (Nat.succ_pos c)).2, fun h => by rcases h with h | h <;> simp at h, fun c' _ h => by injection h⟩

/-- **C172** `plot_frontiers_grid`, when no two frontiers of a group have the same name: one panel per group, in the order in which the groups
first occur; the panel of a group draws exactly its frontiers, in the order given and under their names; the grid has room for every panel and
no empty row. -/
theorem C172_grid_partial {fs : Frontiers K} {by_ : Option String → Item K → String} {labels : Option (List String)} {cols : Option ℕ}
    {policy : String} {legend : Bool} {highlight : List String} {rf : Option K} {overlays : List String} {riskLabel : Option String}
    {panels : List (Panel K)} {rows columns : ℕ} {l : List (Option String × Item K)} (hl : Supplied fs labels l)
    (hd : (l.map (fun p => (by_ p.1 p.2, panelName p))).Nodup)
    (h : plotGrid fs by_ labels cols policy legend highlight rf overlays riskLabel = .ok (panels, rows, columns)) :
    panels.map Panel.title = firstSeen (l.map (fun p => by_ p.1 p.2)) ∧
      (∀ q ∈ panels, List.Forall₂ (Drawn highlight rf overlays riskLabel)
        ((l.filter (fun p => by_ p.1 p.2 = q.title)).map (fun p => (some (panelName p), p.2))) q.pic.parts) ∧
      (∀ q ∈ panels, q.legend = (legend && (decide (policy = "each") || decide (policy = "auto" ∧ panels.length = 1)))) ∧
      panels.length ≤ rows * columns ∧ rows * columns < panels.length + columns ∧
      ((cols = none ∨ cols = some 0) → rows = 1 ∧ columns = panels.length) ∧ ∀ c, 0 < c → cols = some c → columns = c := by
  unfold plotGrid at h
  rw [normalize_iff.mpr hl] at h
  simp only at h
  have hg := groups_eq by_ l hd
  cases he : (groups by_ l).isEmpty with
  | true => rw [he, if_pos rfl] at h; cases h
  | false =>
    rw [he, if_neg (by simp)] at h
    have hn : 0 < (groups by_ l).length := by
      rw [List.length_pos_iff]
      intro h0
      rw [h0] at he
      cases he
    have hroom := grid_room (cols := cols) hn
    rw [List.take_of_length_le hroom.1] at h
    cases hm : mapE (panelOne policy legend (groups by_ l).length highlight rf overlays riskLabel) (groups by_ l) with
    | error e => rw [hm] at h; cases h
    | ok ps =>
      rw [hm] at h
      injection h with h
      have h1 : ps = panels := congrArg Prod.fst h
      have h2 : gridShape cols (groups by_ l).length = (rows, columns) := congrArg Prod.snd h
      subst h1
      have hF := mapE_iff.mp hm
      have hlen : (groups by_ l).length = ps.length := hF.length_eq
      rw [h2, hlen] at hroom
      have hpanel : ∀ g q, panelOne policy legend (groups by_ l).length highlight rf overlays riskLabel g = .ok q → q.title = g.1 ∧
          q.legend = (legend && (decide (policy = "each") || decide (policy = "auto" ∧ ps.length = 1))) ∧
          List.Forall₂ (Drawn highlight rf overlays riskLabel) (g.2.map (fun x => (some x.1, x.2))) q.pic.parts := by
        intro g q hgq
        unfold panelOne at hgq
        cases hs : showLegend policy legend (groups by_ l).length with
        | error e => rw [hs] at hgq; cases hgq
        | ok b =>
          rw [hs] at hgq
          simp only at hgq
          cases hp : plotFrontiers (.mapping (g.2.map (fun q => (q.1, some q.2)))) none highlight rf overlays riskLabel with
          | error e => rw [hp] at hgq; cases hgq
          | ok pic =>
            rw [hp] at hgq
            injection hgq with hgq
            subst hgq
            refine ⟨rfl, ?_, ?_⟩
            · simp only
              unfold showLegend at hs
              rw [hlen] at hs
              by_cases p1 : policy = "auto"
              · subst p1
                simp only [if_true, Except.ok.injEq] at hs
                rw [← hs]
                simp
              · rw [if_neg p1] at hs
                by_cases p2 : policy = "none"
                · subst p2
                  simp only [if_true, Except.ok.injEq] at hs
                  rw [← hs]
                  simp
                · rw [if_neg p2] at hs
                  by_cases p3 : policy = "each"
                  · subst p3
                    simp only [if_true, Except.ok.injEq] at hs
                    rw [← hs]
                    simp
                  · rw [if_neg p3] at hs; cases hs
            · obtain ⟨l', hl', hF', -⟩ := C171_draws hp
              obtain ⟨items, hi, rfl⟩ := hl'
              have : items = g.2 := by
                have := congrArg (List.filterMap (fun x : String × Option (Item K) => x.2.map (fun y => (x.1, y)))) hi
                simpa [List.filterMap_map, Function.comp_def] using this.symm
              rw [this] at hF'
              exact hF'
      refine ⟨?_, ?_, ?_, hroom.1, hroom.2.1, fun hc => ?_, hroom.2.2.2⟩
      · have : ps.map Panel.title = (groups by_ l).map Prod.fst := f2_map hF fun g q hgq => (hpanel g q hgq).1
        rw [this, hg]
        unfold wanted
        rw [List.map_map]
        exact (List.map_congr_left fun _ _ => rfl).trans (List.map_id _)
      · intro q hq
        obtain ⟨g, hgm, hgq⟩ : ∃ g ∈ groups by_ l, panelOne policy legend (groups by_ l).length highlight rf overlays riskLabel g = .ok q := f2_mem hF hq
        obtain ⟨ht, -, hD⟩ := hpanel g q hgq
        rw [hg] at hgm
        obtain ⟨k, -, rfl⟩ := List.mem_map.mp hgm
        rw [ht]
        simpa [List.map_map, Function.comp_def] using hD
      · intro q hq
        obtain ⟨g, hgm, hgq⟩ : ∃ g ∈ groups by_ l, panelOne policy legend (groups by_ l).length highlight rf overlays riskLabel g = .ok q := f2_mem hF hq
        exact (hpanel g q hgq).2.1
      · have := hroom.2.2.1 hc
        exact ⟨congrArg Prod.fst this, congrArg Prod.snd this⟩

/-- Two frontiers with the same risk measure, one unlabelled each. -/
def exItem (x : ℚ) : Item ℚ := ⟨⟨1, 1, none, ⟨fun _ _ => 1, fun _ => x, fun _ => 1, "Volatility", []⟩⟩, none⟩

omit [IsStrictOrderedRing K] in
/-- **C172** (the full statement fails) Two unlabelled frontiers of the same risk measure: `plot_frontiers` draws both, the grid draws only the
last; and the documented `legend_policy="all"` is rejected whatever the frontiers. -/
theorem C172_counterexample :
    (∃ panel shape, plotGrid (.seq [some (exItem 1), some (exItem 2)]) byMeasure none none "auto" true [] none [] none = .ok ([panel], shape) ∧
      panel.pic.parts.map (fun q => q.curve.pts) = [[(1, 2)]]) ∧
    (∃ pic, plotFrontiers (.seq [some (exItem 1), some (exItem 2)]) none [] none [] none = .ok pic ∧
      pic.parts.map (fun q => q.curve.pts) = [[(1, 1)], [(1, 2)]]) ∧
    ∀ (fs : Frontiers K) (by_ : Option String → Item K → String) (labels : Option (List String)) (cols : Option ℕ) (legend : Bool)
      (highlight : List String) (rf : Option K) (overlays : List String) (riskLabel : Option String) (r : List (Panel K) × (ℕ × ℕ)),
      plotGrid fs by_ labels cols "all" legend highlight rf overlays riskLabel ≠ .ok r := by
  refine ⟨?_, ?_, ?_⟩
  · refine ⟨⟨"Volatility", ⟨[⟨⟨"Volatility", [(1, 2)]⟩, [], []⟩], "Volatility"⟩, true⟩, (1, 1), rfl, rfl⟩
  · refine ⟨⟨[⟨⟨"Volatility", [(1, 1)]⟩, [], []⟩, ⟨⟨"Volatility", [(1, 2)]⟩, [], []⟩], "Volatility"⟩, rfl, rfl⟩
  · intro fs by_ labels cols legend highlight rf overlays riskLabel r h
    unfold plotGrid at h
    cases hn : normalize fs labels with
    | error e => rw [hn] at h; cases h
    | ok l =>
      rw [hn] at h
      simp only at h
      cases hg : groups by_ l with
      | nil => rw [hg] at h; cases h
      | cons g t =>
        rw [hg] at h
        have hroom := (grid_room (cols := cols) (n := (g :: t).length) (by simp)).1
        rw [if_neg (by simp), List.take_of_length_le hroom] at h
        have : panelOne "all" legend (g :: t).length highlight rf overlays riskLabel g = .error .valueError := by
          simp [panelOne, showLegend]
        simp only [mapE, this] at h
        cases h

/-- Non-vacuity: two frontiers of different risk measures and one more of the first, all labelled, on a grid of two columns. -/
example : ∃ panels : List (Panel ℚ), ∃ shape, plotGrid (.mapping [("a", some (exItem 1)),
      ("b", some ⟨⟨1, 1, none, ⟨fun _ _ => 1, fun _ => 3, fun _ => 4, "CVaR", []⟩⟩, none⟩), ("c", some (exItem 2))])
      byMeasure none (some 2) "each" true [] none [] none = .ok (panels, shape) ∧ panels.map Panel.title = ["Volatility", "CVaR"] ∧
    panels.map (fun q => q.pic.parts.map (fun r => (r.curve.label, r.curve.pts))) = [[("a", [(1, 1)]), ("c", [(1, 2)])], [("b", [(4, 3)])]] ∧
    shape = (1, 2) :=
  ⟨_, _, rfl, rfl, rfl, rfl⟩

end PyV.Props
