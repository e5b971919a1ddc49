import Verif.Spec.Plotting
import Verif.Props.Frontier
import Verif.Lemmas.Ensembles

/-! # Properties C171–C175: what the plotting functions show -/

namespace PyV.Props

open PyV PyV.Ens PyV.Fr PyV.Plot PyV.Spec.Frontier PyV.Spec.Plot

variable {K : Type*} [Field K] [LinearOrder K] [IsStrictOrderedRing K]

private theorem pyOr_eq (a : Option String) (b : String) : pyOr a b = firstText [a] b := by
  cases a <;> rfl

private theorem pyOr_pyOr (a b : Option String) (c : String) : pyOr a (pyOr b c) = firstText [a, b] c := by
  cases a with
  | none => cases b <;> rfl
  | some s => cases b <;> rfl

private theorem mapOk_iff {α β : Type*} {f : α → Except PyErr β} {l : List α} : (∃ r, mapE f l = .ok r) ↔ ∀ a ∈ l, ∃ b, f a = .ok b := by
  induction l with
  | nil => simp [mapE]
  | cons a l ih =>
    simp only [List.mem_cons, forall_eq_or_imp, ← ih, mapE]
    cases f a with
    | error e => simp
    | ok b =>
      cases mapE f l with
      | error e => simp
      | ok r => simp

private theorem mapErr {α β : Type*} {f : α → Except PyErr β} {l : List α} {e : PyErr} (he : ∀ a ∈ l, ∀ e', f a = .error e' → e' = e)
    {a : α} (ha : a ∈ l) (hf : ∀ b, f a ≠ .ok b) : mapE f l = .error e := by
  cases h : mapE f l with
  | ok r =>
    obtain ⟨b, hb⟩ := mapOk_iff.mp ⟨r, h⟩ a ha
    exact absurd hb (hf b)
  | error e' =>
    clear ha hf
    induction l with
    | nil => cases h
    | cons c l ih =>
      simp only [mapE] at h
      cases hc : f c with
      | error e2 =>
        rw [hc] at h
        injection h with h
        subst h
        rw [he c (by simp) e2 hc]
      | ok b =>
        rw [hc] at h
        simp only at h
        cases hl : mapE f l with
        | ok r => rw [hl] at h; cases h
        | error e2 =>
          rw [hl] at h
          injection h with h
          subst h
          exact ih (fun a ha => he a (List.mem_cons_of_mem _ ha)) hl

private theorem zip_self {α β : Type*} (l : List (α × β)) : l = (l.map Prod.fst).zip (l.map Prod.snd) := by
  induction l with
  | nil => rfl
  | cons a t ih => rw [List.map_cons, List.map_cons, List.zip_cons_cons, ← ih]

private theorem asItem_iff {p : Option String × Option (Item K)} {q : Option String × Item K} : asItem p = .ok q ↔ p = (q.1, some q.2) := by
  obtain ⟨a, b⟩ := p
  cases b with
  | none => simp [asItem]
  | some f => simp [asItem, Prod.ext_iff, eq_comm]

private theorem asItems_iff {l : List (Option String × Option (Item K))} {r : List (Option String × Item K)} :
    mapE asItem l = .ok r ↔ l = r.map (fun q => (q.1, some q.2)) := by
  rw [mapE_iff]
  have : (fun (a : Option String × Option (Item K)) b => asItem a = .ok b) = fun a b => a = (fun q : Option String × Item K => (q.1, some q.2)) b := by
    funext a b; exact propext asItem_iff
  rw [this, ← List.forall₂_map_right_iff (R := fun a b => a = b) (f := fun q : Option String × Item K => (q.1, some q.2)), List.forall₂_eq_eq_eq]

private theorem normalizeSeq_iff {labels : Option (List String)} {L : List (Option (Item K))} {l : List (Option String × Item K)} :
    normalizeSeq labels L = .ok l ↔ Supplied (.seq L) labels l := by
  unfold normalizeSeq Supplied
  cases labels with
  | none =>
    simp only [Option.any_none, Bool.false_eq_true, if_false, asItems_iff, attach, true_and]
    constructor
    · intro h
      have h2 : L = l.map (fun q => some q.2) := by
        have := congrArg (List.map Prod.snd) h
        simpa [List.map_map, Function.comp_def] using this
      have h1 : l.map Prod.fst = l.map (fun _ => none) := by
        have := congrArg (List.map Prod.fst) h
        simp only [List.map_map, Function.comp_def] at this
        rw [← this, h2]
        simp [Function.comp_def]
      refine ⟨l.map Prod.snd, by rw [h2]; simp, Or.inl ?_⟩
      apply List.ext_getElem (by simp)
      intro k hk1 hk2
      have := List.getElem_of_eq h1 (i := k) (by simpa using hk1)
      simp only [List.getElem_map] at this ⊢
      exact Prod.ext this rfl
    · rintro ⟨items, rfl, h | ⟨ls, h, -⟩⟩
      · subst h; simp
      · cases h
  | some ls =>
    by_cases hl : ls.length = L.length
    · simp only [Option.any_some, hl, ne_eq, not_true, decide_false, Bool.false_eq_true, if_false, asItems_iff, attach]
      constructor
      · intro h
        have hlen : (ls.map some).length = L.length := by simpa using hl
        have h2 : L = l.map (fun q => some q.2) := by
          have := congrArg (List.map Prod.snd) h
          rw [List.map_snd_zip (by omega)] at this
          simpa [List.map_map, Function.comp_def] using this
        have h1 : ls.map some = l.map Prod.fst := by
          have := congrArg (List.map Prod.fst) h
          rw [List.map_fst_zip (by omega)] at this
          simpa [List.map_map, Function.comp_def] using this
        refine ⟨l.map Prod.snd, by rw [h2]; simp, Or.inr ⟨ls, rfl, by rw [hl, h2]; simp, ?_⟩⟩
        rw [h1]
        exact zip_self l
      · rintro ⟨items, rfl, ⟨h, -⟩ | ⟨ls', h, hlen, rfl⟩⟩
        · cases h
        · injection h with h
          subst h
          rw [List.zip_map_right]
          rfl
    · simp only [Option.any_some, hl, ne_eq, not_false_iff, decide_true, if_true]
      constructor
      · intro h; cases h
      · rintro ⟨items, rfl, ⟨h, -⟩ | ⟨ls', h, hlen, -⟩⟩
        · cases h
        · injection h with h
          subst h
          exact absurd (by simpa using hlen) hl

theorem normalize_iff {fs : Frontiers K} {labels : Option (List String)} {l : List (Option String × Item K)} :
    normalize fs labels = .ok l ↔ Supplied fs labels l := by
  cases fs with
  | seq L => exact normalizeSeq_iff
  | one f =>
    show normalizeSeq labels [some f] = .ok l ↔ _
    rw [normalizeSeq_iff]
    constructor
    · rintro ⟨items, h, h'⟩
      have : items = [f] := by
        cases items with
        | nil => simp at h
        | cons a t => cases t <;> simp at h; rw [h]
      subst this
      rcases h' with ⟨h1, h2⟩ | ⟨ls, h1, h2, h3⟩
      · exact Or.inl ⟨h1, h2⟩
      · cases ls with
        | nil => simp at h2
        | cons s t =>
          cases t with
          | nil => exact Or.inr ⟨s, h1, by simpa using h3⟩
          | cons _ _ => simp at h2
    · rintro (⟨h1, h2⟩ | ⟨s, h1, h2⟩)
      · exact ⟨[f], rfl, Or.inl ⟨h1, h2⟩⟩
      · exact ⟨[f], rfl, Or.inr ⟨[s], h1, rfl, h2⟩⟩
  | mapping L =>
    show mapE asItem _ = .ok l ↔ _
    rw [asItems_iff]
    constructor
    · intro h
      have hk : ∀ q ∈ l, ∃ s : String, q.1 = some s := by
        intro q hq
        have : (q.1, some q.2) ∈ L.map (fun p => (some p.1, p.2)) := by rw [h]; exact List.mem_map.mpr ⟨q, hq, rfl⟩
        obtain ⟨p, -, hp⟩ := List.mem_map.mp this
        exact ⟨p.1, (congrArg Prod.fst hp).symm⟩
      refine ⟨l.map (fun q => (q.1.getD "", q.2)), ?_, ?_⟩
      · have := congrArg (List.map (fun q : Option String × Option (Item K) => (q.1.getD "", q.2))) h
        simpa [List.map_map, Function.comp_def] using this
      · rw [List.map_map]
        conv_lhs => rw [← List.map_id l]
        refine List.map_congr_left fun q hq => ?_
        obtain ⟨s, hs⟩ := hk q hq
        simp [Prod.ext_iff, hs]
    · rintro ⟨items, rfl, rfl⟩
      simp [List.map_map, Function.comp_def]

private theorem recordOf (it : Item K) (label : String) (rl : Option String) (r : Fin it.held.m → K) (mk : Marker) (i : Fin it.held.m) :
    RecordOf it r i (record it label rl r mk i) :=
  ⟨rfl, rfl, rfl, rfl, fun l hl => by simp [record, hl], fun h => by simp [record, h]⟩

private theorem orEmpty_ok {M : ℕ} {o : Option (Fin M)} {x : Option (Fin M)} : orEmpty o = .ok x ↔ ∃ i, o = some i ∧ x = some i := by
  cases o <;> simp [orEmpty, eq_comm]

private theorem orEmpty_err {M : ℕ} {o : Option (Fin M)} {e : PyErr} (h : orEmpty o = .error e) : e = .valueError := by
  cases o with
  | none => injection h with h; exact h.symm
  | some i => cases h

private theorem tangencyIndex_ok {N M : ℕ} {f : Frontier String K N M} {r : Fin M → K} {rf : Option K} {o : Option (Fin M)} :
    tangencyIndex f r rf = .ok o ↔ ∃ x, rf = some x ∧ (((∀ i, |r i| ≤ 1 / 10 ^ 8) ∧ o = none) ∨ ((∃ i, 1 / 10 ^ 8 < |r i|) ∧
      ∃ i, FirstMax (fun j => r j ≠ 0) (fun j => (f.returns j - x) / r j) i ∧ o = some i)) := by
  cases rf with
  | none => simp [tangencyIndex]
  | some x =>
    simp only [Option.some.injEq, exists_eq_left']
    unfold tangencyIndex
    by_cases hall : ∀ i, |r i| ≤ 1 / 10 ^ 8
    · simp only [if_pos hall, Except.ok.injEq]
      constructor
      · intro h; exact Or.inl ⟨hall, h.symm⟩
      · rintro (⟨-, h⟩ | ⟨⟨i, hi⟩, -⟩)
        · exact h.symm
        · exact absurd (hall i) (not_le.mpr hi)
    · simp only [if_neg hall, orEmpty_ok]
      have hex : ∃ i, 1 / 10 ^ 8 < |r i| := by push Not at hall; exact hall
      -- the same choice as the selector of a frontier whose primary risk is `r`
      have key := fun p : Pick K N => C52_tangency (⟨f.weights, f.returns, r, f.riskMeasure, []⟩ : Frontier String K N M) x p
      have hsel : ∀ i, firstArgmax (ratio f r x) = some i ↔ FirstMax (fun j => r j ≠ 0) (fun j => (f.returns j - x) / r j) i := by
        intro i
        constructor
        · intro h
          have h1 := (key ⟨fun a => f.weights a i, f.returns i, r i⟩).mp (by
            unfold Frontier.tangency
            rw [if_neg hall]
            have : firstArgmax (Frontier.sharpe (⟨f.weights, f.returns, r, f.riskMeasure, []⟩ : Frontier String K N M) x) = some i := h
            rw [this]; rfl)
          obtain ⟨-, j, hj, -⟩ := h1
          have h2 := (key ⟨fun a => f.weights a j, f.returns j, r j⟩).mpr ⟨hex, j, hj, fun _ => rfl, rfl, rfl⟩
          obtain ⟨c, hc⟩ := firstArgmax_ne_none (Fin.pos i) (ratio f r x)
          rw [h] at hc
          have hm := firstArgmax_iff.mp h
          -- both `i` and `j` are first maxima of the ratios
          have hj' : FirstMax (fun _ => True) (ratio f r x) j := by
            refine ⟨trivial, fun k _ => ?_, fun k hk _ => ?_⟩
            · unfold ratio
              rw [if_neg hj.1]
              split
              · exact bot_le
              · rename_i hk0; exact WithBot.coe_le_coe.mpr (hj.2.1 k hk0)
            · unfold ratio
              rw [if_neg hj.1]
              split
              · exact WithBot.bot_lt_coe _
              · rename_i hk0; exact WithBot.coe_lt_coe.mpr (hj.2.2 k hk hk0)
          rw [FirstMax.unique hm hj']
          exact hj
        · intro hj
          refine firstArgmax_iff.mpr ⟨trivial, fun k _ => ?_, fun k hk _ => ?_⟩
          · unfold ratio
            rw [if_neg hj.1]
            split
            · exact bot_le
            · rename_i hk0; exact WithBot.coe_le_coe.mpr (hj.2.1 k hk0)
          · unfold ratio
            rw [if_neg hj.1]
            split
            · exact WithBot.bot_lt_coe _
            · rename_i hk0; exact WithBot.coe_lt_coe.mpr (hj.2.2 k hk hk0)
      constructor
      · rintro ⟨i, h1, h2⟩
        exact Or.inr ⟨hex, i, (hsel i).mp h1, h2⟩
      · rintro (⟨h, -⟩ | ⟨-, i, h1, h2⟩)
        · exact absurd h hall
        · exact ⟨i, (hsel i).mpr h1, h2⟩

private theorem highlight_ok {it : Item K} {label : String} {rl : Option String} {r : Fin it.held.m → K} {rf : Option K} {marker : String}
    {o : Option (Record K)} (h : highlightOne it label rl r rf marker = .ok o) :
    Shows it r rf marker o ∧ ∀ rec, o = some rec → rec.frontier = label ∧ rec.measure = firstText [rl] it.held.f.riskMeasure := by
  have hrec : ∀ mk i, (record it label rl r mk i).frontier = label ∧
      (record it label rl r mk i).measure = firstText [rl] it.held.f.riskMeasure := fun mk i => ⟨rfl, pyOr_eq _ _⟩
  unfold highlightOne parseMarker at h
  by_cases h1 : marker = "min_risk"
  · simp only [if_pos h1, resolveHighlight] at h
    cases hi : firstArgmin r with
    | none => rw [hi] at h; cases h
    | some i =>
      rw [hi] at h
      injection h with h
      subst h
      exact ⟨Or.inl ⟨h1, i, _, firstArgmin_iff.mp hi, rfl, recordOf .., rfl⟩, fun rec e => by injection e with e; subst e; exact hrec _ _⟩
  · simp only [if_neg h1] at h
    by_cases h2 : marker = "max_return"
    · simp only [if_pos h2, resolveHighlight] at h
      cases hi : firstArgmax it.held.f.returns with
      | none => rw [hi] at h; cases h
      | some i =>
        rw [hi] at h
        injection h with h
        subst h
        exact ⟨Or.inr (Or.inl ⟨h2, i, _, firstArgmax_iff.mp hi, rfl, recordOf .., rfl⟩),
          fun rec e => by injection e with e; subst e; exact hrec _ _⟩
    · simp only [if_neg h2] at h
      by_cases h3 : marker = "tangency"
      · simp only [if_pos h3, resolveHighlight] at h
        cases hi : tangencyIndex it.held.f r rf with
        | error e => rw [hi] at h; cases h
        | ok o' =>
          rw [hi] at h
          injection h with h
          subst h
          obtain ⟨x, hx, h⟩ := tangencyIndex_ok.mp hi
          refine ⟨Or.inr (Or.inr ⟨h3, x, hx, ?_⟩), fun rec e => ?_⟩
          · rcases h with ⟨h, rfl⟩ | ⟨hex, i, h, rfl⟩
            · exact Or.inl ⟨h, rfl⟩
            · exact Or.inr ⟨hex, i, _, h, rfl, recordOf .., rfl⟩
          · cases o' with
            | none => cases e
            | some i => injection e with e; subst e; exact hrec _ _
      · simp only [if_neg h3] at h
        cases h

private theorem overlay_mem {it : Item K} {label : String} {overlays : List String} {c : Curve K} :
    c ∈ overlays.filterMap (overlayOne it label) ↔ ∃ o ∈ overlays, ∃ r, RiskUnder it.held.f (some o) r ∧
      c = ⟨label ++ " (" ++ o ++ ")", plotted it r⟩ := by
  rw [List.mem_filterMap]
  refine exists_congr fun o => and_congr_right fun _ => ?_
  unfold overlayOne
  cases hr : it.held.f.riskVector (some o) with
  | error e =>
    simp only [reduceCtorEq, false_iff, not_exists, not_and]
    intro r h
    rw [riskVector_ok.mpr h] at hr
    cases hr
  | ok r =>
    simp only [Option.some.injEq]
    have hru := riskVector_ok.mp hr
    constructor
    · rintro rfl; exact ⟨r, hru, rfl⟩
    · rintro ⟨r', h, rfl⟩
      rw [riskVector_ok.mpr h] at hr
      injection hr with hr
      subst hr
      rfl

private theorem draw_ok {highlight : List String} {rf : Option K} {overlays : List String} {rl : Option String} {p : Option String × Item K}
    {q : Part K} (h : drawOne highlight rf overlays rl p = .ok q) : Drawn highlight rf overlays rl p q := by
  unfold drawOne at h
  cases hr : p.2.held.f.riskVector rl with
  | error e => rw [hr] at h; cases h
  | ok r =>
    rw [hr] at h
    simp only at h
    cases hm : mapE (highlightOne p.2 (pyOr p.1 (pyOr rl p.2.held.f.riskMeasure)) rl r rf) highlight with
    | error e => rw [hm] at h; cases h
    | ok ms =>
      rw [hm] at h
      injection h with h
      subst h
      have hF := mapE_iff.mp hm
      refine ⟨⟨r, riskVector_ok.mp hr, rfl, hF.imp fun a b hab => (highlight_ok hab).1⟩, pyOr_pyOr _ _ _, fun c => overlay_mem, ?_⟩
      intro m hm' rec hrec
      obtain ⟨a, -, ha⟩ : ∃ a ∈ highlight, highlightOne p.2 (pyOr p.1 (pyOr rl p.2.held.f.riskMeasure)) rl r rf a = .ok m := by
        clear * - hF hm'
        induction hF with
        | nil => cases hm'
        | cons hab _ ih =>
          rcases List.mem_cons.mp hm' with rfl | h
          · exact ⟨_, by simp, hab⟩
          · obtain ⟨a, ha, e⟩ := ih h
            exact ⟨a, by simp [ha], e⟩
      exact (highlight_ok ha).2 rec hrec

/-- **C171** (what is drawn) When `plot_frontiers` returns, it has drawn every frontier it was given, in order: the curve of the requested risk
against the returns, the overlays, and the requested highlights, which the axis records in the same order. -/
theorem C171_draws {fs : Frontiers K} {labels : Option (List String)} {highlight : List String} {rf : Option K} {overlays : List String}
    {riskLabel : Option String} {pic : Picture K} (h : plotFrontiers fs labels highlight rf overlays riskLabel = .ok pic) :
    ∃ l, Supplied fs labels l ∧ List.Forall₂ (Drawn highlight rf overlays riskLabel) l pic.parts ∧
      pic.marks = (pic.parts.map (fun q => q.marks.filterMap id)).flatten ∧
      (∀ m, (∃ p ∈ l, True) → (∀ p ∈ l, p.2.held.f.riskMeasure = m) → pic.xlabel = firstText [riskLabel] m) ∧
      (∀ p ∈ l, ∀ q ∈ l, p.2.held.f.riskMeasure ≠ q.2.held.f.riskMeasure → pic.xlabel = firstText [riskLabel] "Risk") := by
  unfold plotFrontiers at h
  cases hn : normalize fs labels with
  | error e => rw [hn] at h; cases h
  | ok l =>
    rw [hn] at h
    simp only at h
    cases hm : mapE (drawOne highlight rf overlays riskLabel) l with
    | error e => rw [hm] at h; cases h
    | ok ps =>
      rw [hm] at h
      injection h with h
      subst h
      refine ⟨l, normalize_iff.mp hn, (mapE_iff.mp hm).imp fun a b hab => draw_ok hab, rfl, ?_, ?_⟩
      swap
      · intro p hp q hq hne
        show xLabel riskLabel _ = _
        unfold xLabel
        have h1 : p.2.held.f.riskMeasure ∈ (l.map (fun p => p.2.held.f.riskMeasure)).dedup := List.mem_dedup.2 (List.mem_map_of_mem hp)
        have h2 : q.2.held.f.riskMeasure ∈ (l.map (fun p => p.2.held.f.riskMeasure)).dedup := List.mem_dedup.2 (List.mem_map_of_mem hq)
        rw [← pyOr_eq]
        congr 1
        split
        · rename_i m hm
          rw [hm, List.mem_singleton] at h1 h2
          exact absurd (h1.trans h2.symm) hne
        · rfl
      rintro m ⟨p, hp, -⟩ hall
      show xLabel riskLabel _ = _
      unfold xLabel
      have hrep : l.map (fun p => p.2.held.f.riskMeasure) = List.replicate l.length m :=
        List.eq_replicate_iff.mpr ⟨by simp, fun b hb => by
          obtain ⟨q, hq, rfl⟩ := List.mem_map.mp hb; exact hall q hq⟩
      have hd : (List.replicate l.length m).dedup = [m] := by
        have : l.length ≠ 0 := by intro h0; rw [List.length_eq_zero_iff] at h0; rw [h0] at hp; cases hp
        exact List.replicate_dedup this
      rw [hrep, hd, pyOr_eq]

private theorem one_ok {it : Item K} {marker : String} {rf : Option K} {riskLabel : Option String} {pic : Picture K}
    (h : plotFrontiers (.one it) none [marker] rf [] riskLabel = .ok pic) :
    ∃ r m, RiskUnder it.held.f riskLabel r ∧ Shows it r rf marker m ∧ pic.marks = m.toList := by
  obtain ⟨l, hl, hF, hm, -⟩ := C171_draws h
  rcases hl with ⟨-, rfl⟩ | ⟨s, h, -⟩
  · generalize pic.parts = ps at hF hm
    cases hF with
    | @cons a q _ t hq ht =>
      cases ht
      obtain ⟨r, hr, -, hF2⟩ := hq.curve
      clear hq
      simp only [List.map_cons, List.map_nil, List.flatten_cons, List.flatten_nil, List.append_nil] at hm
      generalize q.marks = ms at hF2 hm
      cases hF2 with
      | @cons _ m _ t2 hsh ht2 =>
        cases ht2
        refine ⟨r, m, hr, hsh, ?_⟩
        rw [hm]
        cases m <;> rfl
  · cases h

/-- **C171** (the highlights are the selectors' portfolios) The point marked `min_risk` is the portfolio `min_risk(risk_label)` selects; the point
marked `max_return` has the weights and return of the portfolio `max_return()` selects; and on the frontier's own risk measure the point marked
`tangency` is the portfolio `tangency(risk_free_rate)` selects, with no mark when that selector finds the problem infeasible. -/
theorem C171_selectors {it : Item K} {rf : Option K} {riskLabel : Option String} {pic : Picture K} :
    (plotFrontiers (.one it) none ["min_risk"] rf [] riskLabel = .ok pic → ∃ rec p, pic.marks = [rec] ∧ it.held.f.minRisk riskLabel = .ok p ∧
      rec.w = List.ofFn p.w ∧ rec.ret = p.ret ∧ rec.risk = p.risk) ∧
    (plotFrontiers (.one it) none ["max_return"] rf [] riskLabel = .ok pic → ∃ rec p, pic.marks = [rec] ∧ it.held.f.maxReturn = .ok p ∧
      rec.w = List.ofFn p.w ∧ rec.ret = p.ret ∧ (riskLabel = none → rec.risk = p.risk)) ∧
    (plotFrontiers (.one it) none ["tangency"] rf [] none = .ok pic → ∃ x, rf = some x ∧
      ((pic.marks = [] ∧ it.held.f.tangency x = .error .infeasible) ∨
        ∃ rec p, pic.marks = [rec] ∧ it.held.f.tangency x = .ok p ∧ rec.w = List.ofFn p.w ∧ rec.ret = p.ret ∧ rec.risk = p.risk)) := by
  refine ⟨fun h => ?_, fun h => ?_, fun h => ?_⟩
  · obtain ⟨r, m, hr, hs, hm⟩ := one_ok h
    rcases hs with ⟨-, i, rec, hi, rfl, hrec, -⟩ | ⟨h, -⟩ | ⟨h, -⟩
    · exact ⟨rec, _, hm, (C52_min_risk it.held.f riskLabel _).mpr ⟨r, i, hr, hi, pick_iff.mp rfl⟩, hrec.w, hrec.ret, hrec.risk⟩
    · exact absurd h (by decide)
    · exact absurd h (by decide)
  · obtain ⟨r, m, hr, hs, hm⟩ := one_ok h
    rcases hs with ⟨h, -⟩ | ⟨-, i, rec, hi, rfl, hrec, -⟩ | ⟨h, -⟩
    · exact absurd h (by decide)
    · refine ⟨rec, _, hm, (C52_max_return it.held.f _).mpr ⟨i, hi, pick_iff.mp rfl⟩, hrec.w, hrec.ret, ?_⟩
      rintro rfl
      have : r = it.held.f.risks := by
        have := riskVector_ok.mpr hr
        simpa [Frontier.riskVector, eq_comm] using this
      rw [hrec.risk, this]; rfl
    · exact absurd h (by decide)
  · obtain ⟨r, m, hr, hs, hm⟩ := one_ok h
    have hrr : r = it.held.f.risks := by
      have := riskVector_ok.mpr hr
      simpa [Frontier.riskVector, eq_comm] using this
    subst hrr
    rcases hs with ⟨h, -⟩ | ⟨h, -⟩ | ⟨-, x, hx, ⟨hz, rfl⟩ | ⟨hex, i, rec, hi, rfl, hrec, -⟩⟩
    · exact absurd h (by decide)
    · exact absurd h (by decide)
    · exact ⟨x, hx, Or.inl ⟨hm, (C52_tangency_error _ _).mpr hz⟩⟩
    · exact ⟨x, hx, Or.inr ⟨rec, _, hm, (C52_tangency it.held.f x _).mpr ⟨hex, i, hi, pick_iff.mp rfl⟩, hrec.w, hrec.ret, hrec.risk⟩⟩

private theorem highlight_some {it : Item K} {label : String} {rl : Option String} {r : Fin it.held.m → K} {rf : Option K} {marker : String}
    (hM : 0 < it.held.m) : (∃ o, highlightOne it label rl r rf marker = .ok o) ↔
      marker ∈ ["min_risk", "max_return", "tangency"] ∧ (marker = "tangency" → rf ≠ none) := by
  constructor
  · rintro ⟨o, ho⟩
    rcases (highlight_ok ho).1 with ⟨rfl, -⟩ | ⟨rfl, -⟩ | ⟨rfl, x, rfl, -⟩ <;> simp
  · rintro ⟨hk, ht⟩
    simp only [List.mem_cons, List.not_mem_nil, or_false] at hk
    rcases hk with rfl | rfl | rfl
    · obtain ⟨i, hi⟩ := firstArgmin_ne_none hM r
      exact ⟨some (record it label rl r .minRisk i), by simp [highlightOne, parseMarker, resolveHighlight, hi, orEmpty]⟩
    · obtain ⟨i, hi⟩ := firstArgmax_ne_none hM it.held.f.returns
      exact ⟨some (record it label rl r .maxReturn i), by simp [highlightOne, parseMarker, resolveHighlight, hi, orEmpty]⟩
    · obtain ⟨x, rfl⟩ := Option.ne_none_iff_exists'.mp (ht rfl)
      obtain ⟨i, hi⟩ := firstArgmax_ne_none hM (ratio it.held.f r x)
      have : ∃ o, tangencyIndex it.held.f r (some x) = .ok o := by
        unfold tangencyIndex
        simp only
        split
        · exact ⟨_, rfl⟩
        · rw [hi]; exact ⟨_, rfl⟩
      obtain ⟨o, ho⟩ := this
      exact ⟨o.map (record it label rl r .tangency), by simp [highlightOne, parseMarker, resolveHighlight, ho]⟩

/-- **C171** (when it succeeds) For non-empty frontiers, `plot_frontiers` succeeds exactly when the input is well formed, every frontier has the
requested risk measure, every marker is a documented one and `tangency` comes with a risk-free rate. -/
theorem C171_succeeds {fs : Frontiers K} {labels : Option (List String)} {highlight : List String} {rf : Option K} {overlays : List String}
    {riskLabel : Option String} {l : List (Option String × Item K)} (hl : Supplied fs labels l) (hM : ∀ p ∈ l, 0 < p.2.held.m) :
    (∃ pic, plotFrontiers fs labels highlight rf overlays riskLabel = .ok pic) ↔
      ∀ p ∈ l, (∃ r, RiskUnder p.2.held.f riskLabel r) ∧
        ∀ marker ∈ highlight, marker ∈ ["min_risk", "max_return", "tangency"] ∧ (marker = "tangency" → rf ≠ none) := by
  have hone : ∀ p ∈ l, (∃ q, drawOne highlight rf overlays riskLabel p = .ok q) ↔ (∃ r, RiskUnder p.2.held.f riskLabel r) ∧
      ∀ marker ∈ highlight, marker ∈ ["min_risk", "max_return", "tangency"] ∧ (marker = "tangency" → rf ≠ none) := by
    intro p hp
    unfold drawOne
    cases hr : p.2.held.f.riskVector riskLabel with
    | error e =>
      simp only [reduceCtorEq, exists_false, false_iff, not_and]
      rintro ⟨r, h⟩
      rw [riskVector_ok.mpr h] at hr
      cases hr
    | ok r =>
      have h1 : (∃ r, RiskUnder p.2.held.f riskLabel r) := ⟨r, riskVector_ok.mp hr⟩
      simp only [h1, true_and]
      have h2 : (∃ ms, mapE (highlightOne p.2 (pyOr p.1 (pyOr riskLabel p.2.held.f.riskMeasure)) riskLabel r rf) highlight = .ok ms) ↔
          ∀ marker ∈ highlight, marker ∈ ["min_risk", "max_return", "tangency"] ∧ (marker = "tangency" → rf ≠ none) := by
        rw [mapOk_iff]
        exact forall₂_congr fun m _ => highlight_some (hM p hp)
      rw [← h2]
      cases mapE (highlightOne p.2 (pyOr p.1 (pyOr riskLabel p.2.held.f.riskMeasure)) riskLabel r rf) highlight with
      | error e => simp
      | ok ms => simp
  unfold plotFrontiers
  rw [normalize_iff.mpr hl]
  simp only
  rw [← forall₂_congr hone, ← mapOk_iff]
  cases mapE (drawOne highlight rf overlays riskLabel) l with
  | error e => simp
  | ok ms => simp

/-- **C171** (errors) A malformed call raises: labels of the wrong length `ValueError`, something that is no frontier `TypeError`; and for one
non-empty frontier an unknown risk measure is a `KeyError`, an unknown marker or a missing risk-free rate a `ValueError`. -/
theorem C171_errors (it : Item K) (L : List (Option (Item K))) (labels : List String) (highlight : List String) (rf : Option K)
    (overlays : List String) (riskLabel : Option String) :
    (labels.length ≠ L.length → plotFrontiers (.seq L) (some labels) highlight rf overlays riskLabel = .error .valueError) ∧
    (none ∈ L → plotFrontiers (.seq L) none highlight rf overlays riskLabel = .error .typeError) ∧
    ((¬ ∃ r, RiskUnder it.held.f riskLabel r) → plotFrontiers (.one it) none highlight rf overlays riskLabel = .error .keyError) ∧
    (0 < it.held.m → (∃ r, RiskUnder it.held.f riskLabel r) →
      (∃ marker ∈ highlight, marker ∉ ["min_risk", "max_return", "tangency"] ∨ (marker = "tangency" ∧ rf = none)) →
      plotFrontiers (.one it) none highlight rf overlays riskLabel = .error .valueError) := by
  refine ⟨fun h => ?_, fun h => ?_, fun h => ?_, fun hM hr h => ?_⟩
  · unfold plotFrontiers normalize normalizeSeq
    simp [h]
  · unfold plotFrontiers normalize normalizeSeq
    have : mapE asItem (attach none L) = .error .typeError := by
      refine mapErr (a := (none, none)) ?_ (List.mem_map.mpr ⟨none, h, rfl⟩) (by intro b; simp [asItem])
      rintro ⟨a, b⟩ - e' he
      cases b with
      | none => injection he with he; exact he.symm
      | some f => cases he
    simp [this]
  · have : it.held.f.riskVector riskLabel = .error .keyError := riskVector_err (fun r hr => h ⟨r, hr⟩)
    simp [plotFrontiers, normalize, normalizeSeq, attach, asItem, mapE, drawOne, this]
  · obtain ⟨r, hr⟩ := hr
    obtain ⟨m, hm, hbad⟩ := h
    have : ∀ label : String, mapE (highlightOne it label riskLabel r rf) highlight = .error .valueError := by
      intro label
      refine mapErr ?_ hm ?_
      · rintro a - e' he
        unfold highlightOne parseMarker at he
        split at he
        · rename_i e hp
          split_ifs at hp
          injection hp with hp
          injection he with he
          rw [← he, ← hp]
        · rename_i mk hp
          split at he
          · rename_i e hp2
            injection he with he
            subst he
            cases mk with
            | minRisk => exact orEmpty_err hp2
            | maxReturn => exact orEmpty_err hp2
            | tangency =>
              unfold resolveHighlight tangencyIndex at hp2
              cases rf with
              | none => injection hp2 with hp2; exact hp2.symm
              | some x =>
                simp only at hp2
                split_ifs at hp2
                exact orEmpty_err hp2
          · cases he
      · intro b hb
        obtain ⟨h1, h2⟩ := (highlight_some hM).mp ⟨b, hb⟩
        rcases hbad with hbad | ⟨rfl, hrf⟩
        · exact hbad h1
        · exact h2 rfl hrf
    simp [plotFrontiers, normalize, normalizeSeq, attach, asItem, mapE, drawOne, riskVector_ok.mpr hr, this]


/-- A frontier of three portfolios of two assets. -/
def exCurve : Item ℚ :=
  ⟨⟨2, 3, some ["A", "B"], ⟨![![1, 1/2, 0], ![0, 1/2, 1]], ![1/100, 2/100, 3/100], ![2/10, 1/10, 3/10], "Volatility", []⟩⟩, none⟩

/-- It is drawn with its marker, which is on the portfolio of least risk. -/
example : ∃ pic rec, plotFrontiers (.one exCurve) none ["min_risk"] none [] none = .ok pic ∧ pic.marks = [rec] ∧ rec.w = [1/2, 1/2] ∧
    rec.ret = 2/100 ∧ rec.risk = 1/10 := by
  obtain ⟨pic, h⟩ := (C171_succeeds (fs := .one exCurve) (labels := none) (highlight := ["min_risk"]) (rf := none) (overlays := [])
    (riskLabel := none) (l := [(none, exCurve)]) (Or.inl ⟨rfl, rfl⟩) (by simp [exCurve])).2 (by
      intro q hq
      rw [List.mem_singleton] at hq
      subst hq
      exact ⟨⟨_, Or.inl ⟨Or.inl rfl, rfl⟩⟩, by simp⟩)
  obtain ⟨rec, p, h1, h2, h3, h4, h5⟩ := C171_selectors.1 h
  have r0 : exCurve.held.f.risks (0 : Fin 3) = 2 / 10 := rfl
  have r1 : exCurve.held.f.risks (1 : Fin 3) = 1 / 10 := rfl
  have r2 : exCurve.held.f.risks (2 : Fin 3) = 3 / 10 := rfl
  have hp : exCurve.held.f.minRisk none = .ok (exCurve.held.f.pick exCurve.held.f.risks (1 : Fin 3)) := by
    refine (C52_min_risk _ _ _).2 ⟨exCurve.held.f.risks, (1 : Fin 3), Or.inl ⟨Or.inl rfl, rfl⟩, ⟨trivial, ?_, ?_⟩, pick_iff.1 rfl⟩
    · show ∀ j : Fin 3, _
      intro j _
      fin_cases j
      · norm_num [r0, r1]
      · exact le_refl _
      · rw [r1]; exact (show (1 / 10 : ℚ) ≤ 3 / 10 by norm_num)
    · show ∀ j : Fin 3, _
      intro j hj _
      fin_cases j
      · norm_num [r0, r1]
      · exact absurd hj (lt_irrefl _)
      · exact absurd hj (by decide)
  rw [hp] at h2
  injection h2 with h2
  subst h2
  refine ⟨pic, rec, h, h1, ?_, ?_, ?_⟩
  · rw [h3]; decide +kernel
  · rw [h4]; rfl
  · rw [h5]; rfl

/-- Two frontiers with labels are drawn as two curves. -/
example : ∃ pic a b, plotFrontiers (.seq [some exCurve, some exCurve]) (some ["one", "two"]) ["max_return", "tangency"] (some 0) [] none = .ok pic ∧
    pic.parts = [a, b] := by
  have hs : Supplied (.seq [some exCurve, some exCurve]) (some ["one", "two"]) [(some "one", exCurve), (some "two", exCurve)] :=
    ⟨[exCurve, exCurve], rfl, Or.inr ⟨["one", "two"], rfl, rfl, rfl⟩⟩
  obtain ⟨pic, h⟩ := (C171_succeeds (highlight := ["max_return", "tangency"]) (rf := some 0) (overlays := [])
    (riskLabel := none) hs (by simp [exCurve])).2 (by
      intro q hq
      simp only [List.mem_cons, List.not_mem_nil, or_false] at hq
      rcases hq with rfl | rfl <;> exact ⟨⟨_, Or.inl ⟨Or.inl rfl, rfl⟩⟩, by simp⟩)
  obtain ⟨l, hl, hd, -⟩ := C171_draws h
  obtain ⟨items, h1, h2⟩ := hl
  rcases h2 with ⟨h2, -⟩ | ⟨ls, e1, e2, e3⟩
  · cases h2
  · injection e1 with e1
    have hi : items = [exCurve, exCurve] := by
      have : List.map some items = List.map some [exCurve, exCurve] := h1.symm
      exact (List.map_injective_iff.2 (Option.some_injective _)) this
    subst e1 hi
    subst e3
    simp only [List.map_cons, List.map_nil, List.zip_cons_cons, List.zip_nil_right] at hd
    generalize hp : pic.parts = ps at hd
    rcases hd with _ | ⟨-, hd⟩
    rcases hd with _ | ⟨-, hd⟩
    cases hd
    exact ⟨pic, _, _, h, hp⟩

end PyV.Props
