import Verif.Model.DiscreteApi
import Verif.Props.DiscreteCompare

/-! # Properties C240, C241: the cash limit of the mixed-integer allocator, and the routing of options -/

set_option linter.unusedSectionVars false

namespace PyV.Props

open PyV PyV.Discrete PyV.Spec.Discrete

variable {K : Type*} [Field K] [LinearOrder K] [IsStrictOrderedRing K] [FloorRing K]
variable {weights prices : List (String × K)} {total : K} {lots : Option (List (String × ℤ))}

/-- SciPy's solver is exact: it answers with an optimal point of the programme with this penalty and cash limit, and it answers whenever the
programme is feasible. -/
structure ExactMilp (solve : (inp : Input K) → K → Option K → Option (MipPoint K inp.n)) : Prop where
  sound : ∀ inp cp mc p, solve inp cp mc = some p → MipOptimal inp cp mc p
  complete : ∀ inp cp mc, (∃ q, MipFeasible inp mc q) → ∃ p, solve inp cp mc = some p

/-- The names of the mixed-integer method. -/
def MilpName (m : String) : Prop := m.toLower = "milp" ∨ m.toLower = "mip" ∨ m.toLower = "integer" ∨ m.toLower = "lp"
/-- The names of the greedy method. -/
def GreedyName (m : String) : Prop := m.toLower = "greedy" ∨ m.toLower = "rounddown"

theorem parse_milp {m : String} (h : MilpName m) : parseMethod m = .ok .milp := by
  unfold parseMethod
  rw [if_neg (by rcases h with h | h | h | h <;> rw [h] <;> decide),
    if_pos (show m.toLower = "milp" ∨ m.toLower = "mip" ∨ m.toLower = "integer" ∨ m.toLower = "lp" from h)]

theorem parse_greedy {m : String} (h : GreedyName m) : parseMethod m = .ok .greedy := if_pos h

/-- Options naming a cash penalty and a cash limit. -/
def limitedTo (cp : K) (cap : K) : Options K := { mip := { cashPenalty := some cp, maxCash := some (some cap) } }

private theorem feasible_drop {inp : Input K} {cap : K} {p : MipPoint K inp.n} (h : MipFeasible inp (some cap) p) : MipFeasible inp none p ∧ p.r ≤ cap :=
  ⟨⟨h.xlb, h.xub, h.ulb, h.uub, h.rlb, h.rub.trans (min_le_right _ _), h.budget, h.upper, h.lower⟩, h.rub.trans (min_le_left _ _)⟩

private theorem feasible_add {inp : Input K} {cap : K} {p : MipPoint K inp.n} (h : MipFeasible inp none p) (hc : p.r ≤ cap) : MipFeasible inp (some cap) p :=
  ⟨h.xlb, h.xub, h.ulb, h.uub, h.rlb, le_min hc h.rub, h.budget, h.upper, h.lower⟩

/-- **C240** (any target) A successful mixed-integer allocation leaves at most `max_cash`; a negative `max_cash` cannot be met and raises
`RuntimeError`. -/
theorem C240_cash_cap {method : String} (hm : MilpName method) (hv : Valid weights prices total lots) (cp cap : K)
    (sortBy : (inp : Input K) → Equiv.Perm (Fin inp.n)) {solve : (inp : Input K) → K → Option K → Option (MipPoint K inp.n)} (hs : ExactMilp solve) :
    (∀ r, discretizeWith weights prices total lots method (limitedTo cp cap) sortBy solve = .ok r → 0 ≤ r.leftover ∧ r.leftover ≤ cap) ∧
    (cap < 0 → discretizeWith weights prices total lots method (limitedTo cp cap) sortBy solve = .error .runtimeError) := by
  obtain ⟨inp, hin⟩ := (C07_validation_iff.1).mpr hv
  have ha := accepted_of_mkInput hin
  have hcall : discretizeWith weights prices total lots method (limitedTo cp cap) sortBy solve = allocateMip inp (solve inp cp (some cap)) := by
    unfold discretizeWith
    rw [hin]
    dsimp only
    rw [parse_milp hm]
    simp [limitedTo, callMip]
  have hcap : ∀ r, allocateMip inp (solve inp cp (some cap)) = .ok r → 0 ≤ r.leftover ∧ r.leftover ≤ cap := by
    intro r hr
    cases hp : solve inp cp (some cap) with
    | none =>
      rw [hp] at hr
      unfold allocateMip at hr
      split at hr <;> cases hr
    | some p =>
      rw [hp] at hr
      obtain ⟨f, hc⟩ := feasible_drop (hs.sound _ _ _ _ hp).1
      obtain ⟨r', hr', -, e, -⟩ := mip_result_le (cp := cp) ha f
      rw [hr] at hr'
      injection hr' with hr'
      subst hr'
      rw [e]
      exact ⟨f.rlb, hc⟩
  rw [hcall]
  refine ⟨hcap, fun hneg => ?_⟩
  cases hp : solve inp cp (some cap) with
  | none =>
    unfold allocateMip
    rw [if_neg (Nat.pos_iff_ne_zero.1 ha.npos)]
  | some p =>
    obtain ⟨f, hc⟩ := feasible_drop (hs.sound _ _ _ _ hp).1
    exact absurd (f.rlb.trans hc) (not_le.2 hneg)

/-- **C240** (long-only) The call succeeds exactly if some non-negative whole-lot allocation within the amount leaves at most `max_cash`; among all of
these it minimises tracking error in currency plus penalised cash.  Otherwise it raises `RuntimeError`. -/
theorem C240_best_within_cap {method : String} (hm : MilpName method) (inp : Input K) (hin : mkInput weights prices total lots = .ok inp)
    (hl : LongOnly weights) (cp cap : K) (sortBy : (inp : Input K) → Equiv.Perm (Fin inp.n))
    {solve : (inp : Input K) → K → Option K → Option (MipPoint K inp.n)} (hs : ExactMilp solve) :
    ((∃ y : Fin inp.n → ℤ, (∀ i, 0 ≤ y i) ∧ lotsCost inp y ≤ total ∧ total - lotsCost inp y ≤ cap) →
      ∃ r, discretizeWith weights prices total lots method (limitedTo cp cap) sortBy solve = .ok r ∧ r.leftover ≤ cap ∧
        ∀ y : Fin inp.n → ℤ, (∀ i, 0 ≤ y i) → lotsCost inp y ≤ total → total - lotsCost inp y ≤ cap →
          total * r.trackingError + cp * r.leftover ≤ l1Dollar inp y + cp * (total - lotsCost inp y)) ∧
    ((¬ ∃ y : Fin inp.n → ℤ, (∀ i, 0 ≤ y i) ∧ lotsCost inp y ≤ total ∧ total - lotsCost inp y ≤ cap) →
      discretizeWith weights prices total lots method (limitedTo cp cap) sortBy solve = .error .runtimeError) := by
  have ha := accepted_of_mkInput hin
  have hsh := (longOnly_iff hin).mpr hl
  have hw0 := ha.nonneg hsh
  have ht : inp.total = total := (input_labels hin).1
  have hw1 : ∀ i, |inp.w i| ≤ 1 := by
    intro i
    rw [abs_of_nonneg (hw0 i), ← ha.wsum]
    exact Finset.single_le_sum (f := inp.w) (fun j _ => hw0 j) (Finset.mem_univ i)
  have hunl : ∀ y : Fin inp.n → ℤ, (∀ i, 0 ≤ y i) → lotsCost inp y ≤ inp.total → Unlevered inp y := by
    intro y hy hc i
    refine ⟨fun _ => ⟨hy i, ?_⟩, fun h => absurd h (not_lt.mpr (hw0 i))⟩
    refine le_trans ?_ hc
    unfold lotsCost
    apply Finset.single_le_sum (f := fun i => (inp.price i * inp.lot i) * (y i : K)) (fun j _ => ?_) (Finset.mem_univ i)
    have h1 : (0:K) ≤ y j := by exact_mod_cast hy j
    have h2 : (0:K) < inp.lot j := by exact_mod_cast ha.lot j
    exact mul_nonneg (mul_pos (ha.price j) h2).le h1
  have hfeas : ∀ y : Fin inp.n → ℤ, (∀ i, 0 ≤ y i) → lotsCost inp y ≤ inp.total → inp.total - lotsCost inp y ≤ cap →
      MipFeasible inp (some cap) ⟨y, fun i => |(inp.price i * inp.lot i) * y i - inp.w i * inp.total|, inp.total - lotsCost inp y⟩ :=
    fun y h0 h1 h2 => feasible_add (unlevered_feasible ha hw1 y (hunl y h0 h1) h1) h2
  have hcall : discretizeWith weights prices total lots method (limitedTo cp cap) sortBy solve = allocateMip inp (solve inp cp (some cap)) := by
    unfold discretizeWith
    rw [hin]
    dsimp only
    rw [parse_milp hm]
    simp [limitedTo, callMip]
  rw [hcall, ← ht]
  constructor
  · rintro ⟨y, h0, h1, h2⟩
    obtain ⟨p, hp⟩ := hs.complete inp cp (some cap) ⟨_, hfeas y h0 h1 h2⟩
    have ho := hs.sound _ _ _ _ hp
    obtain ⟨f, hc⟩ := feasible_drop ho.1
    obtain ⟨r, hr, hle, e, -⟩ := mip_result_le (cp := cp) ha f
    refine ⟨r, by rw [hp]; exact hr, by rw [e]; exact hc, fun z z0 z1 z2 => hle.trans ?_⟩
    exact ho.2 _ (hfeas z z0 z1 z2)
  · intro hno
    cases hp : solve inp cp (some cap) with
    | none =>
      unfold allocateMip
      rw [if_neg (Nat.pos_iff_ne_zero.1 ha.npos)]
    | some p =>
      refine absurd ?_ hno
      obtain ⟨f, hc⟩ := feasible_drop (hs.sound _ _ _ _ hp).1
      have hb : lotsCost inp p.x + p.r = inp.total := f.budget
      refine ⟨p.x, fun i => ?_, by linarith [f.rlb], by linarith⟩
      have := f.xlb i
      unfold Input.lotLb at this
      rwa [if_pos (hw0 i)] at this

/-- **C240** (monotone) Allowing more cash never makes the compromise worse: if the call succeeds with a cash limit, it succeeds with every larger one,
and tracking error in currency plus penalised cash is not larger. -/
theorem C240_looser_cap {method : String} (hm : MilpName method) (hv : Valid weights prices total lots) (hl : LongOnly weights) (cp : K)
    {cap cap' : K} (hle : cap ≤ cap') (sortBy : (inp : Input K) → Equiv.Perm (Fin inp.n))
    {solve : (inp : Input K) → K → Option K → Option (MipPoint K inp.n)} (hs : ExactMilp solve) {r : Result K}
    (hr : discretizeWith weights prices total lots method (limitedTo cp cap) sortBy solve = .ok r) :
    ∃ r', discretizeWith weights prices total lots method (limitedTo cp cap') sortBy solve = .ok r' ∧
      total * r'.trackingError + cp * r'.leftover ≤ total * r.trackingError + cp * r.leftover := by
  obtain ⟨inp, hin⟩ := (C07_validation_iff.1).mpr hv
  have ha := accepted_of_mkInput hin
  have ht : inp.total = total := (input_labels hin).1
  have hsh := (longOnly_iff hin).mpr hl
  have hw0 := ha.nonneg hsh
  have hcall : discretizeWith weights prices total lots method (limitedTo cp cap) sortBy solve = allocateMip inp (solve inp cp (some cap)) := by
    unfold discretizeWith
    rw [hin]
    dsimp only
    rw [parse_milp hm]
    simp [limitedTo, callMip]
  rw [hcall] at hr
  cases hp : solve inp cp (some cap) with
  | none =>
    rw [hp] at hr
    unfold allocateMip at hr
    split at hr <;> cases hr
  | some p =>
    rw [hp] at hr
    obtain ⟨f, hc⟩ := feasible_drop (hs.sound _ _ _ _ hp).1
    obtain ⟨q, hq, -, e1, e2, e3⟩ := mip_result_le (cp := cp) ha f
    rw [hr] at hq
    injection hq with hq
    subst hq
    have h0 : ∀ i, 0 ≤ p.x i := fun i => by
      have := f.xlb i
      unfold Input.lotLb at this
      rwa [if_pos (hw0 i)] at this
    have h1 : lotsCost inp p.x ≤ total := by rw [← ht]; linarith [f.rlb]
    have h2 : total - lotsCost inp p.x ≤ cap' := by rw [← ht, ← e2, e1]; exact hc.trans hle
    obtain ⟨r', hr', -, hbest⟩ := (C240_best_within_cap hm inp hin hl cp cap' sortBy hs).1 ⟨p.x, h0, h1, h2⟩
    refine ⟨r', hr', (hbest p.x h0 h1 h2).trans ?_⟩
    rw [← e3, e2, ht]

/-! ## C241 -/

/-- The options `allocate_greedy` knows. -/
def OnlyGreedyOptions (o : Options K) : Prop := o.mip.cashPenalty = none ∧ o.mip.maxCash = none ∧ o.mip.solverOptions = false ∧ o.mip.others = []
/-- The options `allocate_mip` knows. -/
def OnlyMilpOptions (o : Options K) : Prop := o.maxIterations = none ∧ o.fallbackMode = none ∧ o.fallbackKwargs = none ∧ o.mip.others = []

/-- The documented meaning of `fallback_mode`: absent means `auto`, `None` and the empty text mean `none`, and the three names count in upper or lower case. -/
inductive FallbackSays : Option (Option String) → Mode → Prop
  | default : FallbackSays none .auto
  | null : FallbackSays (some none) .none
  | empty : FallbackSays (some (some "")) .none
  | auto {s} (h : s.toLower = "auto") : FallbackSays (some (some s)) .auto
  | milp {s} (h : s.toLower = "milp") : FallbackSays (some (some s)) .milp
  | none {s} (h : s.toLower = "none") : FallbackSays (some (some s)) .none

private theorem lower_auto : "auto".toLower = "auto" := by decide +kernel
private theorem lower_none : "none".toLower = "none" := by decide +kernel
private theorem lower_empty : "".toLower = "" := by decide +kernel

private theorem parse_ok (s : Option (Option String)) (m : Mode) : parseFallback (s.getD (some "auto")) = .ok m ↔ FallbackSays s m := by
  have hset : ∀ t : String, t ≠ "" → (parseFallback (some t) = .ok m ↔ FallbackSays (some (some t)) m) := by
    intro t ht
    unfold parseFallback
    simp only [Option.getD_some, if_neg ht]
    constructor
    · intro h
      split_ifs at h with h1 h2 h3
      · injection h with h; subst h; exact .auto h1
      · injection h with h; subst h; exact .milp h2
      · injection h with h; subst h; exact .none h3
    · rintro (_ | _ | _ | h | h | h)
      · exact absurd rfl ht
      · rw [if_pos h]
      · rw [if_neg (by rw [h]; decide), if_pos h]
      · rw [if_neg (by rw [h]; decide), if_neg (by rw [h]; decide), if_pos h]
  have hempty : parseFallback (some "") = .ok .none ∧ parseFallback none = .ok .none := by
    unfold parseFallback
    simp [lower_none]
  cases s with
  | none =>
    show parseFallback (some "auto") = .ok m ↔ _
    unfold parseFallback
    simp only [Option.getD_some, if_neg (by decide : "auto" ≠ ""), lower_auto, if_true]
    constructor
    · intro h; injection h with h; subst h; exact .default
    · rintro ⟨⟩; rfl
  | some s =>
    show parseFallback s = .ok m ↔ _
    cases s with
    | none =>
      rw [hempty.2]
      constructor
      · intro h; injection h with h; subst h; exact .null
      · rintro ⟨⟩; rfl
    | some t =>
      by_cases ht : t = ""
      · subst ht
        rw [hempty.1]
        constructor
        · intro h; injection h with h; subst h; exact .empty
        · intro h
          have he : ∀ {u : String} {k : Mode}, FallbackSays (some (some u)) k → u = "" → k = .none := by
            intro u k hu e
            cases hu with
            | empty => rfl
            | auto h => rw [e, lower_empty] at h; exact absurd h (by decide)
            | milp h => rw [e, lower_empty] at h; exact absurd h (by decide)
            | none h => rfl
          rw [he h rfl]
      · exact hset t ht

private theorem parse_error (s : Option String) {e : PyErr} (h : parseFallback s = .error e) : e = .valueError := by
  unfold parseFallback at h
  dsimp only at h
  split_ifs at h <;> first | cases h; done | (injection h with h; exact h.symm)

/-- **C241** (mixed-integer) With one of the mixed-integer names and options that allocator knows, the programme solved has the given cash penalty
(default 1) and cash limit (default none); any other option is refused with `TypeError`. -/
theorem C241_milp {method : String} (hm : MilpName method) (hv : Valid weights prices total lots) (o : Options K)
    (sortBy : (inp : Input K) → Equiv.Perm (Fin inp.n)) (solve : (inp : Input K) → K → Option K → Option (MipPoint K inp.n)) :
    (OnlyMilpOptions o → discretizeWith weights prices total lots method o sortBy solve =
      discretize weights prices total lots method none .none sortBy (fun inp => solve inp (o.mip.cashPenalty.getD 1) (o.mip.maxCash.getD none))) ∧
    (¬ OnlyMilpOptions o → discretizeWith weights prices total lots method o sortBy solve = .error .typeError) := by
  obtain ⟨inp, hin⟩ := (C07_validation_iff.1).mpr hv
  unfold discretizeWith discretize
  rw [hin]
  dsimp only
  rw [parse_milp hm]
  dsimp only
  unfold callMip OnlyMilpOptions
  constructor
  · rintro ⟨h1, h2, h3, h4⟩
    rw [h1, h2, h3, h4]
    simp
  · intro h
    by_cases h' : o.maxIterations.isSome ∨ o.fallbackMode.isSome ∨ o.fallbackKwargs.isSome
    · rw [if_pos h']
    · rw [if_neg h']
      simp only [not_or, Option.not_isSome_iff_eq_none] at h'
      rw [if_pos (fun h4 => h ⟨h'.1, h'.2.1, h'.2.2, h4⟩)]

/-- **C241** (greedy, partial) With one of the greedy names and options that allocator knows, the greedy allocation uses the given iteration cap and
fallback mode, and hands over — when it does — to the mixed-integer allocator with the options of `fallback_kwargs`.  Any other option is
refused with `TypeError`, an unknown fallback mode with `ValueError`.  Missing: names inside `fallback_kwargs` that the mixed-integer
allocator does not know are not always refused (`C241_counterexample`). -/
theorem C241_greedy_partial {method : String} (hm : GreedyName method) (hv : Valid weights prices total lots) (o : Options K)
    (sortBy : (inp : Input K) → Equiv.Perm (Fin inp.n)) (solve : (inp : Input K) → K → Option K → Option (MipPoint K inp.n)) :
    (∀ mode, OnlyGreedyOptions o → FallbackSays o.fallbackMode mode → (((o.fallbackKwargs.getD none).getD {}).others = [] →
      discretizeWith weights prices total lots method o sortBy solve =
        discretize weights prices total lots method (o.maxIterations.getD none) mode sortBy
          (fun inp => solve inp (((o.fallbackKwargs.getD none).getD {}).cashPenalty.getD 1) (((o.fallbackKwargs.getD none).getD {}).maxCash.getD none)))) ∧
    (OnlyGreedyOptions o → (¬ ∃ mode, FallbackSays o.fallbackMode mode) →
      discretizeWith weights prices total lots method o sortBy solve = .error .valueError) ∧
    (¬ OnlyGreedyOptions o → discretizeWith weights prices total lots method o sortBy solve = .error .typeError) := by
  obtain ⟨inp, hin⟩ := (C07_validation_iff.1).mpr hv
  unfold discretizeWith discretize
  rw [hin]
  dsimp only
  rw [parse_greedy hm]
  dsimp only
  unfold callGreedy OnlyGreedyOptions
  have hg : ∀ {α} (a b : α), (o.mip.cashPenalty = none ∧ o.mip.maxCash = none ∧ o.mip.solverOptions = false ∧ o.mip.others = []) →
      (if o.mip.cashPenalty.isSome ∨ o.mip.maxCash.isSome ∨ o.mip.solverOptions = true ∨ o.mip.others ≠ [] then a else b) = b := by
    rintro α a b ⟨h1, h2, h3, h4⟩
    rw [h1, h2, h3, h4]
    simp
  refine ⟨fun mode ho hmode hk => ?_, fun ho hno => ?_, fun ho => ?_⟩
  · rw [hg _ _ ho, (parse_ok _ mode).2 hmode]
    dsimp only
    unfold callMip
    rw [hk]
    simp
  · rw [hg _ _ ho]
    cases hp : parseFallback (o.fallbackMode.getD (some "auto")) with
    | error e => rw [parse_error _ hp]
    | ok m => exact absurd ⟨m, (parse_ok _ m).1 hp⟩ hno
  · rw [if_pos]
    by_contra h
    simp only [not_or, not_not] at h
    exact ho ⟨Option.not_isSome_iff_eq_none.1 h.1, Option.not_isSome_iff_eq_none.1 h.2.1, by simpa using h.2.2.1, h.2.2.2⟩

/-- **C241** (false of the code) A misspelt name inside `fallback_kwargs` goes unnoticed: in the default mode every long-only call succeeds,
whatever the options for the fallback are called. -/
theorem C241_counterexample (hv : Valid weights prices total lots) (hl : LongOnly weights) (name : String)
    (sortBy : (inp : Input K) → Equiv.Perm (Fin inp.n)) (solve : (inp : Input K) → K → Option K → Option (MipPoint K inp.n)) :
    ∃ r, discretizeWith weights prices total lots "greedy" { fallbackKwargs := some (some { others := [name] }) } sortBy solve = .ok r := by
  obtain ⟨r, e, -⟩ := C02_greedy_never_raises (Or.inl lower_greedy) hv hl none .auto (by decide) sortBy (fun _ => none)
  obtain ⟨inp, hin⟩ := (C07_validation_iff.1).mpr hv
  unfold discretize at e
  unfold discretizeWith
  rw [hin] at e ⊢
  dsimp only at e ⊢
  rw [parse_greedy (Or.inl lower_greedy)] at e ⊢
  dsimp only at e ⊢
  unfold callGreedy
  rw [if_neg (by simp), (parse_ok none .auto).2 .default]
  dsimp only
  unfold callMip
  simp only [Option.getD_some, Option.getD_none]
  rw [if_pos (by simp)]
  have hs := (longOnly_iff hin).mpr hl
  unfold allocateGreedy at e ⊢
  rw [hs] at e ⊢
  simp only [Bool.false_eq_true, if_false] at e ⊢
  have hmip : allocateMip inp none = .error .runtimeError := by
    unfold allocateMip
    rw [if_neg (Nat.pos_iff_ne_zero.1 (accepted_of_mkInput hin).npos)]
  rw [hmip] at e
  exact ⟨r, e⟩

/-- An exact solver exists, and the example call of C01 meets the hypotheses: with a cash limit of 1000 (the whole amount) it succeeds. -/
example : ∃ solve : (inp : Input ℚ) → ℚ → Option ℚ → Option (MipPoint ℚ inp.n), ExactMilp solve ∧
    ∃ r, discretizeWith exW exP 1000 exLots "milp" (limitedTo 1 1000) (fun _ => Equiv.refl _) solve = .ok r := by
  classical
  have hs : ExactMilp (K := ℚ) (fun inp cp mc => if h : ∃ p, MipOptimal inp cp mc p then some h.choose else none) := by
    constructor
    · intro inp cp mc p hp
      split at hp
      · rename_i h
        injection hp with hp
        rw [← hp]
        exact h.choose_spec
      · cases hp
    · rintro inp cp mc ⟨q, hq⟩
      have h := C08_optimum_exists inp cp mc q hq
      exact ⟨h.choose, dif_pos h⟩
  obtain ⟨inp, hin⟩ := (C07_validation_iff.1).mpr exValid
  obtain ⟨r, hr, -⟩ := (C240_best_within_cap (method := "milp") (Or.inl (by decide +kernel)) inp hin exLong 1 1000 (fun _ => Equiv.refl _) hs).1
    ⟨fun _ => 0, fun _ => le_rfl, by simp [lotsCost], by simp [lotsCost]⟩
  exact ⟨_, hs, r, hr⟩

example : FallbackSays none .auto ∧ FallbackSays (some (some "MILP")) .milp ∧ ¬ ∃ m, FallbackSays (some (some "exact")) m := by
  refine ⟨.default, .milp (by decide +kernel), ?_⟩
  rintro ⟨m, h⟩
  have := (parse_ok _ m).2 h
  have hn : parseFallback (some "exact") = .error .valueError := by
    unfold parseFallback
    have : "exact".toLower = "exact" := by decide +kernel
    simp [this]
  rw [show (some (some "exact")).getD (some "auto") = some "exact" from rfl, hn] at this
  cases this

end PyV.Props
