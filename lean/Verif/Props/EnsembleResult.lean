import Verif.Model.EnsembleResult
import Verif.Props.Assemble

/-!
# C150, C151: what an ensemble call is asked for and what its result holds
-/

namespace PyV.Props

open PyV PyV.Ens PyV.Fr

variable {K : Type*} [Field K] [LinearOrder K] [IsStrictOrderedRing K] {N : ℕ}

/-- The string is the keyword up to letter case and surrounding blanks. -/
def SpelledLike (s key : String) : Prop :=
  ∃ pre core post : List Char, s.toList = pre ++ core ++ post ∧ (∀ c ∈ pre, c.isWhitespace) ∧ (∀ c ∈ post, c.isWhitespace) ∧
    core.map Char.toLower = key.toList

/-- The string has no visible character. -/
def IsBlank (s : String) : Prop := ∀ c ∈ s.toList, c.isWhitespace

/-- The strings named by the `ensemble` argument. -/
def AsksFor (arg : EnsArg) (s : String) : Prop :=
  match arg with
  | .none => False
  | .str t => s = t ∧ ¬ SpelledLike t "none"
  | .seq l => some s ∈ l

/-- The keywords of the library contain no blanks. -/
def NoBlank (key : String) : Prop := ∀ c ∈ key.toList, c.isWhitespace = false

theorem lower_blank (c : Char) : c.toLower.isWhitespace = c.isWhitespace := by
  unfold Char.toLower
  split
  · rename_i h
    have h1 : (65 : Nat) ≤ c.val.toNat := UInt32.le_iff_toNat_le.mp h.1
    have h2 : c.val.toNat ≤ 90 := UInt32.le_iff_toNat_le.mp h.2
    have key : ∀ d : Char, 65 ≤ d.val.toNat → d.isWhitespace = false := by
      intro d hd
      by_contra hne
      simp only [Char.isWhitespace, Bool.not_eq_false, Bool.or_eq_true, decide_eq_true_eq] at hne
      rcases hne with ((rfl | rfl) | rfl) | rfl <;> exact absurd hd (by decide)
    rw [key c h1]
    apply key
    change 65 ≤ (c.val + ('a'.val - 'A'.val)).toNat
    have h3 : ('a'.val - 'A'.val : UInt32).toNat = 32 := by decide
    rw [UInt32.toNat_add, h3]
    omega
  · rfl

theorem of_takeWhile {p : Char → Bool} {l : List Char} : ∀ c ∈ l.takeWhile p, p c := by
  induction l with
  | nil => simp
  | cons a l ih =>
    intro c hc
    rw [List.takeWhile_cons] at hc
    split at hc
    · rename_i ha
      rcases List.mem_cons.mp hc with rfl | h
      · exact ha
      · exact ih c h
    · simp at hc

theorem dropWhile_all {p : Char → Bool} {l m : List Char} (h : ∀ c ∈ l, p c) : (l ++ m).dropWhile p = m.dropWhile p := by
  induction l with
  | nil => rfl
  | cons a l ih =>
    rw [List.cons_append, List.dropWhile_cons, if_pos (h a (by simp))]
    exact ih (fun c hc => h c (by simp [hc]))

theorem dropWhile_none {p : Char → Bool} {l m : List Char} (h : ∀ c ∈ l, p c = false) (hl : l ≠ []) : (l ++ m).dropWhile p = l ++ m := by
  cases l with
  | nil => exact absurd rfl hl
  | cons a l => rw [List.cons_append, List.dropWhile_cons, if_neg (by simp [h a (by simp)])]

theorem strip_split (s : List Char) : ∃ pre post, s = pre ++ strip s ++ post ∧ (∀ c ∈ pre, c.isWhitespace) ∧ ∀ c ∈ post, c.isWhitespace := by
  refine ⟨s.takeWhile Char.isWhitespace, (((s.dropWhile Char.isWhitespace).reverse).takeWhile Char.isWhitespace).reverse, ?_, ?_, ?_⟩
  · unfold strip
    rw [List.append_assoc, ← List.reverse_append, List.takeWhile_append_dropWhile, List.reverse_reverse, List.takeWhile_append_dropWhile]
  · intro c hc; exact of_takeWhile c hc
  · intro c hc; exact of_takeWhile c (List.mem_reverse.mp hc)

theorem strip_core {pre core post : List Char} (h1 : ∀ c ∈ pre, c.isWhitespace) (h2 : ∀ c ∈ post, c.isWhitespace)
    (h3 : ∀ c ∈ core, c.isWhitespace = false) : strip (pre ++ core ++ post) = core := by
  unfold strip
  rw [List.append_assoc, dropWhile_all h1]
  by_cases hc : core = []
  · subst hc
    have := dropWhile_all (p := Char.isWhitespace) (l := post) (m := []) h2
    rw [List.append_nil] at this
    rw [List.nil_append, this]
    rfl
  · rw [dropWhile_none h3 hc, List.reverse_append, dropWhile_all (by simpa using h2)]
    have := dropWhile_none (p := Char.isWhitespace) (l := core.reverse) (m := []) (by simpa using h3) (by simpa using hc)
    rw [List.append_nil] at this
    rw [this, List.reverse_reverse]

/-- `strip().lower()` recognises a keyword exactly when the string spells it. -/
theorem normKey_iff {s key : String} (hk : NoBlank key) : normKey s = key ↔ SpelledLike s key := by
  constructor
  · intro h
    obtain ⟨pre, post, h1, h2, h3⟩ := strip_split s.toList
    refine ⟨pre, strip s.toList, post, h1, h2, h3, ?_⟩
    rw [← h]; simp [normKey]
  · rintro ⟨pre, core, post, h1, h2, h3, h4⟩
    have h5 : ∀ c ∈ core, c.isWhitespace = false := by
      intro c hc
      rw [← lower_blank]
      exact hk _ (h4 ▸ List.mem_map_of_mem hc)
    unfold normKey
    rw [h1, strip_core h2 h3 h5, h4]
    simp

theorem strip_nil_iff (s : String) : strip s.toList = [] ↔ IsBlank s := by
  constructor
  · intro h
    obtain ⟨pre, post, h1, h2, h3⟩ := strip_split s.toList
    rw [h, List.append_nil] at h1
    intro c hc
    rw [h1] at hc
    rcases List.mem_append.mp hc with h | h
    · exact h2 c h
    · exact h3 c h
  · intro h
    have := strip_core (pre := s.toList) (core := []) (post := []) h (by simp) (by simp)
    simpa using this

theorem normItem_some {o : Option String} {k : String} : normItem o = some k ↔ ∃ s, o = some s ∧ ¬ IsBlank s ∧ normKey s = k := by
  cases o with
  | none => simp [normItem]
  | some s =>
    simp only [normItem, Option.some.injEq]
    rw [exists_eq_left', ← strip_nil_iff]
    constructor
    · intro h
      split at h
      · cases h
      · rename_i hb; injection h with h; exact ⟨hb, h⟩
    · rintro ⟨hb, h⟩
      rw [if_neg hb, h]

theorem normKey_blank (s : String) : normKey s = "" ↔ IsBlank s := by
  rw [← strip_nil_iff]
  unfold normKey
  constructor
  · intro h
    have := congrArg String.toList h
    simpa using this
  · intro h; rw [h]; rfl

/-- The normalised requests are the visible strings named, in lower case without surrounding blanks. -/
theorem mem_normalise {arg : EnsArg} {k : String} : k ∈ normaliseEnsemble arg ↔ ∃ s, AsksFor arg s ∧ ¬ IsBlank s ∧ normKey s = k := by
  cases arg with
  | none => simp [normaliseEnsemble, AsksFor]
  | str s =>
    have hn : normKey s = "none" ↔ SpelledLike s "none" := normKey_iff (by unfold NoBlank; decide)
    simp only [normaliseEnsemble, AsksFor]
    by_cases h : normKey s = "" ∨ normKey s = "none"
    · rw [if_pos h]
      simp only [List.not_mem_nil, false_iff, not_exists, not_and]
      rintro t ⟨rfl, h1⟩ h2
      rw [normKey_blank, hn] at h
      exact absurd (h.resolve_left h2) h1
    · rw [if_neg h]
      rw [normKey_blank, hn] at h
      obtain ⟨h1, h2⟩ := not_or.mp h
      simp only [List.mem_singleton]
      constructor
      · rintro rfl; exact ⟨s, ⟨rfl, h2⟩, h1, rfl⟩
      · rintro ⟨t, ⟨rfl, -⟩, -, h⟩; exact h.symm
  | seq l =>
    simp only [normaliseEnsemble, AsksFor, List.mem_filterMap, normItem_some]
    constructor
    · rintro ⟨o, ho, s, rfl, h⟩; exact ⟨s, ho, h⟩
    · rintro ⟨s, hs, h⟩; exact ⟨_, hs, s, rfl, h⟩

theorem keys_dictUpdate {V : Type*} (u : List (String × V)) (e : String) : e ∈ (dictUpdate [] u).map Prod.fst ↔ e ∈ u.map Prod.fst := by
  have hnd : ((dictUpdate [] u).map Prod.fst).Nodup := nodup_dictUpdate (by simp)
  have hlook : ∀ l : List (String × V), e ∈ l.map Prod.fst ↔ (l.lookup e).isSome := by
    intro l
    induction l with
    | nil => simp
    | cons q l ih =>
      obtain ⟨k, x⟩ := q
      rw [List.lookup_cons]
      by_cases hek : e = k
      · subst hek; simp
      · have : (e == k) = false := by simpa using hek
        rw [this, ← ih]; simp [hek]
  rw [hlook, lookup_dictUpdate, hlook]
  simp only [List.lookup_nil, Option.or_none]
  rw [← hlook, ← hlook, List.map_reverse, List.mem_reverse]

/-- A successful call returns exactly the requested keys, all of them known. -/
theorem assemble_keys {V : Type*} {solve : ∀ S, QpSolver S S 1 K V} {off : V} {g : List (String × V)} {specs : List (EnsSpec K N)}
    {entries : List String} {mode : String} {sf : Option ℤ} {w : WeightsArg String K} {kw : Option (List (String × V))}
    {r : List (String × (Fin N → K))} (h : assemble solve off g specs entries mode sf w kw = .ok r) :
    (∀ e, e ∈ r.map Prod.fst ↔ e ∈ entries) ∧ ∀ e ∈ entries, e = "average" ∨ e = "stack" := by
  unfold assemble at h
  split at h
  · cases h
  split at h
  · cases h
  split at h
  · cases h
  split at h
  · rename_i he
    injection h with h
    subst h he
    simp
  split at h
  · cases h
  split at h
  · cases h
  split at h
  · cases h
  rename_i vs hvs
  injection h with h
  rw [Ens.mapE_iff] at hvs
  have hone : ∀ (cols : List (Fin N → K)) (names : Option (List String)) (nf : ℤ) (e : String) (v : String × (Fin N → K)),
      oneEnsemble solve off g cols names w nf kw e = .ok v → v.1 = e ∧ (e = "average" ∨ e = "stack") := by
    intro cols names nf e v hv
    unfold oneEnsemble at hv
    split at hv
    · rename_i he
      split at hv
      · cases hv
      · injection hv with hv; rw [← hv]; exact ⟨he.symm, Or.inl he⟩
    · split at hv
      · rename_i he
        split at hv
        · cases hv
        · injection hv with hv; rw [← hv]; exact ⟨he.symm, Or.inr he⟩
      · cases hv
  have hk : vs.map Prod.fst = entries ∧ ∀ e ∈ entries, e = "average" ∨ e = "stack" := by
    clear * - hvs hone
    induction hvs with
    | nil => simp
    | cons h1 _ ih =>
      obtain ⟨i1, i2⟩ := ih
      have := hone _ _ _ _ _ h1
      refine ⟨by rw [List.map_cons, this.1, i1], fun e he => ?_⟩
      rcases List.mem_cons.mp he with rfl | he
      · exact this.2
      · exact i2 e he
  refine ⟨fun e => ?_, hk.2⟩
  rw [← h, keys_dictUpdate, hk.1]

/-- The keywords. -/
theorem spelled_keys {s k : String} (hk : k = "average" ∨ k = "stack") : normKey s = k ↔ SpelledLike s k := by
  apply normKey_iff
  rcases hk with rfl | rfl <;> (unfold NoBlank; decide)

/-- **C150** a successful call holds an "average" (a "stack") ensemble exactly when the argument names it, up to letter case and
surrounding blanks; everything else the argument names is blank. -/
theorem C150_requests {V W : Type*} (solve : ∀ S, QpSolver S S 1 K V) (off : V) (g : List (String × V)) (specs : List (MetaSpec K W N))
    (arg : EnsArg) (combine : String) (sf : Option ℤ) (w : WeightsArg String K) (kw : Option (List (String × V))) (r : EnsResult K W N)
    (h : assembleResult solve off g specs arg combine sf w kw = .ok r) :
    (∀ k, k ∈ r.ensembles.map Prod.fst ↔ (k = "average" ∨ k = "stack") ∧ ∃ s, AsksFor arg s ∧ SpelledLike s k) ∧
      ∀ s, AsksFor arg s → IsBlank s ∨ SpelledLike s "average" ∨ SpelledLike s "stack" := by
  unfold assembleResult at h
  split at h
  · cases h
  split at h
  · cases h
  rename_i ens hens
  injection h with h
  subst h
  obtain ⟨h1, h2⟩ := assemble_keys hens
  have hvis : ∀ s k, (k = "average" ∨ k = "stack") → SpelledLike s k → ¬ IsBlank s := by
    intro s k hk hs hb
    rw [← spelled_keys hk] at hs
    rw [← normKey_blank] at hb
    rw [hb] at hs
    rcases hk with rfl | rfl <;> exact absurd hs (by decide)
  refine ⟨fun k => ?_, fun s hs => ?_⟩
  · rw [h1]
    constructor
    · intro hk
      have := h2 k hk
      obtain ⟨s, hs, -, hn⟩ := mem_normalise.mp hk
      exact ⟨this, s, hs, (spelled_keys this).mp hn⟩
    · rintro ⟨hk, s, hs, hn⟩
      exact mem_normalise.mpr ⟨s, hs, hvis s k hk hn, (spelled_keys hk).mpr hn⟩
  · by_cases hb : IsBlank s
    · exact Or.inl hb
    · right
      have := h2 (normKey s) (mem_normalise.mpr ⟨s, hs, hb, rfl⟩)
      rcases this with h | h
      · exact Or.inl ((spelled_keys (Or.inl rfl)).mp h)
      · exact Or.inr ((spelled_keys (Or.inr rfl)).mp h)

/-- **C150** `None`, a blank string, "none" in any case, and sequences of `None` and blanks ask for nothing: with working specifications
and a known `combine` mode the call succeeds and holds no ensemble, whatever the weights, folds and solver options are. -/
theorem C150_nothing {V W : Type*} (solve : ∀ S, QpSolver S S 1 K V) (off : V) (g : List (String × V)) (specs : List (MetaSpec K W N))
    (hne : specs ≠ []) (ws : List (Fin N → K)) (hp : Picked (specs.map MetaSpec.spec) ws) (arg : EnsArg)
    (ha : ∀ s, AsksFor arg s → IsBlank s) (combine : String)
    (hc : combine.toList.map Char.toLower = "selected".toList ∨ combine.toList.map Char.toLower = "frontier".toList) (sf : Option ℤ)
    (w : WeightsArg String K) (kw : Option (List (String × V))) :
    ∃ r, assembleResult solve off g specs arg combine sf w kw = .ok r ∧ r.ensembles = [] := by
  have hnil : normaliseEnsemble arg = [] := by
    rw [List.eq_nil_iff_forall_not_mem]
    intro k hk
    obtain ⟨s, hs, hb, -⟩ := mem_normalise.mp hk
    exact hb (ha s hs)
  obtain ⟨rs, hrs, -⟩ := mapE_runSpec hp
  have hmode : ¬ (String.ofList (combine.toList.map Char.toLower) ≠ "selected" ∧ String.ofList (combine.toList.map Char.toLower) ≠ "frontier") := by
    rcases hc with h | h <;> rw [h] <;> simp
  have has : assemble solve off g (specs.map MetaSpec.spec) [] (String.ofList (combine.toList.map Char.toLower)) sf w kw = .ok [] := by
    unfold assemble
    rw [if_neg (by simpa using hne), hrs]
    simp only
    rw [if_neg hmode]
    simp
  unfold assembleResult
  rw [hrs, hnil]
  simp only [has]
  exact ⟨_, rfl, rfl⟩

/-- **C150** the `combine` mode is recognised in any letter case, and not with surrounding blanks. -/
theorem C150_mode {V W : Type*} (solve : ∀ S, QpSolver S S 1 K V) (off : V) (g : List (String × V)) (specs : List (MetaSpec K W N))
    (arg : EnsArg) (combine : String) (sf : Option ℤ) (w : WeightsArg String K) (kw : Option (List (String × V))) (r : EnsResult K W N)
    (h : assembleResult solve off g specs arg combine sf w kw = .ok r) :
    combine.toList.map Char.toLower = "selected".toList ∨ combine.toList.map Char.toLower = "frontier".toList := by
  unfold assembleResult at h
  split at h
  · cases h
  split at h
  · cases h
  rename_i ens hens
  unfold assemble at hens
  split at hens
  · cases hens
  split at hens
  · cases hens
  split at hens
  · cases hens
  rename_i hm
  by_contra hc
  obtain ⟨h1, h2⟩ := not_or.mp hc
  apply hm
  constructor
  · intro he; exact h1 (by rw [← he]; simp)
  · intro he; exact h2 (by rw [← he]; simp)

/-- **C150** the accessors return the ensembles of those names: `average` and `stacked` are present exactly when requested, and
`get(name, default)` is the ensemble when there is one and the default otherwise. -/
theorem C150_accessors {V W : Type*} (solve : ∀ S, QpSolver S S 1 K V) (off : V) (g : List (String × V)) (specs : List (MetaSpec K W N))
    (arg : EnsArg) (combine : String) (sf : Option ℤ) (w : WeightsArg String K) (kw : Option (List (String × V))) (r : EnsResult K W N)
    (h : assembleResult solve off g specs arg combine sf w kw = .ok r) :
    (r.average.isSome ↔ ∃ s, AsksFor arg s ∧ SpelledLike s "average") ∧ (r.stacked.isSome ↔ ∃ s, AsksFor arg s ∧ SpelledLike s "stack") ∧
      (∀ v, r.average = some v → ("average", v) ∈ r.ensembles) ∧ (∀ v, r.stacked = some v → ("stack", v) ∈ r.ensembles) ∧
      ∀ name default, (∀ v, (name, v) ∈ r.ensembles → r.get name default = some v) ∧
        (name ∉ r.ensembles.map Prod.fst → r.get name default = default) := by
  have hreq := (C150_requests solve off g specs arg combine sf w kw r h).1
  have hnd : (r.ensembles.map Prod.fst).Nodup := by
    unfold assembleResult at h
    split at h
    · cases h
    split at h
    · cases h
    rename_i ens hens
    injection h with h
    subst h
    unfold assemble at hens
    split at hens
    · cases hens
    split at hens
    · cases hens
    split at hens
    · cases hens
    split at hens
    · injection hens with h; rw [← h]; simp
    split at hens
    · cases hens
    split at hens
    · cases hens
    split at hens
    · cases hens
    injection hens with h
    rw [← h]
    exact nodup_dictUpdate (by simp)
  have hsome : ∀ k, (r.ensembles.lookup k).isSome ↔ k ∈ r.ensembles.map Prod.fst := by
    intro k
    rw [Option.isSome_iff_exists]
    constructor
    · rintro ⟨v, hv⟩; exact List.mem_map_of_mem ((lookup_iff hnd).mp hv)
    · intro hk
      obtain ⟨⟨k', v⟩, hv, rfl⟩ := List.mem_map.mp hk
      exact ⟨v, (lookup_iff hnd).mpr hv⟩
  refine ⟨?_, ?_, fun v hv => (lookup_iff hnd).mp hv, fun v hv => (lookup_iff hnd).mp hv, fun name default => ⟨fun v hv => ?_, fun hn => ?_⟩⟩
  · rw [EnsResult.average, hsome, hreq]; simp
  · rw [EnsResult.stacked, hsome, hreq]; simp
  · rw [EnsResult.get, (lookup_iff hnd).mpr hv]
  · have : r.ensembles.lookup name = none := by
      rw [← hsome, Option.not_isSome_iff_eq_none] at hn; exact hn
    rw [EnsResult.get, this]

/-- Not vacuous: two specifications, the request `[" Average ", None, ""]`. -/
example : ∃ r : EnsResult ℚ Unit 1, assembleResult (V := Unit) (fun _ _ _ => (.ok none, [])) () []
    [⟨oneSpec "x" 1, []⟩, ⟨oneSpec "y" 3, []⟩] (.seq [some " Average ", none, some ""]) "Selected" none .none none = .ok r ∧
      (r.average.map (fun v => v 0)) = some 2 ∧ r.stacked.isNone := by
  refine ⟨⟨_, _, _, _⟩, rfl, ?_, ?_⟩ <;> decide +kernel

/-! ## C151 -/

/-- The entries filled in for a specification. -/
def defaultEntry {V : Type*} (optimiser mean cov : String) (useScenarios : Bool) (k : String) : Option (MetaVal V) :=
  if k = "optimiser" then some (.str optimiser)
  else if k = "mean_estimator" then some (.str mean)
  else if k = "cov_estimator" then some (.str cov)
  else if k = "use_scenarios" then some (.bool useScenarios)
  else none

theorem lookup_setDefault {V : Type*} (d : List (String × V)) (k x : String) (v : V) :
    (setDefault d k v).lookup x = (d.lookup x).or (if x = k then some v else none) := by
  have hlook : ∀ l : List (String × V), l.any (fun e => e.1 == x) = (l.lookup x).isSome := by
    intro l
    induction l with
    | nil => rfl
    | cons q l ih =>
      obtain ⟨j, y⟩ := q
      rw [List.any_cons, List.lookup_cons, ih]
      by_cases hek : x = j
      · subst hek; simp
      · have h1 : (x == j) = false := by simpa using hek
        have h2 : (j == x) = false := by simpa using fun h => hek h.symm
        rw [h1, h2]; simp
  unfold setDefault
  split
  · rename_i hk
    by_cases hx : x = k
    · subst hx
      rw [hlook] at hk
      obtain ⟨v', hv'⟩ := Option.isSome_iff_exists.mp hk
      rw [hv']; rfl
    · simp [hx]
  · rename_i hk
    rw [List.lookup_append]
    by_cases hx : x = k
    · subst hx; simp
    · have h1 : (x == k) = false := by simpa using hx
      simp [List.lookup_cons, h1, hx]

/-- **C151** metadata of a specification: what the user supplies is never overwritten, the optimiser, the two estimators and the
scenario flag are filled in when absent, and nothing else is added. -/
theorem C151_metadata {V : Type*} (user : List (String × MetaVal V)) (optimiser mean cov : String) (useScenarios : Bool) (k : String) :
    (specMetadata user optimiser mean cov useScenarios).lookup k = (user.lookup k).or (defaultEntry optimiser mean cov useScenarios k) := by
  unfold specMetadata
  simp only [lookup_setDefault]
  unfold defaultEntry
  cases user.lookup k with
  | some v => simp
  | none =>
    simp only [Option.none_or]
    by_cases h1 : k = "optimiser"
    · subst h1; simp
    by_cases h2 : k = "mean_estimator"
    · subst h2; simp
    by_cases h3 : k = "cov_estimator"
    · subst h3; simp
    simp [h1, h2, h3]

private theorem lookup_last {α V : Type*} (key : α → String) (val : α → V) (a b : List α) (s : α) (hb : ∀ x ∈ b, key x ≠ key s) :
    ((a ++ s :: b).map (fun x => (key x, val x))).reverse.lookup (key s) = some (val s) := by
  have h0 : (b.map (fun x => (key x, val x))).reverse.lookup (key s) = none := by
    rw [List.lookup_eq_none_iff]
    intro p hp
    rw [List.mem_reverse, List.mem_map] at hp
    obtain ⟨x, hx, rfl⟩ := hp
    simpa using (hb x hx).symm
  simp only [List.map_append, List.map_cons, List.reverse_append, List.reverse_cons, List.append_assoc, List.singleton_append]
  generalize (b.map (fun x => (key x, val x))).reverse = l at h0
  induction l with
  | nil => simp
  | cons p l ih =>
    obtain ⟨k, v⟩ := p
    rw [List.lookup_cons] at h0
    rw [List.cons_append, List.lookup_cons]
    split at h0
    · cases h0
    · rename_i hk
      exact ih h0

/-- **C151** (repeated names) Whether or not names repeat, the result holds one frontier and one metadata dictionary per name, those of the last specification
of that name, while every specification has its selected portfolio. -/
theorem C151_repeated {V W : Type*} (solve : ∀ S, QpSolver S S 1 K V) (off : V) (g : List (String × V)) (specs : List (MetaSpec K W N))
    (arg : EnsArg) (combine : String) (sf : Option ℤ) (w : WeightsArg String K)
    (kw : Option (List (String × V))) (r : EnsResult K W N) (h : assembleResult solve off g specs arg combine sf w kw = .ok r) :
    (r.frontiers.map Prod.fst).Nodup ∧ (r.metadata.map Prod.fst).Nodup ∧
      List.Forall₂ (fun (s : MetaSpec K W N) (e : String × (Fin N → K)) => e.1 = s.spec.name ∧
        ∃ f, s.spec.factory = .ok f ∧ s.spec.selector f = .ok e.2) specs r.selections ∧
      ∀ a s b, specs = a ++ s :: b → (∀ x ∈ b, x.spec.name ≠ s.spec.name) →
        (∃ f, s.spec.factory = .ok f ∧ r.frontiers.lookup s.spec.name = some f) ∧ r.metadata.lookup s.spec.name = some s.metadata := by
  unfold assembleResult at h
  split at h
  · cases h
  rename_i rs hrs
  split at h
  · cases h
  injection h with h
  subst h
  rw [Ens.mapE_iff, List.forall₂_map_left_iff] at hrs
  have hrun : List.Forall₂ (fun (s : MetaSpec K W N) (e : String × AnyFrontier K N × (Fin N → K)) => e.1 = s.spec.name ∧
      s.spec.factory = .ok e.2.1 ∧ s.spec.selector e.2.1 = .ok e.2.2) specs rs := by
    refine hrs.imp (fun s e he => ?_)
    unfold runSpec at he
    split at he
    · cases he
    rename_i f hf
    split at he
    · cases he
    rename_i v hv
    injection he with he
    rw [← he]
    exact ⟨rfl, hf, hv⟩
  refine ⟨nodup_dictUpdate (by simp), nodup_dictUpdate (by simp), ?_, ?_⟩
  · rw [List.forall₂_map_right_iff]
    exact hrun.imp fun s e he => ⟨he.1, e.2.1, he.2⟩
  · rintro a s b rfl hb
    have hrest := (List.forall₂_drop_append _ a (s :: b) hrun.flip).flip
    have hsplit : rs = rs.take a.length ++ rs.drop a.length := (List.take_append_drop _ _).symm
    generalize rs.take a.length = a' at hsplit
    generalize rs.drop a.length = rest at hsplit hrest
    subst hsplit
    cases hrest with
    | cons hs hrest' =>
      rename_i e b'
      refine ⟨⟨e.2.1, hs.2.1, ?_⟩, ?_⟩
      · rw [lookup_dictUpdate, ← hs.1, lookup_last (fun x : String × AnyFrontier K N × (Fin N → K) => x.1) (fun x => x.2.1) a' b' e ?_]
        · rfl
        · intro x hx
          obtain ⟨y, hy, hyx⟩ : ∃ y ∈ b, x.1 = y.spec.name := by
            clear * - hrest' hx
            induction hrest' with
            | nil => cases hx
            | cons h _ ih =>
              rcases List.mem_cons.1 hx with rfl | hx
              · exact ⟨_, List.mem_cons_self, h.1⟩
              · obtain ⟨y, hy, e⟩ := ih hx
                exact ⟨y, List.mem_cons_of_mem _ hy, e⟩
          show x.1 ≠ e.1
          rw [hyx, hs.1]
          exact hb y hy
      · rw [lookup_dictUpdate, lookup_last (fun x : MetaSpec K W N => x.spec.name) (fun x => x.metadata) a b s hb]
        rfl

/-- **C151** with distinct names the result lists, in the order of the specifications, each one's frontier (the one its factory built),
the portfolio its selector picked from that frontier, and its metadata. -/
theorem C151_result {V W : Type*} (solve : ∀ S, QpSolver S S 1 K V) (off : V) (g : List (String × V)) (specs : List (MetaSpec K W N))
    (hn : (specs.map (fun s => s.spec.name)).Nodup) (arg : EnsArg) (combine : String) (sf : Option ℤ) (w : WeightsArg String K)
    (kw : Option (List (String × V))) (r : EnsResult K W N) (h : assembleResult solve off g specs arg combine sf w kw = .ok r) :
    List.Forall₂ (fun (s : MetaSpec K W N) (e : String × AnyFrontier K N) => e.1 = s.spec.name ∧ s.spec.factory = .ok e.2) specs r.frontiers ∧
      List.Forall₂ (fun (s : MetaSpec K W N) (e : String × (Fin N → K)) => e.1 = s.spec.name ∧
        ∃ f, s.spec.factory = .ok f ∧ s.spec.selector f = .ok e.2) specs r.selections ∧
      r.metadata = specs.map (fun s => (s.spec.name, s.metadata)) := by
  unfold assembleResult at h
  split at h
  · cases h
  rename_i rs hrs
  split at h
  · cases h
  injection h with h
  subst h
  rw [Ens.mapE_iff, List.forall₂_map_left_iff] at hrs
  have hrun : List.Forall₂ (fun (s : MetaSpec K W N) (e : String × AnyFrontier K N × (Fin N → K)) => e.1 = s.spec.name ∧
      s.spec.factory = .ok e.2.1 ∧ s.spec.selector e.2.1 = .ok e.2.2) specs rs := by
    refine hrs.imp (fun s e he => ?_)
    unfold runSpec at he
    split at he
    · cases he
    rename_i f hf
    split at he
    · cases he
    rename_i v hv
    injection he with he
    rw [← he]
    exact ⟨rfl, hf, hv⟩
  have hnames : rs.map Prod.fst = specs.map (fun s => s.spec.name) := by
    clear * - hrun
    induction hrun with
    | nil => rfl
    | cons h _ ih => simp only [List.map_cons, h.1, ih]
  have e1 : dictUpdate [] (rs.map (fun r => (r.1, r.2.1))) = rs.map (fun r => (r.1, r.2.1)) := by
    rw [dictUpdate_append]
    · rfl
    · simp only [List.nil_append, List.map_map, Function.comp_def]
      rw [hnames]; exact hn
  have e2 : dictUpdate [] (specs.map (fun s => (s.spec.name, s.metadata))) = specs.map (fun s => (s.spec.name, s.metadata)) := by
    rw [dictUpdate_append]
    · rfl
    · simp only [List.nil_append, List.map_map, Function.comp_def]
      exact hn
  refine ⟨?_, ?_, e2⟩
  · simp only [e1]
    rw [List.forall₂_map_right_iff]
    exact hrun.imp (fun s e he => ⟨he.1, he.2.1⟩)
  · simp only
    rw [List.forall₂_map_right_iff]
    exact hrun.imp (fun s e he => ⟨he.1, e.2.1, he.2.1, he.2.2⟩)

/-- Not vacuous: user metadata with its own optimiser entry. -/
example : specMetadata (V := Unit) [("optimiser", .str "mine"), ("desk", .user ())] "mean_variance" "sample" "oas" false =
    [("optimiser", .str "mine"), ("desk", .user ()), ("mean_estimator", .str "sample"), ("cov_estimator", .str "oas"),
      ("use_scenarios", .bool false)] := by decide +kernel

end PyV.Props
