import Verif.Lemmas.Discrete
import Verif.Spec.Discrete

set_option linter.unusedSectionVars false

namespace PyV.Discrete

open PyV PyV.Spec.Discrete

variable {K : Type*} [Field K] [LinearOrder K] [IsStrictOrderedRing K] [FloorRing K]

theorem filter_eq_kept (weights : List (String × K)) :
    weights.filter (fun p => !isclose0 p.2) = kept weights := by
  unfold kept isclose0
  congr 1
  funext p
  by_cases h : |p.2| ≤ 1 / 10 ^ 8
  · rw [decide_eq_true h, decide_eq_false (not_lt.mpr h)]; rfl
  · have h' := not_le.mp h
    have h2 : ¬ (|p.2| ≤ 1/10^8) := h
    rw [decide_eq_false h2, decide_eq_true h']; rfl

theorem lotOf_eq (lots : Option (List (String × ℤ))) (k : String) : lotOf lots k = lotSize lots k := by
  cases lots <;> rfl

theorem map_w_align (l prices : List (String × K)) (lots : Option (List (String × ℤ))) :
    (alignRows l prices lots).map Row.w = l.map Prod.snd := by
  simp [alignRows, Function.comp_def]

theorem map_name_align (l prices : List (String × K)) (lots : Option (List (String × ℤ))) :
    (alignRows l prices lots).map Row.name = l.map Prod.fst := by
  simp [alignRows, Function.comp_def]

/-- The validated input in the vocabulary of the specification. -/
theorem mkInput_ok_valid (weights prices : List (String × K)) (total : K) (lots : Option (List (String × ℤ)))
    (inp : Input K) :
    mkInput weights prices total lots = .ok inp ↔
      Valid weights prices total lots ∧
      inp = ofRows (alignRows (kept weights) prices lots) (totalWeight weights) total
        ((kept weights).any (fun p => decide (p.2 < 0))) := by
  rw [mkInput_ok_iff, filter_eq_kept, map_w_align]
  have hrows : ∀ (P : Row K → Prop), (∀ r ∈ alignRows (kept weights) prices lots, P r) ↔
      ∀ p ∈ kept weights, P ⟨p.1, p.2, priceOf prices p.1, lotSize lots p.1⟩ := by
    intro P
    constructor
    · intro h p hp
      have := h ⟨p.1, p.2, (prices.lookup p.1).getD 0, lotOf lots p.1⟩ (List.mem_map.mpr ⟨p, hp, rfl⟩)
      rw [lotOf_eq] at this
      exact this
    · intro h r hr
      obtain ⟨p, hp, rfl⟩ := List.mem_map.mp hr
      rw [lotOf_eq]
      exact h p hp
  rw [hrows (fun r => 0 < r.price), hrows (fun r => 0 < r.lot)]
  have hkept : kept weights ≠ [] ↔ ∃ p ∈ weights, (1 : K) / 10 ^ 8 < |p.2| := by
    constructor
    · intro hne
      obtain ⟨p, hp⟩ := List.exists_mem_of_ne_nil _ hne
      unfold kept at hp
      rw [List.mem_filter] at hp
      exact ⟨p, hp.1, by simpa using hp.2⟩
    · rintro ⟨p, hp, hlt⟩
      exact List.ne_nil_of_mem (a := p) (List.mem_filter.mpr ⟨hp, by simpa using hlt⟩)
  constructor
  · rintro ⟨⟨-, -, h3, h4, h5, h6, h7, h8⟩, rfl⟩
    exact ⟨⟨fun p hp => Option.isSome_iff_exists.mp (h3 p hp), hkept.mp h4, h5, h6, h7, h8⟩, rfl⟩
  · rintro ⟨⟨h3, h4, h5, h6, h7, h8⟩, rfl⟩
    have h4' := h4
    obtain ⟨p, hp, -⟩ := h4'
    obtain ⟨x, hx⟩ := h3 p hp
    refine ⟨⟨?_, ?_, fun p hp => Option.isSome_iff_exists.mpr (h3 p hp), hkept.mpr h4, h5, h6, h7, h8⟩, rfl⟩
    · rintro rfl; simp at hp
    · rintro rfl; simp at hx

section lists

variable {β : Type*}

theorem lookup_map_mem {n : ℕ} (l : List (Fin n)) (f : Fin n → String) (hf : Function.Injective f)
    (g : Fin n → β) (i : Fin n) :
    (l.map (fun j => (f j, g j))).lookup (f i) = if i ∈ l then some (g i) else none := by
  induction l with
  | nil => simp
  | cons a l ih =>
    simp only [List.map_cons, List.lookup_cons, List.mem_cons]
    by_cases h : i = a
    · subst h; simp
    · have : (f i == f a) = false := by
        simp only [beq_eq_false_iff_ne, ne_eq]; exact fun e => h (hf e)
      rw [this]
      simp [ih, h]

end lists

/-- The share dictionary of `buildResult`. -/
def dictOf (inp : Input K) (raw : Fin inp.n → ℤ) : List (String × ℤ) :=
  ((List.finRange inp.n).filter (fun i => raw i ≠ 0)).map (fun i => (inp.name i, raw i))

theorem held_dictOf (inp : Input K) (hf : Function.Injective inp.name) (raw : Fin inp.n → ℤ) (i : Fin inp.n) :
    held (dictOf inp raw) (inp.name i) = raw i := by
  unfold held dictOf
  rw [lookup_map_mem _ _ hf]
  by_cases h : raw i = 0 <;> simp [h]

theorem sum_filter_finRange {n : ℕ} (P : Fin n → Bool) (f : Fin n → K) (h : ∀ i, P i = false → f i = 0) :
    (((List.finRange n).filter P).map f).sum = ∑ i, f i := by
  have key : ∀ l : List (Fin n), ((l.filter P).map f).sum = (l.map f).sum := by
    intro l
    induction l with
    | nil => rfl
    | cons a l ih =>
      rw [List.filter_cons]
      cases hP : P a with
      | true => simp [ih]
      | false => simp [ih, h a hP]
  rw [key, ← List.ofFn_eq_map, List.sum_ofFn]

theorem spent_dictOf (inp : Input K) (prices : List (String × K))
    (hp : ∀ i, priceOf prices (inp.name i) = inp.price i) (raw : Fin inp.n → ℤ) :
    spent prices (dictOf inp raw) = ∑ i, raw i * inp.price i := by
  unfold spent dictOf
  rw [List.map_map]
  have : ((fun p : String × ℤ => (p.2 : K) * priceOf prices p.1) ∘ fun i => (inp.name i, raw i)) =
      fun i => (raw i : K) * inp.price i := by
    funext i; simp [hp]
  rw [this]
  apply sum_filter_finRange
  intro i hi
  have : raw i = 0 := by simpa using hi
  simp [this]

theorem buildResult_ok {inp : (Input K)} {raw : Fin inp.n → ℤ} {r : (Result K)} (h : buildResult inp raw = .ok r) :
    r.shares = dictOf inp raw ∧
    r.leftover = max (inp.total - ∑ i, (raw i : K) * inp.price i) 0 ∧
    -(1 / 10 ^ 8) < inp.total - ∑ i, (raw i : K) * inp.price i ∧
    r.achieved = (List.finRange inp.n).map (fun i => (inp.name i, raw i * inp.price i / inp.total)) ∧
    r.trackingError = ∑ i, |inp.w i - raw i * inp.price i / inp.total| := by
  unfold buildResult at h
  simp only at h
  split at h
  · rename_i h1
    injection h with h; subst h
    refine ⟨rfl, (max_eq_right h1.1.le).symm, ?_, rfl, rfl⟩
    have := (abs_lt.mp h1.2).1
    linarith
  · split at h
    · cases h
    · rename_i h1 h2
      injection h with h; subst h
      refine ⟨rfl, (max_eq_left (not_lt.mp h2)).symm, ?_, rfl, rfl⟩
      have := not_lt.mp h2
      have h3 : (0:K) < 1 / 10^8 := by norm_num
      linarith

theorem buildResult_isOk {inp : (Input K)} {raw : Fin inp.n → ℤ}
    (h : -(1 / 10 ^ 8) < inp.total - ∑ i, (raw i : K) * inp.price i) : ∃ r, buildResult inp raw = .ok r := by
  unfold buildResult
  simp only
  split
  · exact ⟨_, rfl⟩
  · split
    · rename_i h1 h2
      exact absurd ⟨h2, abs_lt.mpr ⟨h, lt_trans h2 (by norm_num)⟩⟩ h1
    · exact ⟨_, rfl⟩

/-- What the greedy pass guarantees about the label-aligned share vector. -/
structure Good (inp : Input K) (m : ℤ) (raw : Fin inp.n → ℤ) : Prop where
  low : -tol ≤ inp.total - ∑ i, (raw i : K) * inp.price i
  lots : ∀ i, ∃ k : ℤ, 0 ≤ k ∧ raw i = k * inp.lot i
  near : ∀ i, inp.w i * inp.total - inp.price i * inp.lot i < raw i * inp.price i ∧
    raw i * inp.price i < inp.w i * inp.total + inp.price i * inp.lot i
  maximal : ((Finset.univ.filter (fun i => inp.w i * inp.total < raw i * inp.price i)).card : ℤ) < m → ∀ i, inp.w i - raw i * inp.price i / inp.total ≤ tol ∨
    inp.total - ∑ j, (raw j : K) * inp.price j + tol < inp.price i * inp.lot i

theorem good_of_post {inp : (Input K)} {σ : Equiv.Perm (Fin inp.n)} {m : ℤ} {st : GState K inp.n}
    (h : Post (inp.sorted σ) m st) : Good inp m (fun i => st.shares (σ.symm i)) := by
  have hsum : ∑ i, (st.shares (σ.symm i) : K) * inp.price i = val (inp.sorted σ) st.shares := by
    unfold val
    rw [← Equiv.sum_comp σ (fun i => (st.shares (σ.symm i) : K) * inp.price i)]
    apply Finset.sum_congr rfl
    intro i _
    simp [Input.sorted]
  have hcash : inp.total - ∑ i, (st.shares (σ.symm i) : K) * inp.price i = st.cash := by
    rw [hsum, h.cash]; rfl
  refine ⟨?_, ?_, ?_, ?_⟩
  · rw [hcash]; exact h.low
  · intro i
    obtain ⟨⟨k, hk, e⟩, -⟩ := h.near (σ.symm i)
    exact ⟨k, hk, by rw [e]; simp [Input.sorted]⟩
  · intro i
    obtain ⟨-, h1, h2⟩ := h.near (σ.symm i)
    simp only [Input.sorted, Sorted.cost, Equiv.apply_symm_apply] at h1 h2
    exact ⟨h1, h2⟩
  · intro hm i
    have hcard : (reached (inp.sorted σ) st.shares).card =
        (Finset.univ.filter (fun i => inp.w i * inp.total < (st.shares (σ.symm i) : K) * inp.price i)).card := by
      refine Finset.card_bij (fun i _ => σ i) ?_ (fun i _ j _ hij => σ.injective hij) ?_
      · intro i hi
        have := (Finset.mem_filter.mp hi).2
        rw [Finset.mem_filter]
        refine ⟨Finset.mem_univ _, ?_⟩
        simpa [Input.sorted] using this
      · intro j hj
        have := (Finset.mem_filter.mp hj).2
        refine ⟨σ.symm j, ?_, by simp⟩
        unfold reached
        rw [Finset.mem_filter]
        refine ⟨Finset.mem_univ _, ?_⟩
        simpa [Input.sorted] using this
    have hit : (st.iter : ℤ) < m := by
      have := h.bought
      omega
    have := h.maximal (Or.inr hit) (σ.symm i)
    simp only [Input.sorted, Sorted.cost, Equiv.apply_symm_apply] at this
    rw [hcash]
    exact this

theorem greedy_raw {inp : (Input K)} (ha : Accepted inp) (hs : inp.hasShorts = false) (σ : Equiv.Perm (Fin inp.n))
    (maxIter : Option ℤ) : ∃ st, loop (inp.sorted σ) (resolveMaxIter inp.n maxIter)
      (enoughFuel inp.n (resolveMaxIter inp.n maxIter)) (initState (inp.sorted σ)) = some st ∧
      Good inp (resolveMaxIter inp.n maxIter) (fun i => st.shares (σ.symm i)) := by
  obtain ⟨st, e, hp⟩ := loop_init_spec (ha.svalid hs σ) (resolveMaxIter inp.n maxIter)
  exact ⟨st, e, good_of_post hp⟩

/-- With fallback disabled the greedy allocator always succeeds with a good share vector. -/
theorem greedy_none {inp : (Input K)} (ha : Accepted inp) (hs : inp.hasShorts = false) (σ : Equiv.Perm (Fin inp.n))
    (maxIter : Option ℤ) (mip : Except PyErr (Result K)) :
    ∃ raw r, allocateGreedy inp σ maxIter .none mip = .ok r ∧ buildResult inp raw = .ok r ∧
      Good inp (resolveMaxIter inp.n maxIter) raw := by
  obtain ⟨st, e, hg⟩ := greedy_raw ha hs σ maxIter
  have hlow : -(1 / 10 ^ 8) < inp.total - ∑ i, ((st.shares (σ.symm i) : ℤ) : K) * inp.price i := by
    have h1 := hg.low
    have h2 : (tol : K) < 1 / 10 ^ 8 := by unfold tol; norm_num
    linarith
  obtain ⟨r, hr⟩ := buildResult_isOk hlow
  refine ⟨_, r, ?_, hr, hg⟩
  unfold allocateGreedy
  simp [hs, e, hr]

/-- In `auto` mode the outcome is the greedy one or a successful MILP one. -/
theorem greedy_any {inp : (Input K)} (ha : Accepted inp) (hs : inp.hasShorts = false) (σ : Equiv.Perm (Fin inp.n))
    (maxIter : Option ℤ) (mode : Mode) (mip : Except PyErr (Result K)) :
    (∃ raw r, allocateGreedy inp σ maxIter mode mip = .ok r ∧ buildResult inp raw = .ok r ∧
      Good inp (resolveMaxIter inp.n maxIter) raw) ∨
    (mode ≠ .none ∧ allocateGreedy inp σ maxIter mode mip = mip ∧ (mode = .auto → ∃ r, mip = .ok r)) := by
  obtain ⟨st, e, hg⟩ := greedy_raw ha hs σ maxIter
  have hlow : -(1 / 10 ^ 8) < inp.total - ∑ i, ((st.shares (σ.symm i) : ℤ) : K) * inp.price i := by
    have h1 := hg.low
    have h2 : (tol : K) < 1 / 10 ^ 8 := by unfold tol; norm_num
    linarith
  obtain ⟨r, hr⟩ := buildResult_isOk hlow
  unfold allocateGreedy
  simp only [hs, Bool.false_eq_true, if_false, e]
  by_cases hf : mode ≠ .none ∧ shouldFallback (inp.sorted σ) (resolveMaxIter inp.n maxIter) st = true
  · rw [if_pos hf]
    cases hm : mip with
    | ok r' => right; exact ⟨hf.1, rfl, fun _ => ⟨r', rfl⟩⟩
    | error er =>
      by_cases hmilp : mode = .milp
      · right
        refine ⟨hf.1, by simp [hmilp], ?_⟩
        intro ha'; rw [ha'] at hmilp; cases hmilp
      · left; exact ⟨_, r, by simp only [hmilp, if_false]; exact hr, hr, hg⟩
  · rw [if_neg hf]
    left; exact ⟨_, r, hr, hr, hg⟩

/-! ### Transfer from positions to labels -/

section transfer

variable {weights prices : List (String × K)} {total : K} {lots : Option (List (String × ℤ))} {inp : (Input K)}

/-- Everything needed to read a validated input by label. -/
theorem input_labels (h : mkInput weights prices total lots = .ok inp) :
    inp.total = total ∧
    (List.ofFn inp.name = (kept weights).map Prod.fst) ∧
    (∀ i, ∃ p ∈ kept weights, inp.name i = p.1 ∧ inp.w i = p.2 / totalWeight weights) ∧
    (∀ p ∈ kept weights, ∃ i, inp.name i = p.1 ∧ inp.w i = p.2 / totalWeight weights) ∧
    (∀ i, inp.price i = priceOf prices (inp.name i)) ∧ (∀ i, inp.lot i = lotSize lots (inp.name i)) := by
  obtain ⟨-, rfl⟩ := (mkInput_ok_valid _ _ _ _ _).mp h
  refine ⟨rfl, ?_, ?_, ?_, ?_, ?_⟩
  · have : (alignRows (kept weights) prices lots).map Row.name = (kept weights).map Prod.fst :=
      map_name_align _ _ _
    rw [← this]
    apply List.ext_get <;> simp [ofRows]
  · intro i
    have hm := List.get_mem (alignRows (kept weights) prices lots) i
    obtain ⟨p, hp, e⟩ := List.mem_map.mp hm
    refine ⟨p, hp, ?_, ?_⟩
    · show (List.get _ i).name = _; rw [← e]
    · show (List.get _ i).w / _ = _; rw [← e]
  · intro p hp
    have hmem : (⟨p.1, p.2, (prices.lookup p.1).getD 0, lotOf lots p.1⟩ : Row K) ∈
        alignRows (kept weights) prices lots := List.mem_map.mpr ⟨p, hp, rfl⟩
    obtain ⟨i, hi⟩ := List.get_of_mem hmem
    refine ⟨i, ?_, ?_⟩
    · show (List.get _ i).name = _; rw [hi]
    · show (List.get _ i).w / _ = _; rw [hi]
  · intro i
    have hm := List.get_mem (alignRows (kept weights) prices lots) i
    obtain ⟨p, hp, e⟩ := List.mem_map.mp hm
    show (List.get _ i).price = priceOf prices (List.get _ i).name
    rw [← e]; rfl
  · intro i
    have hm := List.get_mem (alignRows (kept weights) prices lots) i
    obtain ⟨p, hp, e⟩ := List.mem_map.mp hm
    show (List.get _ i).lot = lotSize lots (List.get _ i).name
    rw [← e]; exact lotOf_eq _ _

theorem input_zip (h : mkInput weights prices total lots = .ok inp) :
    List.ofFn (fun i => (inp.name i, inp.w i)) =
      (kept weights).map (fun p => (p.1, p.2 / totalWeight weights)) := by
  obtain ⟨-, rfl⟩ := (mkInput_ok_valid _ _ _ _ _).mp h
  apply List.ext_get
  · simp [ofRows, alignRows]
  · intro n h1 h2
    simp [ofRows, alignRows]

theorem name_injective (h : mkInput weights prices total lots = .ok inp)
    (hn : (weights.map Prod.fst).Nodup) : Function.Injective inp.name := by
  obtain ⟨-, h2, -⟩ := input_labels h
  have : (List.ofFn inp.name).Nodup := by
    rw [h2]
    exact hn.sublist (List.Sublist.map _ List.filter_sublist)
  exact List.nodup_ofFn.mp this

theorem longOnly_iff (h : mkInput weights prices total lots = .ok inp) :
    inp.hasShorts = false ↔ LongOnly weights := by
  obtain ⟨-, rfl⟩ := (mkInput_ok_valid _ _ _ _ _).mp h
  show List.any _ _ = false ↔ _
  unfold LongOnly
  rw [List.any_eq_false]
  simp

/-- Every successful call goes through `_build_result`. -/
theorem discretize_ok {method : String} {maxIter : Option ℤ} {mode : Mode}
    {sortBy : (inp : Input K) → Equiv.Perm (Fin inp.n)} {solve : (inp : Input K) → Option (MipPoint K inp.n)}
    {r : (Result K)} (h : discretize weights prices total lots method maxIter mode sortBy solve = .ok r) :
    ∃ inp raw, mkInput weights prices total lots = .ok inp ∧ buildResult inp raw = .ok r ∧
      ((∃ p, solve inp = some p ∧ raw = fun i => p.x i * inp.lot i) ∨
       (inp.hasShorts = false ∧ Good inp (resolveMaxIter inp.n maxIter) raw)) := by
  unfold discretize at h
  cases hm : mkInput weights prices total lots with
  | error e => rw [hm] at h; cases h
  | ok inp =>
    rw [hm] at h
    have hmip : ∀ r', allocateMip inp (solve inp) = .ok r' →
        ∃ p, solve inp = some p ∧ buildResult inp (fun i => p.x i * inp.lot i) = .ok r' := by
      intro r' hr'
      unfold allocateMip at hr'
      split at hr'
      · cases hr'
      · cases hs : solve inp with
        | none => rw [hs] at hr'; cases hr'
        | some p => rw [hs] at hr'; exact ⟨p, rfl, hr'⟩
    cases hp : parseMethod method with
    | error e => simp only [hp] at h; cases h
    | ok me =>
      simp only [hp] at h
      cases me with
      | milp =>
        obtain ⟨p, hp, hb⟩ := hmip r h
        exact ⟨inp, _, rfl, hb, Or.inl ⟨p, hp, rfl⟩⟩
      | greedy =>
        simp only at h
        cases hsh : inp.hasShorts with
        | true =>
          unfold allocateGreedy at h
          simp only [hsh, if_true] at h
          obtain ⟨p, hp, hb⟩ := hmip r h
          exact ⟨inp, _, rfl, hb, Or.inl ⟨p, hp, rfl⟩⟩
        | false =>
          rcases greedy_any (accepted_of_mkInput hm) hsh (sortBy inp) maxIter mode
            (allocateMip inp (solve inp)) with ⟨raw, r', e, hb, hg⟩ | ⟨-, e, -⟩
          · rw [h] at e; injection e with e; subst e
            exact ⟨inp, raw, rfl, hb, Or.inr ⟨hsh, hg⟩⟩
          · rw [h] at e
            obtain ⟨p, hp, hb⟩ := hmip r e.symm
            exact ⟨inp, _, rfl, hb, Or.inl ⟨p, hp, rfl⟩⟩

/-- Greedy without fallback on a long-only input: the only outcome. -/
theorem discretize_greedy_none {method : String} (hmeth : method.toLower = "greedy" ∨ method.toLower = "rounddown")
    (hv : Valid weights prices total lots) (hl : LongOnly weights) (maxIter : Option ℤ)
    (sortBy : (inp : Input K) → Equiv.Perm (Fin inp.n)) (solve : (inp : Input K) → Option (MipPoint K inp.n)) :
    ∃ inp raw r, mkInput weights prices total lots = .ok inp ∧
      discretize weights prices total lots method maxIter .none sortBy solve = .ok r ∧
      buildResult inp raw = .ok r ∧ Good inp (resolveMaxIter inp.n maxIter) raw := by
  have hm := (mkInput_ok_valid weights prices total lots _).mpr ⟨hv, rfl⟩
  set inp := ofRows (alignRows (kept weights) prices lots) (totalWeight weights) total
        ((kept weights).any (fun p => decide (p.2 < 0)))
  have hs := (longOnly_iff hm).mpr hl
  obtain ⟨raw, r, e, hb, hg⟩ := greedy_none (accepted_of_mkInput hm) hs (sortBy inp) maxIter
    (allocateMip inp (solve inp))
  refine ⟨inp, raw, r, hm, ?_, hb, hg⟩
  have hpm : parseMethod method = .ok .greedy := by
    unfold parseMethod; rw [if_pos hmeth]
  unfold discretize
  simp only [hm, hpm]
  exact e

theorem discretize_greedy_auto {method : String} (hmeth : method.toLower = "greedy" ∨ method.toLower = "rounddown")
    (hv : Valid weights prices total lots) (hl : LongOnly weights) (maxIter : Option ℤ) (mode : Mode)
    (hmode : mode ≠ .milp)
    (sortBy : (inp : Input K) → Equiv.Perm (Fin inp.n)) (solve : (inp : Input K) → Option (MipPoint K inp.n)) :
    ∃ r, discretize weights prices total lots method maxIter mode sortBy solve = .ok r := by
  have hm := (mkInput_ok_valid weights prices total lots _).mpr ⟨hv, rfl⟩
  set inp := ofRows (alignRows (kept weights) prices lots) (totalWeight weights) total
        ((kept weights).any (fun p => decide (p.2 < 0)))
  have hs := (longOnly_iff hm).mpr hl
  have hpm : parseMethod method = .ok .greedy := by
    unfold parseMethod; rw [if_pos hmeth]
  unfold discretize
  simp only [hm, hpm]
  rcases greedy_any (accepted_of_mkInput hm) hs (sortBy inp) maxIter mode (allocateMip inp (solve inp)) with
    ⟨raw, r, e, -, -⟩ | ⟨hne, e, hr⟩
  · exact ⟨r, e⟩
  · rw [e]
    cases mode with
    | auto => exact hr rfl
    | milp => exact absurd rfl hmode
    | none => exact absurd rfl hne

theorem sum_kept (h : mkInput weights prices total lots = .ok inp) (f : String → K → K) :
    ∑ i, f (inp.name i) (inp.w i) = ((kept weights).map (fun p => f p.1 (p.2 / totalWeight weights))).sum := by
  have := congrArg (fun l => (l.map (fun q : String × K => f q.1 q.2)).sum) (input_zip h)
  simp only [List.map_map, List.map_ofFn, List.sum_ofFn] at this
  exact this

end transfer

end PyV.Discrete
