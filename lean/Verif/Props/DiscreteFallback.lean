import Verif.Props.Discrete

/-! # Property C170: when the greedy allocator hands over to the mixed-integer allocator -/

namespace PyV.Props

open PyV PyV.Discrete PyV.Spec.Discrete

variable {K : Type*} [Field K] [LinearOrder K] [IsStrictOrderedRing K] [FloorRing K] {n : ℕ} {s : Sorted K n}

/-- Why the loop stopped: the cap, the cash or the deficits. -/
private def Reason (s : Sorted K n) (m : ℤ) (st : GState K n) : Prop :=
  m ≤ st.iter ∨ st.cash + tol < minCost s ∨ ∀ i, st.lastDef i ≤ tol

private theorem step_stop (h : SValid s) (m : ℤ) (st st' : GState K n) (hI : Inv s st) (he : step s m st = .stop st') : Reason s m st' := by
  unfold step at he
  by_cases hcond : st.cash + tol ≥ minCost s ∧ (st.iter : ℤ) < m
  swap
  · rw [if_pos hcond] at he
    injection he with he
    subst he
    rcases not_and_or.mp hcond with hc | hc
    · exact Or.inr (Or.inl (not_le.mp hc))
    · exact Or.inl (not_lt.mp hc)
  · rw [if_neg (not_not.mpr hcond)] at he
    obtain ⟨c, hc⟩ := firstArgmax_ne_none h.npos (deficits s st)
    simp only [hc] at he
    have hmax := firstArgmax_spec hc
    by_cases hle : deficits s st c ≤ tol
    · rw [if_pos hle] at he
      injection he with he
      subst he
      exact Or.inr (Or.inr fun i => (hmax i).trans hle)
    · rw [if_neg hle] at he
      have hlt : tol < deficits s st c := not_le.mp hle
      have hcu : c ∉ st.unaff := by
        intro hmem
        have : deficits s st c = 0 := by simp [deficits, hmem]
        rw [this] at hlt
        linarith [tol_pos (K := K)]
      have hcost := h.cost_pos c
      -- nobody cheapest is ever marked, so the marks never cover every asset
      have hmark : s.cost c > st.cash + tol → ∀ st'', markUnaffordable { st with lastDef := deficits s st } c = .stop st'' → False := by
        intro haff st'' e
        rcases mark_cases { st with lastDef := deficits s st } c hcu with ⟨x, -, -, hu⟩ | ⟨x, e', -⟩
        · obtain ⟨j, hj⟩ := firstArgmin_ne_none h.npos s.cost
          have hm : minCost s = s.cost j := by unfold minCost; rw [hj]
          have hmem : j ∈ insert c st.unaff := by rw [hu]; exact Finset.mem_univ j
          have hge := hcond.1
          rw [hm] at hge
          rcases Finset.mem_insert.mp hmem with rfl | hmem
          · exact absurd hge (not_le.mpr haff)
          · exact absurd hge (not_le.mpr (hI.unaff j hmem))
        · rw [e'] at e; cases e
      by_cases haff : s.cost c > st.cash + tol
      · simp only [haff, if_true] at he
        exact (hmark haff _ he).elim
      · have hnl : s.cost c ≤ st.cash + tol := not_lt.mp haff
        simp only [haff, if_false, gt_iff_lt, hcost, if_true] at he
        have hP1 : 1 ≤ ⌊(st.cash + tol) / s.cost c⌋ := by
          rw [Int.le_floor, le_div_iff₀ hcost]; simpa using hnl
        have hb1 : 1 ≤ min ⌊(st.cash + tol) / s.cost c⌋ (max ⌊deficits s st c * s.total / s.cost c⌋ 1) := le_min hP1 (le_max_right _ _)
        rw [if_neg (not_le.mpr (lt_of_lt_of_le one_pos hb1))] at he
        cases he

private theorem loop_reason (h : SValid s) (m : ℤ) (k : ℕ) (st st' : GState K n) (hI : Inv s st) (hit : st.iter ≤ m.toNat)
    (he : loop s m k st = some st') : Reason s m st' := by
  induction k generalizing st with
  | zero => cases he
  | succ k ih =>
    unfold loop at he
    rcases step_spec h m st hI hit with ⟨x, e, -⟩ | ⟨x, e, hI', hit', -⟩
    · rw [e] at he
      injection he with he
      subst he
      exact step_stop h m st _ hI e
    · rw [e] at he
      exact ih x hI' hit' he

private theorem no_fallback (h : SValid s) (m : ℤ) (hm : (n : ℤ) < m) (hbig : ∀ i, tol < s.w i) {st : GState K n}
    (he : loop s m (enoughFuel n m) (initState s) = some st) : shouldFallback s m st = false := by
  obtain ⟨st', e', hp⟩ := loop_init_spec h m
  rw [he] at e'
  injection e' with e'
  subst e'
  have hr := loop_reason h m _ _ _ (inv_init h) (by simp [initState]) he
  have hiter : (st.iter : ℤ) < m := by have := hp.iter_le; omega
  have hcap : ¬ (m ≤ st.iter) := by omega
  unfold shouldFallback
  simp only [Bool.or_eq_false_iff, Bool.and_eq_false_iff, decide_eq_false_iff_not]
  refine ⟨⟨Or.inl hcap, ?_⟩, ?_⟩
  · rcases hr with hr | hr | hr
    · exact absurd hr hcap
    · exact Or.inl (not_le.mpr hr)
    · right
      cases hc : firstArgmax st.lastDef with
      | none => rfl
      | some i =>
        have h1 := hr i
        have : (tol : K) ≤ 1 / 10 ^ 6 := by unfold tol; exact one_div_le_one_div_of_le (by positivity) (by norm_num)
        simp only [decide_eq_false_iff_not, not_lt]
        linarith
  · by_contra hcon
    push Not at hcon
    obtain ⟨hz, hge⟩ := hcon
    have hnn : ∀ i, 0 ≤ st.shares i := by
      intro i
      obtain ⟨⟨k, hk0, hk⟩, -⟩ := hp.near i
      rw [hk]
      exact mul_nonneg hk0 (h.lot i).le
    have h0 : ∀ i, st.shares i = 0 := fun i => (Finset.sum_eq_zero_iff_of_nonneg (fun i _ => hnn i)).mp hz i (Finset.mem_univ i)
    obtain ⟨j, hj⟩ := firstArgmin_ne_none h.npos s.cost
    have hmc : minCost s = s.cost j := by unfold minCost; rw [hj]
    have hcash : st.cash = s.total := by rw [hp.cash]; unfold val; simp [h0]
    rcases hp.maximal (Or.inr hiter) j with h1 | h1
    · rw [h0 j] at h1
      simp only [Int.cast_zero, zero_mul, zero_div, sub_zero] at h1
      exact absurd (hbig j) (not_lt.mpr h1)
    · rw [hcash, ← hmc] at h1
      exact absurd hge (not_le.mpr h1)

variable {weights prices : List (String × K)} {total : K} {lots : Option (List (String × ℤ))}

/-- **C170** (no hidden hand-over) For a valid long-only call whose normalised weights all exceed `1e-12`, with no iteration cap or one above the
number of assets held, the greedy allocator never uses the mixed-integer allocator: the fallback mode changes nothing, whatever the solver does. -/
theorem C170_no_fallback {method : String} (hm : method.toLower = "greedy" ∨ method.toLower = "rounddown")
    (hv : Valid weights prices total lots) (hl : LongOnly weights)
    (hbig : ∀ p ∈ kept weights, 1 / 10 ^ 12 < p.2 / totalWeight weights)
    (maxIter : Option ℤ) (hcap : ∀ m, maxIter = some m → ((kept weights).length : ℤ) < m) (mode : Mode)
    (sortBy : (inp : Input K) → Equiv.Perm (Fin inp.n)) (solve solve' : (inp : Input K) → Option (MipPoint K inp.n)) :
    discretize weights prices total lots method maxIter mode sortBy solve =
      discretize weights prices total lots method maxIter .none sortBy solve' := by
  have hin := (mkInput_ok_valid weights prices total lots _).mpr ⟨hv, rfl⟩
  set inp := ofRows (alignRows (kept weights) prices lots) (totalWeight weights) total
        ((kept weights).any (fun p => decide (p.2 < 0)))
  have hs := (longOnly_iff hin).mpr hl
  have hsv := (accepted_of_mkInput hin).svalid hs (sortBy inp)
  have hn : inp.n = (kept weights).length := by
    have := congrArg List.length (input_labels hin).2.1
    simpa using this
  have hmeth : parseMethod method = .ok .greedy := if_pos hm
  unfold discretize
  rw [hin]
  simp only [hmeth]
  unfold allocateGreedy
  simp only [hs, Bool.false_eq_true, if_false]
  have hcap' : (inp.n : ℤ) < resolveMaxIter inp.n maxIter := by
    have hpos := (accepted_of_mkInput hin).npos
    cases maxIter with
    | none => simp only [resolveMaxIter]; omega
    | some m => rw [hn]; exact hcap m rfl
  obtain ⟨st, e, -⟩ := loop_init_spec hsv (resolveMaxIter inp.n maxIter)
  have hf := no_fallback hsv _ hcap' (fun i => by
    obtain ⟨p, hp, -, hw⟩ := (input_labels hin).2.2.1 (sortBy inp i)
    show tol < inp.w (sortBy inp i)
    rw [hw]
    exact hbig p hp) e
  rw [e]
  simp [hf]

/-- **C170** (a cap of zero) With `max_iterations` zero or negative and a fallback mode other than `none`, the greedy call answers with the
mixed-integer allocation whenever that succeeds. -/
theorem C170_cap_hands_over {method : String} (hm : method.toLower = "greedy" ∨ method.toLower = "rounddown")
    (hv : Valid weights prices total lots) (hl : LongOnly weights) (m : ℤ) (hcap : m ≤ 0) (mode : Mode) (hmode : mode ≠ .none)
    (sortBy : (inp : Input K) → Equiv.Perm (Fin inp.n)) (solve : (inp : Input K) → Option (MipPoint K inp.n)) (r : Result K)
    (hr : discretize weights prices total lots "milp" none .none sortBy solve = .ok r) :
    discretize weights prices total lots method (some m) mode sortBy solve = .ok r := by
  have hin := (mkInput_ok_valid weights prices total lots _).mpr ⟨hv, rfl⟩
  set inp := ofRows (alignRows (kept weights) prices lots) (totalWeight weights) total
        ((kept weights).any (fun p => decide (p.2 < 0)))
  have hs := (longOnly_iff hin).mpr hl
  have hsv := (accepted_of_mkInput hin).svalid hs (sortBy inp)
  have hmeth : parseMethod method = .ok .greedy := if_pos hm
  have hmip : allocateMip inp (solve inp) = .ok r := by
    unfold discretize at hr
    rw [hin, show parseMethod "milp" = .ok .milp by decide +kernel] at hr
    exact hr
  unfold discretize
  rw [hin]
  simp only [hmeth]
  unfold allocateGreedy
  simp only [hs, Bool.false_eq_true, if_false, hmip]
  have hstep : ∃ st, loop (inp.sorted (sortBy inp)) m (enoughFuel inp.n m) (initState (inp.sorted (sortBy inp))) = some st ∧
      st.iter = 0 ∧ st.broke = false := by
    refine ⟨initState (inp.sorted (sortBy inp)), ?_, rfl, rfl⟩
    unfold enoughFuel loop
    have : step (inp.sorted (sortBy inp)) m (initState (inp.sorted (sortBy inp))) = .stop (initState (inp.sorted (sortBy inp))) := by
      unfold step
      rw [if_pos]
      rintro ⟨-, h⟩
      simp only [initState, Nat.cast_zero] at h
      omega
    rw [this]
  obtain ⟨st, e, h0, h1⟩ := hstep
  have hf : shouldFallback (inp.sorted (sortBy inp)) m st = true := by
    unfold shouldFallback
    simp [h0, h1, hcap]
  simp only [resolveMaxIter]
  rw [e]
  simp [hf, hmode]

/-- The example call of C01 meets the hypotheses. -/
example (mode : Mode) : discretize exW exP 1000 exLots "greedy" none mode (fun _ => Equiv.refl _) (fun _ => none) =
    discretize exW exP 1000 exLots "greedy" none .none (fun _ => Equiv.refl _) (fun _ => none) :=
  C170_no_fallback (Or.inl lower_greedy) exValid exLong (by decide +kernel) none (by simp) mode _ _ _

end PyV.Props
