import Verif.Props.DiscreteExact
import Mathlib.Tactic

/-! # Properties C219–C220: the two allocators compared; large amounts -/

set_option linter.unusedSectionVars false

namespace PyV.Props

open PyV PyV.Discrete PyV.Spec.Discrete

variable {K : Type*} [Field K] [LinearOrder K] [IsStrictOrderedRing K] [FloorRing K]
variable {weights prices : List (String × K)} {total : K} {lots : Option (List (String × ℤ))}

/-- The solver finds an optimal point of every programme of this validated input that has a feasible one (cash penalty `cp`, no cash limit). -/
def SolvesExactly (cp : K) (solve : (inp : Input K) → Option (MipPoint K inp.n)) : Prop :=
  ∀ inp : Input K, (∃ q, MipFeasible inp none q) → ∃ p, solve inp = some p ∧ MipOptimal inp cp none p

/-- **C219** (partial: when the greedy allocation does not spend more than the amount — it may by up to 1e-12, `C219_counterexample`) On long-only targets the
mixed-integer allocator with an exact solver is never beaten by the greedy one: its tracking error in currency plus the penalised cash is not larger, so without a cash
penalty its tracking error is not larger. -/
theorem C219_never_worse_partial {greedy milp : String} (hg : greedy.toLower = "greedy" ∨ greedy.toLower = "rounddown")
    (hm : milp.toLower = "milp" ∨ milp.toLower = "mip" ∨ milp.toLower = "integer" ∨ milp.toLower = "lp")
    (hv : Valid weights prices total lots) (hl : LongOnly weights) (maxIter maxIter' : Option ℤ) (mode : Mode)
    (sortBy sortBy' : (inp : Input K) → Equiv.Perm (Fin inp.n)) (solve solve' : (inp : Input K) → Option (MipPoint K inp.n)) {cp : K}
    (hs : SolvesExactly cp solve) :
    ∃ r r', discretize weights prices total lots greedy maxIter .none sortBy solve' = .ok r ∧
      discretize weights prices total lots milp maxIter' mode sortBy' solve = .ok r' ∧
      (spent prices r.shares ≤ total → total * r'.trackingError + cp * r'.leftover ≤ total * r.trackingError + cp * r.leftover ∧
        (cp = 0 → r'.trackingError ≤ r.trackingError)) := by
  obtain ⟨inp, raw, r, hin, e, hb, hgood⟩ := discretize_greedy_none hg hv hl maxIter sortBy solve'
  obtain ⟨hfeas, hopt⟩ := C08_milp_optimal inp hin hl cp
  obtain ⟨p, hp, ho⟩ := hs inp hfeas
  obtain ⟨r', hr', hbest⟩ := hopt p ho
  obtain ⟨b1, b2, b3, b4, b5⟩ := buildResult_ok hb
  obtain ⟨l1, l2, l3, l4, l5, l6⟩ := input_labels hin
  have ha := accepted_of_mkInput hin
  refine ⟨r, r', e, ?_, fun hsp => ?_⟩
  · have hpm : parseMethod milp = .ok .milp := by
      unfold parseMethod
      rw [if_neg (by rcases hm with h | h | h | h <;> rw [h] <;> decide), if_pos hm]
    unfold discretize
    simp only [hin, hpm, hp]
    exact hr'
  · choose k hk0 hk using hgood.lots
    have hcost : lotsCost inp k = spent prices r.shares := by
      rw [b1, spent_dictOf _ _ (fun i => (l5 i).symm)]
      unfold lotsCost
      exact Finset.sum_congr rfl fun i _ => by rw [hk]; push_cast; ring
    have hl1 : l1Dollar inp k = inp.total * r.trackingError := by
      rw [b5, Finset.mul_sum]
      unfold l1Dollar
      refine Finset.sum_congr rfl fun i _ => ?_
      have : inp.price i * inp.lot i * (k i : K) - inp.w i * inp.total = -(inp.total * (inp.w i - raw i * inp.price i / inp.total)) := by
        rw [hk, mul_sub, mul_div_cancel₀ _ ha.total.ne']
        push_cast
        ring
      rw [this, abs_neg, abs_mul, abs_of_pos ha.total]
    have hleft : inp.total - lotsCost inp k = r.leftover := by
      rw [hcost, b2, ← spent_dictOf inp prices (fun i => (l5 i).symm) raw, ← b1, max_eq_left (by rw [l1]; linarith)]
    have := hbest k hk0 (by rw [hcost, l1]; exact hsp)
    rw [hl1, hleft, l1] at this
    refine ⟨this, fun h0 => ?_⟩
    rw [h0, zero_mul, zero_mul, add_zero, add_zero] at this
    exact le_of_mul_le_mul_left this (l1 ▸ ha.total)

/-- With prices and amount in whole numbers of a unit above 1e-12 (cents, say) the greedy allocation never spends more than the amount, so C219 applies. -/
theorem C219_units {greedy : String} (hg : greedy.toLower = "greedy" ∨ greedy.toLower = "rounddown") (hv : Valid weights prices total lots) (hl : LongOnly weights)
    {u : K} (hu : 1 / 10 ^ 12 < u) (hprice : ∀ p ∈ kept weights, ∃ b : ℤ, priceOf prices p.1 = b * u) (htotal : ∃ b : ℤ, total = b * u) (maxIter : Option ℤ)
    (sortBy : (inp : Input K) → Equiv.Perm (Fin inp.n)) (solve : (inp : Input K) → Option (MipPoint K inp.n)) :
    ∃ r, discretize weights prices total lots greedy maxIter .none sortBy solve = .ok r ∧ spent prices r.shares ≤ total := by
  obtain ⟨inp, raw, r, hin, e, hb, hgood⟩ := discretize_greedy_none hg hv hl maxIter sortBy solve
  obtain ⟨b1, b2, b3, b4, b5⟩ := buildResult_ok hb
  obtain ⟨l1, l2, l3, l4, l5, l6⟩ := input_labels hin
  refine ⟨r, e, ?_⟩
  rw [b1, spent_dictOf _ _ (fun i => (l5 i).symm)]
  have hlow := hgood.low
  have hp : ∀ i, ∃ b : ℤ, inp.price i = b * u := by
    intro i
    obtain ⟨p, hp, e1, -⟩ := l3 i
    obtain ⟨b, hb⟩ := hprice p hp
    exact ⟨b, by rw [l5, e1, hb]⟩
  choose b hb' using hp
  obtain ⟨t, ht⟩ := htotal
  have hsum : ∑ i, (raw i : K) * inp.price i = ((∑ i, raw i * b i : ℤ) : K) * u := by
    push_cast
    rw [Finset.sum_mul]
    exact Finset.sum_congr rfl fun i _ => by rw [hb']; ring
  rw [l1, ht, hsum] at hlow
  rw [hsum, ht]
  have hu0 : 0 < u := lt_trans (by positivity) hu
  have : ((∑ i, raw i * b i : ℤ) : K) < t + 1 := by
    refine lt_of_mul_lt_mul_right ?_ hu0.le
    unfold tol at hlow
    rw [add_mul, one_mul]
    linarith
  have : (∑ i, raw i * b i : ℤ) < t + 1 := by exact_mod_cast this
  exact mul_le_mul_of_nonneg_right (by exact_mod_cast Int.lt_add_one_iff.1 this) hu0.le

/-- **C219** is false of the code: one asset at `1 + 1e-13`, amount 1.  The greedy allocator buys it (within its tolerance) and tracks almost exactly; the
mixed-integer allocator, whatever the solver, buys nothing. -/
theorem C219_counterexample : ∃ r : Result ℚ,
    discretize [("A", 1)] [("A", 1 + 1 / 10 ^ 13)] 1 none "greedy" none .none (fun _ => Equiv.refl _) (fun _ => none) = .ok r ∧
    r.trackingError = 1 / 10 ^ 13 ∧
    ∀ (solve : (inp : Input ℚ) → Option (MipPoint ℚ inp.n)), (∀ inp p, solve inp = some p → MipFeasible inp none p) → ∀ r',
      discretize [("A", 1)] [("A", 1 + 1 / 10 ^ 13)] 1 none "milp" none .none (fun _ => Equiv.refl _) solve = .ok r' → r'.trackingError = 1 := by
  refine ⟨⟨[("A", 1)], 0, [("A", 1 + 1 / 10 ^ 13)], 1 / 10 ^ 13⟩, by decide +kernel, rfl, fun solve hs r' h => ?_⟩
  have hin : mkInput (K := ℚ) [("A", 1)] [("A", 1 + 1 / 10 ^ 13)] 1 none = .ok (ofRows [⟨"A", 1, 1 + 1 / 10 ^ 13, 1⟩] 1 1 false) := by
    unfold mkInput
    have e1 : (([("A", 1)] : List (String × ℚ)).filter fun p => !isclose0 p.2) = [("A", 1)] := by decide +kernel
    have e2 : (([("A", 1)] : List (String × ℚ)).any fun p => (([("A", 1 + 1 / 10 ^ 13)] : List (String × ℚ)).lookup p.1).isNone) = false := by decide +kernel
    have e3 : alignRows ([("A", 1)] : List (String × ℚ)) [("A", 1 + 1 / 10 ^ 13)] none = [⟨"A", 1, 1 + 1 / 10 ^ 13, 1⟩] := rfl
    simp only [e1, e2, e3]
    norm_num
  have hpm : parseMethod "milp" = .ok .milp := by decide +kernel
  unfold discretize at h
  simp only [hin, hpm] at h
  set inp := ofRows [⟨"A", 1, 1 + 1 / 10 ^ 13, 1⟩] (1 : ℚ) 1 false with hinp
  unfold allocateMip at h
  rw [if_neg (by show ¬ (1 = 0); norm_num)] at h
  cases hso : solve inp with
  | none => rw [hso] at h; cases h
  | some p =>
    rw [hso] at h
    have hf := hs inp p hso
    obtain ⟨-, -, -, -, b5⟩ := buildResult_ok h
    have hsub : Subsingleton (Fin inp.n) := (inferInstance : Subsingleton (Fin 1))
    have hw : ∀ i, inp.w i = 1 := fun i => by
      rw [Subsingleton.elim i (⟨0, Nat.one_pos⟩ : Fin inp.n)]
      exact one_div_one
    have hl : ∀ i, inp.lot i = 1 := fun i => by
      rw [Subsingleton.elim i (⟨0, Nat.one_pos⟩ : Fin inp.n)]
      rfl
    have hp : ∀ i, inp.price i = 1 + 1 / 10 ^ 13 := fun i => by
      rw [Subsingleton.elim i (⟨0, Nat.one_pos⟩ : Fin inp.n)]
      rfl
    have ht : inp.total = 1 := rfl
    have h0 : ∀ i, p.x i = 0 := by
      intro i
      have hlb : 0 ≤ p.x i := by
        have := hf.xlb i
        unfold Input.lotLb at this
        rw [if_pos (by rw [hw]; norm_num)] at this
        exact this
      have hb := hf.budget
      have hr := hf.rlb
      rw [Fintype.sum_subsingleton _ i, Input.ppl, hp, hl, ht] at hb
      by_contra hne
      have h1 : 1 ≤ p.x i := by omega
      have h1' : (1 : ℚ) ≤ p.x i := by exact_mod_cast h1
      push_cast at hb
      nlinarith
    rw [b5, Fintype.sum_subsingleton _ (⟨0, Nat.one_pos⟩ : Fin inp.n), h0, hw]
    norm_num

/-- **C220** As the amount grows, the greedy allocation tracks the target arbitrarily closely: for every `ε` there is an amount from which on the allocation succeeds with
tracking error below `ε` and less than the fraction `ε` of the amount left in cash. -/
theorem C220_large_amounts {method : String} (hm : method.toLower = "greedy" ∨ method.toLower = "rounddown")
    (hv : Valid weights prices total lots) (hl : LongOnly weights) (hn : (weights.map Prod.fst).Nodup) {ε : K} (hε : 0 < ε) (maxIter : Option ℤ)
    (sortBy : (inp : Input K) → Equiv.Perm (Fin inp.n)) (solve : (inp : Input K) → Option (MipPoint K inp.n)) :
    ∃ enough, ∀ amount, enough ≤ amount → ∃ r, discretize weights prices amount lots method maxIter .none sortBy solve = .ok r ∧
      r.trackingError < ε ∧ r.leftover < ε * amount := by
  set S := ((kept weights).map (fun p => lotCost prices lots p.1)).sum with hS
  refine ⟨max total (S / ε), fun amount hle => ?_⟩
  have ht : 0 < total := hv.total_pos
  have ha : 0 < amount := ht.trans_le ((le_max_left _ _).trans hle)
  have hSa : S ≤ ε * amount := by
    have := (le_max_right _ _).trans hle
    rwa [div_le_iff₀ hε, mul_comm] at this
  have hv' : Valid weights prices amount lots := { hv with total_pos := ha }
  obtain ⟨inp, raw, r, hin, e, hb, hgood⟩ := discretize_greedy_none hm hv' hl maxIter sortBy solve
  obtain ⟨b1, b2, b3, b4, b5⟩ := buildResult_ok hb
  obtain ⟨l1, l2, l3, l4, l5, l6⟩ := input_labels hin
  have hacc := accepted_of_mkInput hin
  have h5 := (C05_within_one_lot hm hv' hl hn e).2
  have hte : r.trackingError < ε := by
    refine h5.trans_le ?_
    rw [div_le_iff₀ ha]
    exact hSa
  refine ⟨r, e, hte, ?_⟩
  have hle : r.leftover ≤ amount * r.trackingError := by
    rw [b2, b5, Finset.mul_sum]
    refine max_le ?_ (Finset.sum_nonneg fun i _ => mul_nonneg ha.le (abs_nonneg _))
    have : inp.total - ∑ i, (raw i : K) * inp.price i = ∑ i, (inp.w i * inp.total - raw i * inp.price i) := by
      rw [Finset.sum_sub_distrib, ← Finset.sum_mul, hacc.wsum, one_mul]
    rw [this]
    refine Finset.sum_le_sum fun i _ => ?_
    rw [l1]
    have h1 : inp.w i * amount - raw i * inp.price i = amount * (inp.w i - raw i * inp.price i / amount) := by
      rw [mul_sub, mul_div_cancel₀ _ ha.ne']; ring
    rw [h1]
    exact mul_le_mul_of_nonneg_left (le_abs_self _) ha.le
  calc r.leftover ≤ amount * r.trackingError := hle
    _ < amount * ε := mul_lt_mul_of_pos_left hte ha
    _ = ε * amount := mul_comm _ _

/-- The example call of C01 (prices in whole units) meets the hypotheses of C219 and C220; an exact solver exists. -/
example : (∃ solve : (inp : Input ℚ) → Option (MipPoint ℚ inp.n), SolvesExactly 0 solve) ∧
    (∃ r, discretize exW exP 1000 exLots "greedy" none .none (fun _ => Equiv.refl _) (fun _ => none) = .ok r ∧ spent exP r.shares ≤ 1000) ∧
    ∃ enough, ∀ amount, enough ≤ amount → ∃ r, discretize exW exP amount exLots "greedy" none .none (fun _ => Equiv.refl _) (fun _ => none) = .ok r ∧
      r.trackingError < 1 / 100 ∧ r.leftover < 1 / 100 * amount := by
  classical
  refine ⟨⟨fun inp => if h : ∃ p, MipOptimal inp 0 none p then some h.choose else none, fun inp ⟨q, hq⟩ => ?_⟩, ?_, ?_⟩
  · have h := C08_optimum_exists inp 0 none q hq
    exact ⟨h.choose, dif_pos h, h.choose_spec⟩
  · refine C219_units (u := 1) (Or.inl lower_greedy) exValid exLong (by norm_num) ?_ ⟨1000, by norm_num⟩ none _ _
    have : ∀ p ∈ kept exW, priceOf exP p.1 = (⌊priceOf exP p.1⌋ : ℤ) * 1 := by decide +kernel
    exact fun p hp => ⟨_, this p hp⟩
  · exact C220_large_amounts (Or.inl lower_greedy) exValid exLong (by decide) (by norm_num) none _ _

end PyV.Props
