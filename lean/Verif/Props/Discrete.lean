import Verif.Lemmas.DiscreteResult
import Mathlib.Order.Interval.Finset.Fin
import Mathlib.Data.Int.Interval

/-!
# Properties C01–C09: discrete allocation

`discretize` models `discretize_weights`; `sortBy` (order of equal weights) and `solve` (the MILP solver) are
arbitrary unless a hypothesis says otherwise.  Exact arithmetic.
-/

set_option linter.unusedSectionVars false

namespace PyV.Props

open PyV PyV.Discrete PyV.Spec.Discrete

variable {K : Type*} [Field K] [LinearOrder K] [IsStrictOrderedRing K] [FloorRing K]

section

variable {weights prices : List (String × K)} {total : K} {lots : Option (List (String × ℤ))}

/-- A concrete long-only problem used for the non-vacuity examples. -/
def exW : List (String × ℚ) := [("A", 3/10), ("B", 6/10), ("C", 1/10), ("D", 1/10^9)]
def exP : List (String × ℚ) := [("A", 7), ("B", 110), ("C", 33), ("D", 5)]
def exLots : Option (List (String × ℤ)) := some [("A", 10)]

theorem exValid : Valid exW exP 1000 exLots := by
  refine ⟨?_, ?_, ?_, by norm_num, ?_, ?_⟩
  · intro p hp; simp [exW] at hp
    rcases hp with rfl | rfl | rfl | rfl <;> exact ⟨_, rfl⟩
  · exact ⟨("A", 3/10), by simp [exW], by decide +kernel⟩
  · have : ∀ p ∈ kept exW, 0 < priceOf exP p.1 := by decide +kernel
    exact this
  · have : ∀ p ∈ kept exW, 0 < lotSize exLots p.1 := by decide +kernel
    exact this
  · decide +kernel

theorem exLong : LongOnly exW := by
  have : ∀ p ∈ kept exW, 0 ≤ p.2 := by decide +kernel
  exact this

/-- **C01** The greedy loop stops, for every order of equal weights and every iteration cap `m`: after at most
`m + n + 1` evaluations of the loop condition, having bought at most `m` and at most `n` times (`n` = number of
assets kept). -/
theorem C01_greedy_terminates (inp : Input K) (hin : mkInput weights prices total lots = .ok inp)
    (hl : LongOnly weights) (σ : Equiv.Perm (Fin inp.n)) (m : ℤ) :
    ∃ st, loop (inp.sorted σ) m (m.toNat + inp.n + 1) (initState (inp.sorted σ)) = some st ∧
      st.iter ≤ m.toNat ∧ st.iter ≤ inp.n := by
  have hs := (longOnly_iff hin).mpr hl
  obtain ⟨st, e, hp⟩ := loop_init_spec ((accepted_of_mkInput hin).svalid hs σ) m
  exact ⟨st, e, hp.iter, hp.iter_le⟩

/-- **C01** (API level) For long-only input the call never ends in the model's "loop did not finish" outcome; in
particular with the fallback disabled it returns. -/
theorem C01_greedy_returns (hv : Valid weights prices total lots) (hl : LongOnly weights) (maxIter : Option ℤ)
    (sortBy : (inp : Input K) → Equiv.Perm (Fin inp.n)) (solve : (inp : Input K) → Option (MipPoint K inp.n)) :
    ∃ r, discretize weights prices total lots "greedy" maxIter .none sortBy solve = .ok r := by
  obtain ⟨_, _, r, _, e, _⟩ := discretize_greedy_none (Or.inl lower_greedy) hv hl maxIter sortBy solve
  exact ⟨r, e⟩

example : ∃ r, discretize exW exP 1000 exLots "greedy" none .none (fun _ => Equiv.refl _) (fun _ => none) = .ok r :=
  C01_greedy_returns exValid exLong _ _ _

/-- **C02** Greedy without fallback always succeeds on valid long-only input, spends at most `total + 1e-12`
and reports non-negative leftover cash. -/
theorem C02_greedy_within_budget {method : String} (hm : method.toLower = "greedy" ∨ method.toLower = "rounddown")
    (hv : Valid weights prices total lots) (hl : LongOnly weights) (maxIter : Option ℤ)
    (sortBy : (inp : Input K) → Equiv.Perm (Fin inp.n)) (solve : (inp : Input K) → Option (MipPoint K inp.n)) :
    ∃ r, discretize weights prices total lots method maxIter .none sortBy solve = .ok r ∧
      0 ≤ r.leftover ∧ spent prices r.shares ≤ total + 1 / 10 ^ 12 := by
  obtain ⟨inp, raw, r, hin, e, hb, hg⟩ := discretize_greedy_none hm hv hl maxIter sortBy solve
  obtain ⟨b1, b2, b3, b4, b5⟩ := buildResult_ok hb
  obtain ⟨l1, l2, l3, l4, l5, l6⟩ := input_labels hin
  refine ⟨r, e, ?_, ?_⟩
  · rw [b2]; exact le_max_right _ _
  · rw [b1, spent_dictOf _ _ (fun i => (l5 i).symm)]
    have := hg.low
    unfold tol at this
    rw [l1] at this
    linarith

/-- **C02** With `fallback_mode` `auto` or `none` a valid long-only call never raises, whatever the MILP solver
does, and never reports negative cash. -/
theorem C02_greedy_never_raises {method : String} (hm : method.toLower = "greedy" ∨ method.toLower = "rounddown")
    (hv : Valid weights prices total lots) (hl : LongOnly weights) (maxIter : Option ℤ) (mode : Mode)
    (hmode : mode ≠ .milp)
    (sortBy : (inp : Input K) → Equiv.Perm (Fin inp.n)) (solve : (inp : Input K) → Option (MipPoint K inp.n)) :
    ∃ r, discretize weights prices total lots method maxIter mode sortBy solve = .ok r ∧ 0 ≤ r.leftover := by
  obtain ⟨r, e⟩ := discretize_greedy_auto hm hv hl maxIter mode hmode sortBy solve
  obtain ⟨inp, raw, -, hb, -⟩ := discretize_ok e
  refine ⟨r, e, ?_⟩
  rw [(buildResult_ok hb).2.1]; exact le_max_right _ _

example : ∃ r, discretize exW exP 1000 exLots "rounddown" (some 0) .auto (fun _ => Equiv.refl _) (fun _ => none)
    = .ok r ∧ 0 ≤ r.leftover :=
  C02_greedy_never_raises (Or.inr lower_rounddown) exValid exLong _ _ (by decide) _ _

/-- **C03** Accounting identity of every successful call, any method, mode, long or short: cash plus market value
is the total (exactly when nothing was overspent, within `1e-8` otherwise), achieved weights are market value over
total, and the tracking error is the L1 distance to the normalised target weights. -/
theorem C03_cash_conserved {method : String} {maxIter : Option ℤ} {mode : Mode}
    {sortBy : (inp : Input K) → Equiv.Perm (Fin inp.n)} {solve : (inp : Input K) → Option (MipPoint K inp.n)}
    {r : (Result K)} (hn : (weights.map Prod.fst).Nodup)
    (h : discretize weights prices total lots method maxIter mode sortBy solve = .ok r) :
    0 ≤ r.leftover ∧ |r.leftover + spent prices r.shares - total| < 1 / 10 ^ 8 ∧
    (spent prices r.shares ≤ total → r.leftover + spent prices r.shares = total) ∧
    r.achieved = (kept weights).map (fun p => (p.1, held r.shares p.1 * priceOf prices p.1 / total)) ∧
    r.trackingError = ((kept weights).map (fun p =>
      |p.2 / totalWeight weights - held r.shares p.1 * priceOf prices p.1 / total|)).sum := by
  obtain ⟨inp, raw, hin, hb, -⟩ := discretize_ok h
  obtain ⟨b1, b2, b3, b4, b5⟩ := buildResult_ok hb
  obtain ⟨l1, l2, l3, l4, l5, l6⟩ := input_labels hin
  have hinj := name_injective hin hn
  have hsp := spent_dictOf inp prices (fun i => (l5 i).symm) raw
  rw [← b1] at hsp
  have hheld : ∀ i, held r.shares (inp.name i) = raw i := by
    intro i; rw [b1]; exact held_dictOf inp hinj raw i
  rw [← hsp, l1] at b2 b3
  refine ⟨by rw [b2]; exact le_max_right _ _, ?_, ?_, ?_, ?_⟩
  · rw [b2]
    rcases le_total (total - spent prices r.shares) 0 with hle | hge
    · rw [max_eq_right hle, abs_lt]
      constructor <;> linarith [(by norm_num : (0:K) < 1 / 10 ^ 8)]
    · rw [max_eq_left hge]; simp
  · intro hle
    rw [b2, max_eq_left (by linarith)]; ring
  · rw [b4, l1]
    have := congrArg (fun l => l.map (fun k : String => (k, held r.shares k * priceOf prices k / total))) l2
    simp only [List.map_map, List.map_ofFn] at this
    rw [← List.ofFn_eq_map]
    refine Eq.trans ?_ this
    congr 1
    funext i
    simp only [Function.comp, hheld, l5]
  · rw [b5, l1, ← sum_kept hin (fun k w => |w - held r.shares k * priceOf prices k / total|)]
    apply Finset.sum_congr rfl
    intro i _
    rw [hheld, l5]

example : (exW.map Prod.fst).Nodup ∧ ∃ r, discretize exW exP 1000 exLots "greedy" none .none
    (fun _ => Equiv.refl _) (fun _ => none) = .ok r ∧ |r.leftover + spent exP r.shares - 1000| < 1 / 10 ^ 8 := by
  refine ⟨by decide, ?_⟩
  obtain ⟨r, e, -, -⟩ := C02_greedy_within_budget (Or.inl lower_greedy) exValid exLong none (fun _ => Equiv.refl _) (fun _ => none)
  exact ⟨r, e, (C03_cash_conserved (by decide) e).2.1⟩

/-- **C04** Every share count in a long-only result is a positive whole number of lots (labels not in the
dictionary hold zero), for both allocators, provided MILP solutions respect the lot bounds they were given. -/
theorem C04_whole_lots {method : String} {maxIter : Option ℤ} {mode : Mode}
    {sortBy : (inp : Input K) → Equiv.Perm (Fin inp.n)} {solve : (inp : Input K) → Option (MipPoint K inp.n)}
    {r : (Result K)} (hl : LongOnly weights)
    (hsolve : ∀ inp p, solve inp = some p → ∀ i, inp.lotLb i ≤ p.x i)
    (h : discretize weights prices total lots method maxIter mode sortBy solve = .ok r) :
    ∀ q ∈ r.shares, (∃ p ∈ kept weights, p.1 = q.1) ∧ ∃ k : ℤ, 0 < k ∧ q.2 = k * lotSize lots q.1 := by
  obtain ⟨inp, raw, hin, hb, hor⟩ := discretize_ok h
  obtain ⟨b1, -⟩ := buildResult_ok hb
  obtain ⟨l1, l2, l3, l4, l5, l6⟩ := input_labels hin
  have ha := accepted_of_mkInput hin
  have hs := (longOnly_iff hin).mpr hl
  have hraw : ∀ i, ∃ k : ℤ, 0 ≤ k ∧ raw i = k * inp.lot i := by
    rcases hor with ⟨p, hp, rfl⟩ | ⟨-, hg⟩
    · intro i
      refine ⟨p.x i, ?_, rfl⟩
      have h1 := hsolve inp p hp i
      have h2 : inp.lotLb i = 0 := by
        unfold Input.lotLb; rw [if_pos (ha.nonneg hs i)]
      omega
    · exact hg.lots
  intro q hq
  rw [b1] at hq
  unfold dictOf at hq
  obtain ⟨i, hi, rfl⟩ := List.mem_map.mp hq
  obtain ⟨k, hk, e⟩ := hraw i
  obtain ⟨p, hp, hp1, -⟩ := l3 i
  refine ⟨⟨p, hp, hp1.symm⟩, k, ?_, by simp only; rw [e, l6]⟩
  have hne : raw i ≠ 0 := by
    have := (List.mem_filter.mp hi).2
    simpa using this
  rcases lt_or_eq_of_le hk with h | h
  · exact h
  · rw [← h] at e; simp at e; exact absurd e hne

example : LongOnly exW ∧ ∀ inp p, (fun _ => none : (inp : Input ℚ) → Option (MipPoint ℚ inp.n)) inp = some p →
    ∀ i, inp.lotLb i ≤ p.x i := ⟨exLong, by intro inp p h; cases h⟩

/-- **C05** Greedy rounding error: each asset ends strictly within one lot of its target value. -/
theorem C05_within_one_lot {method : String} (hm : method.toLower = "greedy" ∨ method.toLower = "rounddown")
    (hv : Valid weights prices total lots) (hl : LongOnly weights) (hn : (weights.map Prod.fst).Nodup)
    {maxIter : Option ℤ} {sortBy : (inp : Input K) → Equiv.Perm (Fin inp.n)}
    {solve : (inp : Input K) → Option (MipPoint K inp.n)} {r : (Result K)}
    (h : discretize weights prices total lots method maxIter .none sortBy solve = .ok r) :
    (∀ p ∈ kept weights, |held r.shares p.1 * priceOf prices p.1 - p.2 / totalWeight weights * total|
      < lotCost prices lots p.1) ∧
    r.trackingError < ((kept weights).map (fun p => lotCost prices lots p.1)).sum / total := by
  obtain ⟨inp, raw, r', hin, e, hb, hg⟩ := discretize_greedy_none hm hv hl maxIter sortBy solve
  rw [h] at e; injection e with e; subst e
  obtain ⟨b1, b2, b3, b4, b5⟩ := buildResult_ok hb
  obtain ⟨l1, l2, l3, l4, l5, l6⟩ := input_labels hin
  have hinj := name_injective hin hn
  have ha := accepted_of_mkInput hin
  have hheld : ∀ i, held r.shares (inp.name i) = raw i := by
    intro i; rw [b1]; exact held_dictOf inp hinj raw i
  have hcost : ∀ i, inp.price i * inp.lot i = lotCost prices lots (inp.name i) := by
    intro i; unfold lotCost; rw [l5, l6]
  constructor
  · intro p hp
    obtain ⟨i, hi1, hi2⟩ := l4 p hp
    have hne := hg.near i
    rw [hcost, l1] at hne
    rw [← hi1, ← hi2, hheld, ← l5 i, abs_lt]
    constructor <;> linarith [hne.1, hne.2]
  · have hne : Finset.Nonempty (Finset.univ : Finset (Fin inp.n)) := ⟨⟨0, ha.npos⟩, Finset.mem_univ _⟩
    have ht := ha.total
    have hsum : ((kept weights).map (fun p => lotCost prices lots p.1)).sum =
        ∑ i, lotCost prices lots (inp.name i) :=
      (sum_kept hin (fun k _ => lotCost prices lots k)).symm
    rw [b5, hsum, ← l1, Finset.sum_div]
    apply Finset.sum_lt_sum_of_nonempty hne
    intro i _
    have hni := hg.near i
    rw [hcost] at hni
    rw [lt_div_iff₀ ht, ← abs_of_pos ht, ← abs_mul, abs_of_pos ht, sub_mul, div_mul_cancel₀ _ ht.ne', abs_lt]
    constructor <;> linarith [hni.1, hni.2]

/-- **C07** Accepted weights: exactly the kept labels in order, each divided by the kept total, summing to one. -/
theorem C07_normalised (inp : Input K) (h : mkInput weights prices total lots = .ok inp) :
    List.ofFn (fun i => (inp.name i, inp.w i)) = (kept weights).map (fun p => (p.1, p.2 / totalWeight weights)) ∧
    ∑ i, inp.w i = 1 ∧ (∀ i, inp.price i = priceOf prices (inp.name i)) ∧
    (∀ i, inp.lot i = lotSize lots (inp.name i)) :=
  ⟨input_zip h, (accepted_of_mkInput h).wsum, (input_labels h).2.2.2.2.1, (input_labels h).2.2.2.2.2⟩

/-- Every purchase of the top-up loop leaves its asset above its target value, so the purchases made can be read off the result:
they are the kept assets whose market value exceeds the target. -/
def topUps (weights prices : List (String × K)) (total : K) (shares : List (String × ℤ)) : ℕ :=
  ((kept weights).filter (fun p => decide (p.2 / totalWeight weights * total < held shares p.1 * priceOf prices p.1))).length

/-- **C06** Greedy is maximal: unless as many purchases were made as `max_iterations` allows (which cannot happen with the default
cap, nor with a cap above the number of kept assets), every asset still underweight by more than `1e-12` has a lot cost above the
remaining cash. -/
theorem C06_no_affordable_underweight {method : String} (hm : method.toLower = "greedy" ∨ method.toLower = "rounddown")
    (hv : Valid weights prices total lots) (hl : LongOnly weights) (hn : (weights.map Prod.fst).Nodup)
    {maxIter : Option ℤ}
    {sortBy : (inp : Input K) → Equiv.Perm (Fin inp.n)}
    {solve : (inp : Input K) → Option (MipPoint K inp.n)} {r : (Result K)}
    (h : discretize weights prices total lots method maxIter .none sortBy solve = .ok r)
    (hcap : ∀ m, maxIter = some m → (topUps weights prices total r.shares : ℤ) < m) :
    ∀ p ∈ kept weights,
      p.2 / totalWeight weights - held r.shares p.1 * priceOf prices p.1 / total ≤ 1 / 10 ^ 12 ∨
      r.leftover < lotCost prices lots p.1 := by
  obtain ⟨inp, raw, r', hin, e, hb, hg⟩ := discretize_greedy_none hm hv hl maxIter sortBy solve
  rw [h] at e; injection e with e; subst e
  obtain ⟨b1, b2, b3, b4, b5⟩ := buildResult_ok hb
  obtain ⟨l1, l2, l3, l4, l5, l6⟩ := input_labels hin
  have hinj := name_injective hin hn
  have ha := accepted_of_mkInput hin
  have hlen : inp.n = (kept weights).length := by
    have := congrArg List.length l2
    simpa using this
  have htop : (Finset.univ.filter (fun i => inp.w i * inp.total < raw i * inp.price i)).card =
      topUps weights prices total r.shares := by
    have h2 : List.ofFn (fun i => (inp.name i, inp.w i)) = (kept weights).map (fun p => (p.1, p.2 / totalWeight weights)) :=
      (C07_normalised inp hin).1
    have h3 : topUps weights prices total r.shares =
        ((List.ofFn (fun i => (inp.name i, inp.w i))).filter
          (fun q => decide (q.2 * total < held r.shares q.1 * priceOf prices q.1))).length := by
      rw [h2, List.filter_map, List.length_map]; rfl
    rw [h3, List.ofFn_eq_map, List.filter_map, List.length_map]
    have h4 : ∀ q : Fin inp.n → Prop, ∀ [DecidablePred q], (Finset.univ.filter q).card =
        ((List.finRange inp.n).filter (fun i => decide (q i))).length := by
      intro q _
      rw [Fin.univ_def]
      rfl
    rw [h4]
    congr 1
    apply List.filter_congr
    intro i _
    have hheld : held r.shares (inp.name i) = raw i := by rw [b1]; exact held_dictOf inp hinj raw i
    simp only [Function.comp, hheld, ← l5 i, ← l1]
  have hbig : ((Finset.univ.filter (fun i => inp.w i * inp.total < raw i * inp.price i)).card : ℤ)
      < resolveMaxIter inp.n maxIter := by
    cases hmi : maxIter with
    | none =>
      unfold resolveMaxIter
      have := ha.npos
      have h3 : (Finset.univ.filter (fun i => inp.w i * inp.total < raw i * inp.price i)).card ≤ inp.n := by
        simpa using Finset.card_le_univ (Finset.univ.filter (fun i => inp.w i * inp.total < raw i * inp.price i))
      have h2 : (inp.n : ℤ) < (inp.n : ℤ) * 100 := by omega
      exact lt_of_lt_of_le (by omega) (le_max_left _ _)
    | some m =>
      have := hcap m hmi
      unfold resolveMaxIter
      rw [htop]; exact this
  intro p hp
  obtain ⟨i, hi1, hi2⟩ := l4 p hp
  have hheld : held r.shares (inp.name i) = raw i := by rw [b1]; exact held_dictOf inp hinj raw i
  rcases hg.maximal hbig i with h1 | h1
  · left
    rw [← hi1, ← hi2, hheld, ← l5 i, ← l1]
    exact h1
  · right
    have hc : inp.price i * inp.lot i = lotCost prices lots p.1 := by unfold lotCost; rw [l5, l6, hi1]
    rw [hc] at h1
    rw [b2, max_lt_iff]
    have htol := tol_pos (K := K)
    refine ⟨by linarith, ?_⟩
    have : 0 < inp.price i * inp.lot i := mul_pos (ha.price i) (by exact_mod_cast ha.lot i)
    rwa [hc] at this

example : Valid exW exP 1000 exLots ∧ LongOnly exW ∧ (exW.map Prod.fst).Nodup ∧
    (∀ (sh : List (String × ℤ)) (m : ℤ), (none : Option ℤ) = some m → (topUps exW exP 1000 sh : ℤ) < m) :=
  ⟨exValid, exLong, by decide, by intro sh m h; cases h⟩

/-- **C07** Inputs are accepted exactly when they satisfy the documented conditions; otherwise a `ValueError`. -/
theorem C07_validation_iff :
    ((∃ inp, mkInput weights prices total lots = .ok inp) ↔ Valid weights prices total lots) ∧
    (¬ Valid weights prices total lots → mkInput weights prices total lots = .error .valueError) := by
  constructor
  · constructor
    · rintro ⟨inp, h⟩; exact ((mkInput_ok_valid _ _ _ _ _).mp h).1
    · intro h; exact ⟨_, (mkInput_ok_valid _ _ _ _ _).mpr ⟨h, rfl⟩⟩
  · intro hnv
    cases h : mkInput weights prices total lots with
    | ok inp => exact absurd ((mkInput_ok_valid _ _ _ _ _).mp h).1 hnv
    | error e =>
      unfold mkInput at h
      simp only at h
      repeat' split at h
      all_goals first
        | (injection h with h; rw [← h])
        | cases h

example : (∃ inp, mkInput exW exP 1000 exLots = .ok inp) ∧ mkInput exW exP 0 exLots = .error .valueError := by
  refine ⟨(C07_validation_iff.1).mpr exValid, ?_⟩
  apply C07_validation_iff.2
  intro h
  exact absurd h.total_pos (lt_irrefl _)

/-! ### MILP -/

/-- `p` is an optimal point of the programme. -/
def MipOptimal (inp : Input K) (cashPenalty : K) (maxCash : Option K) (p : MipPoint K inp.n) : Prop :=
  MipFeasible inp maxCash p ∧ ∀ q, MipFeasible inp maxCash q → mipObj cashPenalty p ≤ mipObj cashPenalty q

/-- Cost of buying `y` lots of each asset. -/
def lotsCost (inp : Input K) (y : Fin inp.n → ℤ) : K := ∑ i, (inp.price i * inp.lot i) * y i

/-- Dollar L1 distance of a lot vector from the target values. -/
def l1Dollar (inp : Input K) (y : Fin inp.n → ℤ) : K :=
  ∑ i, |(inp.price i * inp.lot i) * y i - inp.w i * inp.total|

/-- Lot vectors whose positions have the sign of the target and are individually no larger than the total. -/
def Unlevered (inp : Input K) (y : Fin inp.n → ℤ) : Prop :=
  ∀ i, (0 ≤ inp.w i → 0 ≤ y i ∧ (inp.price i * inp.lot i) * y i ≤ inp.total) ∧
       (inp.w i < 0 → y i ≤ 0 ∧ -((inp.price i * inp.lot i) * y i) ≤ inp.total)

theorem unlevered_feasible {inp : (Input K)} (ha : Accepted inp) (hw : ∀ i, |inp.w i| ≤ 1) (y : Fin inp.n → ℤ)
    (hy : Unlevered inp y) (hc : lotsCost inp y ≤ inp.total) :
    MipFeasible inp none ⟨y, fun i => |(inp.price i * inp.lot i) * y i - inp.w i * inp.total|,
      inp.total - lotsCost inp y⟩ := by
  have hppl : ∀ i, 0 < inp.ppl i := fun i => mul_pos (ha.price i) (by exact_mod_cast ha.lot i)
  have ht := ha.total
  have hmax : ∀ i, inp.maxLots i = ⌊inp.total / inp.ppl i⌋ + 1 := by
    intro i
    unfold Input.maxLots
    rw [if_pos (hppl i)]
    have : 0 ≤ ⌊inp.total / inp.ppl i⌋ := Int.floor_nonneg.mpr (div_nonneg ht.le (hppl i).le)
    exact max_eq_left (by omega)
  have hfl : ∀ i (z : ℤ), inp.ppl i * z ≤ inp.total → z ≤ inp.maxLots i := by
    intro i z hz
    rw [hmax]
    have : z ≤ ⌊inp.total / inp.ppl i⌋ := by
      rw [Int.le_floor, le_div_iff₀ (hppl i)]; linarith
    omega
  have hmaxpos : ∀ i, 0 < inp.maxLots i := by
    intro i
    rw [hmax]
    have : 0 ≤ ⌊inp.total / inp.ppl i⌋ := Int.floor_nonneg.mpr (div_nonneg ht.le (hppl i).le)
    omega
  refine ⟨?_, ?_, fun i => abs_nonneg _, ?_, sub_nonneg.mpr hc, ?_, ?_, ?_, ?_⟩
  · intro i
    unfold Input.lotLb
    split
    · rename_i h; exact ((hy i).1 h).1
    · rename_i h
      have h' := (hy i).2 (not_le.mp h)
      have : -(y i) ≤ inp.maxLots i := by
        apply hfl
        have := h'.2
        push_cast
        show inp.ppl i * -(y i : K) ≤ inp.total
        have e : inp.ppl i = inp.price i * inp.lot i := rfl
        rw [e]; linarith
      show -inp.maxLots i ≤ y i
      omega
  · intro i
    rcases le_or_gt 0 (inp.w i) with h | h
    · exact hfl i _ ((hy i).1 h).2
    · have := ((hy i).2 h).1
      have := hmaxpos i
      show y i ≤ _
      omega
  · intro i
    show |_| ≤ inp.total
    have hwi := abs_le.mp (hw i)
    have hp : 0 < inp.price i * inp.lot i := hppl i
    rcases le_or_gt 0 (inp.w i) with h | h
    · obtain ⟨h1, h2⟩ := (hy i).1 h
      have h1q : (0:K) ≤ y i := by exact_mod_cast h1
      rw [abs_le]
      constructor <;> nlinarith [mul_nonneg hp.le h1q, mul_nonneg h ht.le]
    · obtain ⟨h1, h2⟩ := (hy i).2 h
      have h1q : (y i : K) ≤ 0 := by exact_mod_cast h1
      rw [abs_le]
      constructor <;> nlinarith [mul_nonneg hp.le (neg_nonneg.mpr h1q), mul_pos (neg_pos.mpr h) ht]
  · show inp.total - lotsCost inp y ≤ inp.upperCash none
    unfold Input.upperCash lotsCost
    simp only
    have : ∀ i, -((inp.price i * inp.lot i) * (y i : K)) ≤
        (if inp.w i < 0 then (inp.maxLots i : K) * inp.ppl i else 0) := by
      intro i
      have hp : 0 < inp.price i * inp.lot i := hppl i
      split
      · rename_i h
        obtain ⟨h1, h2⟩ := (hy i).2 h
        have : -(y i) ≤ inp.maxLots i := by
          apply hfl
          push_cast
          show inp.ppl i * -(y i : K) ≤ inp.total
          have e : inp.ppl i = inp.price i * inp.lot i := rfl
          rw [e]; linarith
        have hq : -(y i : K) ≤ inp.maxLots i := by exact_mod_cast this
        have e : inp.ppl i = inp.price i * inp.lot i := rfl
        rw [e]
        nlinarith
      · rename_i h
        obtain ⟨h1, h2⟩ := (hy i).1 (not_lt.mp h)
        have h1q : (0:K) ≤ y i := by exact_mod_cast h1
        have := mul_nonneg hp.le h1q
        linarith
    have hs := Finset.sum_le_sum (fun i (_ : i ∈ Finset.univ) => this i)
    rw [Finset.sum_neg_distrib] at hs
    linarith
  · show ∑ i, inp.ppl i * (y i : K) + (inp.total - lotsCost inp y) = inp.total
    unfold lotsCost Input.ppl; ring
  · intro i
    show inp.ppl i * (y i : K) - |_| ≤ inp.w i * inp.total
    have := le_abs_self ((inp.price i * inp.lot i) * (y i : K) - inp.w i * inp.total)
    unfold Input.ppl; linarith
  · intro i
    show -(inp.ppl i * (y i : K)) - |_| ≤ -(inp.w i * inp.total)
    have := neg_abs_le ((inp.price i * inp.lot i) * (y i : K) - inp.w i * inp.total)
    unfold Input.ppl; linarith

theorem mip_result_le {inp : (Input K)} (ha : Accepted inp) {cp : K} {p : MipPoint K inp.n}
    (hf : MipFeasible inp none p) :
    ∃ r, allocateMip inp (some p) = .ok r ∧
      inp.total * r.trackingError + cp * r.leftover ≤ mipObj cp p ∧ r.leftover = p.r ∧
      r.leftover = inp.total - lotsCost inp p.x ∧ inp.total * r.trackingError = l1Dollar inp p.x := by
  have ht := ha.total
  have hsum : ∑ i, ((p.x i * inp.lot i : ℤ) : K) * inp.price i = lotsCost inp p.x := by
    unfold lotsCost
    apply Finset.sum_congr rfl
    intro i _
    push_cast; ring
  have hr : inp.total - lotsCost inp p.x = p.r := by
    have := hf.budget
    unfold lotsCost
    unfold Input.ppl at this
    linarith
  have hlow : -(1 / 10 ^ 8) < inp.total - ∑ i, ((p.x i * inp.lot i : ℤ) : K) * inp.price i := by
    rw [hsum, hr]
    have := hf.rlb
    linarith [(by norm_num : (0:K) < 1 / 10 ^ 8)]
  obtain ⟨r, hb⟩ := buildResult_isOk hlow
  obtain ⟨b1, b2, b3, b4, b5⟩ := buildResult_ok hb
  have hleft : r.leftover = p.r := by
    rw [b2, hsum, hr, max_eq_left hf.rlb]
  have hte : inp.total * r.trackingError = l1Dollar inp p.x := by
    rw [b5]
    unfold l1Dollar
    rw [Finset.mul_sum]
    apply Finset.sum_congr rfl
    intro i _
    rw [← abs_of_pos ht, ← abs_mul, abs_of_pos ht, abs_sub_comm]
    congr 1
    push_cast
    field_simp
  refine ⟨r, ?_, ?_, hleft, by rw [hleft, hr], hte⟩
  · unfold allocateMip
    rw [if_neg ha.npos.ne']; exact hb
  · rw [hte, hleft]
    unfold mipObj l1Dollar
    have : ∑ i, |(inp.price i * inp.lot i) * (p.x i : K) - inp.w i * inp.total| ≤ ∑ i, p.u i := by
      apply Finset.sum_le_sum
      intro i _
      have h1 := hf.upper i
      have h2 := hf.lower i
      unfold Input.ppl Input.target at h1 h2
      rw [abs_le]
      constructor <;> linarith
    linarith

/-- Optimality of the MILP allocator among all unlevered allocations (shared by C08 and C09). -/
theorem mip_optimal_unlevered {inp : (Input K)} (ha : Accepted inp) (hw : ∀ i, |inp.w i| ≤ 1) {cp : K}
    {p : MipPoint K inp.n} (ho : MipOptimal inp cp none p) :
    ∃ r, allocateMip inp (some p) = .ok r ∧ ∀ y, Unlevered inp y → lotsCost inp y ≤ inp.total →
      inp.total * r.trackingError + cp * r.leftover ≤ l1Dollar inp y + cp * (inp.total - lotsCost inp y) := by
  obtain ⟨r, hr, hle, -⟩ := mip_result_le (cp := cp) ha ho.1
  refine ⟨r, hr, fun y hy hc => ?_⟩
  have := ho.2 _ (unlevered_feasible ha hw y hy hc)
  have e : mipObj cp (⟨y, fun i => |(inp.price i * inp.lot i) * y i - inp.w i * inp.total|,
      inp.total - lotsCost inp y⟩ : MipPoint K inp.n) = l1Dollar inp y + cp * (inp.total - lotsCost inp y) := rfl
  rw [e] at this
  linarith

/-- **C08** Long-only: the programme is feasible, and the allocation read off any optimal point minimises
(dollar L1 tracking error + cash_penalty × leftover cash) over all non-negative whole-lot allocations costing at
most the total. -/
theorem C08_milp_optimal (inp : Input K) (hin : mkInput weights prices total lots = .ok inp)
    (hl : LongOnly weights) (cp : K) :
    (∃ q, MipFeasible inp none q) ∧
    ∀ p, MipOptimal inp cp none p → ∃ r, allocateMip inp (some p) = .ok r ∧
      ∀ y : Fin inp.n → ℤ, (∀ i, 0 ≤ y i) → lotsCost inp y ≤ inp.total →
        inp.total * r.trackingError + cp * r.leftover ≤ l1Dollar inp y + cp * (inp.total - lotsCost inp y) := by
  have ha := accepted_of_mkInput hin
  have hs := (longOnly_iff hin).mpr hl
  have hw0 := ha.nonneg hs
  have hw1 : ∀ i, |inp.w i| ≤ 1 := by
    intro i
    rw [abs_of_nonneg (hw0 i), ← ha.wsum]
    exact Finset.single_le_sum (f := inp.w) (fun j _ => hw0 j) (Finset.mem_univ i)
  have hunl : ∀ y : Fin inp.n → ℤ, (∀ i, 0 ≤ y i) → lotsCost inp y ≤ inp.total → Unlevered inp y := by
    intro y hy hc i
    refine ⟨fun _ => ⟨hy i, ?_⟩, fun h => absurd h (not_lt.mpr (hw0 i))⟩
    refine le_trans ?_ hc
    unfold lotsCost
    apply Finset.single_le_sum (f := fun i => (inp.price i * inp.lot i) * (y i : K)) (fun j _ => ?_) (Finset.mem_univ i)
    have h1 : (0:K) ≤ y j := by exact_mod_cast hy j
    have h2 : (0:K) < inp.lot j := by exact_mod_cast ha.lot j
    exact mul_nonneg (mul_pos (ha.price j) h2).le h1
  constructor
  · refine ⟨_, unlevered_feasible ha hw1 (fun _ => 0) (hunl _ (fun _ => le_refl _) ?_) ?_⟩ <;>
    · simp [lotsCost, ha.total.le]
  · intro p ho
    obtain ⟨r, hr, hopt⟩ := mip_optimal_unlevered ha hw1 ho
    exact ⟨r, hr, fun y hy hc => hopt y (hunl y hy hc) hc⟩

example : ∃ inp, mkInput exW exP 1000 exLots = .ok inp ∧ LongOnly exW ∧ ∃ q, MipFeasible inp none q := by
  obtain ⟨inp, h⟩ := (C07_validation_iff.1).mpr exValid
  exact ⟨inp, h, exLong, (C08_milp_optimal inp h exLong 1).1⟩

/-- The hypothesis of `C08_milp_optimal`/`C09_milp_long_short_partial` is attained: a feasible programme (any
`max_cash`, any penalty) has an optimal point. -/
theorem C08_optimum_exists (inp : Input K) (cp : K) (maxCash : Option K) (q : MipPoint K inp.n)
    (hq : MipFeasible inp maxCash q) : ∃ p, MipOptimal inp cp maxCash p := by
  classical
  -- best completion of a lot vector
  let comp : (Fin inp.n → ℤ) → MipPoint K inp.n := fun x =>
    ⟨x, fun i => |inp.ppl i * x i - inp.target i|, inp.total - ∑ i, inp.ppl i * x i⟩
  have habs : ∀ p, MipFeasible inp maxCash p → ∀ i, |inp.ppl i * p.x i - inp.target i| ≤ p.u i := by
    intro p hp i
    rw [abs_le]
    constructor <;> linarith [hp.upper i, hp.lower i]
  have hcomp : ∀ p, MipFeasible inp maxCash p → MipFeasible inp maxCash (comp p.x) ∧
      mipObj cp (comp p.x) ≤ mipObj cp p := by
    intro p hp
    have hr : inp.total - ∑ i, inp.ppl i * p.x i = p.r := by linarith [hp.budget]
    refine ⟨⟨hp.xlb, hp.xub, fun i => abs_nonneg _, fun i => (habs p hp i).trans (hp.uub i), ?_, ?_, ?_, ?_, ?_⟩, ?_⟩
    · show 0 ≤ inp.total - ∑ i, inp.ppl i * p.x i
      rw [hr]; exact hp.rlb
    · show inp.total - ∑ i, inp.ppl i * p.x i ≤ _
      rw [hr]; exact hp.rub
    · show ∑ i, inp.ppl i * p.x i + (inp.total - ∑ i, inp.ppl i * p.x i) = _
      ring
    · intro i
      show inp.ppl i * p.x i - |inp.ppl i * p.x i - inp.target i| ≤ _
      linarith [le_abs_self (inp.ppl i * p.x i - inp.target i)]
    · intro i
      show -(inp.ppl i * p.x i) - |inp.ppl i * p.x i - inp.target i| ≤ _
      linarith [neg_abs_le (inp.ppl i * p.x i - inp.target i)]
    · show ∑ i, |inp.ppl i * p.x i - inp.target i| + cp * (inp.total - ∑ i, inp.ppl i * p.x i) ≤
        ∑ i, p.u i + cp * p.r
      rw [hr]
      have := Finset.sum_le_sum (fun i (_ : i ∈ Finset.univ) => habs p hp i)
      linarith
  let S : Finset (Fin inp.n → ℤ) :=
    (Fintype.piFinset (fun i => Finset.Icc (inp.lotLb i) (inp.maxLots i))).filter
      (fun x => MipFeasible inp maxCash (comp x))
  have hmem : ∀ p, MipFeasible inp maxCash p → p.x ∈ S := by
    intro p hp
    refine Finset.mem_filter.mpr ⟨Fintype.mem_piFinset.mpr fun i => Finset.mem_Icc.mpr ⟨hp.xlb i, hp.xub i⟩, ?_⟩
    exact (hcomp p hp).1
  obtain ⟨x, hx, hmin⟩ := Finset.exists_min_image S (fun x => mipObj cp (comp x)) ⟨q.x, hmem q hq⟩
  exact ⟨comp x, (Finset.mem_filter.mp hx).2, fun p hp => (hmin p.x (hmem p hp)).trans (hcomp p hp).2⟩

example : ∃ inp p, mkInput exW exP 1000 exLots = .ok inp ∧ MipOptimal inp 1 none p := by
  obtain ⟨inp, h⟩ := (C07_validation_iff.1).mpr exValid
  obtain ⟨q, hq⟩ := (C08_milp_optimal inp h exLong 1).1
  obtain ⟨p, hp⟩ := C08_optimum_exists inp 1 none q hq
  exact ⟨inp, p, h, hp⟩

/-- **C09** (what does hold) With shorts, if no normalised weight exceeds 100% in size, the MILP allocation is
optimal among all whole-lot allocations with the target's signs and no position larger than the total.  Missing from
the full property: targets with a leg above 100%, see `C09_leverage_infeasible`, `C09_long_leg_capped`. -/
theorem C09_milp_long_short_partial (inp : Input K) (hin : mkInput weights prices total lots = .ok inp)
    (hw : ∀ i, |inp.w i| ≤ 1) (cp : K) (p : MipPoint K inp.n) (ho : MipOptimal inp cp none p) :
    ∃ r, allocateMip inp (some p) = .ok r ∧ ∀ y, Unlevered inp y → lotsCost inp y ≤ inp.total →
      inp.total * r.trackingError + cp * r.leftover ≤ l1Dollar inp y + cp * (inp.total - lotsCost inp y) :=
  mip_optimal_unlevered (accepted_of_mkInput hin) hw ho

/-- A 150%/−50% long/short book with weights 0.9, 0.6, −0.5 meets the hypotheses. -/
example : ∃ (inp : Input ℚ) (p : _), mkInput (K := ℚ) [("A", 9/10), ("B", 6/10), ("C", -5/10)] [("A", 1), ("B", 2), ("C", 3)] 100 none = .ok inp ∧
    (∀ i, |inp.w i| ≤ 1) ∧ inp.hasShorts = true ∧ MipOptimal inp 1 none p := by
  obtain ⟨inp, h⟩ : ∃ inp, mkInput (K := ℚ) [("A", 9/10), ("B", 6/10), ("C", -5/10)] [("A", 1), ("B", 2), ("C", 3)] 100 none
      = .ok inp := ⟨_, (mkInput_ok_iff _ _ _ _ _).mpr ⟨by decide +kernel, rfl⟩⟩
  have h' := ((mkInput_ok_iff _ _ _ _ _).mp h).2
  have hw : (∀ i, |inp.w i| ≤ 1) ∧ inp.hasShorts = true := by rw [h']; decide +kernel
  obtain ⟨p, hp⟩ := C08_optimum_exists inp 1 none _
    (unlevered_feasible (accepted_of_mkInput h) hw.1 (fun _ => 0)
      (fun i => ⟨fun _ => by simpa using (accepted_of_mkInput h).total.le,
        fun _ => by simpa using (accepted_of_mkInput h).total.le⟩)
      (by simpa [lotsCost] using (accepted_of_mkInput h).total.le))
  exact ⟨inp, p, h, hw.1, hw.2, hp⟩

/-- **C09** (negation) An accepted 300%/−200% target has an exact whole-share allocation (300 and −200 shares), yet
the programme handed to the solver is infeasible, so any correct solver fails and the call raises `RuntimeError`. -/
theorem C09_leverage_infeasible :
    ∃ inp : Input ℚ, mkInput (K := ℚ) [("A", 3), ("B", -2)] [("A", 1), ("B", 1)] 100 none = .ok inp ∧
      (∃ y : Fin inp.n → ℤ, lotsCost inp y = inp.total ∧ l1Dollar inp y = 0) ∧
      ∀ maxCash p, ¬ MipFeasible inp maxCash p := by
  refine ⟨ofRows (K := ℚ) [⟨"A", 3, 1, 1⟩, ⟨"B", -2, 1, 1⟩] 1 100 true, ?_, ?_, ?_⟩
  · rw [mkInput_ok_iff]
    refine ⟨?_, ?_⟩
    · decide +kernel
    · have h1 : List.filter (fun p => !isclose0 p.2) [("A", (3:ℚ)), ("B", -2)] = [("A", 3), ("B", -2)] := by
        decide +kernel
      rw [h1]
      have h2 : alignRows [("A", (3:ℚ)), ("B", -2)] [("A", 1), ("B", 1)] none =
          [⟨"A", 3, 1, 1⟩, ⟨"B", -2, 1, 1⟩] := by decide +kernel
      rw [h2]
      have h3 : (List.map Row.w [(⟨"A", 3, 1, 1⟩ : Row ℚ), ⟨"B", -2, 1, 1⟩]).sum = 1 := by decide +kernel
      rw [h3]
      have h4 : [("A", (3:ℚ)), ("B", -2)].any (fun p => decide (p.2 < 0)) = true := by decide +kernel
      rw [h4]
  · refine ⟨(![300, -200] : Fin 2 → ℤ), ?_, ?_⟩
    · show ∑ i : Fin 2, _ = (100:ℚ)
      rw [Fin.sum_univ_two]
      simp [ofRows]; norm_num
    · show ∑ i : Fin 2, _ = (0:ℚ)
      rw [Fin.sum_univ_two]
      simp [ofRows]; norm_num
  · intro mc p hf
    have h1 := hf.xub (⟨0, by decide⟩ : Fin 2)
    have h2 := hf.uub (⟨0, by decide⟩ : Fin 2)
    have h3 := hf.lower (⟨0, by decide⟩ : Fin 2)
    have hm : (ofRows (K := ℚ) [⟨"A", 3, 1, 1⟩, ⟨"B", -2, 1, 1⟩] 1 100 true).maxLots (⟨0, by decide⟩ : Fin 2) = 101 := by
      decide +kernel
    rw [hm] at h1
    have h1q : ((p.x (⟨0, by decide⟩ : Fin 2) : ℤ) : ℚ) ≤ 101 := by exact_mod_cast h1
    have e1 : (ofRows (K := ℚ) [⟨"A", 3, 1, 1⟩, ⟨"B", -2, 1, 1⟩] 1 100 true).ppl (⟨0, by decide⟩ : Fin 2) = 1 := by
      decide +kernel
    have e2 : (ofRows (K := ℚ) [⟨"A", 3, 1, 1⟩, ⟨"B", -2, 1, 1⟩] 1 100 true).target (⟨0, by decide⟩ : Fin 2) = 300 := by
      decide +kernel
    have e3 : (ofRows (K := ℚ) [⟨"A", 3, 1, 1⟩, ⟨"B", -2, 1, 1⟩] 1 100 true).total = 100 := rfl
    rw [e1, e2] at h3
    rw [e3] at h2
    linarith

/-- **C09** (extent of the defect) Whatever the target, no feasible point holds more than the total plus one lot of
any asset: a long leg above 100% is silently capped. -/
theorem C09_long_leg_capped (inp : Input K) (hin : mkInput weights prices total lots = .ok inp)
    (maxCash : Option K) (p : MipPoint K inp.n) (hf : MipFeasible inp maxCash p) (i : Fin inp.n) :
    (inp.price i * inp.lot i) * p.x i ≤ inp.total + inp.price i * inp.lot i := by
  have ha := accepted_of_mkInput hin
  have hp : 0 < inp.ppl i := mul_pos (ha.price i) (by exact_mod_cast ha.lot i)
  have h1 := hf.xub i
  unfold Input.maxLots at h1
  rw [if_pos hp] at h1
  have h0 : 0 ≤ ⌊inp.total / inp.ppl i⌋ := Int.floor_nonneg.mpr (div_nonneg ha.total.le hp.le)
  rw [max_eq_left (by omega)] at h1
  have h1q : (p.x i : K) ≤ ⌊inp.total / inp.ppl i⌋ + 1 := by exact_mod_cast h1
  have h2 := Int.floor_le (inp.total / inp.ppl i)
  rw [le_div_iff₀ hp] at h2
  show inp.ppl i * (p.x i : K) ≤ inp.total + inp.ppl i
  nlinarith

/-- **C100** Method names, in upper or lower case.  On validated inputs `greedy` and `rounddown` are the same method; `milp`, `mip`, `integer` and `lp` all
return the integer programme's solution `p` turned into shares (`p.x` lots of `lot` shares each), or fail with `RuntimeError` when
there is none; every other name is rejected with `ValueError`. -/
theorem C100_method_names (hv : Valid weights prices total lots) (method : String) (maxIter : Option ℤ) (mode : Mode)
    (sortBy : (inp : Input K) → Equiv.Perm (Fin inp.n)) (solve : (inp : Input K) → Option (MipPoint K inp.n)) :
    (method.toLower = "greedy" ∨ method.toLower = "rounddown" →
      discretize weights prices total lots method maxIter mode sortBy solve =
        discretize weights prices total lots "greedy" maxIter mode sortBy solve) ∧
    (method.toLower = "milp" ∨ method.toLower = "mip" ∨ method.toLower = "integer" ∨ method.toLower = "lp" →
      ∃ inp, mkInput weights prices total lots = .ok inp ∧
        (solve inp = none → discretize weights prices total lots method maxIter mode sortBy solve = .error .runtimeError) ∧
        ∀ p, solve inp = some p → discretize weights prices total lots method maxIter mode sortBy solve =
          buildResult inp (fun i => p.x i * inp.lot i)) ∧
    (method.toLower ∉ ["greedy", "rounddown", "milp", "mip", "integer", "lp"] →
      discretize weights prices total lots method maxIter mode sortBy solve = .error .valueError) := by
  obtain ⟨inp, hm⟩ := C07_validation_iff.1.mpr hv
  have hn : inp.n ≠ 0 := (accepted_of_mkInput hm).npos.ne'
  refine ⟨?_, ?_, ?_⟩
  · intro h
    unfold discretize
    rw [show parseMethod method = .ok .greedy from if_pos h, show parseMethod "greedy" = .ok .greedy from if_pos (Or.inl lower_greedy)]
  · intro h
    refine ⟨inp, hm, fun hs => ?_, fun p hs => ?_⟩ <;>
    · unfold discretize
      rcases h with h | h | h | h <;> simp [hm, parseMethod, allocateMip, hn, hs, h]
  · intro h
    simp only [List.mem_cons, List.not_mem_nil, or_false, not_or] at h
    obtain ⟨h1, h2, h3, h4, h5, h6⟩ := h
    unfold discretize
    simp [hm, parseMethod, h1, h2, h3, h4, h5, h6]

end

end PyV.Props
