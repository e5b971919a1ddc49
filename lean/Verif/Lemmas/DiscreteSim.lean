import Verif.Lemmas.DiscreteResult
import Mathlib.Tactic.LinearCombination

/-!
# Two runs of the greedy allocator in different units

`s'` holds the same weights as `s`, its amount of money and its costs per lot are `k` times those of `s`.  If the tests against `1e-12` agree, the two
runs make the same decisions.
-/

namespace PyV.Discrete

open PyV

variable {K : Type*} [Field K] [LinearOrder K] [IsStrictOrderedRing K] [FloorRing K] {n : ℕ} {s s' : Sorted K n} {k : K}

/-- The same problem in units `k` times smaller, with other lot sizes. -/
structure Scaled (k : K) (s s' : Sorted K n) : Prop where
  pos : 0 < k
  w : ∀ i, s'.w i = s.w i
  cost : ∀ i, s'.cost i = k * s.cost i
  total : s'.total = k * s.total

/-- Corresponding loop states. -/
structure Rel (k : K) (s s' : Sorted K n) (st st' : GState K n) : Prop where
  shares : ∀ i, st.shares i * s'.lot i = st'.shares i * s.lot i
  nonneg : ∀ i, 0 ≤ st.shares i
  nonneg' : ∀ i, 0 ≤ st'.shares i
  cash : st'.cash = k * st.cash
  iter : st'.iter = st.iter
  unaff : st'.unaff = st.unaff
  lastDef : st'.lastDef = st.lastDef
  broke : st'.broke = st.broke

/-- The tolerance makes no difference at this amount of cash. -/
def Insensitive (k : K) (s : Sorted K n) (cash : K) : Prop :=
  ∀ i, (s.cost i ≤ cash + tol ↔ k * s.cost i ≤ k * cash + tol) ∧ ⌊(k * cash + tol) / (k * s.cost i)⌋ = ⌊(cash + tol) / s.cost i⌋

theorem shares_value (h : SValid s) (h' : SValid s') (hsc : Scaled k s s') {sh sh' : Fin n → ℤ} (i : Fin n)
    (he : sh i * s'.lot i = sh' i * s.lot i) : (sh' i : K) * s'.price i = k * (sh i * s.price i) := by
  have hl : (0 : K) < s.lot i := by exact_mod_cast h.lot i
  have hl' : (0 : K) < s'.lot i := by exact_mod_cast h'.lot i
  have he' : (sh i : K) * s'.lot i = sh' i * s.lot i := by exact_mod_cast he
  have hc : s'.price i * s'.lot i = k * (s.price i * s.lot i) := hsc.cost i
  have : ((sh' i : K) * s'.price i) * (s.lot i * s'.lot i) = (k * (sh i * s.price i)) * (s.lot i * s'.lot i) := by
    calc _ = (sh' i * s.lot i : K) * (s'.price i * s'.lot i) := by ring
      _ = (sh i * s'.lot i : K) * (k * (s.price i * s.lot i)) := by rw [← he', hc]
      _ = _ := by ring
  exact mul_right_cancel₀ (mul_pos hl hl').ne' this

theorem minCost_scaled (h : SValid s) (hsc : Scaled k s s') : minCost s' = k * minCost s := by
  have e : firstArgmin s'.cost = firstArgmin s.cost := by
    unfold firstArgmin
    congr 1
    funext i
    simp only [hsc.cost, mul_le_mul_iff_right₀ hsc.pos]
  unfold minCost
  rw [e]
  obtain ⟨j, hj⟩ := firstArgmin_ne_none h.npos s.cost
  rw [hj]
  exact hsc.cost j

theorem minCost_is (h : SValid s) : ∃ i, minCost s = s.cost i := by
  obtain ⟨j, hj⟩ := firstArgmin_ne_none h.npos s.cost
  exact ⟨j, by unfold minCost; rw [hj]⟩

theorem deficits_scaled (h : SValid s) (h' : SValid s') (hsc : Scaled k s s') {st st' : GState K n} (hr : Rel k s s' st st') :
    deficits s' st' = deficits s st := by
  funext i
  unfold deficits
  rw [hr.unaff, hsc.w, hsc.total, shares_value h h' hsc i (hr.shares i), mul_div_mul_left _ _ hsc.pos.ne']

/-- Corresponding outcomes of one iteration. -/
inductive RelOut (k : K) (s s' : Sorted K n) : Out K n → Out K n → Prop where
  | stop {st st'} : Rel k s s' st st' → RelOut k s s' (.stop st) (.stop st')
  | next {st st'} : Rel k s s' st st' → RelOut k s s' (.next st) (.next st')

theorem mark_scaled {st st' : GState K n} (hr : Rel k s s' st st') (c : Fin n) :
    RelOut k s s' (markUnaffordable st c) (markUnaffordable st' c) := by
  unfold markUnaffordable
  rw [hr.unaff]
  simp only
  split
  · exact .stop ⟨hr.shares, hr.nonneg, hr.nonneg', hr.cash, hr.iter, rfl, hr.lastDef, rfl⟩
  · exact .next ⟨hr.shares, hr.nonneg, hr.nonneg', hr.cash, hr.iter, rfl, hr.lastDef, hr.broke⟩

theorem step_scaled (h : SValid s) (h' : SValid s') (hsc : Scaled k s s') (m : ℤ) {st st' : GState K n} (hr : Rel k s s' st st')
    (hin : Insensitive k s st.cash) : RelOut k s s' (step s m st) (step s' m st') := by
  have hcond : (st'.cash + tol ≥ minCost s' ∧ (st'.iter : ℤ) < m) ↔ (st.cash + tol ≥ minCost s ∧ (st.iter : ℤ) < m) := by
    obtain ⟨i, hi⟩ := minCost_is h
    rw [minCost_scaled h hsc, hr.cash, hr.iter, hi]
    exact and_congr_left fun _ => ((hin i).1).symm
  unfold step
  by_cases hc : st.cash + tol ≥ minCost s ∧ (st.iter : ℤ) < m
  swap
  · rw [if_pos hc, if_pos (hcond.not.2 hc)]
    exact .stop hr
  rw [if_neg (not_not.2 hc), if_neg (not_not.2 (hcond.2 hc))]
  rw [deficits_scaled h h' hsc hr]
  simp only
  cases hd : firstArgmax (deficits s st) with
  | none => exact .stop ⟨hr.shares, hr.nonneg, hr.nonneg', hr.cash, hr.iter, hr.unaff, rfl, hr.broke⟩
  | some c =>
    simp only
    by_cases hle : deficits s st c ≤ tol
    · rw [if_pos hle, if_pos hle]
      exact .stop ⟨hr.shares, hr.nonneg, hr.nonneg', hr.cash, hr.iter, hr.unaff, rfl, rfl⟩
    rw [if_neg hle, if_neg hle]
    have hr2 : Rel k s s' { st with lastDef := deficits s st } { st' with lastDef := deficits s st } :=
      ⟨hr.shares, hr.nonneg, hr.nonneg', hr.cash, hr.iter, hr.unaff, rfl, hr.broke⟩
    have hpay : s'.cost c > st'.cash + tol ↔ s.cost c > st.cash + tol := by
      rw [hsc.cost, hr.cash, gt_iff_lt, gt_iff_lt, ← not_le, ← not_le, (hin c).1]
    by_cases haff : s.cost c > st.cash + tol
    · rw [if_pos haff, if_pos (hpay.2 haff)]
      exact mark_scaled hr2 c
    rw [if_neg haff, if_neg (hpay.not.2 haff)]
    have hp1 : s.cost c > 0 := h.cost_pos c
    have hp2 : s'.cost c > 0 := h'.cost_pos c
    simp only [hp1, hp2, if_true]
    have e1 : ⌊(st'.cash + tol) / s'.cost c⌋ = ⌊(st.cash + tol) / s.cost c⌋ := by rw [hr.cash, hsc.cost, (hin c).2]
    have e2 : deficits s st c * s'.total / s'.cost c = deficits s st c * s.total / s.cost c := by
      rw [hsc.total, hsc.cost, show deficits s st c * (k * s.total) = k * (deficits s st c * s.total) by ring, mul_div_mul_left _ _ hsc.pos.ne']
    rw [e1, e2]
    generalize hb : min ⌊(st.cash + tol) / s.cost c⌋ (max ⌊deficits s st c * s.total / s.cost c⌋ 1) = buy
    by_cases hb0 : buy ≤ 0
    · rw [if_pos hb0, if_pos hb0]
      exact mark_scaled hr2 c
    rw [if_neg hb0, if_neg hb0]
    have hbp : 0 ≤ buy := by omega
    refine .next ⟨fun i => ?_, fun i => ?_, fun i => ?_, ?_, by simp [hr.iter], by simp [hr.unaff], rfl, hr.broke⟩
    · by_cases hic : i = c
      · subst hic
        simp only [Function.update_self]
        have := hr.shares i
        linear_combination this
      · simpa [Function.update_of_ne hic] using hr.shares i
    · by_cases hic : i = c
      · subst hic
        simp only [Function.update_self]
        exact add_nonneg (hr.nonneg i) (mul_nonneg hbp (h.lot i).le)
      · simpa [Function.update_of_ne hic] using hr.nonneg i
    · by_cases hic : i = c
      · subst hic
        simp only [Function.update_self]
        exact add_nonneg (hr.nonneg' i) (mul_nonneg hbp (h'.lot i).le)
      · simpa [Function.update_of_ne hic] using hr.nonneg' i
    · simp only [hr.cash, hsc.cost]
      ring

/-- What an iteration does to the cash. -/
theorem step_cash (s : Sorted K n) (m : ℤ) (st : GState K n) : (∀ y, step s m st = .stop y → y.cash = st.cash) ∧
    ∀ y, step s m st = .next y → ∃ (c : Fin n) (b : ℤ), y.cash = st.cash - b * s.cost c := by
  have hmark : ∀ (x : GState K n) (c : Fin n), (∀ y, markUnaffordable x c = .stop y → y.cash = x.cash) ∧
      ∀ y, markUnaffordable x c = .next y → y.cash = x.cash := by
    intro x c
    unfold markUnaffordable
    simp only
    by_cases hc : (insert c x.unaff).card = n
    · rw [if_pos hc]
      exact ⟨fun y hy => by injection hy with hy; rw [← hy], fun y hy => by cases hy⟩
    · rw [if_neg hc]
      exact ⟨fun y hy => (nomatch hy), fun y hy => by injection hy with hy; rw [← hy]⟩
  unfold step
  by_cases hc : st.cash + tol ≥ minCost s ∧ (st.iter : ℤ) < m
  swap
  · rw [if_pos hc]
    exact ⟨fun y hy => by injection hy with hy; rw [← hy], fun y hy => by cases hy⟩
  rw [if_neg (not_not.2 hc)]
  simp only
  cases hd : firstArgmax (deficits s st) with
  | none => exact ⟨fun y hy => by injection hy with hy; rw [← hy], fun y hy => by cases hy⟩
  | some c =>
    simp only
    by_cases hle : deficits s st c ≤ tol
    · rw [if_pos hle]
      exact ⟨fun y hy => by injection hy with hy; rw [← hy], fun y hy => by cases hy⟩
    rw [if_neg hle]
    obtain ⟨m1, m2⟩ := hmark { st with lastDef := deficits s st } c
    by_cases haff : s.cost c > st.cash + tol
    · rw [if_pos haff]
      exact ⟨fun y hy => m1 y hy, fun y hy => ⟨c, 0, by rw [m2 y hy]; simp⟩⟩
    rw [if_neg haff]
    generalize min ⌊(st.cash + tol) / s.cost c⌋ (max (if s.cost c > 0 then ⌊deficits s st c * s.total / s.cost c⌋ else 0) 1) = buy
    by_cases hb0 : buy ≤ 0
    · rw [if_pos hb0]
      exact ⟨fun y hy => m1 y hy, fun y hy => ⟨c, 0, by rw [m2 y hy]; simp⟩⟩
    rw [if_neg hb0]
    exact ⟨fun y hy => (nomatch hy), fun y hy => by injection hy with hy; exact ⟨c, buy, by rw [← hy]⟩⟩

/-- The whole loop, for any property of the cash that makes the tolerance harmless and survives purchases. -/
theorem loop_scaled (h : SValid s) (h' : SValid s') (hsc : Scaled k s s') (m : ℤ) (Q : K → Prop) (hQ : ∀ c, Q c → Insensitive k s c)
    (hstep : ∀ st st1, Q st.cash → step s m st = .next st1 → Q st1.cash) (fuel : ℕ) {st st' : GState K n} (hr : Rel k s s' st st') (hq : Q st.cash) :
    (loop s m fuel st = none ∧ loop s' m fuel st' = none) ∨
      ∃ x x', loop s m fuel st = some x ∧ loop s' m fuel st' = some x' ∧ Rel k s s' x x' ∧ (Q st.cash → Q x.cash) := by
  induction fuel generalizing st st' with
  | zero => exact Or.inl ⟨rfl, rfl⟩
  | succ f ih =>
    have ho := step_scaled h h' hsc m hr (hQ _ hq)
    unfold loop
    have hst := hstep st
    generalize ha : step s m st = a at ho hst
    generalize step s' m st' = b at ho
    cases ho with
    | stop hx =>
      refine Or.inr ⟨_, _, rfl, rfl, hx, fun hq => ?_⟩
      rw [(step_cash s m st).1 _ ha]
      exact hq
    | next hx =>
      have hq' := hst _ hq rfl
      rcases ih hx hq' with h1 | ⟨x, x', h1, h2, h3, h4⟩
      · exact Or.inl h1
      · exact Or.inr ⟨x, x', h1, h2, h3, fun _ => h4 hq'⟩

/-- The states in which the two loops start. -/
theorem init_scaled (h : SValid s) (h' : SValid s') (hsc : Scaled k s s') : Rel k s s' (initState s) (initState s') := by
  obtain ⟨a, -, c, d⟩ := floorPass_spec h
  obtain ⟨a', -, c', d'⟩ := floorPass_spec h'
  have hs : ∀ i, (floorPass s).1 i * s'.lot i = (floorPass s').1 i * s.lot i := by
    intro i
    rw [d, d', hsc.w, hsc.total, hsc.cost, show s.w i * (k * s.total) = k * (s.w i * s.total) by ring, mul_div_mul_left _ _ hsc.pos.ne']
    ring
  refine ⟨hs, fun i => ?_, fun i => ?_, ?_, rfl, rfl, funext hsc.w, rfl⟩
  · obtain ⟨⟨x, hx, e⟩, -⟩ := c i
    exact (mul_nonneg hx (h.lot i).le).trans_eq e.symm
  · obtain ⟨⟨x, hx, e⟩, -⟩ := c' i
    exact (mul_nonneg hx (h'.lot i).le).trans_eq e.symm
  · show (floorPass s').2 = k * (floorPass s).2
    rw [a, a', hsc.total, mul_sub]
    unfold val
    rw [Finset.mul_sum]
    exact congrArg _ (Finset.sum_congr rfl fun i _ => shares_value h h' hsc i (hs i))

/-- The hand-over decision. -/
theorem fallback_scaled (h : SValid s) (hsc : Scaled k s s') (m : ℤ) {st st' : GState K n} (hr : Rel k s s' st st')
    (hc : Insensitive k s st.cash) (ht : Insensitive k s s.total) (hl : ∀ i, 0 < s.lot i) (hl' : ∀ i, 0 < s'.lot i) :
    shouldFallback s' m st' = shouldFallback s m st := by
  obtain ⟨i, hi⟩ := minCost_is h
  have e1 : (st'.cash + tol ≥ minCost s') ↔ (st.cash + tol ≥ minCost s) := by
    rw [minCost_scaled h hsc, hr.cash, hi]; exact (hc i).1.symm
  have e2 : (s'.total + tol ≥ minCost s') ↔ (s.total + tol ≥ minCost s) := by
    rw [minCost_scaled h hsc, hsc.total, hi]; exact (ht i).1.symm
  have e3 : (∑ i, st'.shares i = 0) ↔ (∑ i, st.shares i = 0) := by
    rw [Finset.sum_eq_zero_iff_of_nonneg (fun i _ => hr.nonneg' i), Finset.sum_eq_zero_iff_of_nonneg (fun i _ => hr.nonneg i)]
    refine forall_congr' fun i => imp_congr_right fun _ => ?_
    have := hr.shares i
    have p := (hl i).ne'
    have p' := (hl' i).ne'
    constructor
    · intro h0
      rw [h0, zero_mul] at this
      exact (mul_eq_zero.1 this).resolve_right p'
    · intro h0
      rw [h0, zero_mul] at this
      exact (mul_eq_zero.1 this.symm).resolve_right p
  unfold shouldFallback
  simp only [e1, e2, e3, hr.iter, hr.broke, hr.lastDef]

omit [IsStrictOrderedRing K] in
theorem insensitive_one (s : Sorted K n) (c : K) : Insensitive 1 s c := by
  intro i
  simp

/-- With all costs and the cash whole multiples of a unit larger than the tolerance, the tolerance makes no difference. -/
theorem insensitive_unit (h : SValid s) {u : K} (hu : tol < u) (hk : 0 < k) (hku : tol < k * u) (hcost : ∀ i, ∃ b : ℤ, s.cost i = b * u) {c : K}
    (hc : ∃ a : ℤ, c = a * u) : Insensitive k s c := by
  intro i
  obtain ⟨b, hb⟩ := hcost i
  obtain ⟨a, rfl⟩ := hc
  have hu0 : 0 < u := tol_pos.trans hu
  have hb0 : 0 < b := by
    have := h.cost_pos i
    rw [hb] at this
    exact_mod_cast (pos_iff_pos_of_mul_pos this).2 hu0
  have hbK : (0 : K) < b := by exact_mod_cast hb0
  have key : ∀ v : K, tol < v → 0 < v → ((b : K) * v ≤ a * v + tol ↔ b ≤ a) ∧ ⌊((a : K) * v + tol) / (b * v)⌋ = a / b := by
    intro v hv hv0
    constructor
    · constructor
      · intro hle
        have : (b : K) * v < (a + 1 : ℤ) * v := by push_cast; linarith
        have := lt_of_mul_lt_mul_right this hv0.le
        have : b < a + 1 := by exact_mod_cast this
        omega
      · intro hle
        have : (b : K) ≤ a := by exact_mod_cast hle
        have := mul_le_mul_of_nonneg_right this hv0.le
        linarith [tol_pos (K := K)]
    · rw [Int.floor_eq_iff]
      have h1 := Int.mul_ediv_self_le (x := a) (k := b) hb0.ne'
      have h2 := Int.lt_mul_ediv_self_add (x := a) hb0
      constructor
      · rw [le_div_iff₀ (mul_pos hbK hv0)]
        have : (b : K) * (a / b : ℤ) ≤ a := by exact_mod_cast h1
        have := mul_le_mul_of_nonneg_right this hv0.le
        linarith [tol_pos (K := K)]
      · rw [div_lt_iff₀ (mul_pos hbK hv0)]
        have : a + 1 ≤ b * (a / b) + b := by omega
        have : ((a : K) + 1) ≤ b * (a / b : ℤ) + b := by exact_mod_cast this
        have := mul_le_mul_of_nonneg_right this hv0.le
        linarith
  have k1 := key u hu hu0
  have k2 := key (k * u) hku (mul_pos hk hu0)
  rw [hb, show k * ((b : K) * u) = b * (k * u) by ring, show k * ((a : K) * u) = a * (k * u) by ring]
  exact ⟨k1.1.trans k2.1.symm, k2.2.trans k1.2.symm⟩

/-- Purchases keep the cash a whole multiple of the unit. -/
theorem unit_step {u : K} (hcost : ∀ i, ∃ b : ℤ, s.cost i = b * u) (m : ℤ) (st st1 : GState K n) (hq : ∃ a : ℤ, st.cash = a * u)
    (he : step s m st = .next st1) : ∃ a : ℤ, st1.cash = a * u := by
  obtain ⟨c, x, hx⟩ := (step_cash s m st).2 _ he
  obtain ⟨a, ha⟩ := hq
  obtain ⟨b, hb⟩ := hcost c
  refine ⟨a - x * b, ?_⟩
  rw [hx, ha, hb]
  push_cast
  ring

end PyV.Discrete
