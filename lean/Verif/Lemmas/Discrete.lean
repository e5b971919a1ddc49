import Verif.Model.Discrete
import Verif.Lemmas.Py
import Mathlib.Tactic.Linarith
import Mathlib.Tactic.Ring
import Mathlib.Tactic.FieldSimp
import Mathlib.Tactic.NormNum
import Mathlib.Tactic.Positivity
import Mathlib.Algebra.Order.BigOperators.Group.Finset
import Mathlib.Algebra.BigOperators.Field

set_option linter.unusedSectionVars false

namespace PyV.Discrete

open PyV

variable {K : Type*} [Field K] [LinearOrder K] [IsStrictOrderedRing K] [FloorRing K]

/-- What the greedy pass needs of its (sorted) inputs. -/
structure SValid {n : ℕ} (s : Sorted K n) : Prop where
  npos : 0 < n
  w : ∀ i, 0 ≤ s.w i
  price : ∀ i, 0 < s.price i
  lot : ∀ i, 0 < s.lot i
  total : 0 < s.total
  wsum : ∑ i, s.w i = 1

variable {n : ℕ} {s : Sorted K n}

theorem SValid.cost_pos (h : SValid s) (i : Fin n) : 0 < s.cost i := by
  have := h.lot i
  exact mul_pos (h.price i) (by exact_mod_cast this)

theorem tol_pos : 0 < (tol : K) := by unfold tol; norm_num

/-- Value of a share vector. -/
def val (s : Sorted K n) (sh : Fin n → ℤ) : K := ∑ i, (sh i : K) * s.price i

theorem val_update (s : Sorted K n) (sh : Fin n → ℤ) (c : Fin n) (x : ℤ) :
    val s (Function.update sh c (sh c + x)) = val s sh + x * s.price c := by
  classical
  unfold val
  rw [← Finset.add_sum_erase _ _ (Finset.mem_univ c), ← Finset.add_sum_erase (Finset.univ) (fun i => (sh i : K) * s.price i) (Finset.mem_univ c)]
  have : ∑ i ∈ Finset.univ.erase c, ((Function.update sh c (sh c + x) i : ℤ) : K) * s.price i
      = ∑ i ∈ Finset.univ.erase c, (sh i : K) * s.price i := by
    apply Finset.sum_congr rfl
    intro i hi
    rw [Function.update_of_ne (Finset.ne_of_mem_erase hi)]
  rw [this]
  simp only [Function.update_self, Int.cast_add]
  ring

/-- Bounds on one asset used as invariant: whole lots, within one lot of target. -/
def Near (s : Sorted K n) (sh : Fin n → ℤ) (i : Fin n) : Prop :=
  (∃ k : ℤ, 0 ≤ k ∧ sh i = k * s.lot i) ∧
  s.w i * s.total - s.cost i < sh i * s.price i ∧ sh i * s.price i < s.w i * s.total + s.cost i

theorem floor_foldl (h : SValid s) (l : List (Fin n)) (hl : l.Nodup) (sh : Fin n → ℤ) (cash : K)
    (hcash : cash = s.total - val s sh) (hge : s.total * (l.map s.w).sum ≤ cash)
    (hz : ∀ i ∈ l, sh i = 0) (hnear : ∀ i, i ∉ l → Near s sh i) :
    let r := l.foldl (floorStep s) (sh, cash)
    r.2 = s.total - val s r.1 ∧ 0 ≤ r.2 ∧ (∀ i, Near s r.1 i) ∧
      (∀ i ∈ l, r.1 i = ⌊s.w i * s.total / s.cost i⌋ * s.lot i) ∧ (∀ i, i ∉ l → r.1 i = sh i) := by
  induction l generalizing sh cash with
  | nil => simp_all
  | cons a l ih =>
    rw [List.nodup_cons] at hl
    simp only [List.foldl_cons]
    have hc := h.cost_pos a
    have hlot := h.lot a
    have hlq : (0 : K) < s.lot a := by exact_mod_cast hlot
    have hw := h.w a
    have ht := h.total
    have hwt : 0 ≤ s.w a * s.total := mul_nonneg hw ht.le
    have hsha : sh a = 0 := hz a (by simp)
    have hlsum : 0 ≤ (l.map s.w).sum := List.sum_nonneg (by
      intro x hx; rw [List.mem_map] at hx; obtain ⟨j, -, rfl⟩ := hx; exact h.w j)
    simp only [List.map_cons, List.sum_cons] at hge
    have hge' : s.w a * s.total ≤ cash := by nlinarith [mul_nonneg ht.le hlsum]
    -- the number of lots bought is the floor, in every branch
    set k : ℤ := ⌊s.w a * s.total / s.cost a⌋ with hk
    have hk0 : 0 ≤ k := Int.floor_nonneg.mpr (div_nonneg hwt hc.le)
    have hkle : (k : K) * s.cost a ≤ s.w a * s.total := by
      have := Int.floor_le (s.w a * s.total / s.cost a)
      rwa [le_div_iff₀ hc] at this
    have hklt : s.w a * s.total < (k + 1 : K) * s.cost a := by
      have := Int.lt_floor_add_one (s.w a * s.total / s.cost a)
      rwa [div_lt_iff₀ hc] at this
    have hstep : floorStep s (sh, cash) a =
        (Function.update sh a (sh a + k * s.lot a), cash - k * s.cost a) := by
      unfold floorStep
      have e1 : s.price a * s.lot a = s.cost a := rfl
      simp only [e1]
      by_cases h1 : s.cost a > cash
      · have hkz : k = 0 := by
          by_contra hne
          have : (1 : ℤ) ≤ k := by omega
          have : (1 : K) ≤ k := by exact_mod_cast this
          nlinarith
        simp [h1, hkz]
      · simp only [h1, if_false]
        rw [← hk]
        by_cases h2 : k ≤ 0
        · have hkz : k = 0 := by omega
          simp [hkz]
        · simp [h2]
    rw [hstep]
    have hrec := ih hl.2 (Function.update sh a (sh a + k * s.lot a)) (cash - k * s.cost a) ?_ ?_ ?_ ?_
    · obtain ⟨r1, r2, r3, r4, r5⟩ := hrec
      refine ⟨r1, r2, r3, ?_, ?_⟩
      · intro i hi
        rcases List.mem_cons.mp hi with rfl | hi
        · rw [r5 _ hl.1]; simp [hsha, ← hk]
        · exact r4 i hi
      · intro i hi
        rw [List.mem_cons, not_or] at hi
        rw [r5 i hi.2, Function.update_of_ne hi.1]
    · rw [val_update, hcash]
      simp only [Sorted.cost]
      push_cast
      ring
    · nlinarith
    · intro i hi
      rw [Function.update_of_ne (by rintro rfl; exact hl.1 hi)]
      exact hz i (List.mem_cons_of_mem _ hi)
    · intro i hi
      by_cases hia : i = a
      · subst hia
        refine ⟨⟨k, hk0, by simp [hsha]⟩, ?_, ?_⟩ <;>
        · simp only [Function.update_self, hsha, zero_add, Int.cast_mul]
          have : (k : K) * s.lot i * s.price i = k * s.cost i := by simp only [Sorted.cost]; ring
          rw [this]
          nlinarith
      · have := hnear i (by simp [hia, hi])
        unfold Near at this ⊢
        simpa [Function.update_of_ne hia] using this

theorem floorPass_spec (h : SValid s) :
    (floorPass s).2 = s.total - val s (floorPass s).1 ∧ 0 ≤ (floorPass s).2 ∧
      (∀ i, Near s (floorPass s).1 i) ∧
      ∀ i, (floorPass s).1 i = ⌊s.w i * s.total / s.cost i⌋ * s.lot i := by
  have hw : ((List.finRange n).map s.w).sum = 1 := by
    rw [← h.wsum, ← List.ofFn_eq_map, List.sum_ofFn]
  have := floor_foldl h (List.finRange n) (List.nodup_finRange n) (fun _ => 0) s.total
    (by simp [val]) (by rw [hw]; linarith [h.total]) (by simp) (by simp [List.mem_finRange])
  obtain ⟨a, b, c, d, -⟩ := this
  exact ⟨a, b, c, fun i => d i (List.mem_finRange i)⟩

/-- Assets whose market value exceeds the target. -/
def reached (s : Sorted K n) (sh : Fin n → ℤ) : Finset (Fin n) :=
  Finset.univ.filter (fun i => s.w i * s.total < sh i * s.price i)

/-- Loop invariant. -/
structure Inv (s : Sorted K n) (st : GState K n) : Prop where
  cash : st.cash = s.total - val s st.shares
  low : -tol ≤ st.cash
  near : ∀ i, Near s st.shares i
  unaff : ∀ i ∈ st.unaff, st.cash + tol < s.cost i
  broke : st.broke = false
  bought : st.iter ≤ (reached s st.shares).card

theorem inv_init (h : SValid s) : Inv s (initState s) := by
  obtain ⟨a, b, c, -⟩ := floorPass_spec h
  exact ⟨a, by simp only [initState]; linarith [(tol_pos (K := K))], c, by simp [initState], rfl, by simp [initState]⟩

theorem minCost_le (h : SValid s) (i : Fin n) : minCost s ≤ s.cost i := by
  unfold minCost
  obtain ⟨c, hc⟩ := firstArgmin_ne_none h.npos s.cost
  rw [hc]
  exact firstArgmin_spec hc i

theorem minCost_pos (h : SValid s) : 0 < minCost s := by
  unfold minCost
  obtain ⟨c, hc⟩ := firstArgmin_ne_none h.npos s.cost
  rw [hc]
  exact h.cost_pos c

/-- What holds of the state when the loop has stopped. -/
structure Post (s : Sorted K n) (maxIter : ℤ) (st : GState K n) : Prop where
  cash : st.cash = s.total - val s st.shares
  low : -tol ≤ st.cash
  near : ∀ i, Near s st.shares i
  iter : st.iter ≤ maxIter.toNat
  bought : st.iter ≤ (reached s st.shares).card
  maximal : st.broke = true ∨ (st.iter : ℤ) < maxIter →
    ∀ i, s.w i - st.shares i * s.price i / s.total ≤ tol ∨ st.cash + tol < s.cost i

/-- Progress measure: purchases left, then assets not yet marked. -/
def measureOf (maxIter : ℤ) (st : GState K n) : ℕ := (maxIter.toNat - st.iter) + (n - st.unaff.card)

theorem deficit_le (st : GState K n) (i : Fin n) (hi : i ∉ st.unaff) :
    s.w i - st.shares i * s.price i / s.total ≤ deficits s st i := by
  unfold deficits
  simp only [hi, if_false]
  split <;> linarith

theorem mark_cases (st : GState K n) (c : Fin n) (hc : c ∉ st.unaff) :
    (∃ st', markUnaffordable st c = .stop st' ∧ st' = { st with unaff := insert c st.unaff, broke := true } ∧
      (insert c st.unaff) = Finset.univ) ∨
    (∃ st', markUnaffordable st c = .next st' ∧ st' = { st with unaff := insert c st.unaff } ∧
      (insert c st.unaff).card = st.unaff.card + 1 ∧ st.unaff.card + 1 < n) := by
  unfold markUnaffordable
  have hcard := Finset.card_insert_of_notMem hc
  by_cases h : (insert c st.unaff).card = n
  · left
    refine ⟨_, by simp [h], rfl, ?_⟩
    rw [← Finset.card_eq_iff_eq_univ]
    simpa using h
  · right
    refine ⟨_, by simp [h], rfl, hcard, ?_⟩
    have : (insert c st.unaff).card ≤ n := by simpa using Finset.card_le_univ (insert c st.unaff)
    omega

theorem Inv.iter_le {st : GState K n} (hI : Inv s st) : st.iter ≤ n :=
  le_trans hI.bought (by simpa using Finset.card_le_univ (reached s st.shares))

theorem Post.iter_le {m : ℤ} {st : GState K n} (hI : Post s m st) : st.iter ≤ n :=
  le_trans hI.bought (by simpa using Finset.card_le_univ (reached s st.shares))

/-- One step: either stops in a good state or continues with the invariant and a smaller measure. -/
theorem step_spec (h : SValid s) (maxIter : ℤ) (st : GState K n) (hI : Inv s st)
    (hit : st.iter ≤ maxIter.toNat) :
    (∃ st', step s maxIter st = .stop st' ∧ Post s maxIter st') ∨
    (∃ st', step s maxIter st = .next st' ∧ Inv s st' ∧ st'.iter ≤ maxIter.toNat ∧
      (st'.iter = st.iter ∧ st'.unaff.card = st.unaff.card + 1 ∧ st'.unaff.card ≤ n ∨
       st'.iter = st.iter + 1 ∧ st'.unaff = st.unaff)) := by
  unfold step
  by_cases hcond : st.cash + tol ≥ minCost s ∧ (st.iter : ℤ) < maxIter
  swap
  · left
    refine ⟨st, by simp [hcond], hI.cash, hI.low, hI.near, hit, hI.bought, ?_⟩
    intro hor i
    right
    rcases hor with hb | hlt
    · rw [hI.broke] at hb; exact absurd hb (by simp)
    · have : ¬ (st.cash + tol ≥ minCost s) := fun hge => hcond ⟨hge, hlt⟩
      exact lt_of_lt_of_le (not_le.mp this) (minCost_le h i)
  · rw [if_neg (not_not.mpr hcond)]
    obtain ⟨c, hc⟩ := firstArgmax_ne_none h.npos (deficits s st)
    simp only [hc]
    have hmax := firstArgmax_spec hc
    by_cases hle : deficits s st c ≤ tol
    · left
      refine ⟨{ st with lastDef := deficits s st, broke := true }, by rw [if_pos hle], hI.cash, hI.low, hI.near, hit, hI.bought, ?_⟩
      intro _ i
      by_cases hi : i ∈ st.unaff
      · right; exact hI.unaff i hi
      · left; exact le_trans (deficit_le st i hi) (le_trans (hmax i) hle)
    · rw [if_neg hle]
      have hlt : tol < deficits s st c := not_le.mp hle
      have hcu : c ∉ st.unaff := by
        intro hmem
        have : deficits s st c = 0 := by simp [deficits, hmem]
        rw [this] at hlt
        linarith [tol_pos (K := K)]
      have hcost := h.cost_pos c
      by_cases haff : s.cost c > st.cash + tol
      · simp only [haff, if_true]
        rcases mark_cases { st with lastDef := deficits s st } c hcu with ⟨st', e, rfl, hu⟩ | ⟨st', e, rfl, hu, hn⟩
        · left
          refine ⟨_, e, hI.cash, hI.low, hI.near, hit, hI.bought, ?_⟩
          intro _ i
          right
          have hi : i ∈ insert c st.unaff := by rw [hu]; exact Finset.mem_univ i
          rcases Finset.mem_insert.mp hi with rfl | hi
          · exact haff
          · exact hI.unaff i hi
        · right
          refine ⟨_, e, ⟨hI.cash, hI.low, hI.near, ?_, hI.broke, hI.bought⟩, hit, Or.inl ⟨rfl, hu, ?_⟩⟩
          · intro i hi
            rcases Finset.mem_insert.mp hi with rfl | hi
            · exact haff
            · exact hI.unaff i hi
          · show (insert c st.unaff).card ≤ n
            have hu' : (insert c st.unaff).card = st.unaff.card + 1 := hu
            have hn' : st.unaff.card + 1 < n := hn
            omega
      · have hnl : s.cost c ≤ st.cash + tol := not_lt.mp haff
        simp only [haff, if_false, gt_iff_lt, hcost, if_true]
        set P : ℤ := ⌊(st.cash + tol) / s.cost c⌋ with hP
        set T : ℤ := ⌊deficits s st c * s.total / s.cost c⌋ with hT
        have hP1 : 1 ≤ P := by
          rw [hP, Int.le_floor, le_div_iff₀ hcost]; simpa using hnl
        have hb1 : 1 ≤ min P (max T 1) := le_min hP1 (le_max_right _ _)
        have hnb : ¬ (min P (max T 1) ≤ 0) := by omega
        rw [if_neg hnb]
        right
        set b := min P (max T 1) with hb
        have hbP : (b : K) * s.cost c ≤ st.cash + tol := by
          have h1 : (b : K) ≤ P := by exact_mod_cast min_le_left _ _
          have h2 : (P : K) * s.cost c ≤ st.cash + tol := by
            have := Int.floor_le ((st.cash + tol) / s.cost c)
            rwa [le_div_iff₀ hcost] at this
          nlinarith
        have hd : deficits s st c = s.w c - st.shares c * s.price c / s.total := by
          have h0 : (0:K) < deficits s st c := lt_trans tol_pos hlt
          unfold deficits at h0 ⊢
          simp only [hcu, if_false] at h0 ⊢
          split at h0
          · exact absurd h0 (lt_irrefl _)
          · rw [if_neg (by assumption)]
        have ht := h.total
        have hdV : deficits s st c * s.total = s.w c * s.total - st.shares c * s.price c := by
          rw [hd]; field_simp
        refine ⟨_, rfl, ⟨?_, ?_, ?_, ?_, hI.broke, ?_⟩, ?_, Or.inr ⟨rfl, Finset.erase_eq_of_notMem hcu⟩⟩
        · show st.cash - b * s.cost c = s.total - val s _
          rw [val_update, hI.cash]
          simp only [Sorted.cost]; push_cast; ring
        · show -tol ≤ st.cash - b * s.cost c
          linarith
        · intro i
          by_cases hic : i = c
          · subst hic
            obtain ⟨⟨k, hk0, hk⟩, hlo, hhi⟩ := hI.near i
            refine ⟨⟨k + b, by omega, ?_⟩, ?_, ?_⟩
            · simp only [Function.update_self]; rw [hk]; ring
            · simp only [Function.update_self, Int.cast_add, Int.cast_mul]
              have e : ((st.shares i : K) + b * s.lot i) * s.price i = st.shares i * s.price i + b * s.cost i := by
                simp only [Sorted.cost]; ring
              rw [e]
              have : (1:K) ≤ b := by exact_mod_cast hb1
              nlinarith
            · simp only [Function.update_self, Int.cast_add, Int.cast_mul]
              have e : ((st.shares i : K) + b * s.lot i) * s.price i = st.shares i * s.price i + b * s.cost i := by
                simp only [Sorted.cost]; ring
              rw [e]
              have hpos : 0 < deficits s st i * s.total := mul_pos (lt_trans tol_pos hlt) ht
              have hbm : b ≤ max T 1 := min_le_right _ _
              rcases le_total T 1 with hT1 | hT1
              · rw [max_eq_right hT1] at hbm
                have : (b:K) ≤ 1 := by exact_mod_cast hbm
                nlinarith
              · rw [max_eq_left hT1] at hbm
                have hbT : (b:K) ≤ T := by exact_mod_cast hbm
                have hTl : (T : K) * s.cost i ≤ deficits s st i * s.total := by
                  have := Int.floor_le (deficits s st i * s.total / s.cost i)
                  rwa [le_div_iff₀ hcost] at this
                nlinarith
          · have := hI.near i
            unfold Near at this ⊢
            simpa [Function.update_of_ne hic] using this
        · intro i hi
          have hi' : i ∈ st.unaff := Finset.mem_of_mem_erase hi
          have := hI.unaff i hi'
          show st.cash - b * s.cost c + tol < s.cost i
          have hb0 : (0:K) ≤ b * s.cost c := mul_nonneg (by exact_mod_cast (by omega : (0:ℤ) ≤ b)) hcost.le
          linarith
        · show st.iter + 1 ≤ (reached s (Function.update st.shares c (st.shares c + b * s.lot c))).card
          have hcn : c ∉ reached s st.shares := by
            simp only [reached, Finset.mem_filter, Finset.mem_univ, true_and, not_lt]
            have hpos : 0 < deficits s st c * s.total := mul_pos (lt_trans tol_pos hlt) ht
            linarith
          have hsub : insert c (reached s st.shares) ⊆
              reached s (Function.update st.shares c (st.shares c + b * s.lot c)) := by
            intro i hi
            simp only [reached, Finset.mem_filter, Finset.mem_univ, true_and]
            by_cases hic : i = c
            · subst hic
              obtain ⟨-, hlo, -⟩ := hI.near i
              simp only [Function.update_self, Int.cast_add, Int.cast_mul]
              have e : ((st.shares i : K) + b * s.lot i) * s.price i = st.shares i * s.price i + b * s.cost i := by
                simp only [Sorted.cost]; ring
              rw [e]
              have : (1:K) ≤ b := by exact_mod_cast hb1
              nlinarith
            · rw [Function.update_of_ne hic]
              have := (Finset.mem_insert.mp hi).resolve_left hic
              simpa [reached] using this
          have := Finset.card_le_card hsub
          rw [Finset.card_insert_of_notMem hcn] at this
          have := hI.bought
          omega
        · show st.iter + 1 ≤ maxIter.toNat
          have := hcond.2
          omega

theorem loop_spec (h : SValid s) (maxIter : ℤ) (k : ℕ) (st : GState K n) (hI : Inv s st)
    (hit : st.iter ≤ maxIter.toNat) (hcard : st.unaff.card ≤ n) (hk : measureOf maxIter st < k) :
    ∃ st', loop s maxIter k st = some st' ∧ Post s maxIter st' := by
  induction k generalizing st with
  | zero => omega
  | succ k ih =>
    unfold loop
    rcases step_spec h maxIter st hI hit with ⟨st', e, hp⟩ | ⟨st', e, hI', hit', hm⟩
    · exact ⟨st', by rw [e], hp⟩
    · rw [e]
      have hc' : st'.unaff.card ≤ n := by simpa using Finset.card_le_univ st'.unaff
      refine ih st' hI' hit' hc' ?_
      unfold measureOf at hk ⊢
      rcases hm with ⟨h1, h2, h3⟩ | ⟨h1, h2⟩
      · omega
      · rw [h2]; omega

theorem loop_init_spec (h : SValid s) (maxIter : ℤ) :
    ∃ st', loop s maxIter (enoughFuel n maxIter) (initState s) = some st' ∧ Post s maxIter st' := by
  apply loop_spec h maxIter _ _ (inv_init h) (by simp [initState]) (by simp [initState])
  simp [measureOf, enoughFuel, initState]

/-! ### Validation -/

/-- The labels and weights that survive the near-zero filter. -/
theorem mkInput_ok_iff (weights prices : List (String × K)) (total : K) (lots : Option (List (String × ℤ)))
    (inp : Input K) :
    mkInput weights prices total lots = .ok inp ↔
      (weights ≠ [] ∧ prices ≠ [] ∧ (∀ p ∈ weights, (prices.lookup p.1).isSome) ∧
        weights.filter (fun p => !isclose0 p.2) ≠ [] ∧
        (∀ r ∈ alignRows (weights.filter (fun p => !isclose0 p.2)) prices lots, 0 < r.price) ∧ 0 < total ∧
        (∀ r ∈ alignRows (weights.filter (fun p => !isclose0 p.2)) prices lots, 0 < r.lot) ∧
        0 < ((alignRows (weights.filter (fun p => !isclose0 p.2)) prices lots).map Row.w).sum) ∧
      inp = ofRows (alignRows (weights.filter (fun p => !isclose0 p.2)) prices lots)
        ((alignRows (weights.filter (fun p => !isclose0 p.2)) prices lots).map Row.w).sum total
        ((weights.filter (fun p => !isclose0 p.2)).any (fun p => decide (p.2 < 0))) := by
  unfold mkInput
  by_cases h1 : weights = []
  · simp [h1]
  by_cases h2 : prices = []
  · simp [h1, h2]
  have h1' : weights.isEmpty = false := by simpa using h1
  have h2' : prices.isEmpty = false := by simpa using h2
  rw [h1', h2']
  simp only [Bool.false_eq_true, if_false]
  by_cases h3 : weights.any (fun p => (prices.lookup p.1).isNone) = true
  · rw [if_pos h3]
    rw [List.any_eq_true] at h3
    obtain ⟨p, hp, hn⟩ := h3
    constructor
    · intro h; cases h
    · rintro ⟨⟨-, -, h, -⟩, -⟩
      have := h p hp
      rw [Option.isNone_iff_eq_none] at hn
      rw [hn] at this
      exact absurd this (by simp)
  rw [if_neg h3]
  have h3' : ∀ p ∈ weights, (prices.lookup p.1).isSome := by
    intro p hp
    rw [List.any_eq_true] at h3
    by_contra hne
    exact h3 ⟨p, hp, by rwa [Option.isNone_iff_eq_none, ← Option.not_isSome_iff_eq_none]⟩
  generalize weights.filter (fun p => !isclose0 p.2) = kept
  by_cases h4 : kept = []
  · simp [h4]
  have h4' : kept.isEmpty = false := by simpa using h4
  simp only [h4', Bool.false_eq_true, if_false]
  generalize alignRows kept prices lots = rows
  by_cases h5 : rows.any (fun r => decide (r.price ≤ 0)) = true
  · rw [if_pos h5]
    rw [List.any_eq_true] at h5
    obtain ⟨r, hr, hn⟩ := h5
    constructor
    · intro h; cases h
    · rintro ⟨⟨-, -, -, -, h, -⟩, -⟩
      have := h r hr
      simp only [decide_eq_true_eq] at hn
      linarith
  rw [if_neg h5]
  have h5' : ∀ r ∈ rows, 0 < r.price := by
    intro r hr
    rw [List.any_eq_true] at h5
    by_contra hne
    exact h5 ⟨r, hr, by simpa using hne⟩
  by_cases h6 : total ≤ 0
  · rw [if_pos h6]
    constructor
    · intro h; cases h
    · rintro ⟨⟨-, -, -, -, -, h, -⟩, -⟩
      linarith
  rw [if_neg h6]
  by_cases h7 : rows.any (fun r => decide (r.lot ≤ 0)) = true
  · rw [if_pos h7]
    rw [List.any_eq_true] at h7
    obtain ⟨r, hr, hn⟩ := h7
    constructor
    · intro h; cases h
    · rintro ⟨⟨-, -, -, -, -, -, h, -⟩, -⟩
      have := h r hr
      simp only [decide_eq_true_eq] at hn
      omega
  rw [if_neg h7]
  have h7' : ∀ r ∈ rows, 0 < r.lot := by
    intro r hr
    rw [List.any_eq_true] at h7
    by_contra hne
    exact h7 ⟨r, hr, by simpa using hne⟩
  by_cases h8 : (rows.map Row.w).sum ≤ 0
  · rw [if_pos h8]
    constructor
    · intro h; cases h
    · rintro ⟨⟨-, -, -, -, -, -, -, h⟩, -⟩
      linarith
  rw [if_neg h8]
  constructor
  · intro h
    injection h with h
    exact ⟨⟨h1, h2, h3', h4, h5', not_le.mp h6, h7', not_le.mp h8⟩, h.symm⟩
  · rintro ⟨-, rfl⟩
    rfl

/-- Facts about every accepted input. -/
structure Accepted (inp : Input K) : Prop where
  npos : 0 < inp.n
  price : ∀ i, 0 < inp.price i
  lot : ∀ i, 0 < inp.lot i
  total : 0 < inp.total
  wsum : ∑ i, inp.w i = 1
  wne : ∀ i, inp.w i ≠ 0
  shorts : inp.hasShorts = true ↔ ∃ i, inp.w i < 0

theorem sum_get_map {α : Type*} (l : List α) (f : α → K) : ∑ i : Fin l.length, f (l.get i) = (l.map f).sum := by
  rw [← List.sum_ofFn]
  congr 1
  apply List.ext_get <;> simp

theorem accepted_of_mkInput {weights prices : List (String × K)} {total : K}
    {lots : Option (List (String × ℤ))} {inp : (Input K)} (h : mkInput weights prices total lots = .ok inp) :
    Accepted inp := by
  obtain ⟨⟨-, -, -, h4, h5, h6, h7, h8⟩, rfl⟩ := (mkInput_ok_iff _ _ _ _ _).mp h
  have hlen : (alignRows (weights.filter (fun p => !isclose0 p.2)) prices lots).length =
      (weights.filter (fun p => !isclose0 p.2)).length := by simp [alignRows]
  refine ⟨?_, ?_, ?_, h6, ?_, ?_, ?_⟩
  · show 0 < (alignRows _ _ _).length
    rw [hlen]; exact List.length_pos_iff.mpr h4
  · intro i; exact h5 _ (List.get_mem _ _)
  · intro i; exact h7 _ (List.get_mem _ _)
  · show ∑ i : Fin (alignRows _ _ _).length, _ / _ = (1:K)
    rw [← Finset.sum_div, sum_get_map _ Row.w]
    exact div_self h8.ne'
  · intro i
    show (List.get _ i).w / _ ≠ 0
    apply div_ne_zero _ h8.ne'
    have hm := List.get_mem (alignRows (weights.filter (fun p => !isclose0 p.2)) prices lots) i
    generalize (alignRows (weights.filter (fun p => !isclose0 p.2)) prices lots).get i = r at hm
    simp only [alignRows, List.mem_map, List.mem_filter] at hm
    obtain ⟨p, ⟨-, hp⟩, rfl⟩ := hm
    simp only
    intro h0
    simp [isclose0, h0] at hp
  · show List.any _ _ = true ↔ ∃ i : Fin (alignRows _ _ _).length, _ / _ < (0:K)
    rw [List.any_eq_true]
    constructor
    · rintro ⟨p, hp, hlt⟩
      have hmem : (⟨p.1, p.2, (prices.lookup p.1).getD 0, lotOf lots p.1⟩ : Row K) ∈
          alignRows (weights.filter (fun p => !isclose0 p.2)) prices lots :=
        List.mem_map.mpr ⟨p, hp, rfl⟩
      obtain ⟨i, hi⟩ := List.get_of_mem hmem
      refine ⟨i, ?_⟩
      rw [hi]
      exact div_neg_of_neg_of_pos (by simpa using hlt) h8
    · rintro ⟨i, hi⟩
      have hm := List.get_mem (alignRows (weights.filter (fun p => !isclose0 p.2)) prices lots) i
      have hi' : ((alignRows (weights.filter (fun p => !isclose0 p.2)) prices lots).get i).w < 0 := by
        by_contra hne
        exact absurd hi (not_lt.mpr (div_nonneg (not_lt.mp hne) h8.le))
      generalize (alignRows (weights.filter (fun p => !isclose0 p.2)) prices lots).get i = r at hm hi'
      simp only [alignRows, List.mem_map] at hm
      obtain ⟨p, hp, rfl⟩ := hm
      exact ⟨p, hp, by simpa using hi'⟩

theorem Accepted.svalid {inp : (Input K)} (h : Accepted inp) (hs : inp.hasShorts = false)
    (σ : Equiv.Perm (Fin inp.n)) : SValid (inp.sorted σ) where
  npos := h.npos
  w i := by
    by_contra hne
    have : inp.hasShorts = true := h.shorts.mpr ⟨σ i, not_le.mp hne⟩
    rw [hs] at this; exact absurd this (by simp)
  price i := h.price _
  lot i := h.lot _
  total := h.total
  wsum := by
    show ∑ i, inp.w (σ i) = 1
    rw [Equiv.sum_comp σ inp.w]; exact h.wsum

theorem Accepted.nonneg {inp : (Input K)} (h : Accepted inp) (hs : inp.hasShorts = false) (i : Fin inp.n) :
    0 ≤ inp.w i := by
  by_contra hne
  have : inp.hasShorts = true := h.shorts.mpr ⟨i, not_le.mp hne⟩
  rw [hs] at this; exact absurd this (by simp)

end PyV.Discrete
