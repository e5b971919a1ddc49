import Verif.Model.Paths
import Verif.Props.Drawdown
import Verif.Props.Projection
import Mathlib.Analysis.Complex.ExponentialBounds

/-!
# C148, C149: path simulation on integer drivers; drawdowns of labelled portfolios
-/

namespace PyV.Props

open PyV PyV.Perf PyV.Proj

variable {T N : ℕ}

/-- `reprice_exp` applied to a block of moves. -/
noncomputable def expBlock {n N : ℕ} : (Fin n → Fin N → ℝ) → Fin n → Fin N → ℝ := fun c a i => repriceExp (c a i)

/-- The type of the drivers only matters through the values of the repricing function. -/
theorem stored_floating {K : Type*} [Field K] [LinearOrder K] [FloorRing K] {n N' : ℕ} (f : (Fin n → Fin N → K) → Fin n → Fin N' → K) :
    stored .floating f = f := rfl

/-- **C148** for floating-point drivers the path is the repricing of the cumulative moves at every step, unrounded. -/
theorem C148_floating_partial {K : Type*} [Field K] [LinearOrder K] [IsStrictOrderedRing K] [FloorRing K] (R : Fin T → Fin N → K)
    (horizon n : ℤ) (p : Option (List (PyFloat K))) (reprice : (Fin n.toNat → Fin N → K) → Fin n.toNat → Fin N → K)
    (u : Fin n.toNat → Fin horizon.toNat → K) (cum : Fin n.toNat → Fin horizon.toNat → Fin N → K)
    (h : simulatePaths R horizon n p u = .ok cum) :
    simulateRepriced .floating R horizon n p (some reprice) u = .ok (fun a t i => reprice (fun a i => cum a t i) a i) ∧
      ∀ d, simulateRepriced (N' := N) d R horizon n p none u = .ok cum := by
  constructor
  · simp only [simulateRepriced, h, stored_floating, repriceSteps, dite_true, Fin.cast_eq_self]
  · intro d
    simp only [simulateRepriced, h]

/-- **C148** integer drivers give the same paths and the same drawdown report as the same numbers stored as floats, provided the
repricing function takes integers to integers. -/
theorem C148_integer_values_partial {K : Type*} [Field K] [LinearOrder K] [IsStrictOrderedRing K] [FloorRing K] (R : Fin T → Fin N → K)
    (hR : ∀ t i, ∃ z : ℤ, R t i = z) (horizon n : ℤ) (p : Option (List (PyFloat K))) {N' : ℕ}
    (reprice : (Fin n.toNat → Fin N → K) → Fin n.toNat → Fin N' → K)
    (hint : ∀ c : Fin n.toNat → Fin N → K, (∀ a i, ∃ z : ℤ, c a i = z) → ∀ a i, ∃ z : ℤ, reprice c a i = z)
    (u : Fin n.toNat → Fin horizon.toNat → K) :
    simulateRepriced .integer R horizon n p (some reprice) u = simulateRepriced .floating R horizon n p (some reprice) u ∧
      ∀ w confidence, drawdownTyped .integer w R horizon n p reprice u confidence =
        drawdownTyped .floating w R horizon n p reprice u confidence := by
  have key : ∀ cum, simulatePaths R horizon n p u = .ok cum →
      repriceSteps (stored .integer reprice) cum = repriceSteps (stored .floating reprice) cum := by
    intro cum hcum
    obtain ⟨j, -, -, hj⟩ := paths_core hcum
    have hz : ∀ a t i, ∃ z : ℤ, cum a t i = z := by
      intro a t i
      choose f hf using hR
      exact ⟨∑ b with b ≤ t, f (j a b) i, by rw [hj]; push_cast; exact Finset.sum_congr rfl (fun b _ => hf _ _)⟩
    have hs : ∀ t : Fin horizon.toNat, stored .integer reprice (fun a i => cum a t i) = stored .floating reprice (fun a i => cum a t i) := by
      intro t
      funext a i
      obtain ⟨z, hz⟩ := hint (fun a i => cum a t i) (fun a i => hz a t i) a i
      simp only [stored, store, hz, Int.floor_intCast, Int.ceil_intCast, ite_self]
    unfold repriceSteps
    simp only [hs]
  constructor
  · unfold simulateRepriced
    cases hc : simulatePaths R horizon n p u with
    | error e => rfl
    | ok cum => exact key cum hc
  · intro w c
    unfold drawdownTyped drawdownQuantile
    cases hc : simulatePaths R horizon n p u with
    | error e => rfl
    | ok cum => simp only [key cum hc]

/-- Not vacuous: integer drivers and the function `2 x`, which takes integers to integers. -/
example : (∀ t i, ∃ z : ℤ, (![![1, -2], ![3, 0]] : Fin 2 → Fin 2 → ℚ) t i = z) ∧
    ∀ (c : Fin 1 → Fin 2 → ℚ), (∀ a i, ∃ z : ℤ, c a i = z) → ∀ a i, ∃ z : ℤ, (2 * c a i : ℚ) = z := by
  refine ⟨fun t i => ⟨(![![1, -2], ![3, 0]] : Fin 2 → Fin 2 → ℤ) t i, by fin_cases t <;> fin_cases i <;> simp⟩, fun c h a i => ?_⟩
  obtain ⟨z, hz⟩ := h a i
  exact ⟨2 * z, by push_cast; rw [hz]⟩

theorem trunc_small {y : ℝ} (h1 : -1 < y) (h0 : y ≤ 0) : store .integer y = 0 := by
  simp only [store]
  by_cases h : 0 ≤ y
  · have : y = 0 := le_antisymm h0 h
    simp [this]
  · rw [if_neg h, Int.ceil_eq_zero_iff.mpr ⟨h1, h0⟩, Int.cast_zero]

theorem trunc_exp {x : ℝ} (hx : x ≤ 0) : store .integer (repriceExp x) = 0 := by
  have h0 := Real.exp_pos x
  have h1 : Real.exp x ≤ 1 := Real.exp_le_one_iff.mpr hx
  exact trunc_small (by unfold repriceExp; linarith) (by unfold repriceExp; linarith)

/-- **C148** (false of the code) integer log-return drivers whose moves are never positive are repriced to exactly zero at every step
and for every draw: all losses disappear. -/
theorem C148_losses_vanish (R : Fin T → Fin N → ℝ) (hR : ∀ t i, R t i ≤ 0) (horizon n : ℤ) (p : Option (List (PyFloat ℝ)))
    (u : Fin n.toNat → Fin horizon.toNat → ℝ) (out : Fin n.toNat → Fin horizon.toNat → Fin N → ℝ)
    (h : simulateRepriced .integer R horizon n p (some expBlock) u = .ok out) : ∀ a t i, out a t i = 0 := by
  unfold simulateRepriced at h
  split at h
  · cases h
  rename_i cum hcum
  simp only [repriceSteps, dite_true, Fin.cast_eq_self] at h
  injection h with h
  intro a t i
  obtain ⟨j, -, -, hj⟩ := paths_core hcum
  rw [← h]
  exact trunc_exp (by simp only [hj]; exact Finset.sum_nonpos (fun b _ => hR _ _))

theorem dd_two {w : Fin 2 → ℝ} (h0 : w 0 = 1) (h1 : w 1 ≤ 1) : maxDrawdown w = .ok (1 - w 1) := by
  have r0 : runningMax w 0 = 1 := by
    simp [runningMax, List.finRange_succ, h0]
  have r1 : runningMax w 1 = 1 := by
    simp [runningMax, List.finRange_succ, h0, h1]
  have d0 : drawdown w 0 = 0 := by simp [drawdown, r0, h0]
  have d1 : drawdown w 1 = 1 - w 1 := by simp [drawdown, r1]
  have : (List.finRange 2).map (drawdown w) = [0, 1 - w 1] := by
    simp [List.finRange_succ, d0, d1]
  unfold maxDrawdown
  rw [this]
  simp only [listMax, List.foldl_cons, List.foldl_nil]
  rw [max_eq_right (by linarith)]

theorem summary_one (x : ℝ) : ddSummary [x] (1 / 2) = .ok ⟨x, x, x, x⟩ := by
  have hq : quantile [x] (1 / 2) = .ok x := by
    unfold quantile quantileSorted
    rw [if_neg (by norm_num)]
    simp
  unfold ddSummary
  rw [hq]
  simp [listMax]

theorem sum_upto_two (t : Fin 2) (f : Fin 2 → ℝ) : (∑ b with b ≤ t, f b) = f 0 + if (t : ℕ) = 0 then 0 else f 1 := by
  rw [Finset.sum_filter, Fin.sum_univ_two]
  fin_cases t <;> simp

/-- One path of two steps over the drivers `[[0], [-1]]`, row 0 first and then row 1. -/
theorem cex_cum : ∃ cum, simulatePaths (K := ℝ) (fun t (_ : Fin 1) => if t = (0 : Fin 2) then 0 else -1) 2 1
      (some ([1 / 2, 1 / 2].map PyFloat.fin)) (fun _ b => if (b : ℕ) = 0 then 0 else 3 / 4) = .ok cum ∧
    ∀ a, cum a ⟨0, by decide⟩ 0 = 0 ∧ cum a ⟨1, by decide⟩ 0 = -1 := by
  obtain ⟨cum, hc⟩ := C58_paths_succeed (K := ℝ) (fun t (_ : Fin 1) => if t = (0 : Fin 2) then 0 else -1) 2 1 (by norm_num)
    (by norm_num) [1 / 2, 1 / 2] rfl (by intro y hy; fin_cases hy <;> norm_num) (by norm_num)
    (fun _ b => if (b : ℕ) = 0 then 0 else 3 / 4) (by intro a b; dsimp only; split_ifs <;> norm_num)
  refine ⟨cum, hc, fun a => ?_⟩
  obtain ⟨j, hj, -, ho⟩ := paths_core hc
  have w : rawWeights 2 (some (([1 / 2, 1 / 2] : List ℝ).map PyFloat.fin)) = [1 / 2, 1 / 2] := rfl
  have s0 : searchRight [1 / 2, (1 / 2 : ℝ)] 0 = 0 := by
    norm_num [searchRight, cdf, List.range_succ]
  have s1 : searchRight [1 / 2, (1 / 2 : ℝ)] (3 / 4) = 1 := by
    norm_num [searchRight, cdf, List.range_succ]
  have j0 : j a ⟨0, by decide⟩ = 0 := by
    apply Fin.ext
    rw [hj, w]
    simpa using s0
  have j1 : j a ⟨1, by decide⟩ = 1 := by
    apply Fin.ext
    rw [hj, w]
    simpa using s1
  have filt : ∀ t : Fin (2 : ℤ).toNat, ∀ f : Fin (2 : ℤ).toNat → ℝ, (∑ b with b ≤ t, f b) =
      f ⟨0, by decide⟩ + if (t : ℕ) = 0 then 0 else f ⟨1, by decide⟩ := by
    exact sum_upto_two
  rw [ho, ho, filt, filt, j0, j1]
  simp

/-- **C148** (false of the code) with the drivers `[[0], [-1]]` as integers, the path that first stays and then loses `1 - 1/e` (63%)
is reported as constant, and its maximum drawdown as 0; as floats the drawdown is `1 - 1/e`. -/
theorem C148_counterexample (d : Dtype) :
    drawdownTyped d (.plain [fun _ => (1 : ℝ)]) (fun t (_ : Fin 1) => if t = (0 : Fin 2) then 0 else -1) 2 1
        (some ([1 / 2, 1 / 2].map PyFloat.fin)) expBlock (fun _ b => if (b : ℕ) = 0 then 0 else 3 / 4) (1 / 2) =
      .ok (match d with
        | .integer => ⟨0, 0, 0, 0⟩
        | .floating => ⟨1 - Real.exp (-1), 1 - Real.exp (-1), 1 - Real.exp (-1), 1 - Real.exp (-1)⟩) := by
  obtain ⟨cum, hc, hv⟩ := cex_cum
  unfold drawdownTyped drawdownQuantile
  rw [hc]
  simp only [repriceSteps, dite_true, Fin.cast_eq_self, positional, List.length_cons, List.length_nil, zero_add, ne_eq, not_true,
    if_false]
  have hm : ∀ y : ℝ, store d (repriceExp (-1)) = y - 1 → y ≤ 1 → mapE (fun a => maxDrawdown (fun t => 1 + ∑ i : Fin 1,
      stored d expBlock (fun a i => cum a t i) a i * toVec 1 (List.map (fun r => r 0) [fun (_ : Fin 1) => (1 : ℝ)]) i))
      (List.finRange (1 : ℤ).toNat) = .ok [1 - y] := by
    intro y hy hy1
    have hw : ∀ (a : Fin (1 : ℤ).toNat) (t : Fin (2 : ℤ).toNat), (1 + ∑ i : Fin 1,
        stored d expBlock (fun a i => cum a t i) a i * toVec 1 (List.map (fun r => r 0) [fun (_ : Fin 1) => (1 : ℝ)]) i) =
        1 + store d (repriceExp (cum a t 0)) := by
      intro a t
      simp [stored, expBlock, toVec]
    have hmd : ∀ a : Fin (1 : ℤ).toNat, maxDrawdown (fun t : Fin (2 : ℤ).toNat => 1 + store d (repriceExp (cum a t 0))) = .ok (1 - y) := by
      intro a
      obtain ⟨v0, v1⟩ := hv a
      have e0 : store d (repriceExp (0 : ℝ)) = 0 := by
        cases d <;> simp [store, repriceExp]
      have := dd_two (w := fun t : Fin 2 => 1 + store d (repriceExp (cum a t 0)))
        (by change 1 + store d (repriceExp (cum a ⟨0, by decide⟩ 0)) = 1; rw [v0, e0, add_zero])
        (by change 1 + store d (repriceExp (cum a ⟨1, by decide⟩ 0)) ≤ 1; rw [v1, hy]; linarith)
      have e1 : (1 : ℝ) + store d (repriceExp (cum a ⟨1, by decide⟩ 0)) = y := by rw [v1, hy]; ring
      refine this.trans ?_
      exact congrArg (fun z => Except.ok (1 - z)) e1
    simp only [hw, hmd]
    rfl
  cases d
  · have := hm 1 (by rw [trunc_exp (by norm_num)]; norm_num) le_rfl
    rw [this]
    simp only [sub_self]
    exact summary_one 0
  · have := hm (Real.exp (-1)) (by simp [store, repriceExp]) (Real.exp_le_one_iff.mpr (by norm_num))
    rw [this]
    exact summary_one _

/-! ## C149 -/

/-- **C149** (false of the code) the weights are taken in the order given: re-ordering a labelled portfolio changes the report. Two
drivers, one falling and one constant; everything in the constant one. -/
theorem C149_counterexample :
    drawdownQuantile (.labelled [("a", fun _ => (0 : ℚ)), ("b", fun _ => 1)]) ![![0, 0], ![-1 / 2, 0]] 2 1
        (some [.fin (1 / 2), .fin (1 / 2)]) (fun c => c) ![![0, 1 / 2]] (1 / 2) = .ok ⟨0, 0, 0, 0⟩ ∧
      drawdownQuantile (.labelled [("b", fun _ => (1 : ℚ)), ("a", fun _ => 0)]) ![![0, 0], ![-1 / 2, 0]] 2 1
        (some [.fin (1 / 2), .fin (1 / 2)]) (fun c => c) ![![0, 1 / 2]] (1 / 2) = .ok ⟨1 / 2, 1 / 2, 1 / 2, 1 / 2⟩ := by
  constructor <;> decide +kernel

/-- **C149** a labelled portfolio is reported exactly like the same weights without labels. -/
theorem C149_positional {K : Type*} [Field K] [LinearOrder K] [IsStrictOrderedRing K] [FloorRing K] {N' : ℕ}
    (rows : List (String × K)) (R : Fin T → Fin N → K) (horizon n : ℤ) (p : Option (List (PyFloat K)))
    (reprice : (Fin n.toNat → Fin N → K) → Fin n.toNat → Fin N' → K) (u : Fin n.toNat → Fin horizon.toNat → K) (confidence : K) :
    drawdownQuantile (.labelled (rows.map (fun r => (r.1, fun _ => r.2)))) R horizon n p reprice u confidence =
      drawdownQuantile (.plain (rows.map (fun r => fun _ => r.2))) R horizon n p reprice u confidence := by
  unfold drawdownQuantile
  simp only [positional, List.map_map, Function.comp_def]

/-- **C149** a portfolio listed in the order of the columns is matched by label: the path wealth at every step is
`1 + sum_c weight(c) * value of column c`, whatever the labels are. -/
theorem C149_same_order_partial {K : Type*} [Field K] [LinearOrder K] [IsStrictOrderedRing K] [FloorRing K]
    (cols : Fin N → String) (weight : String → K) (R : Fin T → Fin N → K) (horizon n : ℤ) (p : Option (List (PyFloat K)))
    (reprice : (Fin n.toNat → Fin N → K) → Fin n.toNat → Fin N → K) (u : Fin n.toNat → Fin horizon.toNat → K) (confidence : K)
    (cum : Fin n.toNat → Fin horizon.toNat → Fin N → K) (h : simulatePaths R horizon n p u = .ok cum) :
    drawdownQuantile (.labelled (List.ofFn (fun i => (cols i, fun _ => weight (cols i))))) R horizon n p reprice u confidence =
      (match mapE (fun a => maxDrawdown (fun t => 1 + ∑ i, reprice (fun a i => cum a t i) a i * weight (cols i)))
          (List.finRange n.toNat) with
        | .error e => .error e
        | .ok l => ddSummary l confidence) := by
  unfold drawdownQuantile
  rw [h]
  have hv : ∀ i : Fin N, toVec N (List.ofFn (fun i => weight (cols i))) i = weight (cols i) := by
    intro i
    simp [toVec]
  simp only [repriceSteps, dite_true, Fin.cast_eq_self, positional, List.length_ofFn, ne_eq, not_true, if_false,
    List.map_ofFn, Function.comp_def, hv]
  cases mapE (fun a => maxDrawdown fun t => 1 + ∑ x, reprice (fun a i => cum a t i) a x * weight (cols x)) (List.finRange n.toNat) <;> rfl

end PyV.Props
