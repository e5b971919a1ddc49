import Verif.Lemmas.Projection
import Mathlib.Analysis.Matrix.Order
import Mathlib.Analysis.SpecialFunctions.Exponential
import Mathlib.Algebra.Order.Star.Real
import Mathlib.Data.Fin.VecNotation
import Mathlib.Tactic.NormNum
import Mathlib.Tactic.FinCases

set_option linter.unusedSectionVars false

/-! # Properties C57–C59 and C75–C77: conversions, bootstrap projection, repricing -/

namespace PyV.Props

open PyV PyV.Proj

/-! ## C57 -/

/-- **C57** log scenarios converted to simple returns convert back exactly, and are always accepted. -/
theorem C57_scenarios_round_trip {ι : Type*} (x : ι → ℝ) : simpleToCompound (compoundToSimple x) = .ok x := by
  unfold simpleToCompound compoundToSimple
  rw [if_neg]
  · congr 1; funext t
    rw [show 1 + (Real.exp (x t) - 1) = Real.exp (x t) by ring, Real.log_exp]
  · rintro ⟨t, ht⟩
    linarith [Real.exp_pos (x t)]

/-- **C57** simple scenarios are accepted exactly when all exceed -1, and then convert back exactly. -/
theorem C57_scenarios_round_trip' {ι : Type*} (r : ι → ℝ) :
    ((∀ t, -1 < r t) → ∃ x, simpleToCompound r = .ok x ∧ compoundToSimple x = r) ∧
      ((∃ t, r t ≤ -1) → simpleToCompound r = .error .valueError) := by
  refine ⟨fun h => ?_, fun h => ?_⟩
  · refine ⟨fun t => Real.log (1 + r t), ?_, ?_⟩
    · unfold simpleToCompound
      rw [if_neg]
      rintro ⟨t, ht⟩; linarith [h t]
    · funext t
      unfold compoundToSimple
      rw [Real.exp_log (by linarith [h t])]; ring
  · unfold simpleToCompound
    rw [if_pos h]

theorem log2simple_cov {N : ℕ} (mu : Fin N → ℝ) (cov : Fin N → Fin N → ℝ) (i j : Fin N) :
    (log2simple mu cov).2 i j = ((log2simple mu cov).1 i + 1) * ((log2simple mu cov).1 j + 1) * (Real.exp (cov i j) - 1) := by
  unfold log2simple
  simp only [sub_add_cancel]
  rw [mul_sub, mul_one, ← Real.exp_add, ← Real.exp_add]
  congr 2
  ring

/-- **C57** moments of log returns converted to simple returns convert back exactly, for every mean and covariance. -/
theorem C57_log_simple_log {N : ℕ} (mu : Fin N → ℝ) (cov : Fin N → Fin N → ℝ) :
    simple2log (log2simple mu cov).1 (log2simple mu cov).2 = .ok (mu, cov) := by
  have hm : ∀ i, 0 < (log2simple mu cov).1 i + 1 := by
    intro i; simp only [log2simple, sub_add_cancel]; exact Real.exp_pos _
  have hv : ∀ i j, Real.log (1 + (log2simple mu cov).2 i j / (((log2simple mu cov).1 i + 1) * ((log2simple mu cov).1 j + 1))) =
      cov i j := by
    intro i j
    rw [log2simple_cov, mul_div_cancel_left₀ _ (mul_pos (hm i) (hm j)).ne', add_sub_cancel, Real.log_exp]
  have hd : ∀ i, Real.log (1 + (log2simple mu cov).2 i i / ((log2simple mu cov).1 i + 1) ^ 2) = cov i i := by
    intro i; rw [sq]; exact hv i i
  unfold simple2log
  simp only
  rw [if_neg (by push Not; exact hm)]
  simp only [hd, hv]
  congr 2
  · funext i
    have : (log2simple mu cov).1 i + 1 = Real.exp (mu i + 1 / 2 * cov i i) := by simp [log2simple]
    rw [this, Real.log_exp]; ring
  · funext i j
    split
    · rename_i h; rw [h]
    · rfl

/-- **C57** moments of simple returns with means above -1 and `1 + cov_ij / ((1 + mu_i) (1 + mu_j)) > 0` convert to log returns and
back exactly; a mean at or below -1 is rejected. -/
theorem C57_simple_log_simple {N : ℕ} (mu : Fin N → ℝ) (cov : Fin N → Fin N → ℝ) :
    ((∀ i, -1 < mu i) → (∀ i j, 0 < 1 + cov i j / ((mu i + 1) * (mu j + 1))) →
      ∃ l, simple2log mu cov = .ok l ∧ log2simple l.1 l.2 = (mu, cov)) ∧
      ((∃ i, mu i ≤ -1) → simple2log mu cov = .error .valueError) := by
  refine ⟨fun hm hc => ?_, fun ⟨i, hi⟩ => ?_⟩
  · have hm' : ∀ i, 0 < mu i + 1 := fun i => by linarith [hm i]
    have heq : simple2log mu cov = .ok (fun i => Real.log (mu i + 1) - 1 / 2 * Real.log (1 + cov i i / (mu i + 1) ^ 2),
        fun i j => Real.log (1 + cov i j / ((mu i + 1) * (mu j + 1)))) := by
      unfold simple2log
      simp only
      rw [if_neg (by push Not; exact hm')]
      congr 2
      funext i j
      split
      · rename_i h; rw [h, sq]
      · rfl
    refine ⟨_, heq, ?_⟩
    set l : (Fin N → ℝ) × (Fin N → Fin N → ℝ) := (fun i => Real.log (mu i + 1) - 1 / 2 * Real.log (1 + cov i i / (mu i + 1) ^ 2),
        fun i j => Real.log (1 + cov i j / ((mu i + 1) * (mu j + 1)))) with hl
    have h1 : ∀ i, (log2simple l.1 l.2).1 i = mu i := by
      intro i
      simp only [log2simple, hl, sq]
      rw [sub_add_cancel, Real.exp_log (hm' i)]; ring
    refine Prod.ext (funext h1) (funext fun i => funext fun j => ?_)
    rw [log2simple_cov, h1, h1]
    simp only [hl]
    rw [Real.exp_log (hc i j), add_sub_cancel_left, mul_div_cancel₀ _ (mul_pos (hm' i) (hm' j)).ne']
  · unfold simple2log
    simp only
    rw [if_pos ⟨i, by linarith⟩]

/-- **C57** both conversions keep a symmetric covariance symmetric. -/
theorem C57_symmetric {N : ℕ} (mu : Fin N → ℝ) (cov : Fin N → Fin N → ℝ) (hs : ∀ i j, cov i j = cov j i) :
    (∀ i j, (log2simple mu cov).2 i j = (log2simple mu cov).2 j i) ∧
      ∀ l, simple2log mu cov = .ok l → ∀ i j, l.2 i j = l.2 j i := by
  refine ⟨fun i j => ?_, fun l hl i j => ?_⟩
  · rw [log2simple_cov, log2simple_cov, hs i j]; ring
  · unfold simple2log at hl
    simp only at hl
    split at hl
    · cases hl
    injection hl with hl
    rw [← hl]
    simp only
    by_cases h : i = j
    · subst h; rfl
    · rw [if_neg h, if_neg (Ne.symm h), hs i j, mul_comm (mu i + 1)]

example : (∀ i, -1 < (![0, 1/10] : Fin 2 → ℝ) i) ∧
    ∀ i j, 0 < 1 + (![![4/100, 1/100], ![1/100, 9/100]] : Fin 2 → Fin 2 → ℝ) i j /
      (((![0, 1/10] : Fin 2 → ℝ) i + 1) * ((![0, 1/10] : Fin 2 → ℝ) j + 1)) := by
  constructor
  · intro i; fin_cases i <;> norm_num
  · intro i j; fin_cases i <;> fin_cases j <;> norm_num

/-! ## C75 -/

theorem posSemidef_pow {N : ℕ} {C : Matrix (Fin N) (Fin N) ℝ} (hC : C.PosSemidef) (k : ℕ) :
    Matrix.PosSemidef (Matrix.of fun i j => C i j ^ k) := by
  induction k with
  | zero =>
    have h := Matrix.posSemidef_vecMulVec_self_star (fun _ : Fin N => (1 : ℝ))
    convert h using 1
    ext i j; simp [Matrix.vecMulVec_apply]
  | succ k ih =>
    have h := ih.hadamard hC
    have e : (Matrix.of fun i j => C i j ^ (k + 1)) = (Matrix.of fun i j => C i j ^ k).hadamard C := by
      ext i j; simp [pow_succ]
    rw [e]; exact h

/-- **C75** `log2simple` of a positive semidefinite covariance is positive semidefinite. -/
theorem C75_log2simple_psd {N : ℕ} (mu : Fin N → ℝ) (C : Matrix (Fin N) (Fin N) ℝ) (hC : C.PosSemidef) :
    Matrix.PosSemidef (Matrix.of (log2simple mu C).2) := by
  refine Matrix.PosSemidef.of_dotProduct_mulVec_nonneg ?_ (fun x => ?_)
  · ext i j
    have := (C57_symmetric mu C (fun i j => by simpa using hC.1.apply j i)).1 j i
    simpa [Matrix.conjTranspose_apply] using this
  · set y : Fin N → ℝ := fun i => x i * ((log2simple mu C).1 i + 1) with hy
    have hq : ∀ k, 0 ≤ ∑ i, ∑ j, y i * y j * (C i j ^ k / (k.factorial : ℝ)) := by
      intro k
      have h := (posSemidef_pow hC k).dotProduct_mulVec_nonneg y
      simp only [dotProduct, Matrix.mulVec, Matrix.of_apply, Pi.star_apply, star_trivial, Finset.mul_sum] at h
      have h2 : ∑ i, ∑ j, y i * y j * (C i j ^ k / (k.factorial : ℝ)) = (∑ i, ∑ j, y i * (C i j ^ k * y j)) / k.factorial := by
        simp only [Finset.sum_div]
        exact Finset.sum_congr rfl (fun i _ => Finset.sum_congr rfl (fun j _ => by ring))
      rw [h2]
      exact div_nonneg h (by positivity)
    have hsum : HasSum (fun k : ℕ => ∑ i, ∑ j, y i * y j * (C i j ^ k / (k.factorial : ℝ)))
        (∑ i, ∑ j, y i * y j * Real.exp (C i j)) := by
      refine hasSum_sum (fun i _ => hasSum_sum (fun j _ => HasSum.mul_left _ ?_))
      rw [Real.exp_eq_exp_ℝ]
      exact NormedSpace.expSeries_div_hasSum_exp (C i j)
    have hle := le_hasSum hsum 0 (fun k _ => hq k)
    have hval : star x ⬝ᵥ (Matrix.of (log2simple mu C).2).mulVec x =
        (∑ i, ∑ j, y i * y j * Real.exp (C i j)) - ∑ i, ∑ j, y i * y j * (C i j ^ 0 / ((0 : ℕ).factorial : ℝ)) := by
      simp only [dotProduct, Matrix.mulVec, Matrix.of_apply, Pi.star_apply, star_trivial, Finset.mul_sum,
        ← Finset.sum_sub_distrib]
      refine Finset.sum_congr rfl (fun i _ => Finset.sum_congr rfl (fun j _ => ?_))
      have hc : (log2simple mu C).2 i j = _ := log2simple_cov mu C i j
      rw [hc, hy]
      simp only [pow_zero, Nat.factorial_zero, Nat.cast_one, div_one]
      ring
    rw [hval]
    linarith

/-- **C75** scaling to a longer horizon keeps a covariance positive semidefinite. -/
theorem C75_scaled_psd {N : ℕ} (mu : Fin N → ℝ) (C : Matrix (Fin N) (Fin N) ℝ) (hC : C.PosSemidef) (f : ℝ) (hf : 0 ≤ f) :
    Matrix.PosSemidef (Matrix.of (projectMeanCov mu C f).2) := by
  have := hC.smul hf
  convert this using 1
  ext i j
  simp [projectMeanCov, mul_comm]

/-! ## C58 -/

variable {K : Type*} [Field K] [LinearOrder K] [IsStrictOrderedRing K] {T N : ℕ}

/-- The generator's numbers are uniform draws: in `[0, 1)`. -/
def UnitDraws {n h : ℕ} (u : Fin n → Fin h → K) : Prop := ∀ a b, 0 ≤ u a b ∧ u a b < 1

/-- Normalised probability of a scenario row under the given weights (uniform when omitted). -/
def rowProb (T : ℕ) (p : Option (List (PyFloat K))) (t : ℕ) : K :=
  match p with
  | none => 1 / T
  | some v => (v.getD t (.fin 0)).val / (v.map PyFloat.val).sum

/-- Probability of the rows before `t`. -/
def rowsBefore (T : ℕ) (p : Option (List (PyFloat K))) (t : ℕ) : K := ∑ s ∈ Finset.range t, rowProb T p s

/-- Each draw falls into its row's own interval of `[0, 1)`, whose length is the row's normalised probability. -/
def DrawnBy {n h : ℕ} (T : ℕ) (p : Option (List (PyFloat K))) (u : Fin n → Fin h → K) (idx : Fin n → Fin h → Fin T) : Prop :=
  ∀ a b, rowsBefore T p (idx a b) ≤ u a b ∧ u a b < rowsBefore T p (idx a b + 1)

/-- The caller's weights as a list. -/
def rawWeights (T : ℕ) (p : Option (List (PyFloat K))) : List K :=
  match p with
  | none => List.replicate T (1 / (T : K))
  | some v => v.map PyFloat.val

theorem list_take_sum (l : List K) (t : ℕ) : (l.take t).sum = ∑ s ∈ Finset.range t, l.getD s 0 := by
  induction t with
  | zero => simp
  | succ t ih =>
    rw [List.take_add_one, List.sum_append, ih, Finset.sum_range_succ]
    congr 1
    cases h : l[t]? <;> simp [List.getD_eq_getElem?_getD, h]

theorem rowsBefore_eq {p : Option (List (PyFloat K))} (hT : p = none → 0 < T) {t : ℕ} (ht : t ≤ (rawWeights T p).length) :
    rowsBefore T p t = ((rawWeights T p).take t).sum / (rawWeights T p).sum := by
  unfold rowsBefore
  rw [list_take_sum, Finset.sum_div]
  refine Finset.sum_congr rfl (fun s hs => ?_)
  rw [Finset.mem_range] at hs
  cases p with
  | none =>
    have : (T : K) ≠ 0 := by exact_mod_cast (hT rfl).ne'
    simp only [rawWeights, List.length_replicate] at ht
    simp only [rowProb, rawWeights, List.sum_replicate, nsmul_eq_mul, List.getD_eq_getElem?_getD, List.getElem?_replicate]
    rw [if_pos (by omega)]
    simp only [Option.getD_some]
    field_simp
  | some v =>
    simp only [rowProb, rawWeights, List.getD_eq_getElem?_getD, List.getElem?_map]
    congr 1
    cases v[s]? <;> simp [PyFloat.val]

/-- Common form of both samplers' draws. -/
theorem draws_core {n h : ℕ} {p : Option (List (PyFloat K))} (hT : p = none → 0 < T) {w : List K}
    (hw : w = rawWeights T p ∨ ((rawWeights T p).sum ≠ 0 ∧ w = (rawWeights T p).map (· / (rawWeights T p).sum)))
    {u : Fin n → Fin h → K} {idx : Fin n → Fin h → ℕ} (hc : choice T w u = .ok idx) :
    (∀ a b, idx a b = searchRight (rawWeights T p) (u a b)) ∧
      (UnitDraws u → ∀ a b, idx a b < T ∧ rowsBefore T p (idx a b) ≤ u a b ∧ u a b < rowsBefore T p (idx a b + 1)) := by
  obtain ⟨h1, h2, h3, h4⟩ := choice_ok hc
  have hsr : ∀ x, searchRight w x = searchRight (rawWeights T p) x := by
    intro x
    rcases hw with rfl | ⟨hne, rfl⟩
    · rfl
    · exact searchRight_scale _ hne x
  have hlen : w.length = (rawWeights T p).length := by
    rcases hw with rfl | ⟨hne, rfl⟩ <;> simp
  have hfrac : ∀ t, (w.take t).sum / w.sum = ((rawWeights T p).take t).sum / (rawWeights T p).sum := by
    intro t
    rcases hw with rfl | ⟨hne, rfl⟩
    · rfl
    · rw [← List.map_take, sum_map_div, sum_map_div, div_div_div_cancel_right₀ hne]
  refine ⟨fun a b => by rw [h4]; exact hsr _, fun hu a b => ?_⟩
  obtain ⟨k1, k2, k3⟩ := (searchRight_iff h2 h3 (hu a b).1 (hu a b).2 (idx a b)).mp (by rw [h4])
  refine ⟨by omega, ?_, ?_⟩
  · rw [rowsBefore_eq hT (by omega), ← hfrac]; exact k2
  · rw [rowsBefore_eq hT (by omega), ← hfrac]; exact k3

theorem projWeights_raw {p : Option (List (PyFloat K))} {w : List K} (h : projWeights T p = .ok w) :
    (p = none → 0 < T) ∧
      (w = rawWeights T p ∨ ((rawWeights T p).sum ≠ 0 ∧ w = (rawWeights T p).map (· / (rawWeights T p).sum))) := by
  cases p with
  | none =>
    unfold projWeights at h
    simp only at h
    split at h
    · cases h
    rename_i hT
    injection h with h
    exact ⟨fun _ => Nat.pos_of_ne_zero hT, .inl h.symm⟩
  | some v =>
    obtain ⟨-, x, rfl, -, hs, hw⟩ := projWeights_some h
    have hx : (x.map PyFloat.fin).map PyFloat.val = x := by
      rw [List.map_map]; conv_rhs => rw [← List.map_id x]
      rfl
    refine ⟨fun h => (by cases h), ?_⟩
    simp only [rawWeights, hx]
    rcases hw with ⟨-, h⟩ | ⟨-, h⟩
    · exact .inl h
    · exact .inr ⟨hs.ne', h⟩

theorem pathWeights_raw {p : Option (List (PyFloat K))} {w : List K} (h : pathWeights T p = .ok w) :
    (p = none → 0 < T) ∧
      (w = rawWeights T p ∨ ((rawWeights T p).sum ≠ 0 ∧ w = (rawWeights T p).map (· / (rawWeights T p).sum))) := by
  cases p with
  | none =>
    unfold pathWeights at h
    simp only at h
    split at h
    · cases h
    rename_i hT
    injection h with h
    exact ⟨fun _ => Nat.pos_of_ne_zero hT, .inl h.symm⟩
  | some v =>
    unfold pathWeights at h
    simp only at h
    split at h
    · cases h
    split at h
    · cases h
    rename_i hs
    injection h with h
    exact ⟨fun h => (by cases h), .inr ⟨hs, h.symm⟩⟩

theorem project_core {R : Fin T → Fin N → K} {horizon n : ℤ} {p : Option (List (PyFloat K))}
    {u : Fin n.toNat → Fin horizon.toNat → K} {out} (h : projectScenarios R horizon p n u = .ok out) :
    ∃ j : Fin n.toNat → Fin horizon.toNat → Fin T, (∀ a b, (j a b : ℕ) = searchRight (rawWeights T p) (u a b)) ∧
      (UnitDraws u → DrawnBy T p u j) ∧ ∀ a i, out a i = ∑ b, R (j a b) i := by
  unfold projectScenarios at h
  split at h
  · cases h
  split at h
  · cases h
  split at h
  · cases h
  rename_i w hw
  split at h
  · cases h
  rename_i idx hidx
  split at h
  · cases h
  rename_i s hs
  injection h with h
  obtain ⟨hT, hraw⟩ := projWeights_raw hw
  obtain ⟨c1, c2⟩ := draws_core hT hraw hidx
  obtain ⟨j, hj, hsj⟩ := gather_ok hs
  refine ⟨j, fun a b => by rw [hj, c1], fun hu a b => ?_, fun a i => ?_⟩
  · rw [hj]; exact (c2 hu a b).2
  · rw [← h]; exact Finset.sum_congr rfl (fun b _ => hsj a b i)

theorem paths_core {R : Fin T → Fin N → K} {horizon n : ℤ} {p : Option (List (PyFloat K))}
    {u : Fin n.toNat → Fin horizon.toNat → K} {out} (h : simulatePaths R horizon n p u = .ok out) :
    ∃ j : Fin n.toNat → Fin horizon.toNat → Fin T, (∀ a b, (j a b : ℕ) = searchRight (rawWeights T p) (u a b)) ∧
      (UnitDraws u → DrawnBy T p u j) ∧ ∀ a t i, out a t i = ∑ b with b ≤ t, R (j a b) i := by
  unfold simulatePaths at h
  split at h
  · cases h
  rename_i w hw
  split at h
  · cases h
  split at h
  · cases h
  rename_i idx hidx
  split at h
  · cases h
  rename_i s hs
  injection h with h
  obtain ⟨hT, hraw⟩ := pathWeights_raw hw
  obtain ⟨c1, c2⟩ := draws_core hT hraw hidx
  obtain ⟨j, hj, hsj⟩ := gather_ok hs
  refine ⟨j, fun a b => by rw [hj, c1], fun hu a b => ?_, fun a t i => ?_⟩
  · rw [hj]; exact (c2 hu a b).2
  · rw [← h, Finset.sum_filter]; exact Finset.sum_congr rfl (fun b _ => by rw [hsj a b i])

/-- **C58** every projected scenario is the sum of exactly `investment_horizon` historical rows, each drawn with its normalised
probability (its interval of uniform numbers has that length). -/
theorem C58_project (R : Fin T → Fin N → K) (horizon n : ℤ) (p : Option (List (PyFloat K)))
    (u : Fin n.toNat → Fin horizon.toNat → K) (hu : UnitDraws u) (out : Fin n.toNat → Fin N → K)
    (h : projectScenarios R horizon p n u = .ok out) :
    ∃ idx, DrawnBy T p u idx ∧ ∀ a i, out a i = ∑ b : Fin horizon.toNat, R (idx a b) i := by
  obtain ⟨j, -, h2, h3⟩ := project_core h
  exact ⟨j, h2 hu, h3⟩

/-- **C58** a row of zero probability is never drawn. -/
theorem C58_positive_rows {n h : ℕ} (p : Option (List (PyFloat K))) (u : Fin n → Fin h → K) (idx : Fin n → Fin h → Fin T)
    (hd : DrawnBy T p u idx) (a : Fin n) (b : Fin h) : 0 < rowProb T p (idx a b) := by
  obtain ⟨h1, h2⟩ := hd a b
  unfold rowsBefore at h1 h2
  rw [Finset.sum_range_succ] at h2
  linarith

/-- **C58** the simulated path at every step is the running sum of the rows drawn so far, drawn with the same probabilities. -/
theorem C58_paths (R : Fin T → Fin N → K) (horizon n : ℤ) (p : Option (List (PyFloat K)))
    (u : Fin n.toNat → Fin horizon.toNat → K) (hu : UnitDraws u) (path : Fin n.toNat → Fin horizon.toNat → Fin N → K)
    (h : simulatePaths R horizon n p u = .ok path) :
    ∃ idx, DrawnBy T p u idx ∧ ∀ a t i, path a t i = ∑ b with b ≤ t, R (idx a b) i := by
  obtain ⟨j, -, h2, h3⟩ := paths_core h
  exact ⟨j, h2 hu, h3⟩

/-- **C58** for the same random numbers the last point of the path is the projected scenario. -/
theorem C58_agree (R : Fin T → Fin N → K) (horizon n : ℤ) (p : Option (List (PyFloat K)))
    (u : Fin n.toNat → Fin horizon.toNat → K) (out : Fin n.toNat → Fin N → K)
    (path : Fin n.toNat → Fin horizon.toNat → Fin N → K)
    (h1 : projectScenarios R horizon p n u = .ok out) (h2 : simulatePaths R horizon n p u = .ok path)
    (t : Fin horizon.toNat) (ht : (t : ℕ) + 1 = horizon.toNat) (a : Fin n.toNat) (i : Fin N) : path a t i = out a i := by
  obtain ⟨j, e1, -, h3⟩ := project_core h1
  obtain ⟨j', e2, -, h4⟩ := paths_core h2
  have : j = j' := by
    funext a b; apply Fin.ext; rw [e1, e2]
  subst this
  rw [h3, h4]
  refine Finset.sum_congr ?_ (fun _ _ => rfl)
  ext b
  have := b.2
  simp only [Finset.mem_filter, Finset.mem_univ, true_and, iff_true]
  exact Fin.le_def.mpr (by omega)

/-- **C58** (acceptance) with non-negative weights of positive finite sum, one per row (or none and at least one row),
`simulate_paths` succeeds for every horizon and number of paths. -/
theorem C58_paths_succeed (R : Fin T → Fin N → K) (horizon n : ℤ) (h0 : 0 ≤ horizon) (hn : 0 ≤ n) (x : List K) (hl : x.length = T) (hx : ∀ y ∈ x, 0 ≤ y)
    (hs : 0 < x.sum) (u : Fin n.toNat → Fin horizon.toNat → K) (hu : UnitDraws u) :
    ∃ path, simulatePaths R horizon n (some (x.map PyFloat.fin)) u = .ok path := by
  have hval : (x.map PyFloat.fin).map PyFloat.val = x := by
    rw [List.map_map]; conv_rhs => rw [← List.map_id x]
    rfl
  have hw : pathWeights T (some (x.map PyFloat.fin)) = .ok (x.map (· / x.sum)) := by
    unfold pathWeights
    simp only [hval]
    rw [if_neg (by simp [PyFloat.isFinite]), if_neg hs.ne']
  have hch : choice T (x.map (· / x.sum)) u = .ok (fun a b => searchRight (x.map (· / x.sum)) (u a b)) := by
    unfold choice
    rw [if_neg (by simp [hl]), if_neg, if_neg]
    · rw [sum_map_div, div_self hs.ne', sub_self, abs_zero, not_lt]
      positivity
    · simp only [List.any_eq_true, decide_eq_true_eq, not_exists, not_and, not_lt]
      intro y hy
      obtain ⟨z, hz, rfl⟩ := List.mem_map.mp hy
      exact div_nonneg (hx z hz) hs.le
  obtain ⟨-, hc2⟩ := draws_core (p := some (x.map PyFloat.fin)) (fun h => (by cases h))
    (.inr ⟨by simp only [rawWeights, hval]; exact hs.ne', by simp only [rawWeights, hval]⟩) hch
  have hg : gather R (fun a b => searchRight (x.map (· / x.sum)) (u a b)) =
      .ok (fun a b i => row R (searchRight (x.map (· / x.sum)) (u a b)) i) := by
    unfold gather
    rw [if_pos (fun a b => (hc2 hu a b).1)]
  unfold simulatePaths
  rw [hw]
  simp only
  rw [if_neg (by omega)]
  rw [hch]
  simp only
  rw [hg]
  exact ⟨_, rfl⟩

/-! ## C77 -/

/-- Scenario weights a caller may give: one per row, non-negative, finite, positive sum. -/
def GoodWeights (T : ℕ) (x : List K) : Prop := x.length = T ∧ (∀ y ∈ x, 0 ≤ y) ∧ 0 < x.sum

/-- Drawing succeeds with checked weights that sum to one up to the tolerance of the generator. -/
theorem project_ok (R : Fin T → Fin N → K) {horizon n : ℤ} (h0 : 0 < horizon) (hn : 0 < n) {p : Option (List (PyFloat K))} {w : List K}
    (hw : projWeights T p = .ok w) (hwl : w.length = T) (hw0 : ∀ y ∈ w, 0 ≤ y) (hw1 : |w.sum - 1| ≤ 1 / 2 ^ 26)
    (u : Fin n.toNat → Fin horizon.toNat → K) (hu : UnitDraws u) : ∃ out, projectScenarios R horizon p n u = .ok out := by
  have hch : choice T w u = .ok (fun a b => searchRight w (u a b)) := by
    unfold choice
    rw [if_neg (by simp [hwl]), if_neg, if_neg (not_lt.mpr hw1)]
    simp only [List.any_eq_true, decide_eq_true_eq, not_exists, not_and, not_lt]
    exact hw0
  obtain ⟨hT, hraw⟩ := projWeights_raw hw
  obtain ⟨-, hc2⟩ := draws_core hT hraw hch
  unfold projectScenarios
  rw [if_neg (by omega), if_neg (by omega), hw]
  simp only
  rw [hch]
  simp only
  unfold gather
  rw [if_pos (fun a b => (hc2 hu a b).1)]
  exact ⟨_, rfl⟩

/-- **C77** without probabilities `project_scenarios` accepts every non-empty history, positive horizon and positive number of
simulations. -/
theorem C77_uniform_accepts (R : Fin T → Fin N → K) (hT : 0 < T) (horizon n : ℤ) (h0 : 0 < horizon) (hn : 0 < n)
    (u : Fin n.toNat → Fin horizon.toNat → K) (hu : UnitDraws u) : ∃ out, projectScenarios R horizon none n u = .ok out := by
  have hT' : (T : K) ≠ 0 := by exact_mod_cast hT.ne'
  refine project_ok R h0 hn (w := List.replicate T (1 / (T : K))) ?_ (by simp) ?_ ?_ u hu
  · unfold projWeights
    simp only
    rw [if_neg hT.ne']
  · intro y hy
    rw [List.eq_of_mem_replicate hy]
    positivity
  · rw [List.sum_replicate, nsmul_eq_mul, mul_one_div_cancel hT', sub_self, abs_zero]
    positivity

/-- **C77** (partial) `project_scenarios` accepts all good weights whose sum is within `2^-26` of one or not `isclose` to one.
Missing: sums in between, see `C77_counterexample`. -/
theorem C77_accepts_partial (R : Fin T → Fin N → K) (horizon n : ℤ) (h0 : 0 < horizon) (hn : 0 < n) (x : List K)
    (hx : GoodWeights T x) (hsum : |x.sum - 1| ≤ 1 / 2 ^ 26 ∨ 1 / 10 ^ 8 + 1 / 10 ^ 5 < |x.sum - 1|)
    (u : Fin n.toNat → Fin horizon.toNat → K) (hu : UnitDraws u) :
    ∃ out, projectScenarios R horizon (some (x.map PyFloat.fin)) n u = .ok out := by
  obtain ⟨hl, hx0, hs⟩ := hx
  have hval : (x.map PyFloat.fin).map PyFloat.val = x := by
    rw [List.map_map]; conv_rhs => rw [← List.map_id x]
    rfl
  have hpw : ∃ w, projWeights T (some (x.map PyFloat.fin)) = .ok w ∧ w.length = T ∧ (∀ y ∈ w, 0 ≤ y) ∧ |w.sum - 1| ≤ 1 / 2 ^ 26 := by
    have hcommon : projWeights T (some (x.map PyFloat.fin)) =
        if Probs.isclose1 x.sum then .ok x else .ok (x.map (· / x.sum)) := by
      unfold projWeights
      simp only [hval]
      rw [if_neg (by simp [hl]), if_neg, if_neg (by simp [PyFloat.isFinite]), if_neg (not_le.mpr hs)]
      simp only [List.any_map, List.any_eq_true, Function.comp, PyFloat.lt, decide_eq_true_eq, not_exists, not_and, not_lt]
      exact hx0
    rw [hcommon]
    by_cases hc : Probs.isclose1 x.sum = true
    · rw [if_pos hc]
      refine ⟨x, rfl, hl, hx0, ?_⟩
      rcases hsum with h | h
      · exact h
      · unfold Probs.isclose1 at hc
        simp only [decide_eq_true_eq, abs_one, mul_one] at hc
        linarith
    · rw [if_neg hc]
      refine ⟨_, rfl, by simp [hl], ?_, ?_⟩
      · intro y hy
        obtain ⟨z, hz, rfl⟩ := List.mem_map.mp hy
        exact div_nonneg (hx0 z hz) hs.le
      · rw [sum_map_div, div_self hs.ne', sub_self, abs_zero]; positivity
  obtain ⟨w, hw, hwl, hw0, hw1⟩ := hpw
  exact project_ok R h0 hn hw hwl hw0 hw1 u hu

/-- What `project_scenarios` requires of a weight vector: finite, good, and a sum that is either within `2^-26` of one or far enough from
one to be normalised. -/
def AcceptedWeights (T : ℕ) (v : List (PyFloat K)) : Prop :=
  ∃ x, v = x.map PyFloat.fin ∧ GoodWeights T x ∧ (|x.sum - 1| ≤ 1 / 2 ^ 26 ∨ 1 / 10 ^ 8 + 1 / 10 ^ 5 < |x.sum - 1|)

private theorem any_neg_fin (x : List K) : (x.map PyFloat.fin).any (fun y => y.lt (.fin 0)) = true ↔ ∃ y ∈ x, y < 0 := by
  simp [List.any_map, PyFloat.lt]

/-- **C77** The exact acceptance condition, over all weight vectors with NaN and infinities: every other vector raises `ValueError`. -/
theorem C77_accepts_iff (R : Fin T → Fin N → K) (horizon n : ℤ) (h0 : 0 < horizon) (hn : 0 < n) (v : List (PyFloat K))
    (u : Fin n.toNat → Fin horizon.toNat → K) (hu : UnitDraws u) :
    (AcceptedWeights T v → ∃ out, projectScenarios R horizon (some v) n u = .ok out) ∧
    (¬ AcceptedWeights T v → projectScenarios R horizon (some v) n u = .error .valueError) := by
  constructor
  · rintro ⟨x, rfl, h1, h2⟩
    exact C77_accepts_partial R horizon n h0 hn x h1 h2 u hu
  intro hno
  unfold projectScenarios
  rw [if_neg (by omega), if_neg (by omega)]
  by_cases hl : v.length ≠ T
  · have : projWeights T (some v) = .error .valueError := by
      unfold projWeights
      dsimp only
      rw [if_pos hl]
    rw [this]
  by_cases hneg : v.any (fun x => x.lt (.fin 0)) = true
  · have : projWeights T (some v) = .error .valueError := by
      unfold projWeights
      dsimp only
      rw [if_neg hl, if_pos hneg]
    rw [this]
  by_cases hfin : v.all PyFloat.isFinite = false
  · have : projWeights T (some v) = .error .valueError := by
      unfold projWeights
      dsimp only
      rw [if_neg hl, if_neg hneg, if_pos hfin]
    rw [this]
  obtain ⟨x, rfl⟩ : ∃ x : List K, v = x.map PyFloat.fin := by
    refine ⟨v.map PyFloat.val, ?_⟩
    rw [List.map_map]
    conv_lhs => rw [← List.map_id v]
    refine List.map_congr_left fun y hy => ?_
    have : y.isFinite = true := by
      simp only [Bool.not_eq_false, List.all_eq_true] at hfin
      exact hfin y hy
    cases y <;> simp_all [PyFloat.isFinite, PyFloat.val]
  have hval : (x.map PyFloat.fin).map PyFloat.val = x := by
    rw [List.map_map]; conv_rhs => rw [← List.map_id x]
    rfl
  by_cases hs : x.sum ≤ 0
  · have : projWeights T (some (x.map PyFloat.fin)) = .error .valueError := by
      unfold projWeights
      dsimp only
      rw [if_neg hl, if_neg hneg, if_neg hfin, hval, if_pos hs]
    rw [this]
  have hg : GoodWeights T x := by
    refine ⟨by simpa using hl, fun y hy => ?_, not_le.1 hs⟩
    by_contra hc
    exact hneg ((any_neg_fin x).2 ⟨y, hy, not_le.1 hc⟩)
  have hgap : ¬ (|x.sum - 1| ≤ 1 / 2 ^ 26 ∨ 1 / 10 ^ 8 + 1 / 10 ^ 5 < |x.sum - 1|) := fun h => hno ⟨x, rfl, hg, h⟩
  push Not at hgap
  have hclose : Probs.isclose1 x.sum = true := by
    unfold Probs.isclose1
    rw [abs_one, mul_one]
    exact decide_eq_true hgap.2
  have : projWeights T (some (x.map PyFloat.fin)) = .ok x := by
    unfold projWeights
    dsimp only
    rw [if_neg hl, if_neg hneg, if_neg hfin, hval, if_neg hs, if_pos hclose]
  rw [this]
  have hch : choice T x u = .error .valueError := by
    unfold choice
    rw [if_neg (by simp [hg.1])]
    split_ifs with h1 h2
    · rfl
    · rfl
    · exact absurd hgap.1 h2
  dsimp only
  rw [hch]

/-- **C77** (counterexample) weights `(1/2, 1/2 + 10^-6)` are rejected by `project_scenarios`: their sum is close enough to one not to
be normalised, but too far for the generator. `simulate_paths` accepts them, and `project_scenarios` accepts them times 100. -/
theorem C77_counterexample (R : Fin 2 → Fin N → ℚ) (u : Fin (Int.toNat 1) → Fin (Int.toNat 1) → ℚ) (hu : UnitDraws u) :
    GoodWeights 2 [(1 / 2 : ℚ), 1 / 2 + 1 / 10 ^ 6] ∧
      projectScenarios R 1 (some [.fin (1 / 2), .fin (1 / 2 + 1 / 10 ^ 6)]) 1 u = .error .valueError ∧
      (∃ path, simulatePaths R 1 1 (some [.fin (1 / 2), .fin (1 / 2 + 1 / 10 ^ 6)]) u = .ok path) ∧
      ∃ out, projectScenarios R 1 (some [.fin 50, .fin (50 + 1 / 10 ^ 4)]) 1 u = .ok out := by
  have hg : GoodWeights 2 [(1 / 2 : ℚ), 1 / 2 + 1 / 10 ^ 6] := by
    refine ⟨rfl, ?_, by norm_num⟩
    intro y hy
    simp only [List.mem_cons, List.not_mem_nil, or_false] at hy
    rcases hy with rfl | rfl <;> norm_num
  refine ⟨hg, ?_, ?_, ?_⟩
  · have hw : projWeights 2 (some [.fin (1 / 2 : ℚ), .fin (1 / 2 + 1 / 10 ^ 6)]) = .ok [1 / 2, 1 / 2 + 1 / 10 ^ 6] := by
      decide +kernel
    unfold projectScenarios
    rw [if_neg (by omega), if_neg (by omega), hw]
    simp only
    unfold choice
    rw [if_neg (by simp), if_neg (by simp; norm_num), if_pos]
    rw [abs_of_nonneg] <;> norm_num
  · exact C58_paths_succeed R 1 1 (by norm_num) (by norm_num) _ hg.1 hg.2.1 hg.2.2 u hu
  · refine C77_accepts_partial R 1 1 (by norm_num) (by norm_num) [50, 50 + 1 / 10 ^ 4] ⟨rfl, ?_, by norm_num⟩ (.inr ?_) u hu
    · intro y hy
      simp only [List.mem_cons, List.not_mem_nil, or_false] at hy
      rcases hy with rfl | rfl <;> norm_num
    · rw [abs_of_nonneg] <;> norm_num

/-- **C77** (limit) `simulate_paths` does not test signs before dividing: weights that are all negative are accepted. -/
theorem C77_negative_paths (R : Fin 2 → Fin N → ℚ) : ∃ path, simulatePaths R 1 1 (some [.fin (-1), .fin (-3)]) (fun _ _ => 1 / 2) = .ok path := by
  have hw : pathWeights 2 (some [.fin (-1 : ℚ), .fin (-3)]) = .ok [1 / 4, 3 / 4] := by decide +kernel
  unfold simulatePaths
  rw [hw]
  simp only
  rw [if_neg (by omega)]
  have hc : choice (n := Int.toNat 1) (h := Int.toNat 1) 2 [(1 / 4 : ℚ), 3 / 4] (fun _ _ => 1 / 2) = .ok (fun _ _ => 1) := by
    decide +kernel
  rw [hc]
  simp only
  unfold gather
  rw [if_pos (fun _ _ => Nat.lt_succ_self 1)]
  exact ⟨_, rfl⟩

/-! ## C76 -/

/-- **C76** projecting log returns over a horizon and repricing with `reprice_exp` gives the compounded simple return of the drawn
rows: the product of the gross returns minus one. -/
theorem C76_compounding (r : Fin T → Fin N → ℝ) (hr : ∀ t i, -1 < r t i) (horizon n : ℤ) (p : Option (List (PyFloat ℝ)))
    (u : Fin n.toNat → Fin horizon.toNat → ℝ) (hu : UnitDraws u) (out : Fin n.toNat → Fin N → ℝ)
    (h : projectScenarios (fun t i => Real.log (1 + r t i)) horizon p n u = .ok out) :
    ∃ idx, DrawnBy T p u idx ∧ ∀ a i, repriceExp (out a i) = (∏ b, (1 + r (idx a b) i)) - 1 := by
  obtain ⟨idx, h1, h2⟩ := C58_project _ horizon n p u hu out h
  refine ⟨idx, h1, fun a i => ?_⟩
  unfold repriceExp
  rw [h2, Real.exp_sum]
  congr 1
  exact Finset.prod_congr rfl (fun b _ => Real.exp_log (by linarith [hr (idx a b) i]))

/-! ## C59 -/

/-- **C59** full repricing of a zero move is zero P&L, whatever the pricing function and the current drivers. -/
theorem C59_zero_move {F : Type*} [Field F] {n k m : ℕ} (price : (Fin k → F) → Fin m → F) (y0 : Fin k → F) (a : Fin n) (j : Fin m) :
    makeRepricing price y0 (fun (_ : Fin n) _ => 0) a j = 0 := by
  simp [makeRepricing]

/-- **C59** the P&L is the difference between the price at the moved drivers and the current price. -/
theorem C59_difference {F : Type*} [Field F] {n k m : ℕ} (price : (Fin k → F) → Fin m → F) (y0 : Fin k → F)
    (dy : Fin n → Fin k → F) (a : Fin n) (j : Fin m) :
    makeRepricing price y0 dy a j = price (y0 + dy a) j - price y0 j := rfl

/-- **C59** Taylor repricing: the quadratic with missing sensitivities read as zero; a zero move leaves only the time decay. -/
theorem C59_taylor {F : Type*} [Field F] (theta delta gamma : Option F) (tau dy : F) :
    repriceTaylor theta delta gamma tau dy =
        theta.getD 0 * tau + delta.getD 0 * dy + 1 / 2 * gamma.getD 0 * dy ^ 2 ∧
      repriceTaylor theta delta gamma tau 0 = theta.getD 0 * tau := by
  cases theta <;> cases delta <;> cases gamma <;> simp [repriceTaylor]

/-- The columns an instrument specification names: its own name for a plain function, else the listed drivers. -/
def namedDrivers {n : ℕ} {F : Type*} (e : String × RSpec n F) : List String :=
  match e.2 with
  | .plain _ => [e.1]
  | .drivers ds _ => ds
  | _ => []

/-- The pricing function of a specification. -/
def pricerOf {n : ℕ} {F : Type*} (e : String × RSpec n F) : Option (Pricer n F) :=
  match e.2 with
  | .plain f => some f
  | .drivers _ f => some f
  | _ => none

theorem colIndex_mem {cols : List String} {name : String} {i : ℕ} (h : colIndex cols name = some i) : cols[i]? = some name := by
  unfold colIndex at h
  have := List.mem_of_getLast? h
  simp only [List.mem_filter, beq_iff_eq] at this
  exact this.2

theorem colIndex_none {cols : List String} {name : String} : colIndex cols name = none ↔ name ∉ cols := by
  unfold colIndex
  rw [List.getLast?_eq_none_iff, List.filter_eq_nil_iff]
  constructor
  · intro h hm
    obtain ⟨i, hi, e⟩ := List.getElem_of_mem hm
    exact h i (List.mem_range.mpr hi) (by simp [hi, e])
  · intro h i hi hc
    exact h (List.mem_of_getElem? (by simpa using hc))

theorem driverCols_ok {cols : List String} : ∀ {ds : List String} {is : List ℕ}, driverCols cols ds = .ok is →
    List.Forall₂ (fun d i => cols[i]? = some d) ds is := by
  intro ds
  induction ds with
  | nil => intro is h; injection h with h; subst h; exact .nil
  | cons d ds ih =>
    intro is h
    unfold driverCols at h
    split at h
    · cases h
    rename_i i hi
    split at h
    · cases h
    rename_i js hj
    injection h with h
    subst h
    exact .cons (colIndex_mem hi) (ih hj)

theorem driverCols_error {cols : List String} : ∀ {ds : List String} {e : PyErr}, driverCols cols ds = .error e →
    e = .keyError ∧ ∃ d ∈ ds, d ∉ cols := by
  intro ds
  induction ds with
  | nil => intro e h; cases h
  | cons d ds ih =>
    intro e h
    unfold driverCols at h
    split at h
    · rename_i hi
      injection h with h
      exact ⟨h.symm, d, List.mem_cons_self .., colIndex_none.mp hi⟩
    split at h
    · rename_i e' he
      injection h with h
      subst h
      obtain ⟨h1, d', h2, h3⟩ := ih he
      exact ⟨h1, d', List.mem_cons_of_mem _ h2, h3⟩
    · cases h

/-- What one instrument should be given: the columns of the moves whose names are its drivers, in the order it lists them. -/
def FedBy {n : ℕ} {F : Type*} (cols : List String) (dy : Fin n → Fin cols.length → F) (drivers : List String)
    (columns : List (Fin n → F)) : Prop :=
  List.Forall₂ (fun d c => ∃ i : Fin cols.length, cols.get i = d ∧ ∀ a, c a = dy a i) drivers columns

/-- The specification of an instrument is usable: a pricing function, and every driver it names is a column. -/
def Usable {n : ℕ} {F : Type*} (cols : List String) (e : String × RSpec n F) : Prop :=
  (pricerOf e).isSome ∧ ∀ d ∈ namedDrivers e, d ∈ cols

theorem parseSpec_ok {n : ℕ} {F : Type*} [Field F] {cols : List String} {e : String × RSpec n F} {q : List ℕ × Pricer n F}
    (h : parseSpec cols e = .ok q) :
    pricerOf e = some q.2 ∧ List.Forall₂ (fun d i => cols[i]? = some d) (namedDrivers e) q.1 := by
  unfold parseSpec at h
  split at h
  · rename_i f hf
    split at h
    · cases h
    rename_i i hi
    injection h with h
    subst h
    refine ⟨by simp [pricerOf, hf], ?_⟩
    simp only [namedDrivers, hf]
    exact .cons (colIndex_mem hi) .nil
  · rename_i ds f hf
    split at h
    · cases h
    rename_i is hi
    injection h with h
    subst h
    refine ⟨by simp [pricerOf, hf], ?_⟩
    simp only [namedDrivers, hf]
    exact driverCols_ok hi
  · cases h
  · cases h

/-- **C59** `compose_repricers` reports the instruments in order, and gives each instrument's function exactly the columns of the
drivers it names, in the order it names them: the P&L column of an instrument is its own function of its own drivers. -/
theorem C59_compose {n : ℕ} {F : Type*} [Field F] (instruments : List (String × RSpec n F)) (cols : List String)
    (reprice : (Fin n → Fin cols.length → F) → Fin n → List F) (names : List String)
    (h : composeRepricers instruments cols = .ok (reprice, names)) :
    names = instruments.map Prod.fst ∧
      ∀ dy a, List.Forall₂
        (fun e v => ∃ f columns, pricerOf e = some f ∧ FedBy cols dy (namedDrivers e) columns ∧ v = f columns a)
        instruments (reprice dy a) := by
  unfold composeRepricers at h
  split at h
  · cases h
  rename_i parsed hp
  injection h with h
  injection h with h1 h2
  subst h1 h2
  refine ⟨rfl, fun dy a => ?_⟩
  rw [Ens.mapE_iff] at hp
  rw [List.forall₂_map_right_iff]
  refine hp.imp fun e q he => ?_
  obtain ⟨h1, h2⟩ := parseSpec_ok he
  refine ⟨q.2, _, h1, ?_, rfl⟩
  unfold FedBy
  rw [List.forall₂_map_right_iff]
  refine h2.imp fun d i hi => ?_
  have hlt : i < cols.length := by
    by_contra hc
    rw [List.getElem?_eq_none (by omega)] at hi
    cases hi
  refine ⟨⟨i, hlt⟩, ?_, fun a => by simp [moveCol, hlt]⟩
  rw [List.getElem?_eq_getElem hlt] at hi
  injection hi

/-- **C59** a zero move of the drivers gives a zero P&L for every instrument, as soon as every instrument's function gives zero on
zero columns. -/
theorem C59_compose_zero {n : ℕ} {F : Type*} [Field F] (instruments : List (String × RSpec n F)) (cols : List String)
    (reprice : (Fin n → Fin cols.length → F) → Fin n → List F) (names : List String)
    (h : composeRepricers instruments cols = .ok (reprice, names))
    (hz : ∀ e ∈ instruments, ∀ f, pricerOf e = some f → ∀ a, f (List.replicate (namedDrivers e).length 0) a = 0) (a : Fin n) :
    reprice (fun _ _ => 0) a = List.replicate instruments.length 0 := by
  obtain ⟨-, h2⟩ := C59_compose instruments cols reprice names h
  have h3 := h2 (fun _ _ => 0) a
  rw [List.eq_replicate_iff]
  refine ⟨h3.length_eq.symm, fun v hv => ?_⟩
  obtain ⟨k, hk, rfl⟩ := List.getElem_of_mem hv
  rw [List.forall₂_iff_get] at h3
  have hk' : k < instruments.length := by rw [h3.1]; exact hk
  obtain ⟨f, columns, hf, hc, hv⟩ := h3.2 k hk' hk
  have he : columns = List.replicate (namedDrivers (instruments.get ⟨k, hk'⟩)).length 0 := by
    rw [List.eq_replicate_iff]
    refine ⟨hc.length_eq.symm, fun c hcm => ?_⟩
    unfold FedBy at hc
    obtain ⟨l, hl, rfl⟩ := List.getElem_of_mem hcm
    rw [List.forall₂_iff_get] at hc
    obtain ⟨i, -, hi⟩ := hc.2 l (by rw [hc.1]; exact hl) hl
    funext b
    exact hi b
  rw [he] at hv
  have := hz _ (List.get_mem instruments ⟨k, hk'⟩) f hf a
  rw [this] at hv
  simpa using hv

theorem parseSpec_error {n : ℕ} {F : Type*} [Field F] {cols : List String} {e : String × RSpec n F} {er : PyErr}
    (h : parseSpec cols e = .error er) : ¬Usable cols e ∧ (er = .keyError ∨ er = .typeError) := by
  unfold parseSpec at h
  split at h
  · rename_i f hf
    split at h
    · rename_i hi
      injection h with h
      refine ⟨fun hu => ?_, .inl h.symm⟩
      exact colIndex_none.mp hi (hu.2 _ (by simp [namedDrivers, hf]))
    · cases h
  · rename_i ds f hf
    split at h
    · rename_i e' hi
      injection h with h
      subst h
      obtain ⟨h1, d, h2, h3⟩ := driverCols_error hi
      exact ⟨fun hu => h3 (hu.2 d (by simpa [namedDrivers, hf] using h2)), .inl h1⟩
    · cases h
  · rename_i hf
    injection h with h
    exact ⟨fun hu => by simp [Usable, pricerOf, hf] at hu, .inr h.symm⟩
  · rename_i hf
    injection h with h
    exact ⟨fun hu => by simp [Usable, pricerOf, hf] at hu, .inr h.symm⟩

/-- **C59** composition succeeds exactly when every specification is usable: a pricing function, all of whose drivers are columns. -/
theorem C59_compose_accepts {n : ℕ} {F : Type*} [Field F] (instruments : List (String × RSpec n F)) (cols : List String) :
    (∃ r, composeRepricers instruments cols = .ok r) ↔ ∀ e ∈ instruments, Usable cols e := by
  constructor
  · rintro ⟨r, h⟩ e he
    unfold composeRepricers at h
    split at h
    · cases h
    rename_i parsed hp
    rw [Ens.mapE_iff] at hp
    obtain ⟨k, hk, rfl⟩ := List.getElem_of_mem he
    rw [List.forall₂_iff_get] at hp
    obtain ⟨h1, h2⟩ := parseSpec_ok (hp.2 k hk (by rw [← hp.1]; exact hk))
    refine ⟨?_, fun d hd => ?_⟩
    · have : pricerOf instruments[k] = _ := h1
      rw [this]; rfl
    · obtain ⟨l, hl, rfl⟩ := List.getElem_of_mem hd
      rw [List.forall₂_iff_get] at h2
      exact List.mem_of_getElem? (h2.2 l hl (by rw [← h2.1]; exact hl))
  · intro hu
    have : ∃ parsed, mapE (parseSpec cols) instruments = .ok parsed := by
      induction instruments with
      | nil => exact ⟨[], rfl⟩
      | cons e es ih =>
        obtain ⟨ps, hps⟩ := ih (fun x hx => hu x (List.mem_cons_of_mem _ hx))
        cases hq : parseSpec cols e with
        | error er => exact absurd (hu e (List.mem_cons_self ..)) (parseSpec_error hq).1
        | ok q => exact ⟨q :: ps, by simp [mapE, hq, hps]⟩
    obtain ⟨parsed, hp⟩ := this
    unfold composeRepricers
    rw [hp]
    exact ⟨_, rfl⟩

/-- **C59** (finding) the documented example fails: a plain function needs a column with the instrument's own name, and
`"Stock"` is not one of `["stock_logret", "yield_10y", "iv_chg"]`. -/
theorem C59_doc_example {n : ℕ} (reprice_exp bond my_option_fn : Pricer n ℚ) :
    composeRepricers [("Stock", RSpec.plain reprice_exp), ("Bond", RSpec.drivers ["yield_10y"] bond),
        ("Call", RSpec.drivers ["stock_logret", "iv_chg"] my_option_fn)]
      ["stock_logret", "yield_10y", "iv_chg"] = .error .keyError := by
  have : colIndex ["stock_logret", "yield_10y", "iv_chg"] "Stock" = none := by decide +kernel
  simp [composeRepricers, mapE, parseSpec, this]

/-- The example with the driver named is usable. -/
example : Usable ["stock_logret", "yield_10y"] ("Stock", RSpec.drivers ["stock_logret"] (fun (c : List (Fin 2 → ℚ)) a => (c.map (· a)).sum)) := by
  refine ⟨rfl, ?_⟩
  simp [namedDrivers]

end PyV.Props
