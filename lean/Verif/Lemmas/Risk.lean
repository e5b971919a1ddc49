import Verif.Model.Risk
import Verif.Spec.Risk
import Mathlib.Tactic.Linarith
import Mathlib.Tactic.FieldSimp
import Mathlib.Tactic.Ring
import Mathlib.Algebra.BigOperators.Field

set_option linter.unusedSectionVars false

/-! The sorting code computes the quantile, and the quantile minimises the RU objective. -/

namespace PyV.Risk

open PyV PyV.Spec

variable {K : Type*} [Field K] [LinearOrder K] [IsStrictOrderedRing K] {T N : ℕ}

theorem boolArgmax_some {f : Fin T → Bool} (h : ∃ k, f k = true) :
    ∃ k, boolArgmax f = some k ∧ f k = true ∧ ∀ j < k, f j = false := by
  unfold boolArgmax
  obtain ⟨k₀, hk₀⟩ := h
  cases hf : (List.finRange T).find? f with
  | none =>
    rw [List.find?_eq_none] at hf
    exact absurd hk₀ (hf k₀ (List.mem_finRange k₀))
  | some k =>
    refine ⟨k, rfl, List.find?_some hf, ?_⟩
    intro j hj
    rw [List.find?_eq_some_iff_getElem] at hf
    obtain ⟨-, i, hi, hik, hmin⟩ := hf
    have hki : (k : ℕ) = i := by rw [← hik]; simp
    have := hmin j (by rw [← hki]; exact hj)
    simpa using this

/-- The index picked by the code is the quantile. -/
theorem quantile_spec {p x : Fin T → K} {conf : K} (hp : IsProb p) (h0 : 0 < conf) (h1 : conf < 1)
    {σ : Equiv.Perm (Fin T)} (hσ : Monotone (x ∘ σ)) :
    ∃ k, varIndex p σ conf = some k ∧ IsVar p x conf (-(x (σ k))) := by
  have hT : 0 < T := by
    rcases Nat.eq_zero_or_pos T with rfl | h
    · have := hp.sum; simp at this
    · exact h
  have hlast : cumProb p σ ⟨T - 1, by omega⟩ = 1 := by
    unfold cumProb
    rw [← hp.sum, ← Equiv.sum_comp σ p]
    apply Finset.sum_congr rfl
    intro j _
    rw [if_pos]
    exact Fin.le_def.mpr (by have := j.2; simp only; omega)
  obtain ⟨k, hk, hk1, hk2⟩ := boolArgmax_some (f := fun k => decide (cumProb p σ k ≥ 1 - conf))
    ⟨⟨T - 1, by omega⟩, by simp only [decide_eq_true_eq]; rw [hlast]; linarith⟩
  refine ⟨k, hk, ?_, ?_⟩
  · rw [neg_neg]
    -- strict tail
    have hle : prob p (fun t => x t < x (σ k)) ≤ ∑ j, if j < k then p (σ j) else 0 := by
      unfold prob
      rw [← Equiv.sum_comp σ (fun t => if x t < x (σ k) then p t else 0)]
      apply Finset.sum_le_sum
      intro j _
      by_cases hj : j < k
      · rw [if_pos hj]
        split
        · exact le_refl _
        · exact hp.nonneg _
      · rw [if_neg hj, if_neg]
        exact not_lt.mpr (hσ (not_lt.mp hj))
    rcases Nat.eq_zero_or_pos (k : ℕ) with hk0 | hkpos
    · refine lt_of_le_of_lt hle ?_
      rw [Finset.sum_eq_zero]
      · linarith
      · intro j _
        rw [if_neg]
        exact fun h => absurd (Fin.lt_def.mp h) (by omega)
    · refine lt_of_le_of_lt hle ?_
      have hkT := k.2
      have hpred := hk2 ⟨(k : ℕ) - 1, by omega⟩ (Fin.lt_def.mpr (by simp only; omega))
      simp only [decide_eq_false_iff_not, not_le, ge_iff_le] at hpred
      refine lt_of_eq_of_lt ?_ hpred
      unfold cumProb
      apply Finset.sum_congr rfl
      intro j _
      have : (j < k) ↔ (j ≤ ⟨(k : ℕ) - 1, by omega⟩) := by
        rw [Fin.lt_def, Fin.le_def]; simp only; omega
      simp [this]
  · rw [neg_neg]
    simp only [decide_eq_true_eq] at hk1
    refine le_trans hk1 ?_
    unfold cumProb prob
    rw [← Equiv.sum_comp σ (fun t => if x t ≤ x (σ k) then p t else 0)]
    apply Finset.sum_le_sum
    intro j _
    by_cases hj : j ≤ k
    · have h := hσ hj
      simp only [Function.comp] at h
      rw [if_pos hj, if_pos h]
    · rw [if_neg hj]
      split
      · exact hp.nonneg _
      · exact le_refl _

/-- The quantile is unique. -/
theorem isVar_unique {p x : Fin T → K} {conf r s : K} (hp : ∀ t, 0 ≤ p t) (h1 : IsVar p x conf r)
    (h2 : IsVar p x conf s) : r = s := by
  have key : ∀ {r s : K}, IsVar p x conf r → IsVar p x conf s → ¬ r < s := by
    intro r s h1 h2 hlt
    have : prob p (fun t => x t ≤ -s) ≤ prob p (fun t => x t < -r) := by
      unfold prob
      apply Finset.sum_le_sum
      intro t _
      by_cases h : x t ≤ -s
      · rw [if_pos h, if_pos (by linarith)]
      · rw [if_neg h]
        split
        · exact hp t
        · exact le_refl _
    exact absurd (lt_of_le_of_lt (le_trans h2.2 this) h1.1) (lt_irrefl _)
  exact le_antisymm (not_lt.mp (key h2 h1)) (not_lt.mp (key h1 h2))

/-- RU objective at the quantile, and its minimality. -/
theorem ru_min {p x : Fin T → K} {conf v : K} (hp : IsProb p) (h1 : conf < 1)
    (hv : IsVar p x conf (-v)) (c : K) : ru p x conf (-v) ≤ ru p x conf c := by
  obtain ⟨hlt, hle⟩ := hv
  rw [neg_neg] at hlt hle
  have ha : 0 < 1 - conf := by linarith
  unfold ru
  rw [← sub_nonneg]
  have e : c + expect p (fun t => max (-(x t) - c) 0) / (1 - conf) -
      (-v + expect p (fun t => max (-(x t) - -v) 0) / (1 - conf)) =
      ((c + v) * (1 - conf) + (expect p (fun t => max (-(x t) - c) 0) -
        expect p (fun t => max (-(x t) - -v) 0))) / (1 - conf) := by
    field_simp; ring
  rw [e]
  apply div_nonneg _ ha.le
  have e2 : expect p (fun t => max (-(x t) - c) 0) - expect p (fun t => max (-(x t) - -v) 0) =
      ∑ t, p t * (max (-(x t) - c) 0 - max (-(x t) - -v) 0) := by
    unfold expect
    rw [← Finset.sum_sub_distrib]
    apply Finset.sum_congr rfl
    intro t _; ring
  rw [e2]
  rcases le_total (-v) c with h | h
  · -- raising the threshold loses at most (c+v) P(x < v)
    have hb : -(c + v) * prob p (fun t => x t < v) ≤ ∑ t, p t * (max (-(x t) - c) 0 - max (-(x t) - -v) 0) := by
      unfold prob
      rw [Finset.mul_sum]
      apply Finset.sum_le_sum
      intro t _
      have hpt := hp.nonneg t
      by_cases hx : x t < v
      · rw [if_pos hx, mul_comm]
        apply mul_le_mul_of_nonneg_left _ hpt
        rw [max_eq_left (by linarith : (0:K) ≤ -(x t) - -v)]
        have := le_max_left (-(x t) - c) 0
        linarith
      · rw [if_neg hx, mul_zero]
        have hx := not_lt.mp hx
        rw [max_eq_right (by linarith : -(x t) - -v ≤ 0), sub_zero]
        exact mul_nonneg hpt (le_max_right _ _)
    nlinarith [mul_nonneg (by linarith : (0:K) ≤ c + v) (by linarith : 0 ≤ (1 - conf) - prob p (fun t => x t < v))]
  · have hb : -(c + v) * prob p (fun t => x t ≤ v) ≤ ∑ t, p t * (max (-(x t) - c) 0 - max (-(x t) - -v) 0) := by
      unfold prob
      rw [Finset.mul_sum]
      apply Finset.sum_le_sum
      intro t _
      have hpt := hp.nonneg t
      by_cases hx : x t ≤ v
      · rw [if_pos hx, mul_comm]
        apply mul_le_mul_of_nonneg_left _ hpt
        rw [max_eq_left (by linarith : (0:K) ≤ -(x t) - -v)]
        have := le_max_left (-(x t) - c) 0
        linarith
      · rw [if_neg hx, mul_zero]
        have hx := (not_le.mp hx).le
        rw [max_eq_right (by linarith : -(x t) - -v ≤ 0), sub_zero]
        exact mul_nonneg hpt (le_max_right _ _)
    nlinarith [mul_nonneg (by linarith : (0:K) ≤ -(c + v)) (by linarith : 0 ≤ prob p (fun t => x t ≤ v) - (1 - conf))]

/-- The code's closed formula is the RU objective at the threshold it picked. -/
theorem formula_eq_ru {p x : Fin T → K} {conf : K} (h1 : conf < 1) (v : K) :
    -((∑ t, p t * x t * (if x t < v then 1 else 0) +
        v * ((1 - conf) - ∑ t, p t * (if x t < v then 1 else 0))) / (1 - conf)) = ru p x conf (-v) := by
  have ha : (1 - conf) ≠ 0 := by linarith
  unfold ru expect
  have : ∑ t, p t * max (-(x t) - -v) 0 =
      v * (∑ t, p t * (if x t < v then 1 else 0)) - ∑ t, p t * x t * (if x t < v then 1 else 0) := by
    rw [Finset.mul_sum, ← Finset.sum_sub_distrib]
    apply Finset.sum_congr rfl
    intro t _
    by_cases hx : x t < v
    · rw [if_pos hx, max_eq_left (by linarith)]; ring
    · rw [if_neg hx, max_eq_right (by linarith)]; ring
  rw [this]
  field_simp
  ring

/-- Sorting routines: any argsort that really sorts, whatever it does with ties. -/
def IsArgsort (argsort : (Fin T → K) → Equiv.Perm (Fin T)) : Prop := ∀ x, Monotone (x ∘ argsort x)

/-- The P&L vector the functions work with. -/
def effPnl (w : Fin N → K) (R : Fin T → Fin N → K) (p : Option (Fin T → K)) (demean : Bool) : Fin T → K :=
  pnl (maybeDemean demean (scenarioProbs p) R) w

theorem portfolioVar_ok {argsort : (Fin T → K) → Equiv.Perm (Fin T)} (hs : IsArgsort argsort) {w : Fin N → K}
    {R : Fin T → Fin N → K} {p : Option (Fin T → K)} {conf : K} {demean : Bool}
    (hp : IsProb (scenarioProbs p)) (h0 : 0 < conf) (h1 : conf < 1) :
    ∃ r, portfolioVar argsort w R p (some conf) demean = .ok r ∧
      IsVar (scenarioProbs p) (effPnl w R p demean) conf r := by
  obtain ⟨k, hk, hq⟩ := quantile_spec (x := effPnl w R p demean) hp h0 h1 (hs _)
  refine ⟨_, ?_, hq⟩
  unfold portfolioVar checkConf
  simp only [Option.getD_some, h0, h1, and_self, if_true]
  show (match varIndex (scenarioProbs p) (argsort (effPnl w R p demean)) conf with
    | none => _ | some k => _) = _
  rw [hk]
  rfl

theorem portfolioCvar_ok {argsort : (Fin T → K) → Equiv.Perm (Fin T)} (hs : IsArgsort argsort) {w : Fin N → K}
    {R : Fin T → Fin N → K} {p : Option (Fin T → K)} {conf : K} {demean : Bool}
    (hp : IsProb (scenarioProbs p)) (h0 : 0 < conf) (h1 : conf < 1) :
    ∃ r, portfolioCvar argsort w R p (some conf) demean = .ok r ∧
      IsCvar (scenarioProbs p) (effPnl w R p demean) conf r := by
  obtain ⟨k, hk, hq⟩ := quantile_spec (x := effPnl w R p demean) hp h0 h1 (hs _)
  refine ⟨ru (scenarioProbs p) (effPnl w R p demean) conf
    (-(effPnl w R p demean (argsort (effPnl w R p demean) k))), ?_, ⟨_, rfl⟩, ?_⟩
  · unfold portfolioCvar checkConf
    simp only [Option.getD_some, h0, h1, and_self, if_true]
    show (match varIndex (scenarioProbs p) (argsort (effPnl w R p demean)) conf with
      | none => _ | some k => _) = _
    rw [hk]
    simp only
    rw [← formula_eq_ru h1]
    rfl
  · rintro _ ⟨c, rfl⟩
    exact ru_min hp h1 hq c

theorem uniform_isProb (hT : 0 < T) : IsProb (scenarioProbs (none : Option (Fin T → K))) := by
  have : (T : K) ≠ 0 := by exact_mod_cast hT.ne'
  refine ⟨fun t => ?_, ?_⟩
  · simp [scenarioProbs]
  · simp [scenarioProbs, this]

theorem cvar_unique {p x : Fin T → K} {conf r s : K} (h1 : IsCvar p x conf r) (h2 : IsCvar p x conf s) : r = s :=
  IsLeast.unique h1 h2

theorem ru_mono {p x y : Fin T → K} {conf : K} (hp : ∀ t, 0 ≤ p t) (h1 : conf < 1) (h : ∀ t, x t ≤ y t) (c : K) :
    ru p y conf c ≤ ru p x conf c := by
  unfold ru expect
  have : ∑ t, p t * max (-(y t) - c) 0 ≤ ∑ t, p t * max (-(x t) - c) 0 := by
    apply Finset.sum_le_sum
    intro t _
    apply mul_le_mul_of_nonneg_left _ (hp t)
    exact max_le_max (by linarith [h t]) (le_refl _)
  have := div_le_div_of_nonneg_right this (by linarith : (0:K) ≤ 1 - conf)
  linarith

end PyV.Risk
