import Verif.Lemmas.Frontier
import Verif.Lemmas.Constraints
import Verif.Lemmas.Risk
import Verif.Props.Constraints
import Mathlib.Data.Fin.VecNotation
import Mathlib.Data.Fin.Tuple.Sort
import Mathlib.Tactic.NormNum
import Mathlib.Tactic.FinCases

set_option linter.unusedSectionVars false

/-! # Properties C52–C56: frontier selection, percentiles, convexity correction, constraint resolution -/

namespace PyV.Props

open PyV PyV.Fr PyV.Spec.Frontier

variable {K : Type*} [Field K] [LinearOrder K] [IsStrictOrderedRing K] {N M : ℕ} {L : Type*} [DecidableEq L]

/-- A frontier with three portfolios of two assets, one alternate risk measure, a tie in return and a zero risk. -/
def exFrontier : Frontier String ℚ 2 3 where
  weights := ![![1, 1/2, 0], ![0, 1/2, 1]]
  returns := ![1/100, 3/100, 3/100]
  risks := ![0, 2/100, 5/100]
  riskMeasure := "Volatility"
  alternates := [("CVaR", ![3/100, 1/100, 6/100])]

/-- **C52** `min_risk(risk_label)` succeeds with `p` exactly when `p` reports the first portfolio of smallest risk under that
label. -/
theorem C52_min_risk (f : Frontier L K N M) (label : Option L) (p : Pick K N) :
    f.minRisk label = .ok p ↔ ∃ r i, RiskUnder f label r ∧ FirstMin (fun _ => True) r i ∧ Reports f r i p := by
  unfold Frontier.minRisk
  constructor
  · intro h
    cases hr : f.riskVector label with
    | error e => rw [hr] at h; cases h
    | ok r =>
      rw [hr] at h
      simp only at h
      cases hi : firstArgmin r with
      | none => rw [hi] at h; cases h
      | some i =>
        rw [hi] at h
        simp only [Except.ok.injEq] at h
        exact ⟨r, i, riskVector_ok.mp hr, firstArgmin_iff.mp hi, pick_iff.mp h⟩
  · rintro ⟨r, i, hr, hi, hp⟩
    rw [riskVector_ok.mpr hr]
    simp only
    rw [firstArgmin_iff.mpr hi]
    simp only
    rw [pick_iff.mpr hp]

/-- **C52** (errors) an unknown label is a `KeyError`; a known label on a non-empty frontier never fails. -/
theorem C52_min_risk_errors (f : Frontier L K N M) (label : Option L) :
    ((∀ r, ¬ RiskUnder f label r) → f.minRisk label = .error .keyError) ∧
      (0 < M → (∃ r, RiskUnder f label r) → ∃ p, f.minRisk label = .ok p) := by
  refine ⟨fun h => ?_, fun hM ⟨r, hr⟩ => ?_⟩
  · unfold Frontier.minRisk
    rw [riskVector_err h]
  · obtain ⟨i, hi⟩ := firstArgmin_ne_none hM r
    exact ⟨_, (C52_min_risk f label _).mpr ⟨r, i, hr, firstArgmin_iff.mp hi, pick_iff.mp rfl⟩⟩

/-- **C52** `max_return` reports the first portfolio of largest return, with its primary risk. -/
theorem C52_max_return (f : Frontier L K N M) (p : Pick K N) :
    f.maxReturn = .ok p ↔ ∃ i, FirstMax (fun _ => True) f.returns i ∧ Reports f f.risks i p := by
  unfold Frontier.maxReturn
  constructor
  · intro h
    cases hi : firstArgmax f.returns with
    | none => rw [hi] at h; cases h
    | some i =>
      rw [hi] at h
      simp only [Except.ok.injEq] at h
      exact ⟨i, firstArgmax_iff.mp hi, pick_iff.mp h⟩
  · rintro ⟨i, hi, hp⟩
    rw [firstArgmax_iff.mpr hi]
    simp only
    rw [pick_iff.mpr hp]

/-- **C52** `tangency(rf)` reports the first portfolio of largest Sharpe ratio among those of non-zero risk, unless all risks
are numerically zero. -/
theorem C52_tangency (f : Frontier L K N M) (rf : K) (p : Pick K N) :
    f.tangency rf = .ok p ↔ (∃ i, 1 / 10 ^ 8 < |f.risks i|) ∧
      ∃ i, FirstMax (fun j => f.risks j ≠ 0) (fun j => (f.returns j - rf) / f.risks j) i ∧ Reports f f.risks i p := by
  unfold Frontier.tangency
  by_cases hall : ∀ i, |f.risks i| ≤ 1 / 10 ^ 8
  · rw [if_pos hall]
    constructor
    · intro h; cases h
    · rintro ⟨⟨i, hi⟩, -⟩
      exact absurd (hall i) (not_le.mpr hi)
  · rw [if_neg hall]
    push Not at hall
    have hne : ∃ i, f.risks i ≠ 0 := by
      obtain ⟨i, hi⟩ := hall
      refine ⟨i, fun h0 => ?_⟩
      rw [h0, abs_zero] at hi
      exact absurd hi (not_lt.mpr (by positivity))
    have key : ∀ i, FirstMax (fun _ => True) (f.sharpe rf) i ↔
        FirstMax (fun j => f.risks j ≠ 0) (fun j => (f.returns j - rf) / f.risks j) i := by
      intro i
      constructor
      · rintro ⟨-, h1, h2⟩
        have hi : f.risks i ≠ 0 := by
          intro h0
          obtain ⟨j, hj⟩ := hne
          have := h1 j trivial
          simp only [Frontier.sharpe, h0, if_pos rfl, if_neg hj, if_true] at this
          exact absurd this (by simp)
        refine ⟨hi, ?_, ?_⟩
        · intro j hj
          have := h1 j trivial
          simp only [Frontier.sharpe, if_neg hi, if_neg hj, WithBot.coe_le_coe] at this
          exact this
        · intro j hji hj
          have := h2 j hji trivial
          simp only [Frontier.sharpe, if_neg hi, if_neg hj, WithBot.coe_lt_coe] at this
          exact this
      · rintro ⟨hi, h1, h2⟩
        refine ⟨trivial, ?_, ?_⟩
        · intro j _
          by_cases hj : f.risks j = 0
          · simp [Frontier.sharpe, hj]
          · simp only [Frontier.sharpe, if_neg hi, if_neg hj, WithBot.coe_le_coe]
            exact h1 j hj
        · intro j hji _
          by_cases hj : f.risks j = 0
          · simp only [Frontier.sharpe, hj, if_neg hi, if_true]
            exact WithBot.bot_lt_coe _
          · simp only [Frontier.sharpe, if_neg hi, if_neg hj, WithBot.coe_lt_coe]
            exact h2 j hji hj
    constructor
    · intro h
      cases hi : firstArgmax (f.sharpe rf) with
      | none => rw [hi] at h; cases h
      | some i =>
        rw [hi] at h
        simp only [Except.ok.injEq] at h
        exact ⟨hall, i, (key i).mp (firstArgmax_iff.mp hi), pick_iff.mp h⟩
    · rintro ⟨-, i, hi, hp⟩
      rw [firstArgmax_iff.mpr ((key i).mpr hi)]
      simp only
      rw [pick_iff.mpr hp]

/-- **C52** (errors) `tangency` raises the infeasibility error exactly when every risk is within `1e-8` of zero. -/
theorem C52_tangency_error (f : Frontier L K N M) (rf : K) :
    f.tangency rf = .error .infeasible ↔ ∀ i, |f.risks i| ≤ 1 / 10 ^ 8 := by
  unfold Frontier.tangency
  by_cases hall : ∀ i, |f.risks i| ≤ 1 / 10 ^ 8
  · rw [if_pos hall]; exact ⟨fun _ => hall, fun _ => rfl⟩
  · rw [if_neg hall]
    refine ⟨fun h => ?_, fun h => absurd h hall⟩
    cases hi : firstArgmax (f.sharpe rf) with
    | none => rw [hi] at h; cases h
    | some i => rw [hi] at h; cases h

/-- The selectors on the example frontier: the tie in return is won by the first column, the zero-risk column is skipped by
`tangency`, an alternate label changes the minimum. -/
example : (∃ p, exFrontier.minRisk none = .ok p ∧ p.risk = 0 ∧ p.w 0 = 1) ∧
    (∃ p, exFrontier.minRisk (some "CVaR") = .ok p ∧ p.risk = 1/100 ∧ p.ret = 3/100) ∧
    (∃ p, exFrontier.maxReturn = .ok p ∧ p.risk = 2/100) ∧
    (∃ p, exFrontier.tangency 0 = .ok p ∧ p.risk = 2/100) ∧
    exFrontier.minRisk (some "VaR") = .error .keyError := by
  refine ⟨⟨exFrontier.pick exFrontier.risks 0, (C52_min_risk _ _ _).mpr ⟨exFrontier.risks, 0, Or.inl ⟨Or.inl rfl, rfl⟩, ?_,
      pick_iff.mp rfl⟩, rfl, rfl⟩, ⟨exFrontier.pick ![3/100, 1/100, 6/100] 1, (C52_min_risk _ _ _).mpr
      ⟨![3/100, 1/100, 6/100], 1, Or.inr ⟨"CVaR", rfl, by decide, rfl⟩, ?_, pick_iff.mp rfl⟩, rfl, rfl⟩,
    ⟨exFrontier.pick exFrontier.risks 1, (C52_max_return _ _).mpr ⟨1, ?_, pick_iff.mp rfl⟩, rfl⟩,
    ⟨exFrontier.pick exFrontier.risks 1, (C52_tangency _ _ _).mpr ⟨⟨1, ?_⟩, 1, ?_, pick_iff.mp rfl⟩, rfl⟩,
    (C52_min_risk_errors _ _).1 ?_⟩
  · unfold FirstMin; decide +kernel
  · unfold FirstMin; decide +kernel
  · unfold FirstMax; decide +kernel
  · decide +kernel
  · unfold FirstMax; decide +kernel
  · rintro r (⟨h | h, -⟩ | ⟨l, hl, -, h⟩)
    · cases h
    · exact absurd h (by decide)
    · simp only [Option.some.injEq] at hl
      subst hl
      exact absurd h (by simp [exFrontier, List.lookup])

/-- **C53** `at_risk(max_risk, risk_label)` succeeds with `p` exactly when `p` reports the first portfolio of largest return among
those whose risk under the label is at most `max_risk`. -/
theorem C53_at_risk (f : Frontier L K N M) (maxRisk : K) (label : Option L) (p : Pick K N) :
    f.atRisk maxRisk label = .ok p ↔
      ∃ r i, RiskUnder f label r ∧ FirstMax (fun j => r j ≤ maxRisk) f.returns i ∧ Reports f r i p := by
  unfold Frontier.atRisk
  constructor
  · intro h
    cases hr : f.riskVector label with
    | error e => rw [hr] at h; cases h
    | ok r =>
      rw [hr] at h
      simp only at h
      cases hi : argmaxOn (fun i => decide (r i ≤ maxRisk)) f.returns with
      | none => rw [hi] at h; cases h
      | some i =>
        rw [hi] at h
        simp only [Except.ok.injEq] at h
        have := argmaxOn_iff.mp hi
        simp only [decide_eq_true_eq] at this
        exact ⟨r, i, riskVector_ok.mp hr, this, pick_iff.mp h⟩
  · rintro ⟨r, i, hr, hi, hp⟩
    rw [riskVector_ok.mpr hr]
    simp only
    rw [(argmaxOn_iff (S := fun i => decide (r i ≤ maxRisk)) (i := i)).mpr (by simpa only [decide_eq_true_eq] using hi)]
    simp only
    rw [pick_iff.mpr hp]

/-- **C53** `at_return(min_return, risk_label)` succeeds with `p` exactly when `p` reports the first portfolio of smallest risk
under the label among those whose return is at least `min_return`. -/
theorem C53_at_return (f : Frontier L K N M) (minReturn : K) (label : Option L) (p : Pick K N) :
    f.atReturn minReturn label = .ok p ↔
      ∃ r i, RiskUnder f label r ∧ FirstMin (fun j => minReturn ≤ f.returns j) r i ∧ Reports f r i p := by
  unfold Frontier.atReturn
  constructor
  · intro h
    split_ifs at h with hex
    cases hr : f.riskVector label with
    | error e => rw [hr] at h; cases h
    | ok r =>
      rw [hr] at h
      simp only at h
      cases hi : argminOn (fun i => decide (minReturn ≤ f.returns i)) r with
      | none => rw [hi] at h; cases h
      | some i =>
        rw [hi] at h
        simp only [Except.ok.injEq] at h
        have := argminOn_iff.mp hi
        simp only [decide_eq_true_eq] at this
        exact ⟨r, i, riskVector_ok.mp hr, this, pick_iff.mp h⟩
  · rintro ⟨r, i, hr, hi, hp⟩
    rw [if_pos ⟨i, hi.1⟩, riskVector_ok.mpr hr]
    simp only
    rw [(argminOn_iff (S := fun i => decide (minReturn ≤ f.returns i)) (i := i)).mpr (by simpa only [decide_eq_true_eq] using hi)]
    simp only
    rw [pick_iff.mpr hp]

/-- **C53** (errors) with a known label, `at_risk` / `at_return` raise the infeasibility error exactly when no portfolio
qualifies. -/
theorem C53_infeasible (f : Frontier L K N M) (label : Option L) (r : Fin M → K) (hr : RiskUnder f label r) (c : K) :
    (f.atRisk c label = .error .infeasible ↔ ∀ i, c < r i) ∧
      (f.atReturn c label = .error .infeasible ↔ ∀ i, f.returns i < c) := by
  have hv := riskVector_ok.mpr hr
  constructor
  · unfold Frontier.atRisk
    rw [hv]
    simp only
    cases hi : argmaxOn (fun i => decide (r i ≤ c)) f.returns with
    | none =>
      have := argmaxOn_none.mp hi
      simpa using this
    | some i =>
      have := (argmaxOn_iff.mp hi).1
      simp only [decide_eq_true_eq] at this
      simp only [reduceCtorEq, false_iff, not_forall, not_lt]
      exact ⟨i, this⟩
  · unfold Frontier.atReturn
    split_ifs with hex
    · rw [hv]
      simp only
      obtain ⟨i0, hi0⟩ := hex
      cases hi : argminOn (fun i => decide (c ≤ f.returns i)) r with
      | none => exact absurd (argminOn_none.mp hi i0) (by simp [hi0])
      | some i =>
        simp only [reduceCtorEq, false_iff, not_forall, not_lt]
        exact ⟨i0, hi0⟩
    · push Not at hex
      simp [hex]

/-- **C53** `closest_risk` reports the first portfolio whose risk is nearest the target. -/
theorem C53_closest_risk (f : Frontier L K N M) (target : K) (label : Option L) (p : Pick K N) :
    f.closestRisk target label = .ok p ↔
      ∃ r i, RiskUnder f label r ∧ FirstMin (fun _ => True) (fun j => |r j - target|) i ∧ Reports f r i p := by
  unfold Frontier.closestRisk
  constructor
  · intro h
    cases hr : f.riskVector label with
    | error e => rw [hr] at h; cases h
    | ok r =>
      rw [hr] at h
      simp only at h
      cases hi : firstArgmin (fun i => |r i - target|) with
      | none => rw [hi] at h; cases h
      | some i =>
        rw [hi] at h
        simp only [Except.ok.injEq] at h
        exact ⟨r, i, riskVector_ok.mp hr, firstArgmin_iff.mp hi, pick_iff.mp h⟩
  · rintro ⟨r, i, hr, hi, hp⟩
    rw [riskVector_ok.mpr hr]
    simp only
    rw [firstArgmin_iff.mpr hi]
    simp only
    rw [pick_iff.mpr hp]

/-- The cap binds on the example: at risk 4% the middle portfolio; below every risk, an error. -/
example : (∃ p, exFrontier.atRisk (4/100) none = .ok p ∧ p.risk = 2/100 ∧ p.ret = 3/100) ∧
    exFrontier.atRisk (-1) none = .error .infeasible := by
  refine ⟨⟨exFrontier.pick exFrontier.risks 1, (C53_at_risk _ _ _ _).mpr ⟨exFrontier.risks, 1, Or.inl ⟨Or.inl rfl, rfl⟩, ?_,
      pick_iff.mp rfl⟩, rfl, rfl⟩, (C53_infeasible exFrontier none exFrontier.risks (Or.inl ⟨Or.inl rfl, rfl⟩) _).1.mpr ?_⟩
  · unfold FirstMax; decide +kernel
  · decide +kernel

/-- **C54** Risk percentiles lie in `[0, 1]`, are distinct for distinct columns, and order the portfolios as their risks do;
with at least two portfolios the smallest risk has percentile 0 and the largest has percentile 1 (for every way the sort may
break ties). -/
theorem C54_percentiles (argsort : (Fin M → K) → Equiv.Perm (Fin M)) (hs : Risk.IsArgsort argsort) (r : Fin M → K) :
    (∀ i, 0 ≤ percentiles argsort r i ∧ percentiles argsort r i ≤ 1) ∧
    (∀ i j, r i < r j → percentiles argsort r i < percentiles argsort r j) ∧
    (∀ i j, percentiles argsort r i = percentiles argsort r j → i = j) ∧
    (2 ≤ M → (∃ i, percentiles argsort r i = 0 ∧ ∀ j, r i ≤ r j) ∧ ∃ i, percentiles argsort r i = 1 ∧ ∀ j, r j ≤ r i) := by
  by_cases hM : M = 1
  · subst hM
    refine ⟨fun i => by simp [percentiles], fun i j h => ?_, fun i j _ => Subsingleton.elim i j, fun h => by omega⟩
    rw [Subsingleton.elim i j] at h
    exact absurd h (lt_irrefl _)
  have hpos : ∀ i : Fin M, (0 : K) < (M : K) - 1 := by
    intro i
    have h1 := i.pos
    have : (1 : K) < M := by exact_mod_cast (by omega : 1 < M)
    linarith
  have hp : ∀ i, percentiles argsort r i = (((argsort r).symm i : ℕ) : K) / ((M : K) - 1) := by
    intro i; simp [percentiles, hM]
  refine ⟨fun i => ?_, fun i j h => ?_, fun i j h => ?_, fun h2 => ⟨?_, ?_⟩⟩
  · rw [hp]
    refine ⟨div_nonneg (Nat.cast_nonneg _) (hpos i).le, ?_⟩
    rw [div_le_one (hpos i)]
    have h1 : ((argsort r).symm i : ℕ) + 1 ≤ M := ((argsort r).symm i).isLt
    have : (((argsort r).symm i : ℕ) : K) + 1 ≤ M := by exact_mod_cast h1
    linarith
  · rw [hp, hp]
    have : (argsort r).symm i < (argsort r).symm j := by
      by_contra hcon
      push Not at hcon
      have := hs r hcon
      simp only [Function.comp, Equiv.apply_symm_apply] at this
      exact absurd h (not_lt.mpr this)
    exact div_lt_div_of_pos_right (by exact_mod_cast this) (hpos i)
  · rw [hp, hp, div_left_inj' (hpos i).ne'] at h
    have h' : ((argsort r).symm i : ℕ) = ((argsort r).symm j : ℕ) := by exact_mod_cast h
    exact (argsort r).symm.injective (Fin.ext h')
  · refine ⟨argsort r ⟨0, by omega⟩, by rw [hp]; simp, fun j => ?_⟩
    have := hs r (Fin.mk_le_of_le_val (Nat.zero_le _) : (⟨0, by omega⟩ : Fin M) ≤ (argsort r).symm j)
    simpa using this
  · refine ⟨argsort r ⟨M - 1, by omega⟩, ?_, fun j => ?_⟩
    · rw [hp, Equiv.symm_apply_apply, div_eq_one_iff_eq (hpos ⟨0, by omega⟩).ne']
      simp only
      rw [Nat.cast_sub (by omega)]
      simp
    · have := hs r (show (argsort r).symm j ≤ (⟨M - 1, by omega⟩ : Fin M) from by rw [Fin.le_def]; simp only; omega)
      simpa using this

/-- **C54** Percentile inputs: numbers in `[0, 1]` are fractions, numbers in `(1, 100]` are percents, everything else that is a
number (or infinite) is rejected. -/
theorem C54_percentile_input (x y : K) :
    (normalizePercentile (.fin x) = .ok (.fin y) ↔ (0 ≤ x ∧ x ≤ 1 ∧ y = x) ∨ (1 < x ∧ x ≤ 100 ∧ y = x / 100)) ∧
    (normalizePercentile (.fin x) = .error .valueError ↔ x < 0 ∨ 100 < x) ∧
    normalizePercentile (.posInf : PyFloat K) = .error .valueError ∧
    normalizePercentile (.negInf : PyFloat K) = .error .valueError := by
  refine ⟨?_, ?_, rfl, rfl⟩
  · simp only [normalizePercentile]
    split_ifs with h1 h2 h3
    · simp only [reduceCtorEq, false_iff, not_or, not_and]
      exact ⟨fun _ h => absurd h1 (not_lt.mpr h), fun _ h => absurd h2 (not_lt.mpr h)⟩
    · push Not at h2
      simp only [Except.ok.injEq, PyFloat.fin.injEq]
      constructor
      · intro h; exact Or.inr ⟨h1, h2, h.symm⟩
      · rintro (⟨_, h, _⟩ | ⟨_, _, h⟩)
        · exact absurd h1 (not_lt.mpr h)
        · exact h.symm
    · simp only [reduceCtorEq, false_iff, not_or, not_and]
      exact ⟨fun h => absurd h3 (not_lt.mpr h), fun h => absurd h h1⟩
    · push Not at h1 h3
      simp only [Except.ok.injEq, PyFloat.fin.injEq]
      constructor
      · intro h; exact Or.inl ⟨h3, h1, h.symm⟩
      · rintro (⟨_, _, h⟩ | ⟨h, _, _⟩)
        · exact h.symm
        · exact absurd h (not_lt.mpr h1)
  · simp only [normalizePercentile]
    split_ifs with h1 h2 h3
    · simp [h2]
    · push Not at h2
      simp only [reduceCtorEq, false_iff, not_or, not_lt]
      exact ⟨by linarith, h2⟩
    · simp [h3]
    · push Not at h1 h3
      simp only [reduceCtorEq, false_iff, not_or, not_lt]
      exact ⟨h3, by linarith⟩

/-- **C54** (gap) NaN is not rejected: every selection by a NaN percentile silently returns the first column. -/
theorem C54_nan_accepted (f : Frontier L K N M) (argsort : (Fin M → K) → Equiv.Perm (Fin M)) (hM : 0 < M) :
    f.atPercentile argsort .nan none = .ok (f.pick f.risks ⟨0, hM⟩) := by
  have hhead : (List.finRange M).head? = some ⟨0, hM⟩ := by
    rw [List.head?_eq_getElem?]
    simp [hM]
  simp [Frontier.atPercentile, normalizePercentile, Frontier.indexAtPercentile, Frontier.riskVector, nearestIndex, hhead]

private theorem exists_near (n : ℕ) (t : K) (h0 : 0 ≤ t) (h1 : t ≤ n) : ∃ k : ℕ, k ≤ n ∧ |(k : K) - t| ≤ 1 / 2 := by
  induction n with
  | zero =>
    have : t = 0 := le_antisymm (by simpa using h1) h0
    exact ⟨0, le_rfl, by rw [this]; norm_num⟩
  | succ n ih =>
    by_cases hn : t ≤ n
    · obtain ⟨k, hk, hd⟩ := ih hn
      exact ⟨k, by omega, hd⟩
    · push Not at hn
      push_cast at h1
      by_cases hm : t ≤ n + 1 / 2
      · exact ⟨n, by omega, by rw [abs_le]; constructor <;> linarith⟩
      · push Not at hm
        exact ⟨n + 1, le_rfl, by rw [abs_le]; push_cast; constructor <;> linarith⟩

/-- **C54** `at_percentile(x)`, for `x` accepted and read as the fraction `q`, reports the first column whose percentile is nearest
`q`; that percentile is within half a grid step of `q`, and `q = 0` / `q = 1` give the smallest / largest risk. -/
theorem C54_at_percentile (f : Frontier L K N M) (argsort : (Fin M → K) → Equiv.Perm (Fin M)) (hs : Risk.IsArgsort argsort)
    (x q : K) (hq : normalizePercentile (.fin x) = .ok (.fin q)) (label : Option L) (r : Fin M → K)
    (hr : RiskUnder f label r) (hM : 2 ≤ M) :
    ∃ i, f.atPercentile argsort (.fin x) label = .ok (f.pick r i) ∧
      FirstMin (fun _ => True) (fun j => |percentiles argsort r j - q|) i ∧
      |percentiles argsort r i - q| ≤ 1 / (2 * ((M : K) - 1)) ∧
      (q = 0 → ∀ j, r i ≤ r j) ∧ (q = 1 → ∀ j, r j ≤ r i) := by
  have hv := riskVector_ok.mpr hr
  have hq01 : 0 ≤ q ∧ q ≤ 1 := by
    rcases (C54_percentile_input x q).1.mp hq with ⟨h1, h2, rfl⟩ | ⟨h1, h2, rfl⟩
    · exact ⟨h1, h2⟩
    · constructor
      · positivity
      · rw [div_le_one (by norm_num)]; exact h2
  have hqq : normalizePercentile (.fin q) = .ok (.fin q) :=
    (C54_percentile_input q q).1.mpr (Or.inl ⟨hq01.1, hq01.2, rfl⟩)
  obtain ⟨i, hi⟩ := firstArgmin_ne_none (by omega : 0 < M) (fun j => |percentiles argsort r j - q|)
  have hfm := firstArgmin_iff.mp hi
  obtain ⟨-, -, hinj, hend⟩ := C54_percentiles argsort hs r
  obtain ⟨⟨i0, h00, h0min⟩, ⟨i1, h11, h1max⟩⟩ := hend hM
  refine ⟨i, ?_, hfm, ?_, ?_, ?_⟩
  · simp only [Frontier.atPercentile, hq, Frontier.indexAtPercentile, hqq, hv, nearestIndex]
    rw [hi]
  · have hpos : (0 : K) < (M : K) - 1 := by
      have : (1 : K) < M := by exact_mod_cast (by omega : 1 < M)
      linarith
    obtain ⟨k, hk, hd⟩ := exists_near (M - 1) (q * ((M : K) - 1)) (mul_nonneg hq01.1 hpos.le) (by
      rw [Nat.cast_sub (by omega)]; push_cast; nlinarith [hq01.2])
    have h1 := hfm.2.1 (argsort r ⟨k, by omega⟩) trivial
    refine h1.trans ?_
    simp only [percentiles, if_neg (by omega : ¬ M = 1), Equiv.symm_apply_apply]
    have : (k : K) / ((M : K) - 1) - q = ((k : K) - q * ((M : K) - 1)) / ((M : K) - 1) := by field_simp
    rw [this, abs_div, abs_of_pos hpos, div_le_div_iff₀ hpos (by positivity)]
    nlinarith
  · rintro rfl
    have h1 := hfm.2.1 i0 trivial
    simp only [h00, sub_zero, abs_zero] at h1
    have : percentiles argsort r i = percentiles argsort r i0 := by
      rw [h00]; exact abs_eq_zero.mp (le_antisymm h1 (abs_nonneg _))
    rw [hinj _ _ this]
    exact h0min
  · rintro rfl
    have h1 := hfm.2.1 i1 trivial
    simp only [h11, sub_self, abs_zero] at h1
    have : percentiles argsort r i = percentiles argsort r i1 := by
      rw [h11]; linarith [abs_eq_zero.mp (le_antisymm h1 (abs_nonneg _))]
    rw [hinj _ _ this]
    exact h1max

/-- A percent and a fraction are both accepted on the example frontier, with an actual sorting routine. -/
example : ∃ i, exFrontier.atPercentile (fun x => Tuple.sort x) (.fin 100) none = .ok (exFrontier.pick exFrontier.risks i) ∧
    ∀ j, exFrontier.risks j ≤ exFrontier.risks i := by
  obtain ⟨i, h1, -, -, -, h5⟩ := C54_at_percentile exFrontier (fun x => Tuple.sort x) (fun x => Tuple.monotone_sort x) 100 1
    ((C54_percentile_input 100 1).1.mpr (Or.inr ⟨by norm_num, by norm_num, by norm_num⟩)) none exFrontier.risks
    (Or.inl ⟨Or.inl rfl, rfl⟩) (by norm_num)
  exact ⟨i, h1, h5 rfl⟩

/-- **C55** The frontier returned by `cvar_frontier` (any solver output, any tie order in the sort): columns are the solved
portfolios, re-ordered by return; the reported risks are non-decreasing and convex as a function of return; every affine
function below the running maximum of the solved risks is below the reported risks (so they are never below the lower convex
envelope). -/
theorem C55_envelope (argsort : (Fin M → K) → Equiv.Perm (Fin M)) (hs : Risk.IsArgsort argsort) (mu : Fin N → K)
    (W : Fin N → Fin M → K) (cvar vol : Fin M → K) (f : Frontier String K N M)
    (hf : f = cvarFrontier argsort mu W cvar vol true) :
    (∃ σ : Equiv.Perm (Fin M), (∀ i j, f.weights i j = W i (σ j)) ∧
      f.alternates = [("Volatility", fun j => vol (σ j)), ("CVaR (raw)", fun j => |cvar (σ j)|)]) ∧
    (∀ j, f.returns j = ∑ i, mu i * f.weights i j) ∧ Monotone f.returns ∧ Monotone f.risks ∧
    (∀ i j k, i ≤ j → j ≤ k →
      (f.risks j - f.risks i) * (f.returns k - f.returns i) ≤ (f.returns j - f.returns i) * (f.risks k - f.risks i)) ∧
    (∀ raw, ("CVaR (raw)", raw) ∈ f.alternates → ∀ α β : K, (∀ i, ∃ j, j ≤ i ∧ α + β * f.returns i ≤ raw j) →
      ∀ i, α + β * f.returns i ≤ f.risks i) := by
  subst hf
  have hx : Monotone (fun j => ∑ i, mu i * W i (argsort (fun j => ∑ i, mu i * W i j) j)) := hs (fun j => ∑ i, mu i * W i j)
  have he : (0 : K) ≤ 1 / 10 ^ 12 := by positivity
  refine ⟨⟨argsort (fun j => ∑ i, mu i * W i j), fun i j => rfl, rfl⟩, fun j => rfl, hx, ?_, ?_, ?_⟩
  · simp only [cvarFrontier, if_true]
    exact convexify_mono hx he
  · intro i j k hij hjk
    simp only [cvarFrontier, if_true]
    exact convexify_convex hx he hij hjk
  · intro raw hraw α β hl i
    simp only [cvarFrontier, List.mem_cons, Prod.mk.injEq, List.not_mem_nil, or_false, true_and] at hraw
    rcases hraw with ⟨h, -⟩ | rfl
    · exact absurd h (by decide)
    · simp only [cvarFrontier, if_true] at hl ⊢
      refine convexify_minorant hx he α β (fun i => ?_) i
      obtain ⟨j, hj, hle⟩ := hl i
      exact hle.trans (le_runMax (fun j => |cvar (argsort (fun j => ∑ i, mu i * W i j) j)|) hj)

/-- **C55** (upper half, partial: for returns at least `g` apart) the reported risk exceeds the running maximum of the solved risks by
at most `M * 1e-12 / g`. The unconditional claim "never above the running maximum" is false: see `C55_counterexample_tie`. -/
theorem C55_upper_partial (argsort : (Fin M → K) → Equiv.Perm (Fin M)) (hs : Risk.IsArgsort argsort) (mu : Fin N → K)
    (W : Fin N → Fin M → K) (cvar vol : Fin M → K) (f : Frontier String K N M)
    (hf : f = cvarFrontier argsort mu W cvar vol true) (g : K) (hg : 0 < g)
    (hgap : ∀ i j, i < j → f.returns i + g ≤ f.returns j) (raw : Fin M → K) (hraw : ("CVaR (raw)", raw) ∈ f.alternates)
    (i : Fin M) : ∃ j, j ≤ i ∧ f.risks i ≤ raw j + M * ((1 / 10 ^ 12) / g) := by
  subst hf
  have he : (0 : K) ≤ 1 / 10 ^ 12 := by positivity
  simp only [cvarFrontier, List.mem_cons, Prod.mk.injEq, List.not_mem_nil, or_false, true_and] at hraw
  rcases hraw with ⟨h, -⟩ | rfl
  · exact absurd h (by decide)
  obtain ⟨j, hj, hje⟩ := runMax_attained (fun j => |cvar (argsort (fun j => ∑ i, mu i * W i j) j)|) i
  refine ⟨j, hj, ?_⟩
  have := convexify_upper (y := fun j => |cvar (argsort (fun j => ∑ i, mu i * W i j) j)|) he hg hgap i
  rw [hje] at this
  simpa only [cvarFrontier, if_true] using this

/-- **C55** (counterexample) two portfolios tied in return at the top: the cheaper one, with solved risk 0.5, is reported with
risk 0.9 although no portfolio of lower or equal position has more than 0.5. -/
theorem C55_counterexample_tie :
    convexify (1 / 10 ^ 12 : ℚ) (![0, 1/2, 1, 1] : Fin 4 → ℚ) ![0, 2/5, 1/2, 9/10] 2 = 9/10 ∧
      runMax (![0, 2/5, 1/2, 9/10] : Fin 4 → ℚ) 2 = 1/2 := by
  decide +kernel

/-- The correction does something: a non-convex, non-monotone set of solved points is changed. -/
example : convexify (1 / 10 ^ 12 : ℚ) (![0, 1/2, 1] : Fin 3 → ℚ) ![0, 2/5, 1/2] 1 = 1/4 := by decide +kernel

/-- **C56** Constraints passed to a method are used as they are. -/
theorem C56_per_call (n : ℕ) (stored : Con.Matrices (Int.toNat (n : ℤ)) K) (c : Con.Spec K)
    (m : Con.Matrices (Int.toNat (n : ℤ)) K) (h : resolveConstraints n stored (some c) = .ok m) (w : Fin (Int.toNat (n : ℤ)) → K) :
    (Spec.Con.MatLe m.G m.h w ∧ Spec.Con.MatEq m.A m.b w) ↔ Spec.Con.Satisfies c w :=
  (C10_matrices_mean_spec (n : ℤ) c true m h).1 w

/-- **C56** (partial: for constraints that exclude at least one weight vector) constraints given to the constructor are the ones its
optimisers use. For constraints without any row this is false: `C56_counterexample`. -/
theorem C56_constructor_partial (n : ℕ) (c : Con.Spec K) (lo : Bool) (t : Option (PyFloat K)) (bd : Option (Con.Bounds K))
    (stored : Con.Matrices (Int.toNat (n : ℤ)) K) (hs : setupConstraints n (some c) lo t bd = .ok stored)
    (hex : ∃ w : Fin (Int.toNat (n : ℤ)) → K, ¬ Spec.Con.Satisfies c w) :
    ∃ m, resolveConstraints n stored none = .ok m ∧
      ∀ w, (Spec.Con.MatLe m.G m.h w ∧ Spec.Con.MatEq m.A m.b w) ↔ Spec.Con.Satisfies c w := by
  have hspec := C10_matrices_mean_spec (n : ℤ) c true stored hs
  refine ⟨stored, ?_, hspec.1⟩
  unfold resolveConstraints
  simp only
  cases hG : stored.G with
  | some g => cases stored.A <;> rfl
  | none =>
    cases hA : stored.A with
    | some a => rfl
    | none =>
      exfalso
      obtain ⟨w, hw⟩ := hex
      apply hw
      rw [← hspec.1 w, Spec.Con.MatLe, Spec.Con.MatEq, hG, hA, hspec.2.1.mp hG, hspec.2.2.1.mp hA]
      exact ⟨List.Forall₂.nil, List.Forall₂.nil⟩

/-- **C56** Without `constraints` the constructor's `long_only` / `total_weight` / `bounds` shortcuts are what is used, if they exclude at
least one vector. -/
theorem C56_shortcuts_partial (n : ℕ) (lo : Bool) (t : Option (PyFloat K)) (bd : Option (Con.Bounds K))
    (stored : Con.Matrices (Int.toNat (n : ℤ)) K) (hs : setupConstraints n none lo t bd = .ok stored)
    (hex : ∃ w : Fin (Int.toNat (n : ℤ)) → K, ¬ Spec.Con.Satisfies ⟨lo, t, bd, [], [], [], []⟩ w) :
    ∃ m, resolveConstraints n stored none = .ok m ∧
      ∀ w, (Spec.Con.MatLe m.G m.h w ∧ Spec.Con.MatEq m.A m.b w) ↔ Spec.Con.Satisfies ⟨lo, t, bd, [], [], [], []⟩ w :=
  C56_constructor_partial n _ lo t bd stored hs hex

/-- **C56** (counterexample) a wrapper built with explicitly unconstrained weights (`long_only=False`, no budget) optimises over the
long-only simplex: the short position `(-1, 1)` is allowed by the specification and excluded by the matrices used. -/
theorem C56_counterexample : ∃ (c : Con.Spec ℚ) (stored m : Con.Matrices (Int.toNat ((2 : ℕ) : ℤ)) ℚ),
    setupConstraints 2 (some c) true (some (.fin 1)) none = .ok stored ∧ resolveConstraints 2 stored none = .ok m ∧
      Spec.Con.Satisfies c (![-1, 1] : Fin 2 → ℚ) ∧
      ¬ (Spec.Con.MatLe m.G m.h (![-1, 1] : Fin 2 → ℚ) ∧ Spec.Con.MatEq m.A m.b (![-1, 1] : Fin 2 → ℚ)) := by
  obtain ⟨m, hm, hsimp⟩ := C10_default_is_simplex (K := ℚ) 2 (by norm_num)
  refine ⟨⟨false, none, none, [], [], [], []⟩, ⟨none, none, none, none⟩, m, rfl, hm, ?_, ?_⟩
  · exact ⟨fun h => (by cases h), fun t h => (by cases h), trivial, fun e h => (by cases h), fun e h => (by cases h),
      fun e h => (by cases h), fun e h => (by cases h)⟩
  · intro h
    have := ((hsimp _).mp h).1 0
    norm_num at this

/-- The hypotheses of `C56_constructor_partial` are met by the all-kinds specification of `exSpec`. -/
example : (∃ stored, setupConstraints 3 (some exSpec) true none none = .ok stored) ∧
    ∃ w : Fin 3 → ℚ, ¬ Spec.Con.Satisfies exSpec w := by
  refine ⟨(Con.build_isOk (nAssets := ((3 : ℕ) : ℤ)) (c := exSpec) (rn := true)).mpr exSpec_valid, ![-1, 1, 1], fun h => ?_⟩
  have := h.long rfl 0
  norm_num at this

end PyV.Props
