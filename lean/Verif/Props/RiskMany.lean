import Verif.Model.RiskMany
import Verif.Props.Risk
import Verif.Props.FrontierShape
import Verif.Props.ViewsHandoff

set_option linter.unusedSectionVars false

/-! # C192, C193: the risk functions on one or many portfolios -/

namespace PyV.Props

open PyV PyV.Risk PyV.Spec PyV.Spec.Opt

/-! ## C192: variance and volatility -/

section variance

variable {n m : ℕ}

private theorem variance_square (w : WeightsArg ℝ) (C : Fin w.n → Fin w.n → ℝ) :
    portfolioVariance w C = .ok (itemOrArray (List.ofFn fun j : Fin w.m => quad C (fun i => w.val i j))) := by
  have hb : Api.broadcast w.n w.n = some w.n := if_pos rfl
  unfold portfolioVariance
  rw [dif_pos rfl, hb]
  refine congrArg (fun l => Except.ok (itemOrArray (List.ofFn l))) (funext fun j => ?_)
  have e : ∀ k : Fin w.n, quadTerm w rfl C j k = (∑ i, w.val i j * C i k) * w.val k j := by
    intro k
    have hk : Api.bidx w.n k = k := by
      unfold Api.bidx
      split_ifs with h
      · have := k.2; omega
      · rfl
    unfold quadTerm
    rw [dif_pos (by rw [hk]; exact k.2), dif_pos (by rw [hk]; exact k.2)]
    simp only [hk, Fin.cast_eq_self, Fin.eta]
  simp only [e, quad, Finset.sum_mul]
  rw [Finset.sum_comm]

/-- **C192** (one portfolio) For a weight vector `portfolio_variance` returns one number, `w' C w`. -/
theorem C192_variance_one (w : Fin n → ℝ) (C : Fin n → Fin n → ℝ) :
    portfolioVariance (.vector n w) C = .ok (.number (quad C w)) := by
  have h := variance_square (.vector n w) C
  exact h

/-- **C192** (many portfolios) For a weight matrix it returns the variance of every column, in order: a number for a single column, otherwise an
array. -/
theorem C192_variance_many (W : Fin n → Fin m → ℝ) (C : Fin n → Fin n → ℝ) :
    (m ≠ 1 → portfolioVariance (.matrix n m W) C = .ok (.array (List.ofFn fun j => quad C (fun i => W i j)))) ∧
    (∀ j, m = 1 → portfolioVariance (.matrix n m W) C = .ok (.number (quad C (fun i => W i j)))) := by
  have h := variance_square (.matrix n m W) C
  have h' : portfolioVariance (.matrix n m W) C = .ok (itemOrArray (List.ofFn fun j : Fin m => quad C (fun i => W i j))) := h
  rw [h']
  refine ⟨fun hm => ?_, fun j hm => ?_⟩
  · unfold itemOrArray
    split
    · next x hx => exact absurd (by simpa using congrArg List.length hx) hm
    · rfl
  · subst hm
    rw [Subsingleton.elim j 0]
    simp [itemOrArray]

private theorem npSqrt_cov {C : Fin n → Fin n → ℝ} (hC : IsCov C) (w : Fin n → ℝ) : npSqrt (quad C w) = .fin (Real.sqrt (quad C w)) :=
  if_neg (not_lt.2 (hC.2 w))

/-- **C192** (volatility) For a covariance matrix `portfolio_volatility` returns the square root of that variance, a number or an array in the same
cases, and never NaN. -/
theorem C192_volatility {C : Fin n → Fin n → ℝ} (hC : IsCov C) :
    (∀ w, portfolioVolatility (.vector n w) C = .ok (.number (.fin (Real.sqrt (quad C w))))) ∧
    ∀ W : Fin n → Fin m → ℝ,
      (m ≠ 1 → portfolioVolatility (.matrix n m W) C = .ok (.array (List.ofFn fun j => .fin (Real.sqrt (quad C (fun i => W i j)))))) ∧
      (∀ j, m = 1 → portfolioVolatility (.matrix n m W) C = .ok (.number (.fin (Real.sqrt (quad C (fun i => W i j)))))) := by
  refine ⟨fun w => ?_, fun W => ⟨fun hm => ?_, fun j hm => ?_⟩⟩
  · unfold portfolioVolatility
    rw [C192_variance_one]
    exact congrArg (fun x => Except.ok (Risk.Answer.number x)) (npSqrt_cov hC w)
  · unfold portfolioVolatility
    rw [(C192_variance_many W C).1 hm]
    refine congrArg (fun x => Except.ok (Risk.Answer.array x)) ?_
    rw [List.map_ofFn]
    exact congrArg List.ofFn (funext fun j => npSqrt_cov hC _)
  · unfold portfolioVolatility
    rw [(C192_variance_many W C).2 j hm]
    exact congrArg (fun x => Except.ok (Risk.Answer.number x)) (npSqrt_cov hC _)

private theorem quad_smul (C : Fin n → Fin n → ℝ) (t : ℝ) (w : Fin n → ℝ) : quad C (fun i => t * w i) = t ^ 2 * quad C w := by
  unfold quad
  simp only [Finset.mul_sum]
  exact Finset.sum_congr rfl fun i _ => Finset.sum_congr rfl fun j _ => by ring

/-- **C192** (a coherent measure of dispersion) The volatilities returned for a covariance matrix are non-negative, scale with the absolute value of
a leverage factor, and diversify: the volatility of a sum of portfolios is at most the sum of their volatilities. -/
theorem C192_coherent {C : Fin n → Fin n → ℝ} (hC : IsCov C) (w v : Fin n → ℝ) (t : ℝ) :
    ∃ sw sv s st : ℝ, portfolioVolatility (.vector n w) C = .ok (.number (.fin sw)) ∧
      portfolioVolatility (.vector n v) C = .ok (.number (.fin sv)) ∧
      portfolioVolatility (.vector n fun i => w i + v i) C = .ok (.number (.fin s)) ∧
      portfolioVolatility (.vector n fun i => t * w i) C = .ok (.number (.fin st)) ∧
      0 ≤ sw ∧ st = |t| * sw ∧ s ≤ sw + sv := by
  refine ⟨_, _, _, _, (C192_volatility (m := 0) hC).1 _, (C192_volatility (m := 0) hC).1 _, (C192_volatility (m := 0) hC).1 _,
    (C192_volatility (m := 0) hC).1 _, Real.sqrt_nonneg _, ?_, ?_⟩
  · rw [quad_smul, Real.sqrt_mul (sq_nonneg t), Real.sqrt_sq_eq_abs]
  · have h := vol_midpoint hC w v
    have e : quad C (fun i => w i + v i) = 2 ^ 2 * quad C (fun i => (w i + v i) / 2) := by
      rw [← quad_smul]
      exact congrArg (quad C) (funext fun i => by ring)
    rw [e, Real.sqrt_mul (by norm_num), Real.sqrt_sq (by norm_num)]
    exact h

/-- **C192** (scenarios) With the covariance of scenarios under their probabilities, `portfolio_variance` is the variance of the portfolio's outcome. -/
theorem C192_scenarios {S : ℕ} (q : Fin S → ℝ) (R : Fin S → Fin n → ℝ) (w : Fin n → ℝ) :
    portfolioVariance (.vector n w) (fun i j => covUnder q R i j) = .ok (.number (variance q (outcome R w))) := by
  rw [C192_variance_one, quad_outcome]

/-- **C192** (shapes, except single-column arrays) An array that is not square over the instruments raises `ValueError`, provided it does not consist of
a single column and there is more than one instrument. -/
theorem C192_shapes_partial {K : Type*} [Field K] [LinearOrder K] [IsStrictOrderedRing K] (w : WeightsArg K) {r c : ℕ} (C : Fin r → Fin c → K)
    (hn : w.n ≠ 1) (hc : c ≠ 1) (h : ¬ (r = w.n ∧ c = w.n)) : portfolioVariance w C = .error .valueError := by
  unfold portfolioVariance
  by_cases hr : w.n = r
  · rw [dif_pos hr]
    have hb : Api.broadcast c w.n = none := by
      unfold Api.broadcast
      rw [if_neg (fun e => h ⟨hr.symm, e⟩), if_neg hc, if_neg hn]
    rw [hb]
  · rw [dif_neg hr]

/-- Missing from the full **C192**: a covariance with a single column is accepted for any number of instruments and broadcast, with a meaningless
result - here the "variance" of holding two assets equally is reported as 1 from the vector of their variances 1 and 1. -/
theorem C192_counterexample :
    portfolioVariance (K := ℝ) (.vector 2 fun _ => 1 / 2) (fun (_ : Fin 2) (_ : Fin 1) => 1) = .ok (.number 1) := by
  have h : portfolioVariance (K := ℝ) (.vector 2 fun _ => 1 / 2) (fun (_ : Fin 2) (_ : Fin 1) => 1) =
      .ok (.number (∑ k : Fin 2, (if _ : Api.bidx 1 k < 1 then ∑ _ : Fin 2, (1 / 2 : ℝ) * 1 else 0) * (if _ : Api.bidx 2 k < 2 then (1 / 2 : ℝ) else 0))) := rfl
  rw [h]
  refine congrArg (fun x => Except.ok (Risk.Answer.number x)) ?_
  simp [Fin.sum_univ_two, Api.bidx]
  norm_num

/-- Non-vacuity: two assets with volatilities 3 and 4 and no correlation; the portfolio holding one of each has volatility 5. -/
example : portfolioVolatility (.vector 2 fun _ => 1) (fun i j => if i = j then ![9, 16] i else 0) = .ok (.number (.fin 5)) := by
  have hC : IsCov (fun i j : Fin 2 => if i = j then (![9, 16] i : ℝ) else 0) := by
    refine ⟨fun i j => by by_cases h : i = j <;> simp [h, eq_comm], fun w => ?_⟩
    simp [Fin.sum_univ_two]
    nlinarith [mul_self_nonneg (w 0), mul_self_nonneg (w 1)]
  rw [(C192_volatility (m := 0) hC).1]
  have e : quad (fun i j : Fin 2 => if i = j then (![9, 16] i : ℝ) else 0) (fun _ => 1) = 5 ^ 2 := by
    simp [quad, Fin.sum_univ_two]; norm_num
  rw [e, Real.sqrt_sq (by norm_num)]

end variance

/-! ## C193: VaR and CVaR of many portfolios -/

section many

variable {K : Type*} [Field K] [LinearOrder K] [IsStrictOrderedRing K] {T n m : ℕ}

/-- The answers for the portfolios `xs`: a number for one, otherwise an array. -/
def Answers {α : Type*} (shape : List α → Risk.Answer α) (xs : Fin m → α) (a : Risk.Answer α) : Prop :=
  (m ≠ 1 → a = shape (List.ofFn xs)) ∧ ∀ j, m = 1 → a = .number (xs j)

private theorem answers_array {α : Type*} (xs : Fin m → α) : Answers .array xs (itemOrArray (List.ofFn xs)) := by
  refine ⟨fun hm => ?_, fun j hm => ?_⟩
  · unfold itemOrArray
    split
    · next x hx => exact absurd (by simpa using congrArg List.length hx) hm
    · rfl
  · subst hm
    rw [Subsingleton.elim j 0]
    simp [itemOrArray]

private theorem answers_row {α : Type*} (xs : Fin m → α) : Answers .row xs (itemOrRow (List.ofFn xs)) := by
  refine ⟨fun hm => ?_, fun j hm => ?_⟩
  · unfold itemOrRow
    split
    · next x hx => exact absurd (by simpa using congrArg List.length hx) hm
    · rfl
  · subst hm
    rw [Subsingleton.elim j 0]
    simp [itemOrRow]

private theorem prepare_ok (hT : 0 < T) {w : WeightsArg K} (R : Fin T → Fin w.n → K) (p : Option (Fin T → K)) {confidence : Option K} {conf : K}
    (hc : checkConf confidence = .ok conf) (demean : Bool) :
    prepare w R (p.map List.ofFn) confidence demean = .ok (conf, scenarioProbs p, pnlMatrix (maybeDemean demean (scenarioProbs p) R) w.val) := by
  have h1 : probColumn T (p.map List.ofFn) = .ok (scenarioProbs p) := by
    cases p with
    | none => exact if_neg (by omega)
    | some p =>
      show dite _ _ _ = _
      rw [dif_pos (List.length_ofFn)]
      exact congrArg Except.ok (funext fun t => by simp [scenarioProbs])
  have h2 : demeanFits T (p.map List.ofFn) = true := by
    cases p with
    | none => rfl
    | some p => simp [demeanFits]
  unfold prepare
  rw [hc, h1, h2]
  simp only [Bool.not_true, Bool.and_false, Bool.false_eq_true, if_false, dif_pos]
  rw [if_neg (by omega)]
  rfl

private theorem boolArgmax_getD (hT : 0 < T) (f : Fin T → Bool) : boolArgmax f = some (((List.finRange T).find? f).getD ⟨0, hT⟩) := by
  obtain ⟨T, rfl⟩ : ∃ k, T = k + 1 := ⟨T - 1, by omega⟩
  unfold boolArgmax
  cases h : (List.finRange (T + 1)).find? f with
  | some k => rfl
  | none => simp [List.finRange_succ]

private theorem many_var (argsort : (T : ℕ) → (Fin T → K) → Equiv.Perm (Fin T)) (hT : 0 < T) (w : WeightsArg K) (R : Fin T → Fin w.n → K)
    (p : Option (Fin T → K)) {confidence : Option K} {conf : K} (hc : checkConf confidence = .ok conf) (demean : Bool) :
    ∃ xs : Fin w.m → K, portfolioVarMany argsort w R (p.map List.ofFn) confidence demean = .ok (itemOrRow (List.ofFn xs)) ∧
      ∀ j, portfolioVar (argsort T) (fun i => w.val i j) R p confidence demean = .ok (xs j) := by
  unfold portfolioVarMany
  rw [prepare_ok hT R p hc]
  simp only [dif_pos hT]
  refine ⟨_, rfl, fun j => ?_⟩
  unfold portfolioVar
  rw [hc]
  simp only [varIndex, boolArgmax_getD hT]
  rfl

private theorem many_cvar (argsort : (T : ℕ) → (Fin T → K) → Equiv.Perm (Fin T)) (hT : 0 < T) (w : WeightsArg K) (R : Fin T → Fin w.n → K)
    (p : Option (Fin T → K)) {confidence : Option K} {conf : K} (hc : checkConf confidence = .ok conf) (demean : Bool) :
    ∃ xs : Fin w.m → K, portfolioCvarMany argsort w R (p.map List.ofFn) confidence demean = .ok (itemOrArray (List.ofFn xs)) ∧
      ∀ j, portfolioCvar (argsort T) (fun i => w.val i j) R p confidence demean = .ok (xs j) := by
  unfold portfolioCvarMany
  rw [prepare_ok hT R p hc]
  simp only [dif_pos hT]
  refine ⟨_, rfl, fun j => ?_⟩
  unfold portfolioCvar
  rw [hc]
  simp only [varIndex, boolArgmax_getD hT]
  rfl

/-- **C193** (columns) For a weight matrix, any scenarios and any probability vector of matching length (or none), `portfolio_var` and `portfolio_cvar` give
for every portfolio the number they give for that column alone; a single portfolio gives a number, several give an array with one entry per portfolio in
order (of shape `(1, M)` for VaR, `(M,)` for CVaR). -/
theorem C193_columns (argsort : (T : ℕ) → (Fin T → K) → Equiv.Perm (Fin T)) (hT : 0 < T) (W : Fin n → Fin m → K) (R : Fin T → Fin n → K)
    (p : Option (Fin T → K)) (confidence : Option K) (h0 : 0 < confidence.getD (95 / 100)) (h1 : confidence.getD (95 / 100) < 1) (demean : Bool) :
    ∃ vs cs : Fin m → K,
      (∃ a, portfolioVarMany argsort (.matrix n m W) R (p.map List.ofFn) confidence demean = .ok a ∧ Answers .row vs a) ∧
      (∃ a, portfolioCvarMany argsort (.matrix n m W) R (p.map List.ofFn) confidence demean = .ok a ∧ Answers .array cs a) ∧
      ∀ j, portfolioVarMany argsort (.vector n fun i => W i j) R (p.map List.ofFn) confidence demean = .ok (.number (vs j)) ∧
        portfolioCvarMany argsort (.vector n fun i => W i j) R (p.map List.ofFn) confidence demean = .ok (.number (cs j)) := by
  have hc : checkConf confidence = .ok (confidence.getD (95 / 100)) := if_pos ⟨h0, h1⟩
  obtain ⟨vs, a1, a2⟩ := many_var argsort hT (.matrix n m W) R p hc demean
  obtain ⟨cs, b1, b2⟩ := many_cvar argsort hT (.matrix n m W) R p hc demean
  refine ⟨vs, cs, ⟨_, a1, answers_row _⟩, ⟨_, b1, answers_array _⟩, fun j => ⟨?_, ?_⟩⟩
  · obtain ⟨xs, d1, d2⟩ := many_var argsort hT (.vector n fun i => W i j) R p hc demean
    have e : xs (0 : Fin 1) = vs j := by
      have x1 := a2 j
      have x2 := d2 (0 : Fin 1)
      exact Except.ok.inj (x2.symm.trans x1)
    rw [← e]
    exact d1.trans (congrArg Except.ok ((answers_row (m := 1) xs).2 0 rfl))
  · obtain ⟨xs, d1, d2⟩ := many_cvar argsort hT (.vector n fun i => W i j) R p hc demean
    have e : xs (0 : Fin 1) = cs j := by
      have x1 := b2 j
      have x2 := d2 (0 : Fin 1)
      exact Except.ok.inj (x2.symm.trans x1)
    rw [← e]
    exact d1.trans (congrArg Except.ok ((answers_array (m := 1) xs).2 0 rfl))

/-- **C193** (meaning) With a probability vector the entries are the VaR (lower quantile) and the CVaR (least Rockafellar-Uryasev value) of each
portfolio. -/
theorem C193_meaning {argsort : (T : ℕ) → (Fin T → K) → Equiv.Perm (Fin T)} (hs : ∀ T, IsArgsort (argsort T)) (W : Fin n → Fin m → K)
    (R : Fin T → Fin n → K) (p : Option (Fin T → K)) (hp : IsProb (scenarioProbs p)) (conf : K) (h0 : 0 < conf) (h1 : conf < 1) (demean : Bool) :
    ∃ vs cs : Fin m → K,
      (∃ a, portfolioVarMany argsort (.matrix n m W) R (p.map List.ofFn) (some conf) demean = .ok a ∧ Answers .row vs a) ∧
      (∃ a, portfolioCvarMany argsort (.matrix n m W) R (p.map List.ofFn) (some conf) demean = .ok a ∧ Answers .array cs a) ∧
      ∀ j, IsVar (scenarioProbs p) (effPnl (fun i => W i j) R p demean) conf (vs j) ∧
        IsCvar (scenarioProbs p) (effPnl (fun i => W i j) R p demean) conf (cs j) := by
  have hT : 0 < T := by
    rcases Nat.eq_zero_or_pos T with rfl | h
    · have := hp.sum
      simp at this
    · exact h
  have hc : checkConf (some conf) = .ok conf := if_pos ⟨h0, h1⟩
  obtain ⟨vs, a1, a2⟩ := many_var argsort hT (.matrix n m W) R p hc demean
  obtain ⟨cs, b1, b2⟩ := many_cvar argsort hT (.matrix n m W) R p hc demean
  refine ⟨vs, cs, ⟨_, a1, answers_row _⟩, ⟨_, b1, answers_array _⟩, fun j => ⟨?_, ?_⟩⟩
  · obtain ⟨r, e, hr⟩ := portfolioVar_ok (w := fun i => W i j) (R := R) (demean := demean) (hs T) hp h0 h1
    rwa [Except.ok.inj ((a2 j).symm.trans e)]
  · obtain ⟨r, e, hr⟩ := portfolioCvar_ok (w := fun i => W i j) (R := R) (demean := demean) (hs T) hp h0 h1
    rwa [Except.ok.inj ((b2 j).symm.trans e)]

/-- When the two functions return at all. -/
def RiskArgsOk (T n : ℕ) (w : WeightsArg K) (p : Option (List K)) (confidence : Option K) (demean : Bool) : Prop :=
  0 < T ∧ n = w.n ∧ 0 < confidence.getD (95 / 100) ∧ confidence.getD (95 / 100) < 1 ∧
    ∀ l, p = some l → l.length = T ∨ (l.length = 1 ∧ demean = false)

/-- **C193** (rejections, except a single probability) Both functions return exactly when there is a scenario, the scenario matrix has one column per
instrument, the confidence lies strictly between 0 and 1, and the probabilities are absent, one per scenario, or (without demeaning) a single number; every
other call raises, with `ValueError` unless there are no scenarios. -/
theorem C193_rejects_partial (argsort : (T : ℕ) → (Fin T → K) → Equiv.Perm (Fin T)) (w : WeightsArg K) (R : Fin T → Fin n → K) (p : Option (List K))
    (confidence : Option K) (demean : Bool) :
    ((∃ a, portfolioVarMany argsort w R p confidence demean = .ok a) ↔ RiskArgsOk T n w p confidence demean) ∧
    ((∃ a, portfolioCvarMany argsort w R p confidence demean = .ok a) ↔ RiskArgsOk T n w p confidence demean) ∧
    (0 < T → ¬ RiskArgsOk T n w p confidence demean →
      portfolioVarMany argsort w R p confidence demean = .error .valueError ∧
      portfolioCvarMany argsort w R p confidence demean = .error .valueError) := by
  have key : (RiskArgsOk T n w p confidence demean → ∃ x, prepare w R p confidence demean = .ok x) ∧
      (¬ RiskArgsOk T n w p confidence demean → ∃ e, prepare w R p confidence demean = .error e ∧ (0 < T → e = .valueError)) := by
    unfold RiskArgsOk prepare checkConf
    generalize confidence.getD (95 / 100) = conf
    simp only
    by_cases hc : 0 < conf ∧ conf < 1
    swap
    · rw [if_neg hc]
      exact ⟨fun h => absurd ⟨h.2.2.1, h.2.2.2.1⟩ hc, fun _ => ⟨_, rfl, fun _ => rfl⟩⟩
    rw [if_pos hc]
    have hq : ((∃ q, probColumn T p = .ok q) ∧ (∀ l, p = some l → l.length = T ∨ l.length = 1) ∧ (p = none → T ≠ 0)) ∨
        ((∃ e, probColumn T p = .error e ∧ (0 < T → e = .valueError)) ∧
          ((∃ l, p = some l ∧ l.length ≠ T ∧ l.length ≠ 1) ∨ T = 0)) := by
      cases p with
      | none =>
        by_cases h0 : T = 0
        · exact .inr ⟨⟨_, if_pos h0, fun h => by omega⟩, .inr h0⟩
        · exact .inl ⟨⟨_, if_neg h0⟩, fun l hl => (nomatch hl), fun _ => h0⟩
      | some l =>
        by_cases h0 : l.length = T
        · exact .inl ⟨⟨_, dif_pos h0⟩, fun l' hl => by injection hl with hl; subst hl; exact .inl h0, fun h => (nomatch h)⟩
        · by_cases h1 : l.length = 1
          · exact .inl ⟨⟨_, (dif_neg h0).trans (dif_pos h1)⟩, fun l' hl => by injection hl with hl; subst hl; exact .inr h1, fun h => (nomatch h)⟩
          · exact .inr ⟨⟨_, (dif_neg h0).trans (dif_neg h1), fun _ => rfl⟩, .inl ⟨l, rfl, h0, h1⟩⟩
    rcases hq with ⟨⟨q, hq⟩, hl, hn⟩ | ⟨⟨e, hq, he⟩, hl⟩
    · rw [hq]
      have hd : (demean && !demeanFits T p) = true ↔ ¬ ∀ l, p = some l → l.length = T ∨ demean = false := by
        cases p <;> cases demean <;> simp [demeanFits]
      simp only
      by_cases hdm : (demean && !demeanFits T p) = true
      · rw [if_pos hdm]
        refine ⟨fun h => absurd (fun l hl' => ?_) (hd.1 hdm), fun _ => ⟨_, rfl, fun _ => rfl⟩⟩
        rcases h.2.2.2.2 l hl' with h | h
        · exact .inl h
        · exact .inr h.2
      · rw [if_neg hdm]
        by_cases hw : n = w.n
        · rw [dif_pos hw]
          by_cases hT : T = 0
          · rw [if_pos hT]
            exact ⟨fun h => by omega, fun _ => ⟨_, rfl, fun h => by omega⟩⟩
          · rw [if_neg hT]
            refine ⟨fun _ => ⟨_, rfl⟩, fun h => absurd ⟨by omega, hw, hc.1, hc.2, fun l hl' => ?_⟩ h⟩
            have h2 := not_not.1 (fun hh => hdm (hd.2 hh)) l hl'
            rcases hl l hl' with h | h
            · exact .inl h
            · rcases h2 with h2 | h2
              · exact .inl h2
              · exact .inr ⟨h, h2⟩
        · rw [dif_neg hw]
          exact ⟨fun h => absurd h.2.1 hw, fun _ => ⟨_, rfl, fun _ => rfl⟩⟩
    · rw [hq]
      refine ⟨fun h => ?_, fun _ => ⟨_, rfl, he⟩⟩
      rcases hl with ⟨l, h1, h2, h3⟩ | h0
      · rcases h.2.2.2.2 l h1 with h | h
        · exact absurd h h2
        · exact absurd h.1 h3
      · omega
  by_cases h : RiskArgsOk T n w p confidence demean
  · obtain ⟨⟨c, q, X⟩, hx⟩ := key.1 h
    have hT := h.1
    refine ⟨⟨fun _ => h, fun _ => ?_⟩, ⟨fun _ => h, fun _ => ?_⟩, fun _ hh => absurd h hh⟩
    · unfold portfolioVarMany
      rw [hx]
      simp only [dif_pos hT]
      exact ⟨_, rfl⟩
    · unfold portfolioCvarMany
      rw [hx]
      simp only [dif_pos hT]
      exact ⟨_, rfl⟩
  · obtain ⟨e, hx, he⟩ := key.2 h
    have e1 : portfolioVarMany argsort w R p confidence demean = .error e := by unfold portfolioVarMany; rw [hx]
    have e2 : portfolioCvarMany argsort w R p confidence demean = .error e := by unfold portfolioCvarMany; rw [hx]
    rw [e1, e2]
    refine ⟨⟨fun ⟨a, ha⟩ => (nomatch ha), fun hh => absurd hh h⟩, ⟨fun ⟨a, ha⟩ => (nomatch ha), fun hh => absurd hh h⟩, fun hT _ => ?_⟩
    rw [he hT]
    exact ⟨rfl, rfl⟩

/-- Missing from the full **C193**: a probability vector of the wrong length is accepted when it has one entry, and that entry is used for every scenario. -/
theorem C193_counterexample (argsort : (T : ℕ) → (Fin T → K) → Equiv.Perm (Fin T)) (w : Fin n → K) (R : Fin 3 → Fin n → K) (x : K) :
    ∃ a b, portfolioVarMany argsort (.vector n w) R (some [x]) none false = .ok a ∧
      portfolioCvarMany argsort (.vector n w) R (some [x]) none false = .ok b := by
  have h : RiskArgsOk (K := K) 3 n (.vector n w) (some [x]) none false :=
    ⟨by omega, rfl, by simp only [Option.getD_none]; positivity, by simp only [Option.getD_none]; rw [div_lt_one (by positivity)]; norm_num,
      fun l hl => by injection hl with hl; subst hl; exact .inr ⟨rfl, rfl⟩⟩
  obtain ⟨h1, h2, -⟩ := C193_rejects_partial argsort (.vector n w) R (some [x]) none false
  obtain ⟨a, ha⟩ := h1.2 h
  obtain ⟨b, hb⟩ := h2.2 h
  exact ⟨a, b, ha, hb⟩

/-- Non-vacuity: two portfolios over three equally likely scenarios at 95%. -/
example : ∃ vs cs : Fin 2 → ℚ,
    (∃ a, portfolioVarMany (fun _ x => Tuple.sort x) (.matrix 2 2 ![![1, 0], ![0, 1]]) (![![1, 2], ![-1, 0], ![3, -4]] : Fin 3 → Fin 2 → ℚ) none none true = .ok a ∧
      Answers .row vs a) ∧
    (∃ a, portfolioCvarMany (fun _ x => Tuple.sort x) (.matrix 2 2 ![![1, 0], ![0, 1]]) (![![1, 2], ![-1, 0], ![3, -4]] : Fin 3 → Fin 2 → ℚ) none none true = .ok a ∧
      Answers .array cs a) := by
  obtain ⟨vs, cs, h1, h2, -⟩ := C193_columns (K := ℚ) (fun _ x => Tuple.sort x) (by omega : 0 < 3) ![![1, 0], ![0, 1]]
    (![![1, 2], ![-1, 0], ![3, -4]] : Fin 3 → Fin 2 → ℚ) none none (by norm_num) (by norm_num) true
  exact ⟨vs, cs, h1, h2⟩

end many

end PyV.Props
