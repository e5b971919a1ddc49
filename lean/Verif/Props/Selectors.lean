import Verif.Props.Frontier
import Verif.Lemmas.Ensembles
import Verif.Model.Ensembles

/-!
# The named ensemble selectors (C118)

`make_portfolio_spec(selector=key, selector_kwargs=kw)` turns a name into a function from frontiers to weights. Keys are taken after
`lower()`.
-/

namespace PyV.Props

open PyV PyV.Fr PyV.Ens PyV.Spec.Frontier

variable {K : Type*} [Field K] [LinearOrder K] [IsStrictOrderedRing K] {N M : ℕ}

/-- The frontier's risk measure mentions "Estimation Risk". -/
def MentionsEstimation (f : Frontier String K N M) : Prop := ∃ a b, f.riskMeasure = a ++ "Estimation Risk" ++ b

/-- The risk vector a selector uses: the one under the label the user gave; without a label the primary one, except that an
estimation-risk frontier carrying a "Volatility" overlay is read in volatility units. -/
def RiskUsed (f : Frontier String K N M) (label : Option String) (r : Fin M → K) : Prop :=
  (∃ l, label = some l ∧ RiskUnder f (some l) r) ∨
    (label = none ∧ MentionsEstimation f ∧ (∃ v, ("Volatility", v) ∈ f.alternates) ∧ RiskUnder f (some "Volatility") r) ∨
    (label = none ∧ ¬ (MentionsEstimation f ∧ ∃ v, ("Volatility", v) ∈ f.alternates) ∧ r = f.risks)

/-- `w` is column `i` of the frontier. -/
def IsColumn (f : Frontier String K N M) (i : Fin M) (w : Fin N → K) : Prop := ∀ a, w a = f.weights a i

theorem isEstimation_iff (f : Frontier String K N M) : isEstimation f.riskMeasure = true ↔ MentionsEstimation f := by
  unfold isEstimation MentionsEstimation
  rw [decide_eq_true_iff]
  constructor
  · rintro ⟨a, b, h⟩
    refine ⟨String.ofList a, String.ofList b, ?_⟩
    apply String.toList_injective
    simpa [String.toList_append] using h.symm
  · rintro ⟨a, b, h⟩
    refine ⟨a.toList, b.toList, ?_⟩
    rw [h]
    simp [String.toList_append]

theorem riskUsed_iff (f : Frontier String K N M) (label : Option String) (r : Fin M → K) :
    RiskUnder f (resolveLabel f label) r ↔ RiskUsed f label r := by
  have hany : (f.alternates.any (fun e => e.1 == "Volatility")) = true ↔ ∃ v, ("Volatility", v) ∈ f.alternates := by
    rw [List.any_eq_true]
    constructor
    · rintro ⟨⟨l, v⟩, hm, h⟩
      have : l = "Volatility" := by simpa using h
      exact ⟨v, this ▸ hm⟩
    · rintro ⟨v, hm⟩
      exact ⟨_, hm, by simp⟩
  cases label with
  | some l => simp [resolveLabel, RiskUsed]
  | none =>
    unfold resolveLabel RiskUsed
    by_cases h : MentionsEstimation f ∧ ∃ v, ("Volatility", v) ∈ f.alternates
    · have h1 := isEstimation_iff f |>.mpr h.1
      have h2 := hany.mpr h.2
      rw [h1, h2, Bool.and_self, if_pos rfl]
      constructor
      · intro hr; exact Or.inr (Or.inl ⟨rfl, h.1, h.2, hr⟩)
      · rintro (⟨l, hl, -⟩ | ⟨-, -, -, hr⟩ | ⟨-, hn, -⟩)
        · cases hl
        · exact hr
        · exact absurd h hn
    · have hf : ((f.alternates.any (fun e => e.1 == "Volatility")) && isEstimation f.riskMeasure) ≠ true := by
        intro hb
        obtain ⟨h2, h1⟩ := (Bool.and_eq_true _ _ ▸ hb : _ ∧ _)
        exact h ⟨(isEstimation_iff f).mp h1, hany.mp h2⟩
      rw [if_neg hf]
      constructor
      · rintro (⟨-, hr⟩ | ⟨l, hl, -⟩)
        · exact Or.inr (Or.inr ⟨rfl, h, hr⟩)
        · cases hl
      · rintro (⟨l, hl, -⟩ | ⟨-, h1, h2, -⟩ | ⟨-, -, hr⟩)
        · cases hl
        · exact absurd ⟨h1, h2⟩ h
        · exact Or.inl ⟨Or.inl rfl, hr⟩

theorem weightsOf_iff {r : Except PyErr (Pick K N)} {w : Fin N → K} :
    weightsOf r = .ok w ↔ ∃ p, r = .ok p ∧ ∀ a, w a = p.w a := by
  unfold weightsOf
  cases r with
  | error e => simp
  | ok p =>
    simp only [Except.ok.injEq, exists_eq_left']
    exact ⟨fun h a => by rw [h], fun h => funext fun a => (h a).symm⟩

theorem reports_column {f : Frontier String K N M} {r : Fin M → K} {i : Fin M} {w : Fin N → K} :
    (∃ p, Reports f r i p ∧ ∀ a, w a = p.w a) ↔ IsColumn f i w := by
  constructor
  · rintro ⟨p, ⟨hp, -⟩, hw⟩ a
    rw [hw, hp]
  · intro h
    exact ⟨⟨w, f.returns i, r i⟩, ⟨h, rfl, rfl⟩, fun _ => rfl⟩

variable (argsort : (Fin M → K) → Equiv.Perm (Fin M)) (kw : SelKw K)

/-- **C118** `"tangency"` (also `"max_sharpe"`, `"sharpe"`): the first column with the largest ratio of excess return over the given
risk-free rate (zero if none is given) to primary risk, among columns of non-zero risk; it needs some column whose risk is not
negligible. -/
theorem C118_tangency (key : String) (hk : key.toLower = "tangency" ∨ key.toLower = "max_sharpe" ∨ key.toLower = "sharpe") :
    ∃ s kw', buildSelector key kw = .ok (s, kw') ∧ ∀ (f : Frontier String K N M) (w : Fin N → K) (rf : K),
      (kw.riskFree = some rf ∨ kw.riskFree = none ∧ rf = 0) →
      ((callSelector argsort s kw' f).1 = .ok w ↔ (∃ i, 1 / 10 ^ 8 < |f.risks i|) ∧
        ∃ i, FirstMax (fun j => f.risks j ≠ 0) (fun j => (f.returns j - rf) / f.risks j) i ∧ IsColumn f i w) := by
  refine ⟨.tangency (kw.riskFree.getD 0), { kw with riskFree := none }, ?_, fun f w rf hrf => ?_⟩
  · unfold buildSelector selectorFor
    generalize key.toLower = key at hk
    rw [if_pos (by rcases hk with rfl | rfl | rfl <;> simp)]
  · have : kw.riskFree.getD 0 = rf := by
      rcases hrf with h | ⟨h, h0⟩
      · rw [h]; rfl
      · rw [h, h0]; rfl
    simp only [callSelector, this, weightsOf_iff]
    constructor
    · rintro ⟨p, hp, hw⟩
      obtain ⟨h1, i, hi, hrep⟩ := (C52_tangency f rf p).mp hp
      exact ⟨h1, i, hi, reports_column.mp ⟨p, hrep, hw⟩⟩
    · rintro ⟨h1, i, hi, hw⟩
      obtain ⟨p, hrep, hpw⟩ := reports_column (r := f.risks).mpr hw
      exact ⟨p, (C52_tangency f rf p).mpr ⟨h1, i, hi, hrep⟩, hpw⟩

/-- **C118** `"min_risk"` (also `"minimum_risk"`): on its first call, the first column of smallest risk under the given label, or of
smallest primary risk when no label was given. -/
theorem C118_min_risk (key : String) (hk : key.toLower = "min_risk" ∨ key.toLower = "minimum_risk") :
    ∃ s kw', buildSelector key kw = .ok (s, kw') ∧ ∀ (f : Frontier String K N M) (w : Fin N → K),
      ((callSelector argsort s kw' f).1 = .ok w ↔
        ∃ r i, RiskUnder f kw.riskLabel r ∧ FirstMin (fun _ => True) r i ∧ IsColumn f i w) := by
  refine ⟨.minRisk, kw, ?_, fun f w => ?_⟩
  · unfold buildSelector selectorFor
    generalize key.toLower = key at hk
    rw [if_neg (by rcases hk with rfl | rfl <;> simp), if_pos (by rcases hk with rfl | rfl <;> simp)]
  · simp only [callSelector, weightsOf_iff]
    constructor
    · rintro ⟨p, hp, hw⟩
      obtain ⟨r, i, hr, hi, hrep⟩ := (C52_min_risk f _ p).mp hp
      exact ⟨r, i, hr, hi, reports_column.mp ⟨p, hrep, hw⟩⟩
    · rintro ⟨r, i, hr, hi, hw⟩
      obtain ⟨p, hrep, hpw⟩ := reports_column (r := r).mpr hw
      exact ⟨p, (C52_min_risk f _ p).mpr ⟨r, i, hr, hi, hrep⟩, hpw⟩

/-- **C118** `"max_return"` (also `"maximum_return"`): the first column of largest return. -/
theorem C118_max_return (key : String) (hk : key.toLower = "max_return" ∨ key.toLower = "maximum_return") :
    ∃ s kw', buildSelector key kw = .ok (s, kw') ∧ ∀ (f : Frontier String K N M) (w : Fin N → K),
      ((callSelector argsort s kw' f).1 = .ok w ↔ ∃ i, FirstMax (fun _ => True) f.returns i ∧ IsColumn f i w) := by
  refine ⟨.maxReturn, kw, ?_, fun f w => ?_⟩
  · unfold buildSelector selectorFor
    generalize key.toLower = key at hk
    rw [if_neg (by rcases hk with rfl | rfl <;> simp), if_neg (by rcases hk with rfl | rfl <;> simp),
      if_pos (by rcases hk with rfl | rfl <;> simp)]
  · simp only [callSelector, weightsOf_iff]
    constructor
    · rintro ⟨p, hp, hw⟩
      obtain ⟨i, hi, hrep⟩ := (C52_max_return f p).mp hp
      exact ⟨i, hi, reports_column.mp ⟨p, hrep, hw⟩⟩
    · rintro ⟨i, hi, hw⟩
      obtain ⟨p, hrep, hpw⟩ := reports_column (r := f.risks).mpr hw
      exact ⟨p, (C52_max_return f p).mpr ⟨i, hi, hrep⟩, hpw⟩

/-- **C118** `"risk_target"` (also `"max_return_subject_to_risk"`): the first column of largest return among those whose risk is at
most `max_risk`. -/
theorem C118_risk_target (key : String) (hk : key.toLower = "risk_target" ∨ key.toLower = "max_return_subject_to_risk") (m : K)
    (hm : kw.maxRisk = some m) :
    ∃ s kw', buildSelector key kw = .ok (s, kw') ∧ ∀ (f : Frontier String K N M) (w : Fin N → K),
      ((callSelector argsort s kw' f).1 = .ok w ↔
        ∃ r i, RiskUsed f kw.riskLabel r ∧ FirstMax (fun j => r j ≤ m) f.returns i ∧ IsColumn f i w) := by
  refine ⟨.riskTarget m kw.riskLabel, { kw with maxRisk := none, riskLabel := none }, ?_, fun f w => ?_⟩
  · unfold buildSelector selectorFor
    generalize key.toLower = key at hk
    rw [if_neg (by rcases hk with rfl | rfl <;> simp), if_neg (by rcases hk with rfl | rfl <;> simp),
      if_neg (by rcases hk with rfl | rfl <;> simp), if_pos (by rcases hk with rfl | rfl <;> simp), hm]
  · simp only [callSelector, weightsOf_iff, ← riskUsed_iff]
    constructor
    · rintro ⟨p, hp, hw⟩
      obtain ⟨r, i, hr, hi, hrep⟩ := (C53_at_risk f m _ p).mp hp
      exact ⟨r, i, hr, hi, reports_column.mp ⟨p, hrep, hw⟩⟩
    · rintro ⟨r, i, hr, hi, hw⟩
      obtain ⟨p, hrep, hpw⟩ := reports_column (r := r).mpr hw
      exact ⟨p, (C53_at_risk f m _ p).mpr ⟨r, i, hr, hi, hrep⟩, hpw⟩

/-- **C118** `"risk_match"` (also `"risk_nearest"`): the first column whose risk is nearest to `target_risk`. -/
theorem C118_risk_match (key : String) (hk : key.toLower = "risk_match" ∨ key.toLower = "risk_nearest") (t : K) (ht : kw.targetRisk = some t) :
    ∃ s kw', buildSelector key kw = .ok (s, kw') ∧ ∀ (f : Frontier String K N M) (w : Fin N → K),
      ((callSelector argsort s kw' f).1 = .ok w ↔
        ∃ r i, RiskUsed f kw.riskLabel r ∧ FirstMin (fun _ => True) (fun j => |r j - t|) i ∧ IsColumn f i w) := by
  refine ⟨.riskMatch t kw.riskLabel, { kw with targetRisk := none, riskLabel := none }, ?_, fun f w => ?_⟩
  · unfold buildSelector selectorFor
    generalize key.toLower = key at hk
    rw [if_neg (by rcases hk with rfl | rfl <;> simp), if_neg (by rcases hk with rfl | rfl <;> simp),
      if_neg (by rcases hk with rfl | rfl <;> simp), if_neg (by rcases hk with rfl | rfl <;> simp),
      if_pos (by rcases hk with rfl | rfl <;> simp), ht]
  · simp only [callSelector, weightsOf_iff, ← riskUsed_iff]
    constructor
    · rintro ⟨p, hp, hw⟩
      obtain ⟨r, i, hr, hi, hrep⟩ := (C53_closest_risk f t _ p).mp hp
      exact ⟨r, i, hr, hi, reports_column.mp ⟨p, hrep, hw⟩⟩
    · rintro ⟨r, i, hr, hi, hw⟩
      obtain ⟨p, hrep, hpw⟩ := reports_column (r := r).mpr hw
      exact ⟨p, (C53_closest_risk f t _ p).mpr ⟨r, i, hr, hi, hrep⟩, hpw⟩

/-- **C118** `"risk_percentile"` (also `"risk_pct"`, `"percentile"`): with at least two columns and a percentile in `[0, 1]`, or in
`(1, 100]` and then divided by 100, the selector answers with the first column whose risk percentile is nearest; that percentile
differs by at most half a rank, 0 gives a column of smallest and 1 of largest risk. -/
theorem C118_risk_percentile (hs : Risk.IsArgsort argsort) (hM : 2 ≤ M) (key : String)
    (hk : key.toLower = "risk_percentile" ∨ key.toLower = "risk_pct" ∨ key.toLower = "percentile") (x q : K) (hx : kw.percentile = some (.fin x))
    (hq : (0 ≤ x ∧ x ≤ 1 ∧ q = x) ∨ (1 < x ∧ x ≤ 100 ∧ q = x / 100)) :
    ∃ s kw', buildSelector key kw = .ok (s, kw') ∧ ∀ (f : Frontier String K N M) (r : Fin M → K), RiskUsed f kw.riskLabel r →
      ∃ w i, (callSelector argsort s kw' f).1 = .ok w ∧ IsColumn f i w ∧
        FirstMin (fun _ => True) (fun j => |percentiles argsort r j - q|) i ∧
        |percentiles argsort r i - q| ≤ 1 / (2 * ((M : K) - 1)) ∧ (q = 0 → ∀ j, r i ≤ r j) ∧ (q = 1 → ∀ j, r j ≤ r i) := by
  refine ⟨.riskPct (.fin x) kw.riskLabel, { kw with percentile := none, riskLabel := none }, ?_, fun f r hr => ?_⟩
  · unfold buildSelector selectorFor
    generalize key.toLower = key at hk
    rw [if_neg (by rcases hk with rfl | rfl | rfl <;> simp), if_neg (by rcases hk with rfl | rfl | rfl <;> simp),
      if_neg (by rcases hk with rfl | rfl | rfl <;> simp), if_neg (by rcases hk with rfl | rfl | rfl <;> simp),
      if_neg (by rcases hk with rfl | rfl | rfl <;> simp), if_pos (by rcases hk with rfl | rfl | rfl <;> simp), hx]
  · obtain ⟨i, hi, h1, h2, h3, h4⟩ := C54_at_percentile f argsort hs x q ((C54_percentile_input x q).1.mpr hq)
      (resolveLabel f kw.riskLabel) r ((riskUsed_iff f _ r).mpr hr) hM
    exact ⟨fun a => f.weights a i, i, by simp only [callSelector, hi, weightsOf]; rfl, fun _ => rfl, h1, h2, h3, h4⟩

/-- **C118** a percentile outside `[0, 100]` makes the selector raise `ValueError`. -/
theorem C118_percentile_range (key : String) (hk : key.toLower = "risk_percentile" ∨ key.toLower = "risk_pct" ∨ key.toLower = "percentile") (x : K)
    (hx : kw.percentile = some (.fin x)) (hr : x < 0 ∨ 100 < x) :
    ∃ s kw', buildSelector key kw = .ok (s, kw') ∧ ∀ f : Frontier String K N M,
      (callSelector argsort s kw' f).1 = .error .valueError := by
  refine ⟨.riskPct (.fin x) kw.riskLabel, { kw with percentile := none, riskLabel := none }, ?_, fun f => ?_⟩
  · unfold buildSelector selectorFor
    generalize key.toLower = key at hk
    rw [if_neg (by rcases hk with rfl | rfl | rfl <;> simp), if_neg (by rcases hk with rfl | rfl | rfl <;> simp),
      if_neg (by rcases hk with rfl | rfl | rfl <;> simp), if_neg (by rcases hk with rfl | rfl | rfl <;> simp),
      if_neg (by rcases hk with rfl | rfl | rfl <;> simp), if_pos (by rcases hk with rfl | rfl | rfl <;> simp), hx]
  · simp only [callSelector, Frontier.atPercentile, (C54_percentile_input x 0).2.1.mpr hr, weightsOf]

/-- **C118** `"column"` (also `"index"`): the requested column, counted from the end when negative; an index out of range raises
`IndexError`. -/
theorem C118_column (key : String) (hk : key.toLower = "column" ∨ key.toLower = "index") (n : ℤ) (hn : kw.index = some n) :
    ∃ s kw', buildSelector key kw = .ok (s, kw') ∧ ∀ f : Frontier String K N M,
      (∀ w, (callSelector argsort s kw' f).1 = .ok w ↔ ∃ i : Fin M, (n = i ∨ n = (i : ℤ) - M) ∧ IsColumn f i w) ∧
      (n < -(M : ℤ) ∨ (M : ℤ) ≤ n → (callSelector argsort s kw' f).1 = .error .indexError) := by
  refine ⟨.column n, { kw with index := none }, ?_, fun f => ⟨fun w => ?_, fun h => ?_⟩⟩
  · unfold buildSelector selectorFor
    generalize key.toLower = key at hk
    rw [if_neg (by rcases hk with rfl | rfl <;> simp), if_neg (by rcases hk with rfl | rfl <;> simp),
      if_neg (by rcases hk with rfl | rfl <;> simp), if_neg (by rcases hk with rfl | rfl <;> simp),
      if_neg (by rcases hk with rfl | rfl <;> simp), if_neg (by rcases hk with rfl | rfl <;> simp),
      if_pos (by rcases hk with rfl | rfl <;> simp), hn]
  · simp only [callSelector, pyIndex]
    constructor
    · intro h
      by_cases hb : 0 ≤ (if n < 0 then n + (M : ℤ) else n) ∧ (if n < 0 then n + (M : ℤ) else n) < M
      · rw [dif_pos hb] at h
        simp only [Except.ok.injEq] at h
        refine ⟨⟨(if n < 0 then n + (M : ℤ) else n).toNat, by omega⟩, ?_, fun a => by rw [← h]⟩
        simp only
        split_ifs at hb ⊢ <;> omega
      · rw [dif_neg hb] at h
        cases h
    · rintro ⟨i, hi, hw⟩
      have hlt := i.isLt
      have hb : 0 ≤ (if n < 0 then n + (M : ℤ) else n) ∧ (if n < 0 then n + (M : ℤ) else n) < M := by
        split_ifs <;> omega
      rw [dif_pos hb]
      simp only [Except.ok.injEq]
      funext a
      rw [hw a]
      congr 1
      apply Fin.ext
      simp only
      split_ifs <;> omega
  · have hb : ¬ (0 ≤ (if n < 0 then n + (M : ℤ) else n) ∧ (if n < 0 then n + (M : ℤ) else n) < M) := by
      split_ifs <;> omega
    simp only [callSelector, pyIndex]
    rw [dif_neg hb]

/-- The selector names the documentation lists, with their aliases. -/
def selectorNames : List String :=
  ["tangency", "max_sharpe", "sharpe", "min_risk", "minimum_risk", "max_return", "maximum_return", "risk_target",
    "max_return_subject_to_risk", "risk_match", "risk_nearest", "risk_percentile", "risk_pct", "percentile", "column", "index"]

/-- **C118** an unknown name, or a missing mandatory parameter, raises `ValueError` when the specification is made. -/
theorem C118_rejects (key : String) :
    (key.toLower ∉ selectorNames → buildSelector key kw = .error .valueError) ∧
    (key.toLower = "risk_target" ∨ key.toLower = "max_return_subject_to_risk" → kw.maxRisk = none → buildSelector key kw = .error .valueError) ∧
    (key.toLower = "risk_match" ∨ key.toLower = "risk_nearest" → kw.targetRisk = none → buildSelector key kw = .error .valueError) ∧
    (key.toLower = "risk_percentile" ∨ key.toLower = "risk_pct" ∨ key.toLower = "percentile" → kw.percentile = none →
      buildSelector key kw = .error .valueError) ∧
    (key.toLower = "column" ∨ key.toLower = "index" → kw.index = none → buildSelector key kw = .error .valueError) := by
  refine ⟨fun h => ?_, fun h h0 => ?_, fun h h0 => ?_, fun h h0 => ?_, fun h h0 => ?_⟩
  · simp only [selectorNames, List.mem_cons, List.not_mem_nil, or_false, not_or] at h
    unfold buildSelector selectorFor
    simp [h]
  · rcases h with h | h <;> simp [buildSelector, selectorFor, h0, h]
  · rcases h with h | h <;> simp [buildSelector, selectorFor, h0, h]
  · rcases h with h | h | h <;> simp [buildSelector, selectorFor, h0, h]
  · rcases h with h | h <;> simp [buildSelector, selectorFor, h0, h]

/-- An estimation-risk frontier with a volatility overlay, as `robust_lambda_frontier` returns it. -/
def exRobust : Frontier String ℚ 2 3 where
  weights := ![![1, 1/2, 0], ![0, 1/2, 1]]
  returns := ![1, 2, 3]
  risks := ![1, 2, 5]
  riskMeasure := "Estimation Risk (||Σ'^1/2 w||₂)"
  alternates := [("Volatility", ![3, 1, 2])]

example : MentionsEstimation exRobust := ⟨"", " (||Σ'^1/2 w||₂)", by decide⟩

/-- Without a label the limit 2 is read in volatility units and admits the last column; with the primary label it admits only the
second. -/
example : ∃ s kw', buildSelector "risk_target" ({ maxRisk := some 2 } : SelKw ℚ) = .ok (s, kw') ∧
    (callSelector (Tuple.sort ·) s kw' exRobust).1 = .ok ![0, 1] := by
  obtain ⟨s, kw', h, hc⟩ := C118_risk_target (N := 2) (M := 3) (Tuple.sort ·) ({ maxRisk := some 2 } : SelKw ℚ) "risk_target" (Or.inl (by decide +kernel))
    2 rfl
  refine ⟨s, kw', h, (hc _ _).mpr ⟨![3, 1, 2], 2, Or.inr (Or.inl ⟨rfl, ⟨"", " (||Σ'^1/2 w||₂)", by decide⟩, ⟨_, List.mem_singleton.mpr rfl⟩,
    Or.inr ⟨_, rfl, by decide, rfl⟩⟩), ?_, ?_⟩⟩
  · unfold FirstMax exRobust
    decide +kernel
  · intro a
    fin_cases a <;> rfl

end PyV.Props
