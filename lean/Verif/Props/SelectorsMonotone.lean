import Verif.Props.Frontier

/-! # Property C247: selectors follow their argument -/

namespace PyV.Props

open PyV PyV.Fr PyV.Spec.Frontier

variable {K : Type*} [Field K] [LinearOrder K] [IsStrictOrderedRing K] {N M : ℕ} {L : Type*} [DecidableEq L]

private theorem riskUnder_unique {f : Frontier L K N M} {label : Option L} {r r' : Fin M → K} (h : RiskUnder f label r) (h' : RiskUnder f label r') : r = r' := by
  rcases h with ⟨h1, rfl⟩ | ⟨l, rfl, hl, hr⟩ <;> rcases h' with ⟨h1', rfl⟩ | ⟨l', e, hl', hr'⟩
  · rfl
  · rcases h1 with rfl | rfl
    · cases e
    · injection e with e; exact absurd e.symm hl'
  · rcases h1' with h | h
    · cases h
    · injection h with e; exact absurd e hl
  · injection e with e; subst e
    rw [hr] at hr'; injection hr'

private theorem riskVector_iff {f : Frontier L K N M} {label : Option L} {r : Fin M → K} : f.riskVector label = .ok r ↔ RiskUnder f label r := by
  unfold Frontier.riskVector RiskUnder
  cases label with
  | none => simp [eq_comm]
  | some l =>
    by_cases h : l = f.riskMeasure
    · simp [h, eq_comm]
    · cases hl : f.alternates.lookup l <;> simp [h, hl]

private theorem nearest_mono {x y p q : K} (hpq : p < q) (hx : |x - p| ≤ |y - p|) (hy : |y - q| ≤ |x - q|) : x ≤ y := by
  by_contra h
  push Not at h
  have h1 : x + y ≤ 2 * p := by
    by_contra h2
    push Not at h2
    rcases le_total p x with a | a <;> rcases le_total p y with b | b
    · rw [abs_of_nonneg (by linarith), abs_of_nonneg (by linarith)] at hx; linarith
    · rw [abs_of_nonneg (by linarith), abs_of_nonpos (by linarith)] at hx; linarith
    · linarith
    · linarith
  have h2 : 2 * q ≤ x + y := by
    by_contra h2
    push Not at h2
    rcases le_total q x with a | a <;> rcases le_total q y with b | b
    · linarith
    · rw [abs_of_nonpos (by linarith), abs_of_nonneg (by linarith)] at hy; linarith
    · linarith
    · rw [abs_of_nonpos (by linarith), abs_of_nonpos (by linarith)] at hy; linarith
  linarith

/-- **C247** Raising the risk-free rate never makes the tangency portfolio safer, on a frontier without negative risks. -/
theorem C247_tangency (f : Frontier L K N M) (hpos : ∀ i, 0 ≤ f.risks i) {rf rf' : K} (h : rf ≤ rf') {p p' : Pick K N}
    (hp : f.tangency rf = .ok p) (hp' : f.tangency rf' = .ok p') : p.risk ≤ p'.risk := by
  rcases h.eq_or_lt with rfl | hlt
  · rw [hp] at hp'; injection hp' with e; rw [e]
  obtain ⟨-, i, ⟨hi, hmax, -⟩, -, -, e⟩ := (C52_tangency f rf p).1 hp
  obtain ⟨-, j, ⟨hj, hmax', -⟩, -, -, e'⟩ := (C52_tangency f rf' p').1 hp'
  rw [e, e']
  have hi0 : 0 < f.risks i := lt_of_le_of_ne (hpos i) (Ne.symm hi)
  have hj0 : 0 < f.risks j := lt_of_le_of_ne (hpos j) (Ne.symm hj)
  have h1 := hmax j hj
  have h2 := hmax' i hi
  dsimp only at h1 h2
  rw [div_le_div_iff₀ hj0 hi0] at h1
  rw [div_le_div_iff₀ hi0 hj0] at h2
  have : (rf' - rf) * f.risks i ≤ (rf' - rf) * f.risks j := by linarith
  exact le_of_mul_le_mul_left this (by linarith)

/-- **C247** A looser risk cap never lowers the return of `portfolio_at_risk`; a cap that worked keeps working when loosened. -/
theorem C247_at_risk (f : Frontier L K N M) (label : Option L) {c c' : K} (h : c ≤ c') {p : Pick K N} (hp : f.atRisk c label = .ok p) :
    ∃ p', f.atRisk c' label = .ok p' ∧ p.ret ≤ p'.ret := by
  obtain ⟨r, i, hr, ⟨hi, -, -⟩, -, e, -⟩ := (C53_at_risk f c label p).1 hp
  obtain ⟨p', hp'⟩ : ∃ p', f.atRisk c' label = .ok p' := by
    cases hq : f.atRisk c' label with
    | ok p' => exact ⟨p', rfl⟩
    | error e =>
      exfalso
      have hinf := (C53_infeasible f label r hr c').1
      have herr : e = .infeasible := by
        unfold Frontier.atRisk at hq hp
        split at hq
        · rename_i e' he'
          rw [he'] at hp; cases hp
        · split at hq
          · injection hq with hq; exact hq.symm
          · cases hq
      rw [herr] at hq
      exact absurd (hi.trans h) (not_le.2 (hinf.1 hq i))
  obtain ⟨r', j, hr', ⟨-, hmax, -⟩, -, e', -⟩ := (C53_at_risk f c' label p').1 hp'
  obtain rfl := riskUnder_unique hr hr'
  exact ⟨p', hp', by rw [e, e']; exact hmax i (hi.trans h)⟩

/-- **C247** A lower return floor never raises the risk of `portfolio_at_return`; a floor that worked keeps working when lowered. -/
theorem C247_at_return (f : Frontier L K N M) (label : Option L) {c c' : K} (h : c' ≤ c) {p : Pick K N} (hp : f.atReturn c label = .ok p) :
    ∃ p', f.atReturn c' label = .ok p' ∧ p'.risk ≤ p.risk := by
  obtain ⟨r, i, hr, ⟨hi, -, -⟩, -, -, e⟩ := (C53_at_return f c label p).1 hp
  obtain ⟨p', hp'⟩ : ∃ p', f.atReturn c' label = .ok p' := by
    cases hq : f.atReturn c' label with
    | ok p' => exact ⟨p', rfl⟩
    | error e =>
      exfalso
      have hinf := (C53_infeasible f label r hr c').2
      have herr : e = .infeasible := by
        have hv := riskVector_iff.2 hr
        unfold Frontier.atReturn at hq
        rw [hv] at hq
        dsimp only at hq
        split at hq
        · split at hq
          · injection hq with hq; exact hq.symm
          · cases hq
        · injection hq with hq; exact hq.symm
      rw [herr] at hq
      exact absurd (h.trans hi) (not_le.2 (hinf.1 hq i))
  obtain ⟨r', j, hr', ⟨-, hmin, -⟩, -, -, e'⟩ := (C53_at_return f c' label p').1 hp'
  obtain rfl := riskUnder_unique hr hr'
  exact ⟨p', hp', by rw [e, e']; exact hmin i (h.trans hi)⟩

/-- **C247** A higher risk target never gives `portfolio_closest_risk` a safer portfolio. -/
theorem C247_closest_risk (f : Frontier L K N M) (label : Option L) {t t' : K} (h : t ≤ t') {p p' : Pick K N}
    (hp : f.closestRisk t label = .ok p) (hp' : f.closestRisk t' label = .ok p') : p.risk ≤ p'.risk := by
  rcases h.eq_or_lt with rfl | hlt
  · rw [hp] at hp'; injection hp' with e; rw [e]
  obtain ⟨r, i, hr, ⟨-, hmin, -⟩, -, -, e⟩ := (C53_closest_risk f t label p).1 hp
  obtain ⟨r', j, hr', ⟨-, hmin', -⟩, -, -, e'⟩ := (C53_closest_risk f t' label p').1 hp'
  obtain rfl := riskUnder_unique hr hr'
  rw [e, e']
  exact nearest_mono hlt (hmin j trivial) (hmin' i trivial)

/-- **C247** A higher risk percentile (as a fraction) never gives `portfolio_at_risk_percentile` a safer portfolio. -/
theorem C247_percentile (f : Frontier L K N M) (argsort : (Fin M → K) → Equiv.Perm (Fin M)) (hs : Risk.IsArgsort argsort) (label : Option L) (hM : 2 ≤ M)
    {x x' q q' : K} (hq : normalizePercentile (.fin x) = .ok (.fin q)) (hq' : normalizePercentile (.fin x') = .ok (.fin q')) (h : q ≤ q') {p p' : Pick K N}
    (hp : f.atPercentile argsort (.fin x) label = .ok p) (hp' : f.atPercentile argsort (.fin x') label = .ok p') : p.risk ≤ p'.risk := by
  obtain ⟨r, hr⟩ : ∃ r, RiskUnder f label r := by
    by_contra hno
    push Not at hno
    unfold Frontier.atPercentile at hp
    rw [hq] at hp
    dsimp only at hp
    split at hp
    · cases hp
    · split at hp
      · cases hp
      · rename_i r hr
        exact hno r (riskVector_iff.1 hr)
  obtain ⟨i, e, ⟨-, hmin, hfirst⟩, -⟩ := C54_at_percentile f argsort hs x q hq label r hr hM
  obtain ⟨j, e', ⟨-, hmin', hfirst'⟩, -⟩ := C54_at_percentile f argsort hs x' q' hq' label r hr hM
  rw [hp] at e; injection e with e
  rw [hp'] at e'; injection e' with e'
  rw [e, e']
  change r i ≤ r j
  rcases h.eq_or_lt with rfl | hlt
  · have : i = j := by
      rcases lt_trichotomy i j with hij | hij | hij
      · exact absurd (hfirst' i hij trivial) (not_lt.2 (hmin j trivial))
      · exact hij
      · exact absurd (hfirst j hij trivial) (not_lt.2 (hmin' i trivial))
    rw [this]
  · have hle := nearest_mono hlt (hmin j trivial) (hmin' i trivial)
    by_contra hc
    exact absurd ((C54_percentiles argsort hs r).2.1 j i (not_le.1 hc)) (not_lt.2 hle)

/-- Non-vacuity: the example frontier; the tangency portfolio moves from the second to the third column as the risk-free rate rises. -/
example : (∀ i, 0 ≤ exFrontier.risks i) ∧ (exFrontier.tangency 0).toOption.map Pick.risk = some (2/100) ∧
    (exFrontier.tangency (4/100)).toOption.map Pick.risk = some (5/100) ∧ (exFrontier.atRisk (2/100) none).toOption.map Pick.ret = some (3/100) ∧
    (exFrontier.atReturn (2/100) (some "CVaR")).toOption.map Pick.risk = some (1/100) ∧ (exFrontier.closestRisk (1/100) none).toOption.map Pick.risk = some 0 ∧
    (exFrontier.closestRisk (4/100) none).toOption.map Pick.risk = some (5/100) := by
  refine ⟨fun i => by fin_cases i <;> norm_num [exFrontier], ?_, ?_, ?_, ?_, ?_, ?_⟩ <;> decide +kernel

end PyV.Props
