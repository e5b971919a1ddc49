import Verif.Props.Plotting
import Verif.Props.Samples

/-! # Property C173: the one-page report of a frontier -/

namespace PyV.Props

open PyV PyV.Ens PyV.Fr PyV.Plot PyV.Spec.Frontier PyV.Spec.Plot

variable {K : Type*} [Field K] [LinearOrder K] [IsStrictOrderedRing K]

private theorem need_bind {α β : Type*} {o : Option α} {g : α → Except PyErr β} {b : β} :
    (need o).bind g = .ok b ↔ ∃ x, o = some x ∧ g x = .ok b := by
  cases o with
  | none => simp [need, Except.bind]
  | some x => simp [need, Except.bind]

private theorem atIndex_ok {N M : ℕ} {f : Frontier String K N M} {riskLabel : Option String} {x : ℤ} {p : Pick K N} :
    atIndex f riskLabel x = .ok p ↔ ∃ (k : Fin M) (r : Fin M → K), (x = (k : ℤ) ∨ x = (k : ℤ) - M) ∧ RiskUnder f riskLabel r ∧ Reports f r k p := by
  unfold atIndex
  constructor
  · intro h
    cases hk : pyIndex M x with
    | error e => rw [hk] at h; cases h
    | ok k =>
      rw [hk] at h
      simp only at h
      cases hr : f.riskVector riskLabel with
      | error e => rw [hr] at h; cases h
      | ok r =>
        rw [hr] at h
        injection h with h
        exact ⟨k, r, pyIndex_iff.mp hk, riskVector_ok.mp hr, pick_iff.mp h⟩
  · rintro ⟨k, r, hk, hr, hp⟩
    rw [pyIndex_iff.mpr hk, riskVector_ok.mpr hr]
    simp only
    rw [pick_iff.mpr hp]

private theorem choose_iff {N M : ℕ} {argsort : (Fin M → K) → Equiv.Perm (Fin M)} {f : Frontier String K N M} {key : String} {kw : SelArgs K}
    {riskLabel : Option String} {p : Pick K N} : choose argsort f key kw riskLabel = .ok p ↔ Selected argsort f key kw riskLabel p := by
  have hidx : (∃ x, kw.index = some x ∧ atIndex f riskLabel x = .ok p) ↔ ∃ (x : ℤ) (k : Fin M) (r : Fin M → K), kw.index = some x ∧
      (x = (k : ℤ) ∨ x = (k : ℤ) - M) ∧ RiskUnder f riskLabel r ∧ Reports f r k p := by
    simp only [atIndex_ok]
    constructor
    · rintro ⟨x, h, k, r, h'⟩; exact ⟨x, k, r, h, h'⟩
    · rintro ⟨x, k, r, h, h'⟩; exact ⟨x, h, k, r, h'⟩
  unfold Selected
  rw [← hidx]
  constructor
  · intro h
    unfold choose at h
    split_ifs at h with h1 h2 h3 h4 h5 h6 h7 h8
    · exact Or.inl ⟨h1, h⟩
    · exact Or.inr (Or.inl ⟨h2, h⟩)
    · exact Or.inr (Or.inr (Or.inl ⟨h3, h⟩))
    · exact Or.inr (Or.inr (Or.inr (Or.inl ⟨h4, need_bind.mp h⟩)))
    · exact Or.inr (Or.inr (Or.inr (Or.inr (Or.inl ⟨h5, need_bind.mp h⟩))))
    · exact Or.inr (Or.inr (Or.inr (Or.inr (Or.inr (Or.inl ⟨h6, need_bind.mp h⟩)))))
    · exact Or.inr (Or.inr (Or.inr (Or.inr (Or.inr (Or.inr (Or.inl ⟨h7, need_bind.mp h⟩))))))
    · exact Or.inr (Or.inr (Or.inr (Or.inr (Or.inr (Or.inr (Or.inr ⟨h8, need_bind.mp h⟩))))))
  · rintro (⟨hk, h⟩ | ⟨hk, h⟩ | ⟨hk, h⟩ | ⟨hk, h⟩ | ⟨hk, h⟩ | ⟨hk, h⟩ | ⟨hk, h⟩ | ⟨hk, h⟩) <;>
      simp only [List.mem_cons, List.not_mem_nil, or_false] at hk
    · rcases hk with rfl | rfl <;> simp [choose, h]
    · rcases hk with rfl | rfl <;> simp [choose, h]
    · rcases hk with rfl | rfl | rfl <;> simp [choose, h]
    · rcases hk with rfl | rfl <;> simp [choose, need_bind, h]
    · rcases hk with rfl | rfl <;> simp [choose, need_bind, h]
    · rcases hk with rfl | rfl | rfl <;> simp [choose, need_bind, h]
    · rcases hk with rfl | rfl <;> simp [choose, need_bind, h]
    · rcases hk with rfl | rfl <;> simp [choose, need_bind, h]

private theorem under_none {N M : ℕ} {f : Frontier String K N M} : RiskUnder f none f.risks := riskVector_ok.mp rfl

private theorem atPercentile_reports {N M : ℕ} {argsort : (Fin M → K) → Equiv.Perm (Fin M)} {f : Frontier String K N M} {x : PyFloat K}
    {riskLabel : Option String} {p : Pick K N} (h : f.atPercentile argsort x riskLabel = .ok p) :
    ∃ r i, RiskUnder f riskLabel r ∧ Reports f r i p := by
  unfold Frontier.atPercentile at h
  split at h
  · cases h
  · split at h
    · cases h
    · split at h
      · cases h
      · rename_i i _ _ r hr
        injection h with h
        exact ⟨r, i, riskVector_ok.mp hr, pick_iff.mp h⟩

/-- Selection keys whose risk is the one on the horizontal axis, given the requested risk label. -/
private theorem reports_of {N M : ℕ} {argsort : (Fin M → K) → Equiv.Perm (Fin M)} {f : Frontier String K N M} {key : String} {kw : SelArgs K}
    {riskLabel : Option String} {p : Pick K N} (h : Selected argsort f key kw riskLabel p)
    (hk : riskLabel = none ∨ key ∉ ["max_return", "maximum_return", "tangency", "max_sharpe", "sharpe"]) :
    ∃ r i, RiskUnder f riskLabel r ∧ Reports f r i p := by
  rcases h with ⟨-, h⟩ | ⟨hm, h⟩ | ⟨hm, h⟩ | ⟨-, x, -, h⟩ | ⟨-, x, -, h⟩ | ⟨-, x, -, h⟩ | ⟨-, x, -, h⟩ | ⟨-, x, k, r, -, -, hr, hp⟩
  · obtain ⟨r, i, hr, -, hp⟩ := (C52_min_risk f riskLabel p).mp h; exact ⟨r, i, hr, hp⟩
  · obtain ⟨i, -, hp⟩ := (C52_max_return f p).mp h
    rcases hk with rfl | hk
    · exact ⟨f.risks, i, under_none, hp⟩
    · refine absurd ?_ hk
      simp only [List.mem_cons, List.not_mem_nil, or_false] at hm ⊢
      tauto
  · obtain ⟨-, i, -, hp⟩ := (C52_tangency f _ p).mp h
    rcases hk with rfl | hk
    · exact ⟨f.risks, i, under_none, hp⟩
    · refine absurd ?_ hk
      simp only [List.mem_cons, List.not_mem_nil, or_false] at hm ⊢
      tauto
  · obtain ⟨r, i, hr, -, hp⟩ := (C53_at_risk f x riskLabel p).mp h; exact ⟨r, i, hr, hp⟩
  · obtain ⟨r, i, hr, -, hp⟩ := (C53_at_return f x riskLabel p).mp h; exact ⟨r, i, hr, hp⟩
  · exact atPercentile_reports h
  · obtain ⟨r, i, hr, -, hp⟩ := (C53_closest_risk f x riskLabel p).mp h; exact ⟨r, i, hr, hp⟩
  · exact ⟨r, k, hr, hp⟩

/-- What the frontier panel of a report contains when it marks nothing or one portfolio itself. -/
private theorem panel {it : Item K} {highlight : List String} {rf : Option K} {overlays : List String} {riskLabel : Option String}
    {pic : Picture K} (h : plotFrontiers (.one it) none highlight rf overlays riskLabel = .ok pic) :
    ∃ r q, RiskUnder it.held.f riskLabel r ∧ pic.parts = [q] ∧ q.curve.pts = plotted it r ∧ List.Forall₂ (Shows it r rf) highlight q.marks ∧
      pic.marks = q.marks.filterMap id := by
  obtain ⟨l, hl, hF, hm, -⟩ := C171_draws h
  rcases hl with ⟨-, rfl⟩ | ⟨s, h, -⟩
  · obtain ⟨q, hq⟩ : ∃ q, pic.parts = [q] := by
      have := hF.length_eq
      exact List.length_eq_one_iff.mp this.symm
    rw [hq] at hF hm
    cases hF with
    | cons hd _ =>
      obtain ⟨r, hr, hpts, hsh⟩ := hd.curve
      exact ⟨r, q, hr, hq, hpts, hsh, by rw [hm]; simp⟩
  · cases h

private theorem under_unique {N M : ℕ} {f : Frontier String K N M} {riskLabel : Option String} {r r' : Fin M → K}
    (h : RiskUnder f riskLabel r) (h' : RiskUnder f riskLabel r') : r = r' := by
  have := riskVector_ok.mpr h
  rw [riskVector_ok.mpr h'] at this
  injection this with this
  exact this.symm

private theorem reportHighlight_nil {key : String} (h : key ∉ ["min_risk", "max_return", "tangency"]) : reportHighlight key = [] := if_neg h

/-- **C173** The report of a frontier, for every selection but `tangency` (and with the frontier's own risk measure for `maximum_return`,
`max_sharpe` and `sharpe`): the bars are the weights of the portfolio the selection names, and the one marked point is that portfolio's point
of the curve drawn. -/
theorem C173_report_partial {argsort : AnySort K} {it : Item K} {key : String} {kw : SelArgs K} {riskLabel : Option String}
    {overlays : List String} {rep : Report K} (hk : key ≠ "tangency")
    (ha : riskLabel = none ∨ key ∉ ["maximum_return", "max_sharpe", "sharpe"])
    (h : plotReport argsort it key kw riskLabel overlays none = .ok rep) :
    ∃ p r i q, Selected (argsort it.held.m) it.held.f key kw riskLabel p ∧ rep.weights = List.ofFn p.w ∧
      RiskUnder it.held.f riskLabel r ∧ rep.pic.parts = [q] ∧ q.curve.pts = plotted it r ∧
      rep.weights = List.ofFn (fun a => it.held.f.weights a i) ∧ marked rep = [(r i, it.held.f.returns i)] := by
  unfold plotReport at h
  simp only at h
  cases hc : choose (argsort it.held.m) it.held.f key kw riskLabel with
  | error e => rw [hc] at h; cases h
  | ok p =>
    rw [hc] at h
    simp only at h
    cases hp : plotFrontiers (.one it) none (reportHighlight key) (remainingRate key kw false) overlays riskLabel with
    | error e => rw [hp] at h; cases h
    | ok pic =>
      rw [hp] at h
      injection h with h
      have hsel := choose_iff.mp hc
      obtain ⟨r, q, hr, hq, hpts, hsh, hmk⟩ := panel hp
      by_cases h1 : key = "min_risk"
      · have hh : reportHighlight key = ["min_risk"] := by simp [reportHighlight, h1]
        rw [hh] at hsh h
        simp only [List.isEmpty_cons, Bool.false_eq_true, if_false] at h
        subst h
        obtain ⟨m, hmarks⟩ : ∃ m, q.marks = [m] := List.length_eq_one_iff.mp hsh.length_eq.symm
        rw [hmarks] at hsh hmk
        cases hsh with
        | cons hs _ =>
          rcases hs with ⟨-, i, rec, hi, rfl, hrec, -⟩ | ⟨h, -⟩ | ⟨h, -⟩
          · have hsel' := hsel
            rcases hsel' with ⟨-, h⟩ | ⟨h, -⟩ | ⟨h, -⟩ | ⟨h, -⟩ | ⟨h, -⟩ | ⟨h, -⟩ | ⟨h, -⟩ | ⟨h, -⟩
            · obtain ⟨r', i', hr', hi', hp'⟩ := (C52_min_risk it.held.f riskLabel p).mp h
              obtain rfl := under_unique hr hr'
              obtain rfl := FirstMin.unique hi hi'
              refine ⟨p, r, i, q, hsel, rfl, hr, hq, hpts, congrArg List.ofFn (funext hp'.1), ?_⟩
              simp [marked, hmk, hrec.risk, hrec.ret]
            all_goals (subst h1; simp at h)
          · exact absurd h (by decide)
          · exact absurd h (by decide)
      · by_cases h2 : key = "max_return"
        · have hh : reportHighlight key = ["max_return"] := by simp [reportHighlight, h2]
          rw [hh] at hsh h
          simp only [List.isEmpty_cons, Bool.false_eq_true, if_false] at h
          subst h
          obtain ⟨m, hmarks⟩ : ∃ m, q.marks = [m] := List.length_eq_one_iff.mp hsh.length_eq.symm
          rw [hmarks] at hsh hmk
          cases hsh with
          | cons hs _ =>
            rcases hs with ⟨h, -⟩ | ⟨-, i, rec, hi, rfl, hrec, -⟩ | ⟨h, -⟩
            · exact absurd h (by decide)
            · have hsel' := hsel
              rcases hsel' with ⟨h, -⟩ | ⟨-, h⟩ | ⟨h, -⟩ | ⟨h, -⟩ | ⟨h, -⟩ | ⟨h, -⟩ | ⟨h, -⟩ | ⟨h, -⟩
              rotate_left
              · obtain ⟨i', hi', hp'⟩ := (C52_max_return it.held.f p).mp h
                obtain rfl := FirstMax.unique hi hi'
                refine ⟨p, r, i, q, hsel, rfl, hr, hq, hpts, congrArg List.ofFn (funext hp'.1), ?_⟩
                simp [marked, hmk, hrec.risk, hrec.ret]
              all_goals (subst h2; simp at h)
            · exact absurd h (by decide)
        · have hnot : key ∉ ["min_risk", "max_return", "tangency"] := by simp [h1, h2, hk]
          have hh := reportHighlight_nil hnot
          rw [hh] at hsh h
          simp only [List.isEmpty_nil, if_true] at h
          subst h
          obtain ⟨r', i, hr', hp'⟩ := reports_of hsel (by
            rcases ha with ha | ha
            · exact Or.inl ha
            · right
              simp only [List.mem_cons, List.not_mem_nil, or_false] at ha ⊢
              tauto)
          obtain rfl := under_unique hr hr'
          generalize hms : q.marks = ms at hsh hmk
          cases hsh
          refine ⟨p, r, i, q, hsel, rfl, hr, hq, hpts, congrArg List.ofFn (funext hp'.1), ?_⟩
          simp [marked, hmk, hp'.2.1, hp'.2.2]

/-- **C173** (the report succeeds) With those selections the report is drawn whenever the selector succeeds. -/
theorem C173_succeeds_partial {argsort : AnySort K} {it : Item K} {key : String} {kw : SelArgs K} {riskLabel : Option String}
    {overlays : List String} {p : Pick K it.held.n} (hk : key ≠ "tangency") (hM : 0 < it.held.m) (hr : ∃ r, RiskUnder it.held.f riskLabel r)
    (h : Selected (argsort it.held.m) it.held.f key kw riskLabel p) :
    ∃ rep, plotReport argsort it key kw riskLabel overlays none = .ok rep := by
  obtain ⟨pic, hp⟩ := (C171_succeeds (fs := .one it) (labels := none) (highlight := reportHighlight key) (rf := remainingRate key kw false)
    (overlays := overlays) (riskLabel := riskLabel) (l := [(none, it)]) (Or.inl ⟨rfl, rfl⟩) (by simpa using hM)).mpr (by
      intro q hq
      rw [List.mem_singleton] at hq
      subst hq
      refine ⟨hr, fun m hm => ?_⟩
      unfold reportHighlight at hm
      split at hm
      · rename_i hmem
        rw [List.mem_singleton] at hm
        subst hm
        exact ⟨hmem, fun e => absurd e hk⟩
      · cases hm)
  unfold plotReport
  simp only [choose_iff.mpr h, hp]
  exact ⟨_, rfl⟩

/-- A frontier of two portfolios with an alternate risk measure. -/
def exReport : Item ℚ :=
  ⟨⟨2, 2, none, ⟨![![1, 0], ![0, 1]], ![1/100, 3/100], ![1/10, 2/10], "Volatility", [("CVaR", ![3/10, 4/10])]⟩⟩, none⟩

/-- **C173** (errors) A selection that needs an argument raises `KeyError` without it, and an undocumented selection raises `ValueError`. -/
theorem C173_errors (argsort : AnySort K) (it : Item K) (kw : SelArgs K) (riskLabel : Option String) (overlays : List String) :
    (∀ key ∈ ["risk_target", "max_return_subject_to_risk"], kw.maxRisk = none → plotReport argsort it key kw riskLabel overlays none = .error .keyError) ∧
    (∀ key ∈ ["return_target", "min_risk_subject_to_return"], kw.minReturn = none →
      plotReport argsort it key kw riskLabel overlays none = .error .keyError) ∧
    (∀ key ∈ ["risk_percentile", "risk_pct", "percentile"], kw.percentile = none →
      plotReport argsort it key kw riskLabel overlays none = .error .keyError) ∧
    (∀ key ∈ ["risk_match", "risk_nearest"], kw.targetRisk = none → plotReport argsort it key kw riskLabel overlays none = .error .keyError) ∧
    (∀ key ∈ ["index", "column"], kw.index = none → plotReport argsort it key kw riskLabel overlays none = .error .keyError) ∧
    ∀ key ∉ ["min_risk", "minimum_risk", "max_return", "maximum_return", "tangency", "max_sharpe", "sharpe", "risk_target", "max_return_subject_to_risk",
      "return_target", "min_risk_subject_to_return", "risk_percentile", "risk_pct", "percentile", "risk_match", "risk_nearest", "index", "column"],
      plotReport argsort it key kw riskLabel overlays none = .error .valueError := by
  have lift : ∀ key e, choose (argsort it.held.m) it.held.f key kw riskLabel = .error e → plotReport argsort it key kw riskLabel overlays none = .error e := by
    intro key e h
    unfold plotReport
    simp only [h]
  refine ⟨?_, ?_, ?_, ?_, ?_, ?_⟩
  · intro key hk h
    refine lift _ _ ?_
    simp only [List.mem_cons, List.not_mem_nil, or_false] at hk
    rcases hk with rfl | rfl <;> simp [choose, need, h, Except.bind]
  · intro key hk h
    refine lift _ _ ?_
    simp only [List.mem_cons, List.not_mem_nil, or_false] at hk
    rcases hk with rfl | rfl <;> simp [choose, need, h, Except.bind]
  · intro key hk h
    refine lift _ _ ?_
    simp only [List.mem_cons, List.not_mem_nil, or_false] at hk
    rcases hk with rfl | rfl | rfl <;> simp [choose, need, h, Except.bind]
  · intro key hk h
    refine lift _ _ ?_
    simp only [List.mem_cons, List.not_mem_nil, or_false] at hk
    rcases hk with rfl | rfl <;> simp [choose, need, h, Except.bind]
  · intro key hk h
    refine lift _ _ ?_
    simp only [List.mem_cons, List.not_mem_nil, or_false] at hk
    rcases hk with rfl | rfl <;> simp [choose, need, h, Except.bind]
  · intro key hk
    refine lift _ _ ?_
    simp only [List.mem_cons, List.not_mem_nil, or_false, not_or] at hk
    simp [choose, hk]

/-- **C173** (the full statement fails) (1) `selection="tangency"` never produces a report: the risk-free rate is taken out of the arguments
before the frontier panel, which needs it, is drawn; (2) `max_sharpe` with the CVaR on the axis marks a point that is not on the curve;
(3) with weights supplied, the marked portfolio need not be the one whose weights are shown. -/
theorem C173_counterexample :
    (∀ (argsort : AnySort K) (it : Item K) (kw : SelArgs K) (riskLabel : Option String) (overlays : List String) (rep : Report K),
      plotReport argsort it "tangency" kw riskLabel overlays none ≠ .ok rep) ∧
    (∀ argsort : AnySort ℚ, ∃ rep q, plotReport argsort exReport "max_sharpe" ⟨none, none, none, none, none, none⟩ (some "CVaR") [] none = .ok rep ∧
      rep.pic.parts = [q] ∧ q.curve.pts = [(3/10, 1/100), (4/10, 3/100)] ∧ marked rep = [(2/10, 3/100)]) ∧
    (∀ argsort : AnySort ℚ, ∃ rep rec, plotReport argsort exReport "min_risk" ⟨none, none, none, none, none, none⟩ none [] (some [0, 1]) = .ok rep ∧
      rep.pic.marks = [rec] ∧ rec.w = [1, 0] ∧ rep.weights = [0, 1]) := by
  have under : RiskUnder exReport.held.f (some "CVaR") ![3/10, 4/10] := riskVector_ok.mp (by rfl)
  have r0 : exReport.held.f.risks (0 : Fin 2) = 1 / 10 := rfl
  have r1 : exReport.held.f.risks (1 : Fin 2) = 2 / 10 := rfl
  have m0 : exReport.held.f.returns (0 : Fin 2) = 1 / 100 := rfl
  have m1 : exReport.held.f.returns (1 : Fin 2) = 3 / 100 := rfl
  refine ⟨fun argsort it kw riskLabel overlays rep h => ?_, fun argsort => ?_, fun argsort => ?_⟩
  · unfold plotReport at h
    simp only at h
    cases hc : choose (argsort it.held.m) it.held.f "tangency" kw riskLabel with
    | error e => rw [hc] at h; cases h
    | ok p =>
      rw [hc] at h
      simp only at h
      cases hp : plotFrontiers (.one it) none (reportHighlight "tangency") (remainingRate "tangency" kw false) overlays riskLabel with
      | error e => rw [hp] at h; cases h
      | ok pic =>
        obtain ⟨r, q, -, -, -, hsh, -⟩ := panel hp
        have hh : reportHighlight "tangency" = ["tangency"] := by simp [reportHighlight]
        have hrate : remainingRate "tangency" kw false = none := by simp [remainingRate]
        rw [hh, hrate] at hsh
        generalize q.marks = ms at hsh
        cases hsh with
        | cons hs _ =>
          rcases hs with ⟨h, -⟩ | ⟨h, -⟩ | ⟨-, x, hx, -⟩
          · exact absurd h (by decide)
          · exact absurd h (by decide)
          · cases hx
  · have hsel : Selected (argsort 2) exReport.held.f "max_sharpe" (⟨none, none, none, none, none, none⟩ : SelArgs ℚ) (some "CVaR")
        (exReport.held.f.pick exReport.held.f.risks (1 : Fin 2)) := by
      refine Or.inr (Or.inr (Or.inl ⟨by simp, (C52_tangency _ _ _).mpr ⟨⟨(1 : Fin 2), by rw [r1]; norm_num⟩, (1 : Fin 2), ?_, pick_iff.mp rfl⟩⟩))
      refine ⟨by show (2 / 10 : ℚ) ≠ 0; norm_num, ?_, ?_⟩
      · show ∀ j : Fin 2, _
        intro j _
        fin_cases j <;> norm_num [r0, r1, m0, m1]
      · show ∀ j : Fin 2, _
        intro j hj _
        fin_cases j
        · norm_num [r0, r1, m0, m1]
        · exact absurd hj (lt_irrefl _)
    obtain ⟨pic, hp⟩ := (C171_succeeds (fs := .one exReport) (labels := none) (highlight := []) (rf := none)
      (overlays := []) (riskLabel := some "CVaR") (l := [(none, exReport)]) (Or.inl ⟨rfl, rfl⟩) (by simp [exReport])).mpr (by
        intro q hq
        rw [List.mem_singleton] at hq
        subst hq
        exact ⟨⟨_, under⟩, fun m hm => by cases hm⟩)
    obtain ⟨r, q, hr, hq, hpts, hsh, hmk⟩ := panel hp
    obtain rfl := under_unique hr under
    generalize hms : q.marks = ms at hsh hmk
    cases hsh
    have hh : reportHighlight "max_sharpe" = [] := by simp [reportHighlight]
    have hrate : remainingRate "max_sharpe" (⟨none, none, none, none, none, none⟩ : SelArgs ℚ) false = none := by simp [remainingRate]
    refine ⟨⟨pic, some (2/10, 3/100), [0, 1]⟩, q, ?_, hq, ?_, by simp [marked, hmk]⟩
    · unfold plotReport
      have hc := choose_iff.mpr hsel
      simp only
      rw [show choose (argsort exReport.held.m) exReport.held.f "max_sharpe" ⟨none, none, none, none, none, none⟩ (some "CVaR") = _ from hc]
      simp only [hh, hrate, hp]
      simp [exReport, Frontier.pick]
    · rw [hpts]
      simp [plotted, exReport]
  · obtain ⟨pic, hp⟩ := (C171_succeeds (fs := .one exReport) (labels := none) (highlight := ["min_risk"]) (rf := none)
      (overlays := []) (riskLabel := none) (l := [(none, exReport)]) (Or.inl ⟨rfl, rfl⟩) (by simp [exReport])).mpr (by
        intro q hq
        rw [List.mem_singleton] at hq
        subst hq
        exact ⟨⟨_, under_none⟩, fun m hm => by simp at hm; subst hm; simp⟩)
    obtain ⟨r, q, hr, hq, hpts, hsh, hmk⟩ := panel hp
    obtain rfl := under_unique hr under_none
    obtain ⟨m, hmarks⟩ : ∃ m, q.marks = [m] := List.length_eq_one_iff.mp hsh.length_eq.symm
    rw [hmarks] at hsh hmk
    cases hsh with
    | cons hs _ =>
      rcases hs with ⟨-, i, rec, hi, rfl, hrec, -⟩ | ⟨h, -⟩ | ⟨h, -⟩
      · have hi0 : i = (0 : Fin 2) := by
          have h1 := hi.2.1 (0 : Fin 2) trivial
          revert h1
          show ∀ _ : exReport.held.f.risks i ≤ exReport.held.f.risks (0 : Fin 2), _
          clear * - r0 r1
          change Fin 2 at i
          fin_cases i
          · intro _; rfl
          · intro h1
            norm_num [r0, r1] at h1
        subst hi0
        have hh : reportHighlight "min_risk" = ["min_risk"] := by simp [reportHighlight]
        have hrate : remainingRate "min_risk" (⟨none, none, none, none, none, none⟩ : SelArgs ℚ) true = none := by simp [remainingRate]
        refine ⟨⟨pic, none, [0, 1]⟩, rec, ?_, by simpa using hmk, ?_, rfl⟩
        · simp only [plotReport, hh, hrate, hp]
        · rw [hrec.w]
          simp [exReport]
      · exact absurd h (by decide)
      · exact absurd h (by decide)

/-- **C173** (pre-selected weights) With `weights` supplied the bars show exactly these, no selection is made, and the frontier panel marks the portfolio that
`selection` names if it is one of the three the panel can mark; `tangency` then works, with the given `risk_free_rate`. -/
theorem C173_given_weights {argsort : AnySort K} {it : Item K} {key : String} {kw : SelArgs K} {riskLabel : Option String}
    {overlays : List String} (hM : 0 < it.held.m) (hr : ∃ r, RiskUnder it.held.f riskLabel r) (ht : key = "tangency" → kw.riskFree ≠ none)
    (w : List K) :
    ∃ rep r q, plotReport argsort it key kw riskLabel overlays (some w) = .ok rep ∧ rep.weights = w ∧ rep.dot = none ∧
      RiskUnder it.held.f riskLabel r ∧ rep.pic.parts = [q] ∧ q.curve.pts = plotted it r ∧ rep.pic.marks = q.marks.filterMap id ∧
      (key ∈ ["min_risk", "max_return", "tangency"] → ∃ m, q.marks = [m] ∧ Shows it r kw.riskFree key m) ∧
      (key ∉ ["min_risk", "max_return", "tangency"] → q.marks = []) := by
  have hrate : remainingRate key kw true = kw.riskFree := by simp [remainingRate]
  obtain ⟨pic, hp⟩ := (C171_succeeds (fs := .one it) (labels := none) (highlight := reportHighlight key) (rf := remainingRate key kw true)
    (overlays := overlays) (riskLabel := riskLabel) (l := [(none, it)]) (Or.inl ⟨rfl, rfl⟩) (by simpa using hM)).mpr (by
      intro q hq
      rw [List.mem_singleton] at hq
      subst hq
      refine ⟨hr, fun m hm => ?_⟩
      unfold reportHighlight at hm
      split at hm
      · rename_i hmem
        rw [List.mem_singleton] at hm
        subst hm
        exact ⟨hmem, fun e => by rw [hrate]; exact ht e⟩
      · cases hm)
  obtain ⟨r, q, hr, hq, hpts, hsh, hmk⟩ := panel hp
  refine ⟨⟨pic, none, w⟩, r, q, by simp only [plotReport, hp], rfl, rfl, hr, hq, hpts, hmk, fun hk => ?_, fun hk => ?_⟩
  · rw [show reportHighlight key = [key] from if_pos hk, hrate] at hsh
    obtain ⟨m, hmarks⟩ : ∃ m, q.marks = [m] := List.length_eq_one_iff.mp hsh.length_eq.symm
    rw [hmarks] at hsh
    cases hsh with
    | cons hs _ => exact ⟨m, hmarks, hs⟩
  · rw [reportHighlight_nil hk] at hsh
    generalize q.marks = ms at hsh
    cases hsh
    rfl

/-- Equal weights beside the tangency portfolio for a rate of zero. -/
example (argsort : AnySort ℚ) : ∃ rep, plotReport argsort exReport "tangency" ⟨some 0, none, none, none, none, none⟩ none [] (some [1 / 2, 1 / 2]) = .ok rep ∧
    rep.weights = [1 / 2, 1 / 2] := by
  obtain ⟨rep, r, q, h, hw, -⟩ := C173_given_weights (argsort := argsort) (it := exReport) (key := "tangency")
    (kw := ⟨some 0, none, none, none, none, none⟩) (riskLabel := none) (overlays := []) (by simp [exReport]) ⟨_, under_none⟩ (by simp) [1 / 2, 1 / 2]
  exact ⟨rep, h, hw⟩

/-- Non-vacuity: the riskiest column by index, on the CVaR axis. -/
example (argsort : AnySort ℚ) : ∃ rep, plotReport argsort exReport "index" ⟨none, none, none, none, none, some (-1)⟩ (some "CVaR") [] none = .ok rep := by
  refine C173_succeeds_partial (p := exReport.held.f.pick ![3/10, 4/10] (1 : Fin 2)) (by decide) (by simp [exReport])
    ⟨![3/10, 4/10], riskVector_ok.mp (by rfl)⟩ ?_
  exact Or.inr (Or.inr (Or.inr (Or.inr (Or.inr (Or.inr (Or.inr ⟨by simp, -1, (1 : Fin 2), ![3/10, 4/10], rfl, Or.inr rfl,
    riskVector_ok.mp (by rfl), pick_iff.mp rfl⟩))))))

end PyV.Props
