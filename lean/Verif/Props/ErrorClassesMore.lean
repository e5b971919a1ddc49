import Verif.Props.ErrorClasses
import Verif.Props.OptFrontier
import Verif.Model.DataHelpers
import Verif.Model.FrontierTable
import Verif.Model.Glasso
import Verif.Model.Invariants
import Verif.Model.Plotting
import Verif.Model.ViewsApi
import Verif.Model.BlackLittermanApi
import Verif.Model.SpecDist

/-! # Property C298: the exceptions of the remaining entry points -/

namespace PyV.Props

open PyV

section
variable {K : Type} [Field K] [LinearOrder K] [IsStrictOrderedRing K]

/-- **C298** `portfolio_var` and `portfolio_cvar` on any number of portfolios: `ZeroDivisionError` exactly for a valid confidence level, no
probabilities and no scenarios; otherwise only `ValueError`. -/
theorem C298_var_many {T n : ℕ} (argsort : (T : ℕ) → (Fin T → K) → Equiv.Perm (Fin T)) (w : Risk.WeightsArg K) (R : Fin T → Fin n → K)
    (p : Option (List K)) (confidence : Option K) (demean : Bool) :
    (∀ e, Risk.portfolioVarMany argsort w R p confidence demean = .error e →
      e = if 0 < confidence.getD (95 / 100) ∧ confidence.getD (95 / 100) < 1 ∧ p = none ∧ T = 0 then .zeroDivision else .valueError) ∧
    ∀ e, Risk.portfolioCvarMany argsort w R p confidence demean = .error e →
      e = if 0 < confidence.getD (95 / 100) ∧ confidence.getD (95 / 100) < 1 ∧ p = none ∧ T = 0 then .zeroDivision else .valueError := by
  have key : ∀ e, Risk.prepare w R p confidence demean = .error e →
      e = if 0 < confidence.getD (95 / 100) ∧ confidence.getD (95 / 100) < 1 ∧ p = none ∧ T = 0 then .zeroDivision else .valueError := by
    intro e h
    unfold Risk.prepare Risk.checkConf at h
    dsimp only at h
    by_cases hc : 0 < confidence.getD (95 / 100) ∧ confidence.getD (95 / 100) < 1
    · rw [if_pos hc] at h
      dsimp only at h
      unfold Risk.probColumn at h
      cases p with
      | none =>
        dsimp only at h
        by_cases hT : T = 0
        · rw [if_pos hT] at h
          injection h with h
          rw [if_pos ⟨hc.1, hc.2, rfl, hT⟩, h]
        · rw [if_neg hT] at h
          rw [if_neg (by tauto)]
          dsimp only at h
          split_ifs at h <;> (injection h with h; exact h.symm)
      | some l =>
        rw [if_neg (by simp)]
        dsimp only at h
        split_ifs at h <;> dsimp only at h
        all_goals (try split_ifs at h) <;> (injection h with h; exact h.symm)
    · rw [if_neg hc] at h
      rw [if_neg (by tauto)]
      injection h with h; exact h.symm
  have fits : ∀ x, Risk.prepare w R p confidence demean = .ok x → T ≠ 0 := by
    intro x h hT
    unfold Risk.prepare at h
    cases h1 : Risk.checkConf confidence with
    | error e => rw [h1] at h; cases h
    | ok c =>
      rw [h1] at h
      dsimp only at h
      cases h2 : Risk.probColumn T p with
      | error e => rw [h2] at h; cases h
      | ok q =>
        rw [h2] at h
        dsimp only at h
        split_ifs at h
  constructor
  all_goals
    intro e h
    first | unfold Risk.portfolioVarMany at h | unfold Risk.portfolioCvarMany at h
    cases hp : Risk.prepare w R p confidence demean with
    | error e' => rw [hp] at h; injection h with h; subst h; exact key _ hp
    | ok x =>
      rw [hp] at h
      dsimp only at h
      rw [dif_pos (Nat.pos_of_ne_zero (fits x hp))] at h
      cases h

/-- **C298** The largest drawdown of a path. -/
theorem C298_max_drawdown {H : ℕ} (wealth : Fin H → K) : ValueOnly (Perf.maxDrawdown wealth) := by
  intro e h
  unfold Perf.maxDrawdown Perf.listMax at h
  split at h
  · injection h with h; exact h.symm
  · cases h

/-- **C298** Averaging the selected columns of frontiers, and attaching labels to an averaged vector. -/
theorem C298_average_selected {A B : Type} [DecidableEq A] [DecidableEq B] (sel : List (List (A × K))) (names : List B) (w : Ens.WeightsArg B K) :
    ValueOnly (Ens.averageSelected sel names w) ∧ ∀ (v : List K) (l : Option (List A)), ValueOnly (Ens.seriesFromVector v l) := by
  constructor
  · intro e h
    unfold Ens.averageSelected at h
    split_ifs at h
    · injection h with h; exact h.symm
    · cases hn : Ens.normalizeWeights w sel.length (some names) with
      | error e' => rw [hn] at h; injection h with h; subst h; exact C295_normalize_weights w sel.length (some names) _ hn
      | ok v => rw [hn] at h; cases h
  · intro v l e h
    unfold Ens.seriesFromVector at h
    split at h
    · cases h
    · cases h
    · split_ifs at h
      injection h with h; exact h.symm

/-- **C298** `as_discrete_allocation`: a column number outside the frontier, negative ones included, raises `IndexError` before anything else
is looked at. -/
theorem C298_discrete_column [FloorRing K] {L : Type} [DecidableEq L] (h : Ens.Held String L K) (column : ℤ) (prices : List (String × K)) (total : K)
    (method : String) (lots : Option (List (String × ℤ))) (maxIter : Option ℤ) (mode : Discrete.Mode)
    (sortBy : (inp : Discrete.Input K) → Equiv.Perm (Fin inp.n)) (solve : (inp : Discrete.Input K) → Option (Discrete.MipPoint K inp.n))
    (hc : column < 0 ∨ (h.m : ℤ) ≤ column) :
    Fr.asDiscrete h column prices total method lots maxIter mode sortBy solve = .error .indexError := by
  unfold Fr.asDiscrete
  rw [dif_pos hc]

/-- **C298** `compose_repricers`: a driver that is not a column raises `KeyError`, an entry that is neither a function nor a pair raises
`TypeError`; which of the two depends on the first bad instrument. -/
theorem C298_compose_repricers {n : ℕ} (instruments : List (String × Proj.RSpec n K)) (cols : List String) (e : PyErr)
    (h : Proj.composeRepricers instruments cols = .error e) :
    (e = .keyError ∨ e = .typeError) ∧
    ((∀ q ∈ instruments, (∃ f, q.2 = .plain f) ∨ ∃ ds f, q.2 = .drivers ds f) → e = .keyError) ∧
    ((∀ q ∈ instruments, (∀ f, q.2 = .plain f → q.1 ∈ cols) ∧ ∀ ds f, q.2 = .drivers ds f → ∀ d ∈ ds, d ∈ cols) → e = .typeError) := by
  have hidx : ∀ d, Proj.colIndex cols d = none → d ∉ cols := by
    intro d hd
    unfold Proj.colIndex at hd
    rw [List.getLast?_eq_none_iff, List.filter_eq_nil_iff] at hd
    intro hm
    obtain ⟨i, hi, he⟩ := List.getElem_of_mem hm
    refine hd i (List.mem_range.2 hi) ?_
    rw [List.getElem?_eq_getElem hi, he]
    simp
  have hdr : ∀ ds, (∀ e, Proj.driverCols cols ds = .error e → e = .keyError ∧ ¬ ∀ d ∈ ds, d ∈ cols) := by
    intro ds
    induction ds with
    | nil => intro e h; unfold Proj.driverCols at h; cases h
    | cons d ds ih =>
      intro e h
      unfold Proj.driverCols at h
      cases hd : Proj.colIndex cols d with
      | none =>
        rw [hd] at h
        injection h with h
        exact ⟨h.symm, fun H => hidx d hd (H d (by simp))⟩
      | some i =>
        rw [hd] at h
        dsimp only at h
        cases hr : Proj.driverCols cols ds with
        | error e' =>
          rw [hr] at h
          injection h with h; subst h
          exact ⟨(ih _ hr).1, fun H => (ih _ hr).2 fun d hd => H d (by simp [hd])⟩
        | ok is => rw [hr] at h; cases h
  have hone : ∀ q : String × Proj.RSpec n K, ∀ e, Proj.parseSpec cols q = .error e →
      (e = .keyError ∧ ¬ ((∀ f, q.2 = .plain f → q.1 ∈ cols) ∧ ∀ ds f, q.2 = .drivers ds f → ∀ d ∈ ds, d ∈ cols)) ∨
      (e = .typeError ∧ ¬ ((∃ f, q.2 = .plain f) ∨ ∃ ds f, q.2 = .drivers ds f)) := by
    rintro ⟨name, s⟩ e h
    unfold Proj.parseSpec at h
    cases s with
    | plain f =>
      dsimp only at h
      cases hd : Proj.colIndex cols name with
      | none =>
        rw [hd] at h
        injection h with h
        exact Or.inl ⟨h.symm, fun H => hidx name hd (H.1 f rfl)⟩
      | some i => rw [hd] at h; cases h
    | drivers ds f =>
      dsimp only at h
      cases hr : Proj.driverCols cols ds with
      | error e' =>
        rw [hr] at h
        injection h with h; subst h
        exact Or.inl ⟨(hdr ds _ hr).1, fun H => (hdr ds _ hr).2 (H.2 ds f rfl)⟩
      | ok is => rw [hr] at h; cases h
    | badPair => injection h with h; exact Or.inr ⟨h.symm, by simp⟩
    | other => injection h with h; exact Or.inr ⟨h.symm, by simp⟩
  have first : ∀ l : List (String × Proj.RSpec n K), ∀ e, mapE (Proj.parseSpec cols) l = .error e → ∃ q ∈ l, Proj.parseSpec cols q = .error e := by
    intro l
    induction l with
    | nil => intro e h; unfold mapE at h; cases h
    | cons q l ih =>
      intro e h
      unfold mapE at h
      cases hq : Proj.parseSpec cols q with
      | error e' => rw [hq] at h; injection h with h; subst h; exact ⟨q, by simp, hq⟩
      | ok b =>
        rw [hq] at h
        dsimp only at h
        cases hl : mapE (Proj.parseSpec cols) l with
        | error e' =>
          rw [hl] at h; injection h with h; subst h
          obtain ⟨q', h1, h2⟩ := ih _ hl
          exact ⟨q', by simp [h1], h2⟩
        | ok r => rw [hl] at h; cases h
  unfold Proj.composeRepricers at h
  cases hm : mapE (Proj.parseSpec cols) instruments with
  | ok r => rw [hm] at h; cases h
  | error e' =>
    rw [hm] at h
    injection h with h; subst h
    obtain ⟨q, hq, h2⟩ := first _ _ hm
    rcases hone q _ h2 with ⟨rfl, hb⟩ | ⟨rfl, hb⟩
    · exact ⟨Or.inl rfl, fun _ => rfl, fun H => absurd (H q hq) hb⟩
    · exact ⟨Or.inr rfl, fun H => absurd (H q hq) hb, fun _ => rfl⟩

/-- **C298** `plot_frontiers` and `plot_frontiers_grid`: an entry without a frontier raises `TypeError`; a grid without frontiers raises
`ValueError`. -/
theorem C298_plot_missing {fs : List (String × Option (Plot.Item K))} (hn : ∃ q ∈ fs, q.2 = none) (labels : Option (List String)) :
    (∀ highlight rf overlays riskLabel, Plot.plotFrontiers (.mapping fs) labels highlight rf overlays riskLabel = .error .typeError) ∧
    ∀ by_ cols policy legend highlight rf overlays riskLabel,
      Plot.plotGrid (.mapping fs) by_ labels cols policy legend highlight rf overlays riskLabel = .error .typeError := by
  have key : ∀ l : List (Option String × Option (Plot.Item K)), (∃ q ∈ l, q.2 = none) → mapE Plot.asItem l = .error .typeError := by
    intro l
    induction l with
    | nil => rintro ⟨q, hq, -⟩; cases hq
    | cons a l ih =>
      rintro ⟨q, hq, hq2⟩
      unfold mapE
      obtain ⟨a1, a2⟩ := a
      cases a2 with
      | none => rfl
      | some f =>
        have : ∃ q ∈ l, q.2 = none := by
          rcases List.mem_cons.1 hq with rfl | hq
          · cases hq2
          · exact ⟨q, hq, hq2⟩
        rw [ih this]
        rfl
  have hnorm : Plot.normalize (.mapping fs) labels = .error .typeError := by
    unfold Plot.normalize
    dsimp only
    obtain ⟨q, hq, hq2⟩ := hn
    exact key _ ⟨(some q.1, q.2), List.mem_map.2 ⟨q, hq, rfl⟩, hq2⟩
  constructor
  · intro highlight rf overlays riskLabel
    unfold Plot.plotFrontiers
    rw [hnorm]
  · intro by_ cols policy legend highlight rf overlays riskLabel
    unfold Plot.plotGrid
    rw [hnorm]

/-- **C298** A grid of no frontiers. -/
theorem C298_plot_grid_empty (by_ : Option String → Plot.Item K → String) (labels : Option (List String)) (cols : Option ℕ)
    (policy : String) (legend : Bool) (highlight : List String) (rf : Option K) (overlays : List String) (riskLabel : Option String) :
    Plot.plotGrid (.mapping []) by_ labels cols policy legend highlight rf overlays riskLabel = .error .valueError := by
  rfl

end

/-- **C298** `stress_test`. -/
theorem C298_stress_test {T N M : ℕ} (argsort : (Fin T → ℝ) → Equiv.Perm (Fin T)) (w : Perf.Weights M ℝ) (R : Fin T → Fin N → ℝ)
    (assets : Option (List String)) (probabilities stressed : Option (List (PyFloat ℝ))) (transform : Option (Perf.Transform T N))
    (conf : ℝ) (demean : Bool) : ValueOnly (Perf.stressTest argsort w R assets probabilities stressed transform conf demean) := by
  have hcv : ∀ (x : Fin N → ℝ) (R : Fin T → Fin N → ℝ) (p : Option (Fin T → ℝ)) (c : Option ℝ) (d : Bool),
      ValueOnly (Risk.portfolioCvar argsort x R p c d) := by
    intro x R p c d e h
    unfold Risk.portfolioCvar Risk.checkConf at h
    dsimp only at h
    split_ifs at h
    · dsimp only at h
      split at h
      · injection h with h; exact h.symm
      · cases h
    · injection h with h; exact h.symm
  have hmet : ∀ (R : Fin T → Fin N → ℝ) (p : List ℝ) (W : Fin M → Fin N → ℝ), ValueOnly (Perf.metrics argsort R p conf demean W) := by
    intro R p W e h
    unfold Perf.metrics at h
    cases hs : Mom.estimateSampleMoments R (fun i : Fin p.length => p[i]) with
    | error e' => rw [hs] at h; injection h with h; subst h; exact C295_sample_moments _ _ _ hs
    | ok mom =>
      rw [hs] at h
      refine mapE_valueOnly (fun m => ?_) _ e h
      intro e h
      unfold Perf.metricsOf at h
      cases hv : Risk.portfolioVar argsort (W m) R (some (Perf.toVec T p)) (some conf) demean with
      | error e' => rw [hv] at h; injection h with h; subst h; exact C295_portfolio_var argsort _ _ _ _ _ _ hv
      | ok v =>
        rw [hv] at h
        dsimp only at h
        cases hc : Risk.portfolioCvar argsort (W m) R (some (Perf.toVec T p)) (some conf) demean with
        | error e' => rw [hc] at h; injection h with h; subst h; exact hcv _ _ _ _ _ _ hc
        | ok v => rw [hc] at h; cases h
  have hal : ValueOnly (Perf.alignWeights w assets) := by
    intro e h
    unfold Perf.alignWeights at h
    split at h
    · cases h
    · split_ifs at h
      injection h with h; exact h.symm
    · cases h
    · split_ifs at h
      · refine mapE_valueOnly (fun name => ?_) _ e h
        intro e h
        unfold Perf.rowOf at h
        split at h
        · cases h
        · injection h with h; exact h.symm
      · injection h with h; exact h.symm
  have hres : ∀ o, ValueOnly (Probs.resolve o T false : Except PyErr (List ℝ)) := fun o => (C295_probabilities [] o T false).2.2
  intro e h
  unfold Perf.stressTest at h
  by_cases hcf : 0 < conf ∧ conf < 1
  swap
  · rw [if_pos hcf] at h; injection h with h; exact h.symm
  rw [if_neg (not_not.2 hcf)] at h
  cases h1 : (Probs.resolve probabilities T false : Except PyErr (List ℝ)) with
  | error e' => rw [h1] at h; injection h with h; subst h; exact hres _ _ h1
  | ok pn =>
    rw [h1] at h
    dsimp only at h
    cases h2 : Perf.alignWeights w assets with
    | error e' => rw [h2] at h; injection h with h; subst h; exact hal _ h2
    | ok rows =>
      rw [h2] at h
      dsimp only at h
      split_ifs at h
      · injection h with h; exact h.symm
      · cases h3 : Perf.metrics argsort R pn conf demean (fun m i => ((rows[(i : ℕ)]?).getD 0) m) with
        | error e' => rw [h3] at h; injection h with h; subst h; exact hmet _ _ _ _ h3
        | ok nom =>
          rw [h3] at h
          dsimp only at h
          cases h4 : Perf.stressPart argsort R pn stressed transform conf demean (fun m i => ((rows[(i : ℕ)]?).getD 0) m) with
          | ok s => rw [h4] at h; cases h
          | error e' =>
            rw [h4] at h
            injection h with h; subst h
            unfold Perf.stressPart at h4
            cases h5 : Perf.applyTransform transform R with
            | error e'' =>
              rw [h5] at h4
              injection h4 with h4; subst h4
              unfold Perf.applyTransform at h5
              cases transform with
              | none => cases h5
              | some f =>
                dsimp only at h5
                split_ifs at h5 <;> (injection h5 with h5; exact h5.symm)
            | ok Rs =>
              rw [h5] at h4
              dsimp only at h4
              by_cases hg : (stressed.isNone && transform.isNone) = true
              · rw [if_pos hg] at h4; cases h4
              rw [if_neg hg] at h4
              cases h6 : Perf.stressedProbs stressed pn T with
              | error e'' =>
                rw [h6] at h4
                injection h4 with h4; subst h4
                unfold Perf.stressedProbs at h6
                cases stressed with
                | none => cases h6
                | some q => exact hres _ _ h6
              | ok ps =>
                rw [h6] at h4
                dsimp only at h4
                cases h7 : Perf.metrics argsort Rs ps conf demean (fun m i => ((rows[(i : ℕ)]?).getD 0) m) with
                | error e'' => rw [h7] at h4; injection h4 with h4; subst h4; exact hmet _ _ _ _ h7
                | ok ms => rw [h7] at h4; cases h4

/-- **C298** The linear map of a stress scenario. -/
theorem C298_linear_map {T N N' : ℕ} (A : Matrix (Fin N') (Fin N) ℝ) (scale : Option ℝ) (shift : Option (List ℝ)) (R : Fin T → Fin N → ℝ) :
    ValueOnly (Perf.linearMap A scale shift R) := by
  intro e h
  unfold Perf.linearMap at h
  dsimp only at h
  cases shift with
  | none => cases h
  | some b =>
    dsimp only at h
    split_ifs at h
    injection h with h; exact h.symm

/-- **C298** The value of a view: a pair with an operator, a number, or the two ends of an interval with a number out of range is a
`ValueError`; anything else is a `TypeError`. -/
theorem C298_view_value (v : FV.ViewVal) (e : PyErr) (h : FV.parseViewSpecs v = .error e) :
    (e = .valueError ↔ (∃ op x, v = .spec op x) ∨ (∃ x, v = .scalar x) ∨ ∃ lo hi, v = .between lo hi) ∧ (e = .valueError ∨ e = .typeError) := by
  cases v with
  | scalar x =>
    simp only [FV.parseViewSpecs, FV.parseView] at h
    split_ifs at h
    · cases h
    · injection h with h; subst h; simp
  | spec op x =>
    simp only [FV.parseViewSpecs, FV.parseView] at h
    split_ifs at h
    · cases h
    · injection h with h; subst h; simp
  | between lo hi =>
    simp only [FV.parseViewSpecs] at h
    split_ifs at h
    injection h with h; subst h; simp
  | bad =>
    simp only [FV.parseViewSpecs, FV.parseView] at h
    injection h with h; subst h; simp

/-- **C298** The asset of a view. -/
theorem C298_view_asset {N : ℕ} (assets : Fin N → FV.Label) (key : FV.Label) : ValueOnly (FV.assetIdx assets key) := by
  intro e h
  unfold FV.assetIdx at h
  split at h
  · cases h
  · split at h
    · split at h
      · split at h
        · cases h
        · injection h with h; exact h.symm
      · injection h with h; exact h.symm
    · injection h with h; exact h.symm

/-- **C298** The prior of Black–Litterman: no source at all is a `ValueError`. -/
theorem C298_prior_missing {N : ℕ} (sigma : Matrix (Fin N) (Fin N) ℝ) (d : ℝ) :
    BL.priorPi sigma d none none none = .error .valueError ∧ BL.priorVec sigma d none none none = .error .valueError := by
  constructor
  · unfold BL.priorPi; rfl
  · unfold BL.priorVec; rfl

/-- **C298** A risk aversion that is not positive, or a covariance that is not square, is a `ValueError` whatever else is wrong. -/
theorem C298_risk_aversion (x : BL.Inputs) (h : x.r ≠ x.c ∨ x.riskAversion ≤ 0) : BL.processor x = .error .valueError := by
  unfold BL.processor
  split_ifs with h1 h2
  · rfl
  · tauto
  · rfl

/-- **C298** The date column of a price table. -/
theorem C298_date_column {T : ℕ} (f : Data.PriceFrame T) (date : Option String) : ValueOnly (Data.dropDate f date) := by
  intro e h
  unfold Data.dropDate at h
  cases date with
  | none => cases h
  | some d =>
    dsimp only at h
    split_ifs at h <;> (injection h with h; exact h.symm)

/-- **C298** Wrapping simulated values in the type of the invariants. -/
theorem C298_wrap (v : Api.InvArg) {n m : ℕ} (x : Fin n → Fin m → ℝ) : ValueOnly (Api.wrapLike v x) := by
  intro e h
  unfold Api.wrapLike at h
  cases v with
  | array _ _ _ => cases h
  | frame _ cols _ =>
    dsimp only at h
    split_ifs at h
    injection h with h; exact h.symm

/-- **C298** Square matrices as arguments. -/
theorem C298_square (g : Api.GridArg) : ValueOnly (Api.squareOf g) := by
  have : ∀ (g : Api.Grid) l, ValueOnly (Api.squareGrid g l) := by
    intro g l e h
    unfold Api.squareGrid at h
    split_ifs at h <;> (injection h with h; exact h.symm)
  intro e h
  unfold Api.squareOf at h
  cases g with
  | frame g i c => exact this _ _ e h
  | array g => exact this _ _ e h
  | notMatrix => injection h with h; exact h.symm

/-- **C298** Scenarios for the CVaR methods. -/
theorem C298_scenario_inputs (sim : Api.Sim) {N : ℕ} (w : Api.Wrapper N) (seed : Option ℤ) : ValueOnly (w.scenarioInputs sim seed) := by
  intro e h
  unfold Api.Wrapper.scenarioInputs at h
  split at h
  · split at h
    · cases h
    · injection h with h; exact h.symm
  · dsimp only at h
    split_ifs at h
    injection h with h; exact h.symm

/-- **C298** Trading costs of a wrong length in the variance methods: `TypeError` with a single asset, `ValueError` otherwise; different
lengths of holdings and costs are a `ValueError`. -/
theorem C298_cost_lengths {N : ℕ} (mu : Fin N → ℝ) (cov : Fin N → Fin N → ℝ) (u : Opt.User N) (c : Api.CostState) (e : PyErr)
    (h : Api.mvOf mu cov u c = .error e) : ∃ w0 l, c.w0 = some w0 ∧ c.impact = some l ∧
      ((e = .valueError ∧ (w0.length ≠ l.length ∨ N ≠ 1)) ∨ (e = .typeError ∧ w0.length = l.length ∧ N = 1)) := by
  unfold Api.mvOf at h
  split at h
  · rename_i w0 l h1 h2
    refine ⟨w0, l, h1, h2, ?_⟩
    split_ifs at h with g1 g2 g3 g4
    · injection h with h; exact Or.inl ⟨h.symm, Or.inl g1⟩
    · injection h with h; exact Or.inr ⟨h.symm, not_not.1 g1, g4⟩
    · injection h with h; exact Or.inl ⟨h.symm, Or.inr g4⟩
  · cases h

/-- **C298** The frontier of the robust method: when the covariance can be factorised, no penalties at all is a `ValueError`. -/
theorem C298_no_penalties (solver : Opt.Solver) (factor : Bayes.Factor) {N : ℕ} (a : Opt.RobArgs N) :
    Opt.robFrontier solver factor a [] = (match (Bayes.cholSquare factor a.S).result with
      | .error e => .error e
      | .ok _ => .error .valueError) ∧ ∀ e, (Bayes.cholSquare factor a.S).result = .error e → e = .runtimeError := by
  refine ⟨?_, fun e h => chol_runtime h⟩
  unfold Opt.robFrontier
  cases (Bayes.cholSquare factor a.S).result <;> rfl

/-- **C298** Relaxed risk parity: a negative regulator is a `ValueError`; every other failure, of the return programme or of the cone
programme, is a `RuntimeError`. -/
theorem C298_relaxed_risk_parity (solver : Opt.Solver) {n : ℕ} (a : Opt.Rrp n) (lam : ℝ) (target minTarget : Option ℝ) (e : PyErr)
    (h : Opt.rrpSolve solver a lam target minTarget = .error e) : e = if lam < 0 then .valueError else .runtimeError := by
  have fin : ∀ t m, ∀ e, Opt.rrpFinish solver a lam t m = .error e → e = .runtimeError := by
    intro t m e h
    unfold Opt.rrpFinish at h
    split at h
    · injection h with h; exact h.symm
    · cases h
  unfold Opt.rrpSolve at h
  split_ifs at h ⊢
  · injection h with h; exact h.symm
  · cases target with
    | none => exact fin _ _ _ h
    | some t =>
      dsimp only at h
      cases hm : Opt.rrpMaxReturn solver a with
      | error e' =>
        rw [hm] at h
        injection h with h; subst h
        unfold Opt.rrpMaxReturn Opt.maxReturn at hm
        split at hm
        · cases hm
        · injection hm with hm; exact hm.symm
      | ok r =>
        rw [hm] at h
        exact fin _ _ _ h

/-- **C298** The graphical lasso: `LinAlgError` exactly when the regularised starting matrix is singular; otherwise `RuntimeError` when the
iteration does not settle and `ValueError` when the result is not a covariance. -/
theorem C298_graphical_lasso {N : ℕ} (eigh : Mom.Eigh N) (pinv : Matrix (Fin N) (Fin N) ℝ → Matrix (Fin N) (Fin N) ℝ)
    (S : Matrix (Fin N) (Fin N) ℝ) (alpha : ℝ) (e : PyErr) (h : Mom.admm eigh pinv S alpha = .error e) :
    if (S + alpha • (1 : Matrix (Fin N) (Fin N) ℝ)).det = 0 then e = .other else
      e = .runtimeError ∨ (e = .valueError ∧ ∃ P, Mom.admmLoop eigh S alpha 1 (1 / 10 ^ 4) 200 (S + alpha • 1)⁻¹ 0 = .ok P) := by
  have hpsd : ∀ (A : Matrix (Fin N) (Fin N) ℝ) (j : ℝ), ValueOnly (Valid.ensurePsd A j) := by
    intro A j e h
    unfold Valid.ensurePsd at h
    dsimp only at h
    split_ifs at h
    injection h with h; exact h.symm
  have loop : ∀ n Z U, ∀ e, Mom.admmLoop eigh S alpha 1 (1 / 10 ^ 4) n Z U = .error e → e = .runtimeError := by
    intro n
    induction n with
    | zero => intro Z U e h; unfold Mom.admmLoop at h; injection h with h; exact h.symm
    | succ n ih =>
      intro Z U e h
      unfold Mom.admmLoop at h
      dsimp only at h
      split_ifs at h
      exact ih _ _ _ h
  unfold Mom.admm at h
  split_ifs at h ⊢
  · injection h with h; exact h.symm
  · cases hl : Mom.admmLoop eigh S alpha 1 (1 / 10 ^ 4) 200 (S + alpha • 1)⁻¹ 0 with
    | error e' => rw [hl] at h; injection h with h; subst h; exact Or.inl (loop _ _ _ _ hl)
    | ok P =>
      rw [hl] at h
      dsimp only at h
      split at h
      · rename_i e' he
        injection h with h; subst h
        refine Or.inr ⟨?_, P, rfl⟩
        exact hpsd _ _ _ he
      · cases h

/-- Both kinds of bad instruments: the first bad one decides. -/
example : (∃ e, Proj.composeRepricers (n := 2) [("a", .plain fun _ _ => (0 : ℚ)), ("b", .badPair), ("c", .plain fun _ _ => 0)] ["a"] = .error e ∧ e = .typeError) ∧
    ∃ e, Proj.composeRepricers (n := 2) [("c", .plain fun _ _ => (0 : ℚ)), ("b", .badPair)] ["a"] = .error e ∧ e = .keyError :=
  ⟨⟨_, rfl, rfl⟩, _, rfl, rfl⟩

/-- No scenarios and no probabilities, and no scenarios with probabilities. -/
example (argsort : (T : ℕ) → (Fin T → ℚ) → Equiv.Perm (Fin T)) (w : Risk.WeightsArg ℚ) (R : Fin 0 → Fin 2 → ℚ) :
    Risk.portfolioVarMany argsort w R none none false = .error .zeroDivision ∧
    Risk.portfolioVarMany argsort w R (some [1 / 2, 1 / 2]) none false = .error .valueError := by
  constructor
  · unfold Risk.portfolioVarMany Risk.prepare Risk.checkConf Risk.probColumn
    norm_num
  · unfold Risk.portfolioVarMany Risk.prepare Risk.checkConf Risk.probColumn
    norm_num

/-- A view that is not finite, and one that is not a number. -/
example : FV.parseViewSpecs (.scalar .nan) = .error .valueError ∧ FV.parseViewSpecs .bad = .error .typeError := by
  constructor <;> simp [FV.parseViewSpecs, FV.parseView, PyFloat.isFinite] <;> rfl

end PyV.Props
