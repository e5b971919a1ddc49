import Verif.Props.Bayesian
import Verif.Model.Risk
import Verif.Model.Discrete
import Verif.Model.Distribution
import Verif.Model.EnsembleSpec
import Verif.Model.Samples
import Verif.Model.FrontierEnsembles
import Verif.Model.Labels
import Verif.Model.MomentsRobust
import Verif.Model.MomentsApi
import Verif.Model.Performance
import Verif.Model.Probabilities
import Verif.Model.Projection
import Verif.Model.RiskMany
import Verif.Model.Views
import Verif.Model.Wrapper

/-! # Property C295: the exception raised for a rejected input -/

namespace PyV.Props

open PyV

/-- The call answers or raises `ValueError`; no other exception is possible. -/
def ValueOnly {α : Type*} (r : Except PyErr α) : Prop := ∀ e, r = .error e → e = .valueError

section
variable {K : Type} [Field K] [LinearOrder K] [IsStrictOrderedRing K]

/-- **C295** `DiscreteAllocationInput.from_data`. -/
theorem C295_discrete_input (weights prices : List (String × K)) (total : K) (lots : Option (List (String × ℤ))) :
    ValueOnly (Discrete.mkInput weights prices total lots) := by
  intro e h
  unfold Discrete.mkInput at h
  dsimp only at h
  split_ifs at h <;> (injection h with h; exact h.symm)

theorem mapE_valueOnly {α β : Type*} {f : α → Except PyErr β} (hf : ∀ a, ValueOnly (f a)) (l : List α) : ValueOnly (mapE f l) := by
  induction l with
  | nil => intro e h; unfold mapE at h; cases h
  | cons a l ih =>
    intro e h
    unfold mapE at h
    cases ha : f a with
    | error e' => rw [ha] at h; injection h with h; subst h; exact hf a _ ha
    | ok b =>
      rw [ha] at h
      dsimp only at h
      cases hl : mapE f l with
      | error e' => rw [hl] at h; injection h with h; subst h; exact ih _ hl
      | ok bs => rw [hl] at h; cases h

/-- **C295** `normalize_weights`. -/
theorem C295_normalize_weights {A : Type} [DecidableEq A] (w : Ens.WeightsArg A K) (num : ℕ) (names : Option (List A)) :
    ValueOnly (Ens.normalizeWeights w num names) := by
  have hal : ∀ w : Ens.WeightsArg A K, ValueOnly (Ens.alignWeights names w) := by
    intro w e h
    unfold Ens.alignWeights at h
    cases w with
    | none => cases h
    | array l => cases h
    | series l =>
      cases names with
      | none => cases h
      | some ns =>
        dsimp only at h
        split_ifs at h
        · refine mapE_valueOnly (fun a e he => ?_) _ e h
          unfold Ens.seriesEntry at he
          split at he
          · injection he with he; exact he.symm
          · cases he
          · injection he with he; exact he.symm
        · injection h with h; exact h.symm
  intro e h
  unfold Ens.normalizeWeights at h
  split_ifs at h
  · injection h with h; exact h.symm
  · cases w with
    | none => cases h
    | array l =>
      simp only [Ens.alignWeights] at h
      unfold Ens.scaleWeights at h
      dsimp only at h
      split_ifs at h <;> (injection h with h; exact h.symm)
    | series l =>
      dsimp only at h
      cases ha : Ens.alignWeights names (.series l) with
      | error e' => rw [ha] at h; injection h with h; subst h; exact hal _ _ ha
      | ok v =>
        rw [ha] at h
        dsimp only at h
        unfold Ens.scaleWeights at h
        dsimp only at h
        split_ifs at h <;> (injection h with h; exact h.symm)

/-- **C295** `average_exposures`. -/
theorem C295_average_exposures {A : Type} [DecidableEq A] {N S : ℕ} (E : Fin N → Fin S → K) (names : Option (List A)) (w : Ens.WeightsArg A K) :
    ValueOnly (Ens.averageExposures E names w) := by
  intro e h
  unfold Ens.averageExposures at h
  split_ifs at h
  · injection h with h; exact h.symm
  · cases hn : Ens.normalizeWeights w S names with
    | error e' => rw [hn] at h; injection h with h; subst h; exact C295_normalize_weights w S names _ hn
    | ok v => rw [hn] at h; cases h

/-- **C295** `generate_uniform_probabilities`, `normalize_probability_vector` and `resolve_probabilities`. -/
theorem C295_probabilities (xs : List (PyFloat K)) (o : Option (List (PyFloat K))) (n : ℤ) (strict : Bool) :
    ValueOnly (Probs.uniform n : Except PyErr (List K)) ∧ ValueOnly (Probs.normalize xs strict) ∧ ValueOnly (Probs.resolve o n strict) := by
  have h1 : ValueOnly (Probs.uniform n : Except PyErr (List K)) := by
    intro e h
    unfold Probs.uniform at h
    split_ifs at h
    injection h with h; exact h.symm
  have h2 : ∀ xs : List (PyFloat K), ValueOnly (Probs.normalize xs strict) := by
    intro xs e h
    unfold Probs.normalize at h
    dsimp only at h
    split_ifs at h <;> (injection h with h; exact h.symm)
  refine ⟨h1, h2 xs, ?_⟩
  intro e h
  unfold Probs.resolve at h
  cases o with
  | none => exact h1 e h
  | some ys =>
    dsimp only at h
    cases hn : Probs.normalize ys strict with
    | error e' => rw [hn] at h; injection h with h; subst h; exact h2 _ _ hn
    | ok ps =>
      rw [hn] at h
      dsimp only at h
      split_ifs at h
      injection h with h; exact h.symm

/-- **C295** `portfolio_var` for one weight vector. -/
theorem C295_portfolio_var {T N : ℕ} (argsort : (Fin T → K) → Equiv.Perm (Fin T)) (w : Fin N → K) (R : Fin T → Fin N → K) (p : Option (Fin T → K))
    (confidence : Option K) (demean : Bool) : ValueOnly (Risk.portfolioVar argsort w R p confidence demean) := by
  intro e h
  unfold Risk.portfolioVar Risk.checkConf at h
  dsimp only at h
  split_ifs at h
  · dsimp only at h
    split at h
    · injection h with h; exact h.symm
    · cases h
  · injection h with h; exact h.symm

/-- **C295** The frontier container. -/
theorem C295_frontier {A L : Type} [DecidableEq A] [DecidableEq L] (x : Fr.FrontierArgs A L K) : ValueOnly (Fr.mkFrontier x) := by
  intro e h
  unfold Fr.mkFrontier at h
  split_ifs at h <;> (injection h with h; exact h.symm)

end

/-- **C295** Scenario probabilities given to `AssetsDistribution`. -/
theorem C295_scenario_probabilities (T : ℕ) (p : Option (List (PyFloat ℝ))) : ValueOnly (Api.scenProbs T p) := by
  intro e h
  unfold Api.scenProbs at h
  cases p with
  | none =>
    dsimp only at h
    split_ifs at h
    injection h with h; exact h.symm
  | some l =>
    dsimp only at h
    split_ifs at h <;> (injection h with h; exact h.symm)

/-- **C295** The optimiser key of an ensemble specification. -/
theorem C295_optimiser_key (key : String) : ValueOnly (Api.resolveOptimiser key) := by
  intro e h
  unfold Api.resolveOptimiser Api.optimiserFor at h
  split_ifs at h
  injection h with h; exact h.symm

/-- **C295** The trading costs given to the wrapper. -/
theorem C295_trading_costs (N : ℕ) (c : Option Api.Costs) : ValueOnly (Api.applyCosts N c) := by
  intro e h
  unfold Api.applyCosts at h
  cases c with
  | none => cases h
  | some c =>
    dsimp only at h
    split_ifs at h <;> (injection h with h; exact h.symm)

/-- **C295** `estimate_sample_moments` and the nonlinear-free shrinkers of the mean and covariance that validate their own arguments. -/
theorem C295_sample_moments {T T' N : ℕ} (R : Fin T → Fin N → ℝ) (p : Fin T' → ℝ) : ValueOnly (Mom.estimateSampleMoments R p) := by
  intro e h
  unfold Mom.estimateSampleMoments at h
  dsimp only at h
  split_ifs at h <;> (injection h with h; exact h.symm)

/-- **C295** `shrink_covariance_ledoit_wolf`. -/
theorem C295_ledoit_wolf {T N : ℕ} (R : Fin T → Fin N → ℝ) (S : Matrix (Fin N) (Fin N) ℝ) (target : Mom.LwTarget) :
    ValueOnly (Mom.shrinkLedoitWolf R S target) := by
  have hpsd : ∀ (A : Matrix (Fin N) (Fin N) ℝ) (j : ℝ), ValueOnly (Valid.ensurePsd A j) := by
    intro A j e h
    unfold Valid.ensurePsd at h
    dsimp only at h
    split_ifs at h
    injection h with h; exact h.symm
  have hb : ∀ (d : Option ℝ) (F S : Matrix (Fin N) (Fin N) ℝ), ValueOnly (Mom.lwBlend d F S) := by
    intro d F S e h
    unfold Mom.lwBlend at h
    cases d with
    | none => injection h with h; exact h.symm
    | some d =>
      dsimp only at h
      split at h
      · rename_i e' he
        injection h with h; subst h
        exact hpsd _ _ _ he
      · cases h
  intro e h
  unfold Mom.shrinkLedoitWolf at h
  by_cases hT : T = 0
  · simp only [if_pos hT] at h
    injection h with h; exact h.symm
  simp only [if_neg hT] at h
  cases target with
  | identity => exact hb _ _ _ e h
  | constantCorrelation =>
    dsimp only at h
    split at h
    · exact hb _ _ _ e h
    · injection h with h; exact h.symm
  | otherString => injection h with h; exact h.symm

/-- **C295** The POET threshold. -/
theorem C295_poet_threshold {N : ℕ} (n : ℕ) (Rsd : Matrix (Fin N) (Fin N) ℝ) (t : Mom.PoetThresh) : ValueOnly (Mom.poetTau n Rsd t) := by
  intro e h
  unfold Mom.poetTau at h
  cases t with
  | auto =>
    dsimp only at h
    split at h <;> cases h
  | num t =>
    dsimp only at h
    split_ifs at h
    injection h with h; exact h.symm

/-- **C295** `simple2log` and exponential decay probabilities. -/
theorem C295_simple_to_log {N : ℕ} (mu : Fin N → ℝ) (cov : Fin N → Fin N → ℝ) : ValueOnly (Proj.simple2log mu cov) := by
  intro e h
  unfold Proj.simple2log at h
  dsimp only at h
  split_ifs at h
  injection h with h; exact h.symm

theorem C295_exp_decay (T : ℕ) (halfLife : ℝ) : ValueOnly (Probs.expDecay T halfLife) := by
  intro e h
  unfold Probs.expDecay at h
  dsimp only at h
  split_ifs at h
  injection h with h; exact h.symm

/-! ## The Bayesian objects -/

open PyV.Bayes

theorem chol_runtime {factor : Factor} {n : ℕ} {A : Matrix (Fin n) (Fin n) ℝ} {j : ℝ} {m : ℕ} {e : PyErr}
    (h : (cholSquare factor A j m).result = .error e) : e = .runtimeError := by
  have : ∀ (k : ℕ) (B : Matrix (Fin n) (Fin n) ℝ) (c i : ℝ), (cholLoop factor B i k c).result = .error e → e = .runtimeError := by
    intro k B
    induction k with
    | zero =>
      intro c i h
      unfold cholLoop at h
      split at h
      · cases h
      · injection h with h; exact h.symm
    | succ k ih =>
      intro c i h
      unfold cholLoop at h
      split at h
      · cases h
      · exact ih _ _ h
  exact this _ _ _ _ h

/-- **C295** `NIWPosterior(...)`: a wrong shape or a confidence out of range raises `ValueError`; a scale matrix that cannot be factorised
raises `RuntimeError`. -/
theorem C295_niw (factor : Factor) (mu : Arr1) (sigma : Arr2) (t0 nu0 : ℝ) (index : Option (List String)) {e : PyErr}
    (h : mkNiw factor mu sigma t0 nu0 index = .error e) :
    (e = .valueError ↔ ¬ (sigma.rows = mu.n ∧ sigma.cols = mu.n) ∨ t0 ≤ 0 ∨ nu0 < 0) ∧ (e = .valueError ∨ e = .runtimeError) := by
  unfold mkNiw at h
  split_ifs at h with h1 h2 h3
  · injection h with h; subst h; simp [h2]
  · injection h with h; subst h; simp [h3]
  · dsimp only at h
    split at h
    · rename_i e' he
      injection h with h; subst h
      rw [chol_runtime he]
      simp [h1, h2, h3]
    · cases h
  · injection h with h; subst h; simp [h1]

/-- **C295** `NIWPosterior.update`: a second update, and a matrix that cannot be factorised, raise `RuntimeError`; a prior confidence
between zero and one, which is truncated to zero, raises `ZeroDivisionError`; `ValueError` is raised exactly for sample moments of the
wrong shape or a sample size that is not positive. -/
theorem C295_niw_update (factor : Factor) (o : Niw) (hnu : 0 ≤ o.nu0) (smu : Arr1) (ss : Arr2) (nObs : ℝ) {e : PyErr}
    (h : update factor o smu ss nObs = .error e) :
    (o.post.isSome = true → e = .runtimeError) ∧
    (e = .valueError ↔ o.post.isSome = false ∧ ¬ (smu.n = o.n ∧ ss.rows = o.n ∧ ss.cols = o.n ∧ 0 < nObs)) ∧
    (e = .zeroDivision → o.t0 = 0) ∧ (e = .valueError ∨ e = .runtimeError ∨ e = .zeroDivision) := by
  have hnu' : (0 : ℝ) ≤ o.nu0 := by exact_mod_cast hnu
  unfold update at h
  split_ifs at h with h1 h2 h3 h4
  · injection h with h; subst h; simp [h1]
  · injection h with h; subst h
    have : ¬ 0 < nObs := not_lt.2 h3
    simp [h1, this]
  · have h3' : 0 < nObs := not_le.1 h3
    dsimp only at h
    split at h
    · rename_i e' he
      injection h with h; subst h
      rw [chol_runtime he]
      simp [h1, h2, h4, h3']
    · unfold posterior at h
      split_ifs at h with h5 h6
      · injection h with h; subst h
        simp [h1, h2, h4, h5, h3']
      · exfalso; linarith
      · split at h
        · rename_i e' he
          injection h with h; subst h
          rw [chol_runtime he]
          simp [h1, h2, h4, h3']
        · cases h
  · injection h with h; subst h
    have : ¬ (ss.rows = o.n ∧ ss.cols = o.n ∧ 0 < nObs) := fun h => h4 ⟨h.1, h.2.1⟩
    simp [h1, this]
  · injection h with h; subst h; simp [h1, h2]

/-- **C295** `RobustBayesPosterior.sigma1`. -/
theorem C295_sigma1 (r : Robust) : ValueOnly (sigma1 r) := by
  intro e h
  unfold sigma1 at h
  split at h
  · cases h
  · injection h with h; exact h.symm

/-! ## Views, labels, weights and sampling -/

/-- **C295** `average_vertices`-style averaging of labelled portfolios and `series_from_vector`. -/
theorem C295_labelled_averages {K : Type} [Field K] [LinearOrder K] [IsStrictOrderedRing K] {A B : Type} [DecidableEq A] [DecidableEq B]
    (sel : List (List (A × K))) (names : List B) (w : Ens.WeightsArg B K) (v : List K) (l : Option (List A)) :
    ValueOnly (Ens.averageSelected sel names w) ∧ ValueOnly (Ens.seriesFromVector v l) := by
  constructor
  · intro e h
    unfold Ens.averageSelected at h
    split_ifs at h
    · injection h with h; exact h.symm
    · cases hn : Ens.normalizeWeights w sel.length (some names) with
      | error e' => rw [hn] at h; injection h with h; subst h; exact C295_normalize_weights _ _ _ _ hn
      | ok v => rw [hn] at h; cases h
  · intro e h
    unfold Ens.seriesFromVector at h
    split at h
    · cases h
    · cases h
    · split_ifs at h
      injection h with h; exact h.symm

/-- **C295** A single view value raises `TypeError` exactly when it is neither a number nor an operator with a number, and `ValueError`
exactly when the number is not finite; an unknown asset name raises `ValueError`. -/
theorem C295_view_value (v : FV.ViewVal) {N : ℕ} (assets : Fin N → FV.Label) (key : FV.Label) :
    (FV.parseView v = .error .typeError ↔ ¬ ∃ x, v = .scalar x ∨ ∃ op, v = .spec op x) ∧
    (FV.parseView v = .error .valueError ↔ ∃ x, x.isFinite = false ∧ (v = .scalar x ∨ ∃ op, v = .spec op x)) ∧
    ValueOnly (FV.assetIdx assets key) := by
  refine ⟨?_, ?_, ?_⟩
  · unfold FV.parseView
    cases v with
    | spec op x => simp; split_ifs <;> simp
    | scalar x => simp; split_ifs <;> simp
    | _ => simp
  · unfold FV.parseView
    cases v with
    | spec op x => cases hx : x.isFinite <;> simp [hx]
    | scalar x => cases hx : x.isFinite <;> simp [hx]
    | _ => simp
  · intro e h
    unfold FV.assetIdx at h
    repeat' split at h
    all_goals first | (injection h with h; exact h.symm) | cases h

/-- **C295** A frontier column: out of range is an `IndexError`. -/
theorem C295_column (M : ℕ) (i : ℤ) : (Ens.pyIndex M i = .error .indexError ↔ i < -M ∨ (M : ℤ) ≤ i) ∧ ∀ e, Ens.pyIndex M i = .error e → e = .indexError := by
  unfold Ens.pyIndex
  constructor
  · dsimp only
    split_ifs <;> simp <;> omega
  · intro e h
    dsimp only at h
    split_ifs at h <;> (injection h with h; exact h.symm)

/-- **C295** `rng.choice` on scenario probabilities and the transform of `stress_test`. -/
theorem C295_sampling {n h T N : ℕ} (w : List ℝ) (u : Fin n → Fin h → ℝ) (f : Option (Perf.Transform T N)) (R : Fin T → Fin N → ℝ) :
    ValueOnly (Proj.choice T w u) ∧ ValueOnly (Perf.applyTransform f R) := by
  constructor
  · intro e h
    unfold Proj.choice at h
    split_ifs at h <;> (injection h with h; exact h.symm)
  · intro e h
    unfold Perf.applyTransform at h
    cases f with
    | none => cases h
    | some f =>
      dsimp only at h
      split_ifs at h <;> (injection h with h; exact h.symm)

/-- **C295** A covariance matrix given to the wrapper or the distribution. -/
theorem C295_square (g : Api.Grid) (labels : Option ((Fin g.rows → String) × (Fin g.cols → String))) : ValueOnly (Api.squareGrid g labels) := by
  intro e h
  unfold Api.squareGrid at h
  split_ifs at h <;> (injection h with h; exact h.symm)

/-- Each kind of rejection occurs: weights without prices, a negative probability, an unknown optimiser, and a posterior object asked for a
sample of size zero, each with `ValueError`. -/
example : Discrete.mkInput [("A", (1 : ℚ))] [] 100 none = .error .valueError ∧
    (Probs.normalize [.fin (-1), .fin (2 : ℚ)] false) = .error .valueError ∧ Api.resolveOptimiser "sharpe" = .error .valueError ∧
    ∀ (factor : Factor) (S : Matrix (Fin 1) (Fin 1) ℝ),
      update factor ⟨1, fun _ => 0, S, 1, 1, none, none⟩ ⟨1, fun _ => 0, none⟩ ⟨1, 1, fun _ _ => 1, none⟩ 0 = .error .valueError := by
  refine ⟨by simp [Discrete.mkInput], by decide +kernel, ?_, fun factor S => ?_⟩
  · unfold Api.resolveOptimiser
    rw [show "sharpe".toLower = "sharpe" by decide +kernel]
    unfold Api.optimiserFor
    decide +kernel
  · unfold update
    simp

end PyV.Props
