import Verif.Lemmas.EquivariancePoet
import Verif.Props.Poet

/-! # C153: estimates do not depend on the order of the scenarios -/

namespace PyV.Props

open PyV PyV.Valid PyV.Mom PyV.Equi Matrix

variable {T N : ℕ}

/-! ## Specification -/

/-- The same scenarios in another order. -/
def shufflePanel (τ : Equiv.Perm (Fin T)) (R : Panel T N) : Panel T N := ⟨fun t => R.x (τ t), R.cols⟩

/-- The probabilities, each still attached to its scenario. -/
def shuffleProbs (τ : Equiv.Perm (Fin T)) (p : ProbVec T) : ProbVec T := ⟨fun t => p.v (τ t), p.index.map fun l t => l (τ t)⟩

/-- Mean estimators that treat the scenarios as exchangeable (median-of-means groups them by a drawn order). -/
def MeanExchangeable : Option MeanKind → Prop
  | some .medianOfMeans => False
  | _ => True

/-- Covariance estimators that treat the scenarios as exchangeable: not the exponentially weighted one, and the graphical lasso only with a
given penalty (its cross-validation folds go by row number). -/
def CovExchangeable (kw : CovKw N) : Option CovKind → Prop
  | some .ewma => False
  | some .glasso => ∃ a, kw.alpha = .num a
  | _ => True

/-! ## Proof -/

section proof

variable (τ : Equiv.Perm (Fin T))

private theorem tsum (f : Fin T → ℝ) : ∑ t, f (τ t) = ∑ t, f t := Equiv.sum_comp τ f

private theorem colMean_t (x : Fin T → Fin N → ℝ) : colMean (fun t => x (τ t)) = colMean x := by
  funext i
  exact congrArg (· / (T : ℝ)) (tsum τ fun t => x t i)

private theorem centred_t (x : Fin T → Fin N → ℝ) : centred (fun t => x (τ t)) = fun t => centred x (τ t) := by
  funext t i
  unfold centred
  rw [colMean_t]

private theorem secondMoment_t (x : Fin T → Fin N → ℝ) : secondMoment (fun t => x (τ t)) = secondMoment x := by
  ext i j
  exact congrArg (· / (T : ℝ)) (tsum τ fun t => x t i * x t j)

private theorem npCov1_t (x : Fin T → Fin N → ℝ) : npCov1 (fun t => x (τ t)) = npCov1 x := by
  unfold npCov1
  rw [centred_t]
  ext i j
  exact congrArg (· / ((T : ℝ) - 1)) (tsum τ fun t => centred x t i * centred x t j)

private theorem sample_t (x : Fin T → Fin N → ℝ) (p : Fin T → ℝ) :
    estimateSampleMoments (fun t => x (τ t)) (fun t => p (τ t)) = estimateSampleMoments x p := by
  unfold estimateSampleMoments
  rw [dif_pos rfl, dif_pos rfl]
  have hm : wMean (fun t => x (τ t)) (fun t => p (τ t)) = wMean x p := by
    funext i
    exact tsum τ fun t => x t i * p t
  have hc : wCov (fun t => x (τ t)) (fun t => p (τ t)) = wCov x p := by
    unfold wCov
    simp only [hm]
    have : (Matrix.of fun i j => ∑ t, (x (τ t) i - wMean x p i) * (x (τ t) j - wMean x p j) * p (τ t) : Matrix (Fin N) (Fin N) ℝ)
        = Matrix.of fun i j => ∑ t, (x t i - wMean x p i) * (x t j - wMean x p j) * p t := by
      ext i j
      exact tsum τ fun t => (x t i - wMean x p i) * (x t j - wMean x p j) * p t
    rw [this]
  have h1 : nonNeg (fun t => p (τ t)) (1 / 10 ^ 9) ↔ nonNeg p (1 / 10 ^ 9) :=
    ⟨fun h t => by simpa using h (τ.symm t), fun h t => h (τ t)⟩
  have h2 : sumToOne (fun t => p (τ t)) (1 / 10 ^ 6) ↔ sumToOne p (1 / 10 ^ 6) := by
    unfold sumToOne
    rw [tsum τ p]
  simp only [Fin.cast_eq_self, hm, hc]
  by_cases h : nonNeg p (1 / 10 ^ 9) ∧ sumToOne p (1 / 10 ^ 6)
  · rw [if_pos h, if_pos ⟨h1.2 h.1, h2.2 h.2⟩]
  · rw [if_neg h, if_neg fun h' => h ⟨h1.1 h'.1, h2.1 h'.2⟩]

private theorem huberLoop_perm {l l' : List ℝ} (h : l.Perm l') (tau tol : ℝ) (n : ℕ) (m : ℝ) : huberLoop tau tol l n m = huberLoop tau tol l' n m := by
  have hn : ∀ m, huberNext tau l m = huberNext tau l' m := by
    intro m
    unfold huberNext
    rw [(h.map _).sum_eq, (h.map _).sum_eq]
  induction n generalizing m with
  | zero => rfl
  | succ n ih =>
    unfold huberLoop
    simp only [hn, ih]

private theorem huberColumn_perm {l l' : List ℝ} (h : l.Perm l') (tol : ℝ) (n : ℕ) : huberColumn tol n l = huberColumn tol n l' := by
  unfold huberColumn
  rw [median_perm h]
  cases median l' with
  | none => rfl
  | some m =>
    simp only
    rw [median_perm (h.map fun x => |x - m|), h.length_eq]
    cases median (l'.map fun x => |x - m|) with
    | none => rfl
    | some mad => simp only [huberLoop_perm h]

private theorem huber_t (tol : ℝ) (n : ℕ) (x : Fin T → Fin N → ℝ) : huberMean tol n (fun t => x (τ t)) = huberMean tol n x := by
  funext i
  exact congrArg (fun o : Option ℝ => o.getD 0) (huberColumn_perm (τ.ofFn_comp_perm fun t => x t i) tol n)

private theorem lw_t (x : Fin T → Fin N → ℝ) (S : Matrix (Fin N) (Fin N) ℝ) (k : LwTarget) :
    shrinkLedoitWolf (fun t => x (τ t)) S k = shrinkLedoitWolf x S k := by
  have hp : ∀ S, lwPi (centred fun t => x (τ t)) S = lwPi (centred x) S := by
    intro S
    rw [centred_t]
    ext i j
    exact congrArg (· / (T : ℝ)) (tsum τ fun t => (centred x t i * centred x t j - S i j) ^ 2)
  unfold shrinkLedoitWolf
  simp only [hp]

private theorem oas_t (x : Fin T → Fin N → ℝ) (c : Bool) : shrinkOas (fun t => x (τ t)) c = shrinkOas x c := by
  unfold shrinkOas
  have : secondMoment (if c = true then fun t => x (τ t) else centred fun t => x (τ t)) = secondMoment (if c = true then x else centred x) := by
    cases c
    · simp only [Bool.false_eq_true, if_false]
      rw [centred_t, secondMoment_t]
    · simp only [if_true]
      rw [secondMoment_t]
  simp only [this]

private theorem poet_t (eigh : Eigh N) (x : Fin T → Fin N → ℝ) (k : PoetK) (th : PoetThresh) (b : Bool) :
    poet eigh (fun t => x (τ t)) k th b = poet eigh x k th b := by
  have hsc : poetScale b (fun t => centred x (τ t)) = poetScale b (centred x) := by
    unfold poetScale
    rw [centred_t]
    funext i
    have : ∑ t, centred (centred x) (τ t) i ^ 2 = ∑ t, centred (centred x) t i ^ 2 := tsum τ fun t => centred (centred x) t i ^ 2
    simp only [this]
  have : poetRaw eigh (fun t => x (τ t)) k th b = poetRaw eigh x k th b := by
    unfold poetRaw
    rw [centred_t]
    simp only [hsc]
    have hS : npCov1 (fun t i => centred x (τ t) i / poetScale b (centred x) i) = npCov1 (fun t i => centred x t i / poetScale b (centred x) i) :=
      npCov1_t τ (fun t i => centred x t i / poetScale b (centred x) i)
    simp only [hS]
  unfold poet
  rw [this]

private theorem tylerUpdate_t (G : Matrix (Fin N) (Fin N) ℝ) (x : Fin T → Fin N → ℝ) : tylerUpdate G (fun t => x (τ t)) = tylerUpdate G x := by
  unfold tylerUpdate
  have : (Matrix.of fun i j => (∑ t, (x (τ t) i * Real.sqrt (tylerWeight G (x (τ t)))) * (x (τ t) j * Real.sqrt (tylerWeight G (x (τ t))))) / (T : ℝ)
      : Matrix (Fin N) (Fin N) ℝ)
      = Matrix.of fun i j => (∑ t, (x t i * Real.sqrt (tylerWeight G (x t))) * (x t j * Real.sqrt (tylerWeight G (x t)))) / (T : ℝ) := by
    ext i j
    exact congrArg (· / (T : ℝ)) (tsum τ fun t => (x t i * Real.sqrt (tylerWeight G (x t))) * (x t j * Real.sqrt (tylerWeight G (x t))))
  simp only [this]

private theorem tylerLoop_t (pinv : Matrix (Fin N) (Fin N) ℝ → Matrix (Fin N) (Fin N) ℝ) (x : Fin T → Fin N → ℝ) (s tol : ℝ)
    (F : Matrix (Fin N) (Fin N) ℝ) (n : ℕ) (C : Matrix (Fin N) (Fin N) ℝ) :
    tylerLoop pinv (fun t => x (τ t)) s tol F n C = tylerLoop pinv x s tol F n C := by
  induction n generalizing C with
  | zero => rfl
  | succ n ih =>
    unfold tylerLoop
    simp only [tylerUpdate_t, ih]

private theorem tyler_t (pinv : Matrix (Fin N) (Fin N) ℝ → Matrix (Fin N) (Fin N) ℝ) (x : Fin T → Fin N → ℝ) (s tol : ℝ)
    (F : Option (Matrix (Fin N) (Fin N) ℝ)) (n : ℤ) (b : Bool) : tyler pinv (fun t => x (τ t)) s tol F n b = tyler pinv x s tol F n b := by
  unfold tyler
  rw [centred_t, npCov1_t τ (centred x)]
  simp only [tylerLoop_t τ pinv (centred x)]

private theorem glasso_t (eigh : Eigh N) (pinv : Matrix (Fin N) (Fin N) ℝ → Matrix (Fin N) (Fin N) ℝ) (x : Fin T → Fin N → ℝ) (a : ℝ) (c : Bool) :
    glasso eigh pinv (fun t => x (τ t)) (.num a) c = glasso eigh pinv x (.num a) c := by
  unfold glasso chooseAlpha
  have : secondMoment (glassoData (fun t => x (τ t)) c) = secondMoment (glassoData x c) := by
    unfold glassoData
    cases c
    · simp only [Bool.false_eq_true, if_false]
      rw [centred_t, secondMoment_t]
    · simp only [if_true]
      rw [secondMoment_t]
  rw [this]

private theorem stage_t (R : Panel T N) (p : Option (ProbVec T)) (hp : ∀ q, p = some q → q.index = none ∨ T ≠ N) :
    sampleStage (shufflePanel τ R) (p.map (shuffleProbs τ)) = sampleStage R p := by
  cases p with
  | none =>
    show sampleStage (shufflePanel τ R) (none : Option (ProbVec T)) = _
    unfold sampleStage npCov0
    have h1 : secondMoment (centred (shufflePanel τ R).x) = secondMoment (centred R.x) := by
      show secondMoment (centred fun t => R.x (τ t)) = _
      rw [centred_t, secondMoment_t]
    have h2 : colMean (shufflePanel τ R).x = colMean R.x := colMean_t τ R.x
    rw [h1, h2]
    rfl
  | some p =>
    have hp := hp p rfl
    show sampleMomentsL (shufflePanel τ R) (shuffleProbs τ p) = sampleMomentsL R p
    unfold sampleMomentsL
    have h1 : estimateSampleMoments (shufflePanel τ R).x (shuffleProbs τ p).v = estimateSampleMoments R.x p.v := sample_t τ R.x p.v
    rw [h1]
    have hl : (shufflePanel τ R).labels = R.labels := rfl
    rw [hl]
    cases estimateSampleMoments R.x p.v with
    | error e => rfl
    | ok ms =>
      cases hi : p.index with
      | none => simp [ProbVec.labels, shuffleProbs, hi]
      | some l =>
        have hT : T ≠ N := by
          rcases hp with h | h
          · rw [hi] at h; cases h
          · exact h
        cases hc : R.cols with
        | none => simp [ProbVec.labels, Panel.labels, shuffleProbs, hi, hc, labelsOf, labelsLoop, wrapVec, hT]
        | some c => simp [ProbVec.labels, Panel.labels, shuffleProbs, hi, hc, labelsOf, labelsLoop, hT]

end proof

/-- **C153.** The order in which the scenarios are listed does not matter: shuffling the rows, with their probabilities, leaves the result of
`estimate_moments` exactly the same for every mean estimator except median-of-means and every covariance estimator except EWMA and the
cross-validated graphical lasso (the external non-linear shrinkage is assumed to ignore the order too). -/
theorem C153_scenario_order (τ : Equiv.Perm (Fin T)) (ext : Ext T N) (hnls : ∀ x d, ext.nls (fun t => x (τ t)) d = ext.nls x d) (R : Panel T N)
    (p : Option (ProbVec T)) (hp : ∀ q, p = some q → q.index = none ∨ T ≠ N) (meanKey covKey : String) (mkw : MeanKw T N) (ckw : CovKw N)
    (hm : MeanExchangeable (meanKind meanKey.toLower)) (hc : CovExchangeable ckw (covKind covKey.toLower)) :
    estimateMoments ext (shufflePanel τ R) (p.map (shuffleProbs τ)) meanKey covKey mkw ckw = estimateMoments ext R p meanKey covKey mkw ckw := by
  unfold estimateMoments
  rw [stage_t τ R p hp]
  cases sampleStage R p with
  | error e => rfl
  | ok ms =>
    simp only
    have h1 : ∀ mk, meanKind meanKey.toLower = some mk →
        meanStage ext (shufflePanel τ R) ms.1 ms.2 mkw mk = meanStage ext R ms.1 ms.2 mkw mk := by
      intro mk hk
      rw [hk] at hm
      cases mk with
      | sample => rfl
      | jorion => rfl
      | jamesStein => rfl
      | huber =>
        show wrapVec (huberMean mkw.tol mkw.maxIter fun t => R.x (τ t)) R.labels = _
        rw [huber_t]
        rfl
      | medianOfMeans => exact hm.elim
    have h2 : ∀ ck, covKind covKey.toLower = some ck → covStage ext (shufflePanel τ R) ms.2 ckw ck = covStage ext R ms.2 ckw ck := by
      intro ck hk
      rw [hk] at hc
      cases ck with
      | sample => rfl
      | ledoitWolf =>
        unfold covStage
        have : ∀ S, shrinkLedoitWolf (shufflePanel τ R).x S ckw.lwTarget = shrinkLedoitWolf R.x S ckw.lwTarget := fun S => lw_t τ R.x S ckw.lwTarget
        simp only [this]
        rfl
      | oas => exact congrArg (wrapRes R) (oas_t τ R.x ckw.oasCentered)
      | nls =>
        unfold covStage shrinkNls
        have : ∀ d, ext.nls (shufflePanel τ R).x d = ext.nls R.x d := hnls R.x
        simp only [this]
        rfl
      | poet => exact congrArg (wrapRes R) (poet_t τ ext.eighDesc R.x ckw.k ckw.thresh ckw.standardize)
      | tyler => exact congrArg (wrapRes R) (tyler_t τ ext.pinv R.x ckw.shrinkage ckw.tol ckw.tylerTarget ckw.maxIter ckw.ensurePsd)
      | glasso =>
        obtain ⟨a, ha⟩ := hc
        unfold covStage glassoCov
        have := glasso_t τ ext.eigh ext.pinv R.x a ckw.glassoCentered
        rw [ha]
        show wrapRes R (match glasso ext.eigh ext.pinv (fun t => R.x (τ t)) (.num a) ckw.glassoCentered with
          | .error e => .error e
          | .ok cp => .ok cp.1) = _
        rw [this]
        rfl
      | ewma => exact hc.elim
    cases hk : meanKind meanKey.toLower with
    | none => rfl
    | some mk =>
      simp only [h1 mk hk]
      cases meanStage ext R ms.1 ms.2 mkw mk with
      | error e => rfl
      | ok mu =>
        simp only
        cases hk' : covKind covKey.toLower with
        | none => rfl
        | some ck => simp only [h2 ck hk']

/-- The exclusions are needed: exchanging two observations changes the exponentially weighted covariance. -/
theorem C153_ewma_ordered :
    covarianceEwma [fun _ : Fin 1 => (1 : ℝ), fun _ => 0] 7 1 = .ok (Matrix.of fun _ _ => 3 / 4) ∧
      covarianceEwma [fun _ : Fin 1 => (0 : ℝ), fun _ => 1] 7 1 = .ok (Matrix.of fun _ _ => 1 / 4) := by
  refine ⟨?_, ?_⟩ <;>
  · simp only [covarianceEwma, List.length_cons, List.length_nil]
    norm_num
    ext i j
    simp [ewmaStep, ewmaLambda, vecMulVec_apply]
    try norm_num

/-- Concrete instances: two scenarios exchanged, two labelled assets; the call succeeds and the reported means are 1 and 0. The other
estimators are covered as well, here Huber means with Tyler's covariance. -/
example : ∃ (ext : Ext 2 2) (R : Panel 2 2) (a : MeanOut 2 × CovOut 2),
    estimateMoments ext (shufflePanel (Equiv.swap 0 1) R) (none : Option (ProbVec 2)) "sample" "sample" {} {} = .ok a ∧
      a.1.v 0 = 1 ∧ a.1.v 1 = 0 ∧
      estimateMoments ext (shufflePanel (Equiv.swap 0 1) R) (none : Option (ProbVec 2)) "huber" "tyler" {} {} =
        estimateMoments ext R (none : Option (ProbVec 2)) "huber" "tyler" {} {} := by
  obtain ⟨eigh, -⟩ := eigh_exists 2
  let ext : Ext 2 2 := ⟨fun A => A⁻¹, eigh, eigh, fun _ _ => .error .valueError⟩
  let R : Panel 2 2 := ⟨![![1, 1], ![1, -1]], none⟩
  have hx : ∀ k k' : String, MeanExchangeable (meanKind k.toLower) → CovExchangeable ({} : CovKw 2) (covKind k'.toLower) →
      estimateMoments ext (shufflePanel (Equiv.swap 0 1) R) (none : Option (ProbVec 2)) k k' {} {} =
        estimateMoments ext R (none : Option (ProbVec 2)) k k' {} {} := fun k k' hk hk' =>
    C153_scenario_order (Equiv.swap 0 1) ext (fun _ _ => rfl) R none (fun q h => by cases h) k k' {} {} hk hk'
  have e1 : meanKind ("sample" : String).toLower = some .sample := by decide +kernel
  have e2 : covKind ("sample" : String).toLower = some .sample := by decide +kernel
  have e3 : meanKind ("huber" : String).toLower = some .huber := by decide +kernel
  have e4 : covKind ("tyler" : String).toLower = some .tyler := by decide +kernel
  refine ⟨ext, R, (⟨colMean R.x, none⟩, .matrix (secondMoment (centred R.x)) none), ?_, ?_, ?_, hx _ _ (by rw [e3]; trivial) (by rw [e4]; trivial)⟩
  · rw [hx _ _ (by rw [e1]; trivial) (by rw [e2]; trivial)]
    unfold estimateMoments
    simp [sampleStage, npCov0, R, Panel.labels, wrapMat, wrapVec, e1, e2, meanStage, covStage]
  · simp [colMean, R, Fin.sum_univ_two]
  · simp [colMean, R, Fin.sum_univ_two]

end PyV.Props
