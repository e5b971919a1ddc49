import Verif.Lemmas.EquivariancePoet
import Verif.Props.Poet

/-! # C152: estimates do not depend on the order of the assets -/

namespace PyV.Props

open PyV PyV.Valid PyV.Mom PyV.Equi Matrix

variable {T T' N : ℕ}

/-! ## Specification -/

/-- The same scenarios with the columns (and their labels) in another order. -/
def reorderPanel (σ : Equiv.Perm (Fin N)) (R : Panel T N) : Panel T N := ⟨fun t i => R.x t (σ i), R.cols.map fun c i => c (σ i)⟩

/-- The same options: a custom James–Stein target is a vector over the assets. -/
def reorderMeanKw (σ : Equiv.Perm (Fin N)) (kw : MeanKw T N) : MeanKw T N :=
  { kw with target := match kw.target with | .custom t => .custom fun i => t (σ i) | t => t }

/-- The same options: a custom Tyler target is a matrix over the assets. -/
def reorderCovKw (σ : Equiv.Perm (Fin N)) (kw : CovKw N) : CovKw N :=
  { kw with tylerTarget := kw.tylerTarget.map fun A => Matrix.of fun i j => A (σ i) (σ j) }

/-- Two covariances that agree asset by asset. -/
def SameCov (σ : Equiv.Perm (Fin N)) (R : Panel T N) : CovOut N → CovOut N → Prop
  | .matrix m l, .matrix m' l' => (∀ i j, m' i j = m (σ i) (σ j)) ∧ l = R.labels ∧ l' = (reorderPanel σ R).labels
  | .scalar x, .scalar y => x = y
  | _, _ => False

/-- Two outcomes that agree asset by asset: the same error, or estimates whose entry for each asset (named by its own column label) is the
same. -/
def SameByAsset (σ : Equiv.Perm (Fin N)) (R : Panel T N) : Except PyErr (MeanOut N × CovOut N) → Except PyErr (MeanOut N × CovOut N) → Prop
  | .error e, .error e' => e = e'
  | .ok a, .ok b => (∀ i, b.1.v i = a.1.v (σ i)) ∧ a.1.labels = R.labels ∧ b.1.labels = (reorderPanel σ R).labels ∧ SameCov σ R a.2 b.2
  | _, _ => False

/-- What is needed of the external routines used for the two orders: the pseudo-inverse (with its cut-off) and the non-linear shrinkage
respect the reordering, and the two eigen-solvers decompose symmetric matrices, POET's in descending order. -/
structure ExtReorders (σ : Equiv.Perm (Fin N)) (ext ext' : Ext T N) : Prop where
  pinv : ∀ A, ext'.pinv (A.submatrix σ σ) = (ext.pinv A).submatrix σ σ
  nls : ∀ x d, ext'.nls (fun t i => x t (σ i)) d = (ext.nls x d).map fun A => A.submatrix σ σ
  eigh : IsEigh ext.eigh ∧ IsEigh ext'.eigh
  desc : IsEigh ext.eighDesc ∧ IsEigh ext'.eighDesc
  sorted : ∀ A, Aᵀ = A → Antitone (ext.eighDesc A).1 ∧ Antitone (ext'.eighDesc A).1

/-- POET keeps whole eigenspaces: the number of factors does not cut through a repeated eigenvalue of the (scaled) sample covariance. Only
then is its factor part determined by the data. -/
def PoetDetermined (ext : Ext T N) (x : Fin T → Fin N → ℝ) (kw : CovKw N) : Prop :=
  ∀ ks, poetSelect (ext.eighDesc (npCov1 (poetScaled kw.standardize x))).1 kw.k = .ok ks →
    ∀ a b : Fin N, (a : ℕ) < ks → ks ≤ (b : ℕ) →
      (ext.eighDesc (npCov1 (poetScaled kw.standardize x))).1 a ≠ (ext.eighDesc (npCov1 (poetScaled kw.standardize x))).1 b

/-! ## Proof -/

section proof

variable {σ : Equiv.Perm (Fin N)} {ext ext' : Ext T N}

/-- Reordered mean output. -/
private def oV (σ : Equiv.Perm (Fin N)) (R : Panel T N) (mu : MeanOut N) : MeanOut N := ⟨mu.v ∘ σ, (reorderPanel σ R).labels⟩

/-- Reordered covariance output. -/
private def oC (σ : Equiv.Perm (Fin N)) (R : Panel T N) : CovOut N → CovOut N
  | .matrix m _ => .matrix (pm σ m) (reorderPanel σ R).labels
  | .scalar x => .scalar x

private def labelled (R : Panel T N) : CovOut N → Prop
  | .matrix _ l => l = R.labels
  | .scalar _ => True

private theorem wrapVec_panel (R : Panel T N) (v : Fin N → ℝ) : wrapVec v R.labels = .ok ⟨v, R.labels⟩ := by
  unfold Panel.labels
  cases R.cols with
  | none => rfl
  | some c => simp [wrapVec]

private theorem wrapMat_panel (R : Panel T N) (m : Matrix (Fin N) (Fin N) ℝ) : wrapMat m R.labels = .ok (.matrix m R.labels) := by
  unfold Panel.labels
  cases R.cols with
  | none => rfl
  | some c => simp [wrapMat]

private theorem labels_self (l : Option (List String)) : labelsOf [l, l] = .ok l := by
  cases l with
  | none => rfl
  | some l => simp [labelsOf, labelsLoop]

private theorem labels_pair (σ : Equiv.Perm (Fin N)) (R : Panel T N) (p : ProbVec T') (hp : p.index = none ∨ T' ≠ N) (v : Fin N → ℝ)
    (m : Matrix (Fin N) (Fin N) ℝ) :
    (match labelsOf [R.labels, p.labels] with
      | .error e => (.error e : Except PyErr (MeanOut N × CovOut N))
      | .ok labels =>
        match wrapVec v labels, wrapMat m labels with
        | .ok mu, .ok S => .ok (mu, S)
        | .error e, _ => .error e
        | _, .error e => .error e) =
      if R.cols = none ∧ p.index ≠ none then .error .valueError else .ok (⟨v, R.labels⟩, .matrix m R.labels) := by
  have hR := wrapVec_panel R v
  have hM := wrapMat_panel R m
  cases hc : R.cols with
  | none =>
    have hl : R.labels = none := by simp [Panel.labels, hc]
    rw [hl] at hR hM ⊢
    cases hi : p.index with
    | none => simp [ProbVec.labels, hi, labelsOf, labelsLoop, hR, hM]
    | some l =>
      have hT : T' ≠ N := by
        rcases hp with h | h
        · rw [hi] at h; cases h
        · exact h
      simp [ProbVec.labels, hi, labelsOf, labelsLoop, wrapVec, hT]
  | some c =>
    have hl : R.labels = some (List.ofFn c) := by simp [Panel.labels, hc]
    rw [hl] at hR hM ⊢
    cases hi : p.index with
    | none => simp [ProbVec.labels, hi, labelsOf, labelsLoop, hR, hM]
    | some l =>
      have hT : T' ≠ N := by
        rcases hp with h | h
        · rw [hi] at h; cases h
        · exact h
      simp [ProbVec.labels, hi, labelsOf, labelsLoop, hT, hR, hM]

private theorem cols_none (σ : Equiv.Perm (Fin N)) (R : Panel T N) : (reorderPanel σ R).cols = none ↔ R.cols = none := by
  simp [reorderPanel]

private theorem sample_stage (R : Panel T N) (p : Option (ProbVec T')) (hp : ∀ q, p = some q → q.index = none ∨ T' ≠ N) :
    sampleStage (reorderPanel σ R) p = (sampleStage R p).map (fun ms => (oV σ R ms.1, oC σ R ms.2)) ∧
      ∀ ms, sampleStage R p = .ok ms → ms.1.labels = R.labels ∧ labelled R ms.2 := by
  cases p with
  | some p =>
    have hp := hp p rfl
    have h1 : ∀ R : Panel T N, sampleStage R (some p) = match estimateSampleMoments R.x p.v with
        | .error e => .error e
        | .ok ms => if R.cols = none ∧ p.index ≠ none then .error .valueError else .ok (⟨ms.1, R.labels⟩, .matrix ms.2 R.labels) := by
      intro R
      show sampleMomentsL R p = _
      unfold sampleMomentsL
      cases estimateSampleMoments R.x p.v with
      | error e => rfl
      | ok ms => exact labels_pair σ R p hp ms.1 ms.2
    rw [h1, h1]
    have h2 : estimateSampleMoments (reorderPanel σ R).x p.v = _ := sample_perm σ R.x p.v
    rw [h2]
    cases estimateSampleMoments R.x p.v with
    | error e => exact ⟨rfl, fun ms h => by simp at h⟩
    | ok ms =>
      simp only [Except.map, cols_none]
      by_cases hc : R.cols = none ∧ p.index ≠ none
      · rw [if_pos hc, if_pos hc]
        exact ⟨rfl, fun ms h => by simp at h⟩
      · rw [if_neg hc, if_neg hc]
        refine ⟨rfl, fun ms h => ?_⟩
        injection h with h
        subst h
        exact ⟨rfl, rfl⟩
  | none =>
    unfold sampleStage npCov0
    by_cases hN : N = 1
    · rw [dif_pos hN, dif_pos hN]
      subst hN
      have hx : (reorderPanel σ R).x = R.x := by
        funext t i
        exact congrArg (R.x t) (Subsingleton.elim _ _)
      have hs : (reorderPanel σ R).cols.isSome = R.cols.isSome := by simp [reorderPanel]
      rw [hs, hx]
      by_cases hc : R.cols.isSome = true
      · rw [if_pos hc]
        exact ⟨rfl, fun ms h => by simp at h⟩
      · rw [if_neg hc]
        simp only [wrapVec_panel]
        refine ⟨?_, fun ms h => ?_⟩
        · have : oV σ R ⟨colMean R.x, R.labels⟩ = ⟨colMean R.x, (reorderPanel σ R).labels⟩ := by
            unfold oV
            congr 1
            funext i
            exact congrArg (colMean R.x) (Subsingleton.elim _ _)
          simp only [Except.map, this]
          rfl
        · injection h with h
          subst h
          exact ⟨rfl, trivial⟩
    · rw [dif_neg hN, dif_neg hN]
      simp only [wrapMat_panel, wrapVec_panel]
      refine ⟨rfl, fun ms h => ?_⟩
      injection h with h
      subst h
      exact ⟨rfl, rfl⟩

private theorem mean_stage (he : ExtReorders σ ext ext') (R : Panel T N) (mu : MeanOut N) (S : CovOut N) (kw : MeanKw T N) (k : MeanKind)
    (hl : mu.labels = R.labels) (hS : labelled R S) :
    meanStage ext' (reorderPanel σ R) (oV σ R mu) (oC σ R S) (reorderMeanKw σ kw) k = (meanStage ext R mu S kw k).map (oV σ R) ∧
      ∀ m, meanStage ext R mu S kw k = .ok m → m.labels = R.labels := by
  have ht : (reorderMeanKw σ kw).target = pTarget σ kw.target := by
    unfold reorderMeanKw pTarget
    cases kw.target <;> rfl
  cases k with
  | sample =>
    refine ⟨rfl, fun m h => ?_⟩
    injection h with h
    subst h
    exact hl
  | jorion =>
    unfold meanStage
    cases S with
    | scalar x => exact ⟨rfl, fun m h => by simp [asMatrix] at h⟩
    | matrix m l =>
      have hS : l = R.labels := hS
      subst hS
      simp only [asMatrix, oC, oV, hl, labels_self, jorion_perm]
      cases shrinkMeanJorion mu.v m T with
      | error e => exact ⟨rfl, fun m h => by simp at h⟩
      | ok v =>
        simp only [Except.map, wrapVec_panel]
        refine ⟨rfl, fun m h => ?_⟩
        injection h with h
        subst h
        rfl
  | jamesStein =>
    unfold meanStage
    cases S with
    | scalar x => exact ⟨rfl, fun m h => by simp [asMatrix] at h⟩
    | matrix m l =>
      have hS : l = R.labels := hS
      subst hS
      simp only [asMatrix, oC, oV, hl, labels_self, ht, jamesStein_perm σ he.pinv]
      cases shrinkMeanJamesStein ext.pinv mu.v m T kw.target with
      | error e => exact ⟨rfl, fun m h => by simp at h⟩
      | ok v =>
        simp only [Except.map, wrapVec_panel]
        refine ⟨rfl, fun m h => ?_⟩
        injection h with h
        subst h
        rfl
  | huber =>
    unfold meanStage
    simp only [wrapVec_panel]
    refine ⟨rfl, fun m h => ?_⟩
    injection h with h
    subst h
    rfl
  | medianOfMeans =>
    unfold meanStage
    have : momMean (reorderMeanKw σ kw).perm (reorderMeanKw σ kw).blocks (reorderPanel σ R).x = _ := mom_perm σ kw.perm kw.blocks R.x
    simp only [wrapVec_panel, this]
    cases momMean kw.perm kw.blocks R.x with
    | error e => exact ⟨rfl, fun m h => by simp at h⟩
    | ok v =>
      refine ⟨rfl, fun m h => ?_⟩
      injection h with h
      subst h
      rfl

private theorem wrap_res {R : Panel T N} {a b : Except PyErr (Matrix (Fin N) (Fin N) ℝ)} (h : b = a.map (pm σ)) :
    wrapRes (reorderPanel σ R) b = (wrapRes R a).map (oC σ R) ∧ ∀ S, wrapRes R a = .ok S → labelled R S := by
  subst h
  cases a with
  | error e => exact ⟨rfl, fun m h => by simp [wrapRes] at h⟩
  | ok m =>
    simp only [wrapRes, Except.map, wrapMat_panel]
    refine ⟨rfl, fun S h => ?_⟩
    injection h with h
    subst h
    rfl

private theorem cov_stage (he : ExtReorders σ ext ext') (R : Panel T N) (S : CovOut N) (kw : CovKw N) (k : CovKind)
    (hS : labelled R S) (hpoet : k = .poet → PoetDetermined ext R.x kw) :
    covStage ext' (reorderPanel σ R) (oC σ R S) (reorderCovKw σ kw) k = (covStage ext R S kw k).map (oC σ R) ∧
      ∀ C, covStage ext R S kw k = .ok C → labelled R C := by
  cases k with
  | sample =>
    refine ⟨rfl, fun m h => ?_⟩
    injection h with h
    subst h
    exact hS
  | ledoitWolf =>
    unfold covStage
    cases S with
    | scalar x => exact ⟨rfl, fun m h => by simp [asMatrix] at h⟩
    | matrix m l =>
      have hS : l = R.labels := hS
      subst hS
      have : shrinkLedoitWolf (reorderPanel σ R).x (pm σ m) (reorderCovKw σ kw).lwTarget = _ := ledoitWolf_perm σ R.x m kw.lwTarget
      simp only [asMatrix, oC, labels_self, this]
      cases shrinkLedoitWolf R.x m kw.lwTarget with
      | error e => exact ⟨rfl, fun m h => by simp at h⟩
      | ok C =>
        simp only [Except.map, wrapMat_panel]
        refine ⟨rfl, fun m h => ?_⟩
        injection h with h
        subst h
        rfl
  | oas => exact wrap_res (oas_perm σ R.x kw.oasCentered)
  | nls =>
    refine wrap_res ?_
    unfold shrinkNls
    have h1 : (reorderCovKw σ kw).inputIsCov = kw.inputIsCov := rfl
    have h2 : (reorderCovKw σ kw).dof = kw.dof := rfl
    rw [h1, h2]
    split
    · rfl
    · have : ext'.nls (reorderPanel σ R).x (if kw.dof = 0 then none else some kw.dof) = _ := he.nls R.x _
      rw [this]
      cases ext.nls R.x (if kw.dof = 0 then none else some kw.dof) with
      | error e => rfl
      | ok S => exact guard_perm σ S
  | poet => exact wrap_res (poet_perm σ he.desc.1 he.desc.2 (fun A h => (he.sorted A h).1) (fun A h => (he.sorted A h).2) R.x kw.k kw.thresh
      kw.standardize (hpoet rfl))
  | tyler => exact wrap_res (tyler_perm σ he.pinv R.x kw.shrinkage kw.tol kw.tylerTarget kw.maxIter kw.ensurePsd)
  | glasso =>
    refine wrap_res ?_
    unfold glassoCov
    have : glasso ext'.eigh ext'.pinv (reorderPanel σ R).x (reorderCovKw σ kw).alpha (reorderCovKw σ kw).glassoCentered = _ :=
      glasso_perm σ he.eigh.1 he.eigh.2 he.pinv R.x kw.alpha kw.glassoCentered
    rw [this]
    cases glasso ext.eigh ext.pinv R.x kw.alpha kw.glassoCentered <;> rfl
  | ewma =>
    refine wrap_res ?_
    have : List.ofFn (reorderPanel σ R).x = (List.ofFn R.x).map (· ∘ σ) := by
      rw [List.map_ofFn]
      rfl
    rw [this]
    exact ewma_perm σ (List.ofFn R.x) kw.span kw.minPeriods

end proof

/-- **C152.** Reordering the assets reorders the estimates and changes nothing else: for every mean estimator and every covariance estimator
(POET when its factors are determined by the data), `estimate_moments` on the reordered columns gives the same error, or for each asset the
same mean and for each pair of assets the same covariance, under the assets' own labels. Scenario probabilities are unlabelled or, if they
are a Series, not as many as the assets (C128). -/
theorem C152_asset_order (σ : Equiv.Perm (Fin N)) {ext ext' : Ext T N} (he : ExtReorders σ ext ext') (R : Panel T N)
    (p : Option (ProbVec T')) (hp : ∀ q, p = some q → q.index = none ∨ T' ≠ N) (meanKey covKey : String) (mkw : MeanKw T N) (ckw : CovKw N)
    (hpoet : covKind covKey.toLower = some .poet → PoetDetermined ext R.x ckw) :
    SameByAsset σ R (estimateMoments ext R p meanKey covKey mkw ckw)
      (estimateMoments ext' (reorderPanel σ R) p meanKey covKey (reorderMeanKw σ mkw) (reorderCovKw σ ckw)) := by
  unfold estimateMoments
  obtain ⟨h1, h2⟩ := sample_stage (σ := σ) R p hp
  rw [h1]
  cases hs : sampleStage R p with
  | error e => exact rfl
  | ok ms =>
    obtain ⟨hl, hS⟩ := h2 ms hs
    simp only [Except.map]
    cases meanKind meanKey.toLower with
    | none => exact rfl
    | some mk =>
      obtain ⟨h3, h4⟩ := mean_stage he R ms.1 ms.2 mkw mk hl hS
      simp only [h3]
      cases hm : meanStage ext R ms.1 ms.2 mkw mk with
      | error e => exact rfl
      | ok mu =>
        simp only [Except.map]
        cases hk : covKind covKey.toLower with
        | none => exact rfl
        | some ck =>
          obtain ⟨h5, h6⟩ := cov_stage he R ms.2 ckw ck hS (fun h => hpoet (by rw [hk, h]))
          simp only [h5]
          cases hc : covStage ext R ms.2 ckw ck with
          | error e => exact rfl
          | ok C =>
            refine ⟨fun i => rfl, h4 mu hm, rfl, ?_⟩
            have := h6 C hc
            cases C with
            | scalar x => exact rfl
            | matrix m l => exact ⟨fun i j => rfl, this, rfl⟩

/-- The four Penrose conditions. -/
def IsPenrose (A G : Matrix (Fin N) (Fin N) ℝ) : Prop := A * G * A = A ∧ G * A * G = G ∧ (A * G)ᵀ = A * G ∧ (G * A)ᵀ = G * A

/-- The exact pseudo-inverse meets the requirement on `pinv`. -/
theorem penrose_reorders {pinv : Matrix (Fin N) (Fin N) ℝ → Matrix (Fin N) (Fin N) ℝ} (h : ∀ A, IsPenrose A (pinv A)) (σ : Equiv.Perm (Fin N))
    (A : Matrix (Fin N) (Fin N) ℝ) : pinv (A.submatrix σ σ) = (pinv A).submatrix σ σ := by
  have unique : ∀ {A G H : Matrix (Fin N) (Fin N) ℝ}, IsPenrose A G → IsPenrose A H → G = H := by
    intro A G H hG hH
    obtain ⟨g1, g2, g3, g4⟩ := hG
    obtain ⟨k1, k2, k3, k4⟩ := hH
    have e1 : A * G = A * H := by
      calc A * G = (A * H * A) * G := by rw [k1]
        _ = (A * H)ᵀ * (A * G)ᵀ := by rw [k3, g3]; simp only [Matrix.mul_assoc]
        _ = (A * G * A * H)ᵀ := by rw [← transpose_mul]; simp only [Matrix.mul_assoc]
        _ = A * H := by rw [g1, k3]
    have e2 : G * A = H * A := by
      calc G * A = G * (A * H * A) := by rw [k1]
        _ = (G * A)ᵀ * (H * A)ᵀ := by rw [g4, k4]; simp only [Matrix.mul_assoc]
        _ = (H * (A * G * A))ᵀ := by rw [← transpose_mul]; simp only [Matrix.mul_assoc]
        _ = H * A := by rw [g1, k4]
    calc G = G * A * G := g2.symm
      _ = H * (A * G) := by rw [e2, Matrix.mul_assoc]
      _ = H * A * H := by rw [e1, Matrix.mul_assoc]
      _ = H := k2
  refine unique (h _) ?_
  obtain ⟨g1, g2, g3, g4⟩ := h A
  have e1 : pm σ A * pm σ (pinv A) = pm σ (A * pinv A) := (pm_mul σ _ _).symm
  have e2 : pm σ (pinv A) * pm σ A = pm σ (pinv A * A) := (pm_mul σ _ _).symm
  refine ⟨?_, ?_, ?_, ?_⟩
  · show pm σ A * pm σ (pinv A) * pm σ A = _
    rw [e1, ← pm_mul, g1]
  · show pm σ (pinv A) * pm σ A * pm σ (pinv A) = _
    rw [e2, ← pm_mul, g2]
  · show (pm σ A * pm σ (pinv A))ᵀ = pm σ A * pm σ (pinv A)
    rw [e1, ← pm_transpose, g3]
  · show (pm σ (pinv A) * pm σ A)ᵀ = pm σ (pinv A) * pm σ A
    rw [e2, ← pm_transpose, g4]

/-- The requirements on the external routines are met, for every reordering at once. -/
theorem ext_reorders_exists (T N : ℕ) : ∃ ext : Ext T N, ∀ σ, ExtReorders σ ext ext := by
  obtain ⟨eigh, he⟩ := eigh_exists N
  have hs : Sorts (fun x : Fin N → ℝ => Tuple.sort x) := fun x => Tuple.monotone_sort x
  refine ⟨⟨fun A => A⁻¹, eigh, descending (fun x => Tuple.sort x) eigh, fun x _ => .ok (secondMoment x)⟩, fun σ => ?_⟩
  exact ⟨fun A => pm_inv σ A, fun x d => rfl, ⟨he, he⟩, ⟨descending_isEigh he _, descending_isEigh he _⟩,
    fun A _ => ⟨descending_antitone hs eigh A, descending_antitone hs eigh A⟩⟩

/-- Two assets exchanged: the labelled outputs, mean by mean and covariance by covariance. -/
example : ∃ (ext : Ext 2 2) (R : Panel 2 2) (a b : MeanOut 2 × CovOut 2),
    (∀ σ, ExtReorders σ ext ext) ∧ R.cols = some !["A", "B"] ∧
    estimateMoments (T' := 2) ext R none "sample" "OAS" {} {} = .ok a ∧
    estimateMoments (T' := 2) ext (reorderPanel (Equiv.swap 0 1) R) none "sample" "OAS" (reorderMeanKw (Equiv.swap 0 1) {})
      (reorderCovKw (Equiv.swap 0 1) {}) = .ok b ∧
    a.1.v 0 = 1 ∧ b.1.v 1 = 1 ∧ b.1.v 0 = 0 ∧ b.1.labels = some ["B", "A"] := by
  obtain ⟨ext, he⟩ := ext_reorders_exists 2 2
  let R : Panel 2 2 := ⟨![![1, 1], ![1, -1]], some !["A", "B"]⟩
  obtain ⟨k, -, hk, -⟩ := Psd.ensurePsd_spec (oasBlend (oasShrinkage 2 (secondMoment R.x)) (secondMoment R.x)) jitter_nonneg
  have h1 : ∃ S, estimateMoments (T' := 2) ext R none "sample" "OAS" {} {} = .ok (⟨colMean R.x, R.labels⟩, S) := by
    have e1 : meanKind ("sample" : String).toLower = some .sample := by decide +kernel
    have e2 : covKind ("OAS" : String).toLower = some .oas := by decide +kernel
    unfold estimateMoments sampleStage npCov0
    simp only [wrapMat_panel, wrapVec_panel, e1, e2, meanStage, covStage, shrinkOas, wrapRes]
    rw [dif_neg (by norm_num)]
    simp only [if_true, show ¬ ((2 : ℕ) = 0 ∨ (2 : ℕ) = 0) by norm_num, if_false, show ¬ ((2 : ℕ) = 1) by norm_num, hk]
    exact ⟨_, rfl⟩
  obtain ⟨S, hS⟩ := h1
  have h2 := C152_asset_order (T' := 2) (Equiv.swap (0 : Fin 2) 1) (he _) R none (fun q h => by cases h) "sample" "OAS" {} {}
    (fun h => absurd h (by decide +kernel))
  rw [hS] at h2
  cases hb : estimateMoments (T' := 2) ext (reorderPanel (Equiv.swap 0 1) R) none "sample" "OAS" (reorderMeanKw (Equiv.swap 0 1) {})
      (reorderCovKw (Equiv.swap 0 1) {}) with
  | error e =>
    rw [hb] at h2
    exact h2.elim
  | ok b =>
    rw [hb] at h2
    obtain ⟨h3, -, h4, -⟩ := h2
    refine ⟨ext, R, _, b, he, rfl, hS, hb, ?_, ?_, ?_, ?_⟩
    · simp [colMean, R, Fin.sum_univ_two]
    · rw [h3]; simp [colMean, R, Fin.sum_univ_two]
    · rw [h3]; simp [colMean, R, Fin.sum_univ_two]
    · rw [h4]; simp [reorderPanel, Panel.labels, R]

end PyV.Props
