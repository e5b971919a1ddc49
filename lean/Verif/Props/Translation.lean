import Verif.Model.MomentsApi
import Verif.Props.Moments
import Verif.Props.MomentsRobust

/-! # C154: adding a constant to an asset's returns -/

namespace PyV.Props

open PyV PyV.Valid PyV.Mom Matrix

variable {T T' N : ℕ}

/-! ## Specification -/

/-- The same scenarios with the constant `c i` added to every return of asset `i`. -/
def shiftPanel (c : Fin N → ℝ) (R : Panel T N) : Panel T N := ⟨fun t i => R.x t i + c i, R.cols⟩

/-- The same options; a custom James–Stein target is a vector of returns, so it moves too. -/
def shiftMeanKw (c : Fin N → ℝ) (kw : MeanKw T N) : MeanKw T N :=
  { kw with target := match kw.target with | .custom t => .custom fun i => t i + c i | t => t }

/-- The same constant for every asset. -/
def Uniform (c : Fin N → ℝ) : Prop := ∃ a, ∀ i, c i = a

/-- Mean estimators that follow the shift: the sample mean, the median of means and James–Stein with a given target for any constants; the
estimators that shrink towards a value common to all assets for a constant common to all assets. -/
def MeanFollows (c : Fin N → ℝ) (kw : MeanKw T N) : Option MeanKind → Prop
  | some .huber => False
  | some .jorion => Uniform c
  | some .jamesStein => (∃ t, kw.target = .custom t) ∨ Uniform c
  | _ => True

/-- Covariance estimators that centre the data: OAS and the graphical lasso only when told not to assume centred returns. -/
def CovCentres (kw : CovKw N) : Option CovKind → Prop
  | some .ewma => False
  | some .nls => False
  | some .oas => kw.oasCentered = false
  | some .glasso => kw.glassoCentered = false
  | _ => True

/-- The mean moved by `c`. -/
def shiftMean (c : Fin N → ℝ) (mu : MeanOut N) : MeanOut N := ⟨fun i => mu.v i + c i, mu.labels⟩

/-! ## Proof -/

section proof

variable (c : Fin N → ℝ)

private theorem colMean_shift (hT : T ≠ 0) (x : Fin T → Fin N → ℝ) : colMean (fun t i => x t i + c i) = fun i => colMean x i + c i := by
  have hT' : (T : ℝ) ≠ 0 := by exact_mod_cast hT
  funext i
  simp only [colMean, Finset.sum_add_distrib, Finset.sum_const, Finset.card_univ, Fintype.card_fin, nsmul_eq_mul]
  field_simp

private theorem centred_shift (hT : T ≠ 0) (x : Fin T → Fin N → ℝ) : centred (fun t i => x t i + c i) = centred x := by
  funext t i
  simp only [centred, colMean_shift c hT]
  ring

private theorem sample_shift (x : Fin T → Fin N → ℝ) (p : Fin T' → ℝ) (hp : ∑ t, p t = 1) :
    estimateSampleMoments (fun t i => x t i + c i) p = (estimateSampleMoments x p).map fun ms => (fun i => ms.1 i + c i, ms.2) := by
  unfold estimateSampleMoments
  split
  · rename_i h
    subst h
    have hm : wMean (fun t i => x t i + c i) p = fun i => wMean x p i + c i := by
      funext i
      simp only [wMean, add_mul, Finset.sum_add_distrib, ← Finset.mul_sum, hp, mul_one]
    have hc : wCov (fun t i => x t i + c i) p = wCov x p := by
      unfold wCov
      simp only [hm, add_sub_add_right_eq_sub]
    simp only [Fin.cast_eq_self, hm, hc]
    split <;> rfl
  · rfl

private theorem stage_shift (hT : T ≠ 0) (R : Panel T N) (p : Option (ProbVec T')) (hp : ∀ q, p = some q → ∑ t, q.v t = 1) :
    sampleStage (shiftPanel c R) p = (sampleStage R p).map fun ms => (shiftMean c ms.1, ms.2) := by
  have hw : ∀ (v : Fin N → ℝ) l, wrapVec (fun i => v i + c i) l = (wrapVec v l).map (shiftMean c) := by
    intro v l
    cases l with
    | none => rfl
    | some l =>
      simp only [wrapVec]
      split <;> rfl
  cases p with
  | none =>
    show sampleStage (shiftPanel c R) none = _
    unfold sampleStage
    have h1 : npCov0 (shiftPanel c R) = npCov0 R := by
      unfold npCov0
      have : centred (shiftPanel c R).x = centred R.x := centred_shift c hT R.x
      simp only [this]
      rfl
    have h2 : wrapVec (colMean (shiftPanel c R).x) (shiftPanel c R).labels = (wrapVec (colMean R.x) R.labels).map (shiftMean c) := by
      rw [← hw, show colMean (shiftPanel c R).x = _ from colMean_shift c hT R.x]
      rfl
    simp only [h1, h2]
    cases npCov0 R with
    | error e => rfl
    | ok S =>
      simp only
      cases wrapVec (colMean R.x) R.labels <;> rfl
  | some p =>
    show sampleMomentsL (shiftPanel c R) p = (sampleMomentsL R p).map _
    unfold sampleMomentsL
    have h1 : estimateSampleMoments (shiftPanel c R).x p.v = _ := sample_shift c R.x p.v (hp p rfl)
    rw [h1]
    cases estimateSampleMoments R.x p.v with
    | error e => rfl
    | ok ms =>
      simp only [Except.map]
      have hl : (shiftPanel c R).labels = R.labels := rfl
      rw [hl]
      cases labelsOf [R.labels, p.labels] with
      | error e => rfl
      | ok l =>
        simp only [hw]
        cases wrapVec ms.1 l <;> cases wrapMat ms.2 l <;> rfl

private theorem jorion_shift (hc : Uniform c) (mu : Fin N → ℝ) (S : Matrix (Fin N) (Fin N) ℝ) (hS : S.PosSemidef) (n : ℤ) :
    shrinkMeanJorion (fun i => mu i + c i) S n = (shrinkMeanJorion mu S n).map fun v i => v i + c i := by
  obtain ⟨a, ha⟩ := hc
  unfold shrinkMeanJorion
  split
  · rfl
  · rename_i hN
    push Not at hN
    simp only
    split
    · rfl
    · rename_i hdet
      have hA : ((1 / 2 : ℝ) • (S + Sᵀ) + (1 / 10 ^ 8 : ℝ) • (1 : Matrix (Fin N) (Fin N) ℝ)).PosDef := by
        rw [Psd.half_of_symm (Psd.symm_of_psd hS)]
        exact Matrix.PosDef.posSemidef_add hS (Matrix.PosDef.one.smul (by norm_num))
      set A := ((1 / 2 : ℝ) • (S + Sᵀ) + (1 / 10 ^ 8 : ℝ) • (1 : Matrix (Fin N) (Fin N) ℝ))
      have hq : (0 : ℝ) < (fun _ : Fin N => (1 : ℝ)) ⬝ᵥ (A⁻¹ *ᵥ fun _ => 1) := by
        have := hA.inv.dotProduct_mulVec_pos (ones_ne_zero hN.2)
        simpa using this
      have hmu : (fun i => mu i + c i) = mu + a • fun _ => 1 := by
        funext i
        simp [ha]
      have hg : (fun _ : Fin N => (1 : ℝ)) ⬝ᵥ (A⁻¹ *ᵥ fun i => mu i + c i) / ((fun _ : Fin N => (1 : ℝ)) ⬝ᵥ (A⁻¹ *ᵥ fun _ => 1))
          = (fun _ : Fin N => (1 : ℝ)) ⬝ᵥ (A⁻¹ *ᵥ mu) / ((fun _ : Fin N => (1 : ℝ)) ⬝ᵥ (A⁻¹ *ᵥ fun _ => 1)) + a := by
        rw [hmu, mulVec_add, dotProduct_add, mulVec_smul, dotProduct_smul, smul_eq_mul, add_div, mul_div_assoc, div_self hq.ne', mul_one]
      rw [hg]
      simp only [ha, add_sub_add_right_eq_sub, Except.map]
      congr 1
      funext i
      ring

private theorem js_shift (pinv : Matrix (Fin N) (Fin N) ℝ → Matrix (Fin N) (Fin N) ℝ) (kw : MeanKw T N)
    (hc : (∃ t, kw.target = .custom t) ∨ Uniform c) (hN : N ≠ 0) (mu : Fin N → ℝ) (S : Matrix (Fin N) (Fin N) ℝ) (n : ℤ) :
    shrinkMeanJamesStein pinv (fun i => mu i + c i) S n (shiftMeanKw c kw).target
      = (shrinkMeanJamesStein pinv mu S n kw.target).map fun v i => v i + c i := by
  have ht : jsTarget (fun i => mu i + c i) (shiftMeanKw c kw).target = (jsTarget mu kw.target).map fun v i => v i + c i := by
    unfold shiftMeanKw
    cases hk : kw.target with
    | custom t => rfl
    | otherString => rfl
    | grandMean =>
      rw [hk] at hc
      rcases hc with ⟨t, h⟩ | ⟨a, ha⟩
      · cases h
      · have hN' : (N : ℝ) ≠ 0 := by exact_mod_cast hN
        show Except.ok _ = Except.ok _
        congr 1
        funext i
        simp only [ha, Finset.sum_add_distrib, Finset.sum_const, Finset.card_univ, Fintype.card_fin, nsmul_eq_mul]
        field_simp
  unfold shrinkMeanJamesStein
  split
  · rfl
  · rw [ht]
    cases jsTarget mu kw.target with
    | error e => rfl
    | ok t =>
      simp only [Except.map]
      cases ensurePsd ((1 / 2 : ℝ) • (S + Sᵀ)) defaultJitter with
      | error e => rfl
      | ok C =>
        simp only [add_sub_add_right_eq_sub]
        congr 1
        funext i
        ring

private theorem mom_shift (hT : T ≠ 0) (perm : Equiv.Perm (Fin T)) (b : Blocks) (x : Fin T → Fin N → ℝ) :
    momMean perm b (fun t i => x t i + c i) = (momMean perm b x).map fun v i => v i + c i := by
  unfold momMean
  cases hb : momBlocks T b with
  | error e => rfl
  | ok B =>
    simp only [Except.map]
    congr 1
    funext i
    obtain ⟨m, h1, -, h2⟩ := C43_median_of_means perm (Nat.one_le_iff_ne_zero.2 hT) hb (fun t => x t i)
    rw [h1, h2 (c i)]
    rfl

theorem sampleStage_psd {R : Panel T N} {p : Option (ProbVec T')} {ms : MeanOut N × CovOut N} (h : sampleStage R p = .ok ms)
    (hp : ∀ q, p = some q → ∀ t, 0 ≤ q.v t) : ∀ m l, ms.2 = .matrix m l → m.PosSemidef := by
  intro m l hm
  have hw : ∀ {m' : Matrix (Fin N) (Fin N) ℝ} {l' : Option (List String)} {S}, wrapMat m' l' = .ok S → S = .matrix m l → m = m' := by
    intro m' l' S h hS
    unfold wrapMat at h
    split at h
    · injection h with h
      rw [← h] at hS
      injection hS with h1
      exact h1.symm
    · split at h
      · injection h with h
        rw [← h] at hS
        injection hS with h1
        exact h1.symm
      · cases h
  cases p with
  | none =>
    unfold sampleStage at h
    cases hS : npCov0 R with
    | error e => rw [hS] at h; cases h
    | ok S =>
      rw [hS] at h
      simp only at h
      cases hv : wrapVec (colMean R.x) R.labels with
      | error e => rw [hv] at h; cases h
      | ok mu =>
        rw [hv] at h
        injection h with h
        subst h
        simp only at hm
        unfold npCov0 at hS
        split at hS
        · split at hS
          · cases hS
          · injection hS with hS
            rw [← hS] at hm
            cases hm
        · rw [hw hS hm]
          exact secondMoment_psd _
  | some q =>
    change sampleMomentsL R q = .ok ms at h
    unfold sampleMomentsL at h
    cases he : estimateSampleMoments R.x q.v with
    | error e => rw [he] at h; cases h
    | ok e =>
      rw [he] at h
      simp only at h
      cases hl : labelsOf [R.labels, q.labels] with
      | error e => rw [hl] at h; cases h
      | ok L =>
        rw [hl] at h
        simp only at h
        cases hv : wrapVec e.1 L with
        | error e' => rw [hv] at h; cases h
        | ok mu =>
          cases hS : wrapMat e.2 L with
          | error e' => rw [hv, hS] at h; cases h
          | ok S =>
            rw [hv, hS] at h
            injection h with h
            subst h
            rw [hw hS hm]
            unfold estimateSampleMoments at he
            split at he
            · rename_i hTT
              subst hTT
              simp only at he
              split at he
              · injection he with he
                rw [← he]
                simp only [Fin.cast_eq_self]
                rw [wCov_eq]
                exact gram_psd _ (hp q rfl)
              · cases he
            · cases he

end proof

/-- **C154.** Adding a constant to every return of each asset adds that constant to the asset's estimated mean and leaves the estimated
covariance exactly as it was, for the estimators that follow the shift (`MeanFollows`) and centre the data (`CovCentres`), with probabilities
that are non-negative and sum to one. -/
theorem C154_translation (c : Fin N → ℝ) (ext : Ext T N) (R : Panel T N) (hT : T ≠ 0) (hN : N ≠ 0)
    (p : Option (ProbVec T')) (hp : ∀ q, p = some q → (∀ t, 0 ≤ q.v t) ∧ ∑ t, q.v t = 1) (meanKey covKey : String) (mkw : MeanKw T N)
    (ckw : CovKw N) (hm : MeanFollows c mkw (meanKind meanKey.toLower)) (hc : CovCentres ckw (covKind covKey.toLower)) :
    estimateMoments ext (shiftPanel c R) p meanKey covKey (shiftMeanKw c mkw) ckw =
      (estimateMoments ext R p meanKey covKey mkw ckw).map fun ms => (shiftMean c ms.1, ms.2) := by
  unfold estimateMoments
  rw [stage_shift c hT R p fun q h => (hp q h).2]
  cases hs : sampleStage R p with
  | error e => rfl
  | ok ms =>
    have hpsd := sampleStage_psd hs fun q h => (hp q h).1
    have hw : ∀ (v : Fin N → ℝ) l, wrapVec (fun i => v i + c i) l = (wrapVec v l).map (shiftMean c) := by
      intro v l
      cases l with
      | none => rfl
      | some l =>
        simp only [wrapVec]
        split <;> rfl
    have hcen : centred (shiftPanel c R).x = centred R.x := centred_shift c hT R.x
    simp only [Except.map]
    have h1 : ∀ mk, meanKind meanKey.toLower = some mk → meanStage ext (shiftPanel c R) (shiftMean c ms.1) ms.2 (shiftMeanKw c mkw) mk
        = (meanStage ext R ms.1 ms.2 mkw mk).map (shiftMean c) := by
      intro mk hk
      rw [hk] at hm
      cases mk with
      | sample => rfl
      | jorion =>
        unfold meanStage
        cases hS : ms.2 with
        | scalar x => rfl
        | matrix m l =>
          simp only [asMatrix, shiftMean, jorion_shift c hm ms.1.v m (hpsd m l hS)]
          cases shrinkMeanJorion ms.1.v m T with
          | error e => rfl
          | ok v =>
            simp only [Except.map]
            cases labelsOf [ms.1.labels, l] with
            | error e => rfl
            | ok L => exact hw v L
      | jamesStein =>
        unfold meanStage
        cases hS : ms.2 with
        | scalar x => rfl
        | matrix m l =>
          simp only [asMatrix, shiftMean, js_shift c ext.pinv mkw hm hN]
          cases shrinkMeanJamesStein ext.pinv ms.1.v m T mkw.target with
          | error e => rfl
          | ok v =>
            simp only [Except.map]
            cases labelsOf [ms.1.labels, l] with
            | error e => rfl
            | ok L => exact hw v L
      | huber => exact hm.elim
      | medianOfMeans =>
        unfold meanStage
        have : momMean (shiftMeanKw c mkw).perm (shiftMeanKw c mkw).blocks (shiftPanel c R).x = _ := mom_shift c hT mkw.perm mkw.blocks R.x
        simp only [this]
        cases momMean mkw.perm mkw.blocks R.x with
        | error e => rfl
        | ok v => exact hw v R.labels
    have h2 : ∀ ck, covKind covKey.toLower = some ck → covStage ext (shiftPanel c R) ms.2 ckw ck = covStage ext R ms.2 ckw ck := by
      intro ck hk
      rw [hk] at hc
      cases ck with
      | sample => rfl
      | ledoitWolf =>
        unfold covStage shrinkLedoitWolf
        simp only [hcen]
        rfl
      | oas =>
        have hc : ckw.oasCentered = false := hc
        unfold covStage shrinkOas
        simp only [hc, Bool.false_eq_true, if_false, hcen]
        rfl
      | nls => exact hc.elim
      | poet =>
        unfold covStage poet poetRaw
        simp only [hcen]
        rfl
      | tyler =>
        unfold covStage tyler
        simp only [hcen]
        rfl
      | glasso =>
        have hc : ckw.glassoCentered = false := hc
        unfold covStage glassoCov glasso glassoData
        simp only [hc, Bool.false_eq_true, if_false, hcen]
        rfl
      | ewma => exact hc.elim
    cases hk : meanKind meanKey.toLower with
    | none => rfl
    | some mk =>
      simp only [h1 mk hk]
      cases meanStage ext R ms.1 ms.2 mkw mk with
      | error e => rfl
      | ok mu =>
        simp only [Except.map]
        cases hk' : covKind covKey.toLower with
        | none => rfl
        | some ck =>
          simp only [h2 ck hk']
          cases covStage ext R ms.2 ckw ck <;> rfl

/-- The option matters: with its default `assume_centered=True`, OAS reports another covariance after a shift (here a constant series, whose
covariance is zero, is reported with variance one). -/
theorem C154_oas_default :
    shrinkOas (fun (_ : Fin 2) (_ : Fin 1) => (0 : ℝ)) true = .ok (Matrix.of fun _ _ => 0) ∧
      shrinkOas (fun (_ : Fin 2) (_ : Fin 1) => (0 + 1 : ℝ)) true = .ok (Matrix.of fun _ _ => 1) ∧
      shrinkOas (fun (_ : Fin 2) (_ : Fin 1) => (0 + 1 : ℝ)) false = .ok (Matrix.of fun _ _ => 0) := by
  refine ⟨?_, ?_, ?_⟩ <;>
  · rw [C39_oas_single _ _ (by norm_num)]
    congr 1
    ext i j
    simp [secondMoment, centred, colMean]

/-- A concrete instance: returns 1, 3 of one asset and 0, 2 of another, shifted by 5 and by −1; the shifted call succeeds with means 7 and 0
and the covariance of the unshifted returns. -/
example (ext : Ext 2 2) : ∃ (R : Panel 2 2) (S : CovOut 2),
    estimateMoments ext R (none : Option (ProbVec 2)) "sample" "sample" {} {} = .ok (⟨![2, 1], none⟩, S) ∧
      estimateMoments ext (shiftPanel ![5, -1] R) (none : Option (ProbVec 2)) "sample" "sample" {} {} = .ok (⟨![7, 0], none⟩, S) := by
  let R : Panel 2 2 := ⟨![![1, 0], ![3, 2]], none⟩
  have e1 : meanKind ("sample" : String).toLower = some .sample := by decide +kernel
  have e2 : covKind ("sample" : String).toLower = some .sample := by decide +kernel
  have h : estimateMoments ext R (none : Option (ProbVec 2)) "sample" "sample" {} {} =
      .ok (⟨![2, 1], none⟩, .matrix (secondMoment (centred R.x)) none) := by
    unfold estimateMoments
    simp [sampleStage, npCov0, R, Panel.labels, wrapMat, wrapVec, e1, e2, meanStage, covStage]
    funext i
    fin_cases i <;> norm_num [colMean, Fin.sum_univ_two]
  refine ⟨R, _, h, ?_⟩
  have := C154_translation ![5, -1] ext R (by norm_num) (by norm_num) (none : Option (ProbVec 2)) (fun q h => by cases h) "sample" "sample" {} {}
    (by rw [e1]; trivial) (by rw [e2]; trivial)
  rw [show shiftMeanKw ![5, -1] ({} : MeanKw 2 2) = {} from rfl, h] at this
  rw [this]
  simp only [Except.map, shiftMean]
  congr 3
  funext i
  fin_cases i <;> norm_num

end PyV.Props
