import Verif.Props.Translation
import Verif.Lemmas.Glasso

/-! # C155: estimates in other units (decimal returns or per cent) -/

namespace PyV.Props

open PyV PyV.Valid PyV.Mom Matrix

variable {T T' N : ℕ}

/-! ## Specification -/

/-- The same returns in other units: every return multiplied by `a` (100 for per cent). -/
def rescalePanel (a : ℝ) (R : Panel T N) : Panel T N := ⟨fun t i => a * R.x t i, R.cols⟩

/-- The same options; a custom James–Stein target is a vector of returns. -/
def rescaleMeanKw (a : ℝ) (kw : MeanKw T N) : MeanKw T N :=
  { kw with target := match kw.target with | .custom t => .custom fun i => a * t i | t => t }

/-- The mean in the new units. -/
def rescaleMean (a : ℝ) (mu : MeanOut N) : MeanOut N := ⟨fun i => a * mu.v i, mu.labels⟩

/-- The covariance in the new units squared. -/
def rescaleCov (a : ℝ) : CovOut N → CovOut N
  | .matrix m l => .matrix (a ^ 2 • m) l
  | .scalar x => .scalar (a ^ 2 * x)

/-- Mean estimators without absolute constants. -/
def MeanUnitFree : Option MeanKind → Prop
  | some .huber => False
  | some .jorion => False
  | _ => True

/-- Covariance estimators without absolute constants. -/
def CovUnitFree (kw : CovKw N) : Option CovKind → Prop
  | some .sample => True
  | some .ledoitWolf => kw.lwTarget ≠ .constantCorrelation
  | some .oas => True
  | some .ewma => True
  | none => True
  | _ => False

/-! ## Proof -/

section proof

variable (a : ℝ)

private theorem wrapVec_scale (v : Fin N → ℝ) (l : Option (List String)) :
    wrapVec (fun i => a * v i) l = (wrapVec v l).map (rescaleMean a) := by
  cases l with
  | none => rfl
  | some l =>
    simp only [wrapVec]
    split <;> rfl

private theorem wrapMat_scale (m : Matrix (Fin N) (Fin N) ℝ) (l : Option (List String)) :
    wrapMat (a ^ 2 • m) l = (wrapMat m l).map (rescaleCov a) := by
  cases l with
  | none => rfl
  | some l =>
    simp only [wrapMat]
    split <;> rfl

private theorem colMean_scale (x : Fin T → Fin N → ℝ) : colMean (fun t i => a * x t i) = fun i => a * colMean x i := by
  funext i
  simp only [colMean, ← Finset.mul_sum, mul_div_assoc]

private theorem centred_scale (x : Fin T → Fin N → ℝ) : centred (fun t i => a * x t i) = fun t i => a * centred x t i := by
  funext t i
  simp only [centred, colMean_scale]
  ring

private theorem secondMoment_scale (x : Fin T → Fin N → ℝ) : secondMoment (fun t i => a * x t i) = a ^ 2 • secondMoment x := by
  ext i j
  simp only [secondMoment, of_apply, Matrix.smul_apply, smul_eq_mul]
  rw [← mul_div_assoc, Finset.mul_sum]
  congr 1
  exact Finset.sum_congr rfl fun t _ => by ring

private theorem sample_scale (x : Fin T → Fin N → ℝ) (p : Fin T' → ℝ) :
    estimateSampleMoments (fun t i => a * x t i) p = (estimateSampleMoments x p).map fun ms => (fun i => a * ms.1 i, a ^ 2 • ms.2) := by
  unfold estimateSampleMoments
  split
  · rename_i h
    subst h
    have hm : wMean (fun t i => a * x t i) p = fun i => a * wMean x p i := by
      funext i
      simp only [wMean, Finset.mul_sum]
      exact Finset.sum_congr rfl fun t _ => by ring
    have hc : wCov (fun t i => a * x t i) p = a ^ 2 • wCov x p := by
      rw [wCov_eq, wCov_eq, hm]
      ext i j
      simp only [of_apply, Matrix.smul_apply, smul_eq_mul, Finset.mul_sum]
      exact Finset.sum_congr rfl fun t _ => by ring
    simp only [Fin.cast_eq_self, hm, hc]
    split <;> rfl
  · rfl

private theorem stage_scale (R : Panel T N) (p : Option (ProbVec T')) :
    sampleStage (rescalePanel a R) p = (sampleStage R p).map fun ms => (rescaleMean a ms.1, rescaleCov a ms.2) := by
  cases p with
  | none =>
    show sampleStage (rescalePanel a R) none = _
    unfold sampleStage
    have hs : secondMoment (centred (rescalePanel a R).x) = a ^ 2 • secondMoment (centred R.x) := by
      show secondMoment (centred fun t i => a * R.x t i) = _
      rw [centred_scale, secondMoment_scale]
    have h1 : npCov0 (rescalePanel a R) = (npCov0 R).map (rescaleCov a) := by
      unfold npCov0
      rw [hs]
      split
      · have : (rescalePanel a R).cols.isSome = R.cols.isSome := rfl
        rw [this]
        split <;> rfl
      · exact wrapMat_scale a _ R.labels
    have h2 : wrapVec (colMean (rescalePanel a R).x) (rescalePanel a R).labels = (wrapVec (colMean R.x) R.labels).map (rescaleMean a) := by
      rw [← wrapVec_scale, show colMean (rescalePanel a R).x = _ from colMean_scale a R.x]
      rfl
    simp only [h1, h2]
    cases npCov0 R with
    | error e => rfl
    | ok S =>
      simp only [Except.map]
      cases wrapVec (colMean R.x) R.labels <;> rfl
  | some p =>
    show sampleMomentsL (rescalePanel a R) p = (sampleMomentsL R p).map _
    unfold sampleMomentsL
    have h1 : estimateSampleMoments (rescalePanel a R).x p.v = _ := sample_scale a R.x p.v
    rw [h1]
    cases estimateSampleMoments R.x p.v with
    | error e => rfl
    | ok ms =>
      simp only [Except.map]
      have hl : (rescalePanel a R).labels = R.labels := rfl
      rw [hl]
      cases labelsOf [R.labels, p.labels] with
      | error e => rfl
      | ok l =>
        simp only [wrapVec_scale, wrapMat_scale]
        cases wrapVec ms.1 l <;> cases wrapMat ms.2 l <;> rfl

variable {a} (ha : 0 < a)

include ha

private theorem js_scale {pinv : Matrix (Fin N) (Fin N) ℝ → Matrix (Fin N) (Fin N) ℝ} (hpinv : ∀ A, pinv (a ^ 2 • A) = (a ^ 2)⁻¹ • pinv A)
    (kw : MeanKw T N) (mu : Fin N → ℝ) {S : Matrix (Fin N) (Fin N) ℝ} (hS : S.PosSemidef) (n : ℤ) :
    shrinkMeanJamesStein pinv (fun i => a * mu i) (a ^ 2 • S) n (rescaleMeanKw a kw).target
      = (shrinkMeanJamesStein pinv mu S n kw.target).map fun v i => a * v i := by
  have ht : jsTarget (fun i => a * mu i) (rescaleMeanKw a kw).target = (jsTarget mu kw.target).map fun v i => a * v i := by
    unfold rescaleMeanKw
    cases kw.target with
    | custom t => rfl
    | otherString => rfl
    | grandMean =>
      show Except.ok _ = Except.ok _
      congr 1
      funext i
      rw [← Finset.mul_sum, mul_div_assoc]
  unfold shrinkMeanJamesStein
  split
  · rfl
  · rw [ht]
    cases jsTarget mu kw.target with
    | error e => rfl
    | ok t =>
      simp only [Except.map]
      have hS' : (a ^ 2 • S).PosSemidef := hS.smul (by positivity)
      rw [Psd.half_of_symm (Psd.symm_of_psd hS), Psd.half_of_symm (Psd.symm_of_psd hS'),
        Psd.ensurePsd_of_psd hS (by norm_num [defaultJitter]), Psd.ensurePsd_of_psd hS' (by norm_num [defaultJitter])]
      simp only [hpinv]
      have hd : (fun i => a * mu i - a * t i) = a • fun i => mu i - t i := by
        funext i
        simp [mul_sub]
      have hsh : jsShrink n ((a ^ 2)⁻¹ • pinv S) (fun i => a * mu i - a * t i) = jsShrink n (pinv S) fun i => mu i - t i := by
        unfold jsShrink
        have : (fun i => a * mu i - a * t i) ⬝ᵥ (((n : ℝ) • (a ^ 2)⁻¹ • pinv S) *ᵥ (fun i => a * mu i - a * t i))
            = (fun i => mu i - t i) ⬝ᵥ (((n : ℝ) • pinv S) *ᵥ fun i => mu i - t i) := by
          rw [hd]
          simp only [smul_mulVec, mulVec_smul, dotProduct_smul, smul_dotProduct, smul_eq_mul]
          field_simp
        simp only [this]
      rw [hsh]
      congr 1
      funext i
      ring

private theorem median_scale (l : List ℝ) : median (l.map (a * ·)) = (median l).map (a * ·) := by
  have hs : (l.map (a * ·)).insertionSort (· ≤ ·) = (l.insertionSort (· ≤ ·)).map (a * ·) := by
    refine List.Perm.eq_of_pairwise' (r := (· ≤ ·)) (List.pairwise_insertionSort _ _) ?_ ?_
    · rw [List.pairwise_map]
      exact (List.pairwise_insertionSort (· ≤ ·) l).imp fun h => mul_le_mul_of_nonneg_left h ha.le
    · exact (List.perm_insertionSort _ _).trans ((List.perm_insertionSort (· ≤ ·) l).map _).symm
  unfold median
  simp only [hs, List.length_map, List.getElem?_map]
  split
  · rfl
  · split
    · rfl
    · rcases (l.insertionSort (· ≤ ·))[(l.insertionSort (· ≤ ·)).length / 2 - 1]? with _ | x <;>
      rcases (l.insertionSort (· ≤ ·))[(l.insertionSort (· ≤ ·)).length / 2]? with _ | y <;> simp
      ring

private theorem mom_scale (hT : T ≠ 0) (perm : Equiv.Perm (Fin T)) (b : Blocks) (x : Fin T → Fin N → ℝ) :
    momMean perm b (fun t i => a * x t i) = (momMean perm b x).map fun v i => a * v i := by
  unfold momMean
  cases hb : momBlocks T b with
  | error e => rfl
  | ok B =>
    simp only [Except.map]
    congr 1
    funext i
    have h1 : 1 ≤ T := Nat.one_le_iff_ne_zero.2 hT
    rw [medianOfMeans_eq perm h1 hb, medianOfMeans_eq perm h1 hb (fun t => x t i)]
    simp only
    have e : (momBlocksOf perm B).map (fun l => (l.map fun t => a * x t i).sum / (l.length : ℝ)) =
        ((momBlocksOf perm B).map (fun l => (l.map fun t => x t i).sum / (l.length : ℝ))).map (a * ·) := by
      rw [List.map_map]
      apply List.map_congr_left
      intro l _
      simp only [Function.comp]
      rw [List.sum_map_mul_left, mul_div_assoc]
    rw [e, median_scale ha]
    cases median ((momBlocksOf perm B).map (fun l => (l.map fun t => x t i).sum / (l.length : ℝ))) with
    | none => simp
    | some m => rfl

private theorem lw_scale (x : Fin T → Fin N → ℝ) {S : Matrix (Fin N) (Fin N) ℝ} (hS : S.PosSemidef) {k : LwTarget} (hk : k ≠ .constantCorrelation) :
    shrinkLedoitWolf (fun t i => a * x t i) (a ^ 2 • S) k = (shrinkLedoitWolf x S k).map (a ^ 2 • ·) := by
  have hS' : (a ^ 2 • S).PosSemidef := hS.smul (by positivity)
  unfold shrinkLedoitWolf
  split
  · rfl
  · rw [Psd.half_of_symm (Psd.symm_of_psd hS), Psd.half_of_symm (Psd.symm_of_psd hS')]
    cases k with
    | otherString => rfl
    | constantCorrelation => exact absurd rfl hk
    | identity =>
      simp only
      have hF : lwIdentity (a ^ 2 • S) = a ^ 2 • lwIdentity S := by
        unfold lwIdentity
        rw [trace_smul, smul_smul, smul_eq_mul, mul_div_assoc]
      have hP : lwPi (centred fun t i => a * x t i) (a ^ 2 • S) = a ^ 4 • lwPi (centred x) S := by
        rw [centred_scale]
        ext i j
        simp only [lwPi, of_apply, Matrix.smul_apply, smul_eq_mul]
        rw [← mul_div_assoc, Finset.mul_sum]
        congr 1
        exact Finset.sum_congr rfl fun t _ => by ring
      have hPh : ∀ P : Matrix (Fin N) (Fin N) ℝ, lwPiHat (a ^ 4 • P) = a ^ 4 * lwPiHat P := by
        intro P
        simp only [lwPiHat, Matrix.smul_apply, smul_eq_mul, ← Finset.mul_sum, mul_div_assoc]
      have hR : ∀ P F F' : Matrix (Fin N) (Fin N) ℝ, lwRho true (a ^ 4 • P) F' = a ^ 4 * lwRho true P F := by
        intro P F F'
        simp [lwRho, trace_smul]
      have hG : ∀ F : Matrix (Fin N) (Fin N) ℝ, lwGamma (a ^ 2 • S) (a ^ 2 • F) = a ^ 4 * lwGamma S F := by
        intro F
        simp only [lwGamma, Matrix.smul_apply, smul_eq_mul, Finset.mul_sum]
        exact Finset.sum_congr rfl fun i _ => Finset.sum_congr rfl fun j _ => by ring
      have hD : ∀ num g : ℝ, lwDelta T true (a ^ 4 * num) (a ^ 4 * g) = lwDelta T true num g := by
        intro num g
        have h4 : (0 : ℝ) < a ^ 4 := by positivity
        unfold lwDelta
        simp only [mul_eq_zero, h4.ne', false_or, mul_pos_iff_of_pos_left h4, mul_div_mul_left _ _ h4.ne']
      rw [hP, hF, hPh, hR _ (lwIdentity S), hG, ← mul_sub, hD]
      have hbl : ∀ {F S : Matrix (Fin N) (Fin N) ℝ}, F.PosSemidef → S.PosSemidef → ∀ {d : Option ℝ}, (∀ y, d = some y → 0 ≤ y ∧ y ≤ 1) →
          lwBlend d F S = match d with | none => .error .valueError | some y => .ok (y • F + (1 - y) • S) := by
        intro F S hF hS d hd
        cases d with
        | none => rfl
        | some y =>
          have hp := blend_psd hF hS (hd y rfl).1 (hd y rfl).2
          simp only [lwBlend]
          rw [Psd.ensurePsd_of_psd hp (by norm_num [defaultJitter])]
          simp only
          rw [Psd.half_of_symm (Psd.symm_of_psd hp)]
      have hIp := lwIdentity_psd hS
      rw [hbl hIp hS fun y h => lwDelta_mem h, hbl (hIp.smul (by positivity : (0 : ℝ) ≤ a ^ 2)) hS' fun y h => lwDelta_mem h]
      cases lwDelta T true (lwPiHat (lwPi (centred x) S) - lwRho true (lwPi (centred x) S) (lwIdentity S)) (lwGamma S (lwIdentity S)) with
      | none => rfl
      | some y =>
        simp only [Except.map]
        congr 1
        rw [smul_add, smul_comm (a ^ 2) y, smul_comm (a ^ 2) (1 - y)]

private theorem oas_scale (x : Fin T → Fin N → ℝ) (b : Bool) :
    shrinkOas (fun t i => a * x t i) b = (shrinkOas x b).map (a ^ 2 • ·) := by
  by_cases h0 : T = 0 ∨ N = 0
  · unfold shrinkOas
    rw [if_pos h0, if_pos h0]
    rfl
  push Not at h0
  have hX : (if b = true then fun t i => a * x t i else centred fun t i => a * x t i) = fun t i => a * (if b = true then x else centred x) t i := by
    cases b
    · simp only [Bool.false_eq_true, if_false]
      exact centred_scale a x
    · rfl
  by_cases h1 : N = 1
  · unfold shrinkOas
    have h0' : ¬ (T = 0 ∨ N = 0) := by push Not; exact h0
    simp only [if_neg h0', if_pos h1, hX, secondMoment_scale]
    rfl
  have hC' : a ^ 2 • secondMoment (if b = true then x else centred x)
      = secondMoment (if b = true then fun t i => a * x t i else centred fun t i => a * x t i) := by rw [hX, secondMoment_scale]
  obtain ⟨i1, i2⟩ := C39_intensity x b h0.1 (by omega) (C := secondMoment (if b = true then x else centred x)) rfl
  obtain ⟨j1, j2⟩ := C39_intensity (fun t i => a * x t i) b h0.1 (by omega) hC'
  generalize secondMoment (if b = true then x else centred x) = C at *
  have h2 : (0 : ℝ) < a ^ 2 := by positivity
  have hiff : a ^ 2 • C = ((a ^ 2 • C).trace / N) • 1 ↔ C = (C.trace / N) • 1 := by
    rw [trace_smul, smul_eq_mul, mul_div_assoc, ← smul_smul]
    exact smul_right_injective _ h2.ne' |>.eq_iff
  by_cases hI : C = (C.trace / N) • 1
  · rw [i1 hI, j1 (hiff.2 hI)]
    rfl
  · obtain ⟨r, hr, e⟩ := i2 hI
    obtain ⟨r', hr', e'⟩ := j2 fun h => hI (hiff.1 h)
    have hrr : r' = r := by
      rw [hr, hr', smul_mul_smul_comm, trace_smul, trace_smul, smul_eq_mul, smul_eq_mul]
      congr 1
      have h4 : (a ^ 2 * a ^ 2 : ℝ) ≠ 0 := by positivity
      have e1 : (1 - 2 / (N : ℝ)) * (a ^ 2 * a ^ 2 * (C * C).trace) + (a ^ 2 * C.trace) ^ 2
          = a ^ 2 * a ^ 2 * ((1 - 2 / (N : ℝ)) * (C * C).trace + C.trace ^ 2) := by ring
      have e2 : ((T : ℝ) + 1 - 2 / (N : ℝ)) * (a ^ 2 * a ^ 2 * (C * C).trace - (a ^ 2 * C.trace) ^ 2 / N)
          = a ^ 2 * a ^ 2 * (((T : ℝ) + 1 - 2 / (N : ℝ)) * ((C * C).trace - C.trace ^ 2 / N)) := by ring
      rw [e1, e2, mul_div_mul_left _ _ h4]
    rw [e, e', hrr]
    show Except.ok _ = Except.ok _
    congr 1
    show _ = a ^ 2 • ((1 - r) • C + (r * (C.trace / N)) • (1 : Matrix (Fin N) (Fin N) ℝ))
    rw [trace_smul, smul_eq_mul, smul_add, smul_comm (a ^ 2) (1 - r), smul_smul (a ^ 2)]
    congr 2
    ring

omit ha in
private theorem ewma_scale (rows : List (Fin N → ℝ)) (span minPeriods : ℤ) :
    covarianceEwma (rows.map fun r i => a * r i) span minPeriods = (covarianceEwma rows span minPeriods).map (a ^ 2 • ·) := by
  have hv : ∀ r : Fin N → ℝ, vecMulVec (fun i => a * r i) (fun i => a * r i) = a ^ 2 • vecMulVec r r := by
    intro r
    ext i j
    simp only [vecMulVec_apply, Matrix.smul_apply, smul_eq_mul]
    ring
  have hf : ∀ (rows : List (Fin N → ℝ)) (C : Matrix (Fin N) (Fin N) ℝ),
      (rows.map fun r i => a * r i).foldl (ewmaStep (ewmaLambda span)) (a ^ 2 • C) = a ^ 2 • rows.foldl (ewmaStep (ewmaLambda span)) C := by
    intro rows
    induction rows with
    | nil => intro C; rfl
    | cons r rows ih =>
      intro C
      simp only [List.map_cons, List.foldl_cons]
      rw [← ih]
      congr 1
      unfold ewmaStep
      rw [hv, smul_add, smul_comm (a ^ 2) (ewmaLambda span), smul_comm (a ^ 2) (1 - ewmaLambda span)]
  unfold covarianceEwma
  simp only [List.length_map]
  split
  · rfl
  · split
    · rfl
    · cases rows with
      | nil => rfl
      | cons r rest =>
        simp only [List.map_cons, hv, hf, Except.map]
        congr 1
        rw [transpose_smul, ← smul_add, smul_comm]

end proof

/-- **C155.** (partial) Expressing the returns in other units (every return times `a > 0`, e.g. 100 for per cent) multiplies the estimated means
by `a` and the estimated covariances by `a²`: proved for the sample, James–Stein and median-of-means means and the sample, Ledoit–Wolf
(identity target), OAS and EWMA covariances, with non-negative probabilities; the pseudo-inverse's cut-off is relative. -/
theorem C155_units_partial {a : ℝ} (ha : 0 < a) (ext : Ext T N) (hpinv : ∀ A, ext.pinv (a ^ 2 • A) = (a ^ 2)⁻¹ • ext.pinv A) (R : Panel T N)
    (hT : T ≠ 0) (p : Option (ProbVec T')) (hp : ∀ q, p = some q → ∀ t, 0 ≤ q.v t) (meanKey covKey : String) (mkw : MeanKw T N)
    (ckw : CovKw N) (hm : MeanUnitFree (meanKind meanKey.toLower)) (hc : CovUnitFree ckw (covKind covKey.toLower)) :
    estimateMoments ext (rescalePanel a R) p meanKey covKey (rescaleMeanKw a mkw) ckw =
      (estimateMoments ext R p meanKey covKey mkw ckw).map fun ms => (rescaleMean a ms.1, rescaleCov a ms.2) := by
  unfold estimateMoments
  rw [stage_scale]
  cases hs : sampleStage R p with
  | error e => rfl
  | ok ms =>
    have hpsd := sampleStage_psd hs hp
    simp only [Except.map]
    have h1 : ∀ mk, meanKind meanKey.toLower = some mk →
        meanStage ext (rescalePanel a R) (rescaleMean a ms.1) (rescaleCov a ms.2) (rescaleMeanKw a mkw) mk
        = (meanStage ext R ms.1 ms.2 mkw mk).map (rescaleMean a) := by
      intro mk hk
      rw [hk] at hm
      cases mk with
      | sample => rfl
      | jorion => exact hm.elim
      | jamesStein =>
        unfold meanStage
        cases hS : ms.2 with
        | scalar x => rfl
        | matrix m l =>
          simp only [asMatrix, rescaleMean, rescaleCov, js_scale ha hpinv mkw ms.1.v (hpsd m l hS)]
          cases shrinkMeanJamesStein ext.pinv ms.1.v m T mkw.target with
          | error e => rfl
          | ok v =>
            simp only [Except.map]
            cases labelsOf [ms.1.labels, l] with
            | error e => rfl
            | ok L => exact wrapVec_scale a v L
      | huber => exact hm.elim
      | medianOfMeans =>
        unfold meanStage
        have : momMean (rescaleMeanKw a mkw).perm (rescaleMeanKw a mkw).blocks (rescalePanel a R).x = _ := mom_scale ha hT mkw.perm mkw.blocks R.x
        simp only [this]
        cases momMean mkw.perm mkw.blocks R.x with
        | error e => rfl
        | ok v => exact wrapVec_scale a v R.labels
    have hres : ∀ {x y : Except PyErr (Matrix (Fin N) (Fin N) ℝ)}, y = x.map (a ^ 2 • ·) →
        wrapRes (rescalePanel a R) y = (wrapRes R x).map (rescaleCov a) := by
      intro x y h
      subst h
      cases x with
      | error e => rfl
      | ok m => exact wrapMat_scale a m R.labels
    have h2 : ∀ ck, covKind covKey.toLower = some ck →
        covStage ext (rescalePanel a R) (rescaleCov a ms.2) ckw ck = (covStage ext R ms.2 ckw ck).map (rescaleCov a) := by
      intro ck hk
      rw [hk] at hc
      cases ck with
      | sample => rfl
      | ledoitWolf =>
        unfold covStage
        cases hS : ms.2 with
        | scalar x => rfl
        | matrix m l =>
          have : shrinkLedoitWolf (rescalePanel a R).x (a ^ 2 • m) ckw.lwTarget = _ := lw_scale ha R.x (hpsd m l hS) hc
          simp only [asMatrix, rescaleCov, this]
          have hl : (rescalePanel a R).labels = R.labels := rfl
          rw [hl]
          cases shrinkLedoitWolf R.x m ckw.lwTarget with
          | error e => rfl
          | ok C =>
            simp only [Except.map]
            cases labelsOf [R.labels, l] with
            | error e => rfl
            | ok L => exact wrapMat_scale a C L
      | oas => exact hres (oas_scale ha R.x ckw.oasCentered)
      | ewma =>
        refine hres ?_
        have : List.ofFn (rescalePanel a R).x = (List.ofFn R.x).map fun r i => a * r i := by
          rw [List.map_ofFn]
          rfl
        rw [this]
        exact ewma_scale (List.ofFn R.x) ckw.span ckw.minPeriods
      | nls => exact hc.elim
      | poet => exact hc.elim
      | tyler => exact hc.elim
      | glasso => exact hc.elim
    cases hk : meanKind meanKey.toLower with
    | none => rfl
    | some mk =>
      simp only [h1 mk hk]
      cases meanStage ext R ms.1 ms.2 mkw mk with
      | error e => rfl
      | ok mu =>
        simp only [Except.map]
        cases hk' : covKind covKey.toLower with
        | none => rfl
        | some ck =>
          simp only [h2 ck hk']
          cases covStage ext R ms.2 ckw ck <;> rfl

/-! ## The constant-correlation target depends on the units -/

/-- Eight scenarios of three assets with unit variances; the first two have correlation 1/2. -/
def unitsX : Fin 8 → Fin 3 → ℝ :=
  ![![1, 1, 1], ![1, 1, 1], ![1, 1, -1], ![1, -1, -1], ![-1, -1, 1], ![-1, -1, 1], ![-1, -1, -1], ![-1, 1, -1]]

/-- Their covariance. -/
noncomputable def unitsS : Matrix (Fin 3) (Fin 3) ℝ := !![1, 1 / 2, 0; 1 / 2, 1, 0; 0, 0, 1]

private theorem units_colMean : colMean unitsX = 0 := by
  funext i
  fin_cases i <;> simp [colMean, unitsX, Fin.sum_univ_succ]

private theorem units_centred (a : ℝ) : centred (fun t i => a * unitsX t i) = fun t i => a * unitsX t i := by
  rw [centred_scale]
  funext t i
  simp [centred, units_colMean]

private theorem units_second : secondMoment unitsX = unitsS := by
  ext i j
  fin_cases i <;> fin_cases j <;> simp [secondMoment, unitsX, unitsS, Fin.sum_univ_succ] <;> norm_num

/-- `estimate_sample_moments` of the rescaled scenarios is the rescaled covariance. -/
theorem units_cov (a : ℝ) : secondMoment (centred fun t i => a * unitsX t i) = a ^ 2 • unitsS := by
  rw [units_centred, secondMoment_scale, units_second]

private theorem units_rbar {a : ℝ} (ha : 0 < a) : lwRbar (a ^ 2 • unitsS) = 1 / 6 := by
  unfold lwRbar
  have hs : Real.sqrt (a ^ 2) = a := Real.sqrt_sq ha.le
  simp [unitsS, Fin.sum_univ_succ, hs]
  field_simp
  norm_num

private theorem units_target {a : ℝ} (ha : 0 < a) : lwConstCorr (a ^ 2 • unitsS) = a ^ 2 • !![1, 1 / 6, 1 / 6; 1 / 6, 1, 1 / 6; 1 / 6, 1 / 6, 1] := by
  have hs : Real.sqrt (a ^ 2) = a := Real.sqrt_sq ha.le
  ext i j
  simp only [lwConstCorr, units_rbar ha, of_apply]
  fin_cases i <;> fin_cases j <;> simp [unitsS, hs] <;> ring

private theorem units_pi {a : ℝ} : lwPi (centred fun t i => a * unitsX t i) (a ^ 2 • unitsS) = a ^ 4 • !![0, 3 / 4, 1; 3 / 4, 0, 1; 1, 1, 0] := by
  rw [units_centred]
  ext i j
  fin_cases i <;> fin_cases j <;> simp [lwPi, unitsX, unitsS, Fin.sum_univ_succ] <;> ring

/-- The intensity used for the rescaled scenarios. -/
private theorem units_delta {a : ℝ} (ha : 0 < a) :
    lwDelta 8 false (lwPiHat (lwPi (centred fun t i => a * unitsX t i) (a ^ 2 • unitsS))
        - lwRho false (lwPi (centred fun t i => a * unitsX t i) (a ^ 2 • unitsS)) (lwConstCorr (a ^ 2 • unitsS)))
      (lwGamma (a ^ 2 • unitsS) (lwConstCorr (a ^ 2 • unitsS))) = some (min (max (11 / 48 * (1 - a ^ 2 / 6)) 0) 1) := by
  rw [units_pi, units_target ha]
  have h1 : lwPiHat (a ^ 4 • !![0, 3 / 4, 1; 3 / 4, 0, 1; 1, 1, 0] : Matrix (Fin 3) (Fin 3) ℝ) = a ^ 4 * (11 / 18) := by
    simp [lwPiHat, Fin.sum_univ_succ]
    ring
  have h2 : (a ^ 4 • !![0, 3 / 4, 1; 3 / 4, 0, 1; 1, 1, 0] : Matrix (Fin 3) (Fin 3) ℝ).trace = 0 := by
    simp [Matrix.trace, Fin.sum_univ_succ]
  have h3 : lwRho false (a ^ 4 • !![0, 3 / 4, 1; 3 / 4, 0, 1; 1, 1, 0] : Matrix (Fin 3) (Fin 3) ℝ)
      (a ^ 2 • !![1, 1 / 6, 1 / 6; 1 / 6, 1, 1 / 6; 1 / 6, 1 / 6, 1]) = a ^ 2 / 6 * (a ^ 4 * (11 / 18)) := by
    unfold lwRho
    rw [h1, h2]
    simp [Fin.sum_univ_succ]
    ring_nf
    simp
  have h4 : lwGamma (a ^ 2 • unitsS) (a ^ 2 • !![1, 1 / 6, 1 / 6; 1 / 6, 1, 1 / 6; 1 / 6, 1 / 6, 1]) = a ^ 4 / 3 := by
    simp [lwGamma, unitsS, Fin.sum_univ_succ]
    ring
  rw [h1, h3, h4]
  unfold lwDelta
  have h5 : a ^ 4 / 3 ≠ 0 := by positivity
  rw [if_neg h5]
  simp only [Bool.false_eq_true, if_false]
  congr 3
  field_simp
  norm_num
  ring

private theorem units_lw {a : ℝ} (ha : 0 < a) : shrinkLedoitWolf (fun t i => a * unitsX t i) (a ^ 2 • unitsS) .constantCorrelation =
    lwBlend (some (min (max (11 / 48 * (1 - a ^ 2 / 6)) 0) 1)) (lwConstCorr (a ^ 2 • unitsS)) (a ^ 2 • unitsS) := by
  have hsym : (a ^ 2 • unitsS)ᵀ = a ^ 2 • unitsS := by
    rw [← units_second]
    ext i j
    simp only [Matrix.smul_apply, transpose_apply, smul_eq_mul, secondMoment, of_apply]
    congr 2
    exact Finset.sum_congr rfl fun t _ => by ring
  unfold shrinkLedoitWolf
  rw [if_neg (by norm_num)]
  simp only [Psd.half_of_symm hsym]
  rw [if_pos, units_delta ha]
  refine ⟨fun i => ?_, by norm_num⟩
  have : 0 < a ^ 2 := by positivity
  fin_cases i <;> simpa [unitsS] using this

private theorem units_psd {a : ℝ} : (a ^ 2 • unitsS).PosSemidef := by
  rw [← units_second]
  exact (secondMoment_psd unitsX).smul (sq_nonneg a)

private theorem units_value {a d : ℝ} (ha : 0 < a) (hd : min (max (11 / 48 * (1 - a ^ 2 / 6)) 0) 1 = d) :
    ∃ C, shrinkLedoitWolf (fun t i => a * unitsX t i) (a ^ 2 • unitsS) .constantCorrelation = .ok C ∧
      C 0 1 = a ^ 2 * (1 / 2 - d / 3) := by
  have h0 : 0 ≤ d := by rw [← hd]; exact le_min (le_max_right _ _) zero_le_one
  have h1 : d ≤ 1 := by rw [← hd]; exact min_le_right _ _
  rw [units_lw ha, hd]
  have hF : (lwConstCorr (a ^ 2 • unitsS)).PosSemidef := by
    refine lwConstCorr_psd units_psd (fun i => ?_) (by norm_num)
    have : 0 < a ^ 2 := by positivity
    fin_cases i <;> simpa [unitsS] using this
  have hp := blend_psd hF (units_psd (a := a)) h0 h1
  simp only [lwBlend]
  rw [Psd.ensurePsd_of_psd hp (by norm_num [defaultJitter])]
  refine ⟨_, rfl, ?_⟩
  rw [Psd.half_of_symm (Psd.symm_of_psd hp), units_target ha]
  simp [unitsS]
  ring

/-- **C155.** (false of the code in general) The constant-correlation Ledoit–Wolf estimate depends on the units of the returns: the same eight
scenarios give a correlation of 377/864 (shrunk towards the average 1/6) when quoted as they are, and exactly the sample value 1/2 (no
shrinkage at all) when every return is multiplied by 100. -/
theorem C155_counterexample : ∃ C C',
    shrinkLedoitWolf unitsX (secondMoment (centred unitsX)) .constantCorrelation = .ok C ∧
    shrinkLedoitWolf (fun t i => 100 * unitsX t i) (secondMoment (centred fun t i => 100 * unitsX t i)) .constantCorrelation = .ok C' ∧
    C 0 1 = 377 / 864 ∧ C' 0 1 = 100 ^ 2 * (1 / 2) := by
  obtain ⟨C, h1, h2⟩ := units_value (a := 1) (d := 55 / 288) one_pos (by norm_num [min_def, max_def])
  obtain ⟨C', h3, h4⟩ := units_value (a := 100) (d := 0) (by norm_num) (by norm_num [min_def, max_def])
  refine ⟨C, C', ?_, ?_, ?_, ?_⟩
  · have e : (fun t i => (1 : ℝ) * unitsX t i) = unitsX := by simp
    rw [← units_cov] at h1
    rwa [e] at h1
  · rwa [units_cov]
  · rw [h2]; norm_num
  · rw [h4]; norm_num

/-- A concrete instance of the partial theorem: returns 1, 3 and 0, 2 quoted in per cent; means and covariance become 100 and 100² times
what they were. -/
example : ∃ (ext : Ext 2 2) (R : Panel 2 2) (S : CovOut 2), (∀ A, ext.pinv ((100 : ℝ) ^ 2 • A) = ((100 : ℝ) ^ 2)⁻¹ • ext.pinv A) ∧
    estimateMoments ext R (none : Option (ProbVec 2)) "sample" "sample" {} {} = .ok (⟨![2, 1], none⟩, S) ∧
      estimateMoments ext (rescalePanel 100 R) (none : Option (ProbVec 2)) "sample" "sample" {} {} =
        .ok (⟨![200, 100], none⟩, rescaleCov 100 S) := by
  obtain ⟨eigh, -⟩ := eigh_exists 2
  let ext : Ext 2 2 := ⟨fun A => A⁻¹, eigh, eigh, fun _ _ => .error .valueError⟩
  let R : Panel 2 2 := ⟨![![1, 0], ![3, 2]], none⟩
  have e1 : meanKind ("sample" : String).toLower = some .sample := by decide +kernel
  have e2 : covKind ("sample" : String).toLower = some .sample := by decide +kernel
  have h : estimateMoments ext R (none : Option (ProbVec 2)) "sample" "sample" {} {} =
      .ok (⟨![2, 1], none⟩, .matrix (secondMoment (centred R.x)) none) := by
    unfold estimateMoments
    simp [sampleStage, npCov0, R, Panel.labels, wrapMat, wrapVec, e1, e2, meanStage, covStage]
    funext i
    fin_cases i <;> norm_num [colMean, Fin.sum_univ_two]
  have hp : ∀ A : Matrix (Fin 2) (Fin 2) ℝ, ((100 : ℝ) ^ 2 • A)⁻¹ = ((100 : ℝ) ^ 2)⁻¹ • A⁻¹ := by
    intro A
    by_cases hA : IsUnit A.det
    · have := Matrix.inv_smul' (A := A) (Units.mk0 ((100 : ℝ) ^ 2) (by norm_num)) hA
      simpa [Units.smul_def] using this
    · have hA' : ¬ IsUnit ((100 : ℝ) ^ 2 • A).det := by
        rw [det_smul]
        simpa using hA
      rw [Matrix.nonsing_inv_apply_not_isUnit _ hA, Matrix.nonsing_inv_apply_not_isUnit _ hA', smul_zero]
  refine ⟨ext, R, _, hp, h, ?_⟩
  have := C155_units_partial (a := 100) (by norm_num) ext hp R (by norm_num) (none : Option (ProbVec 2)) (fun q h => by cases h) "sample" "sample" {} {}
    (by rw [e1]; trivial) (by rw [e2]; trivial)
  rw [show rescaleMeanKw 100 ({} : MeanKw 2 2) = {} from rfl, h] at this
  rw [this]
  simp only [Except.map, rescaleMean]
  congr 3
  funext i
  fin_cases i <;> norm_num

end PyV.Props
