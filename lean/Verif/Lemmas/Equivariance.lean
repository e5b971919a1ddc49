import Verif.Model.MomentsApi
import Verif.Lemmas.Glasso

/-! # Reordering the assets: every estimator commutes with a permutation of the columns -/

namespace PyV.Equi

open PyV PyV.Valid PyV.Mom Matrix

variable {T N : ℕ} (σ : Equiv.Perm (Fin N))

/-- Reordered matrix. -/
abbrev pm (A : Matrix (Fin N) (Fin N) ℝ) : Matrix (Fin N) (Fin N) ℝ := A.submatrix σ σ

/-- Reordered scenarios. -/
abbrev px (X : Fin T → Fin N → ℝ) : Fin T → Fin N → ℝ := fun t i => X t (σ i)

theorem pm_add (A B : Matrix (Fin N) (Fin N) ℝ) : pm σ (A + B) = pm σ A + pm σ B := rfl
theorem pm_sub (A B : Matrix (Fin N) (Fin N) ℝ) : pm σ (A - B) = pm σ A - pm σ B := rfl
theorem pm_smul (c : ℝ) (A : Matrix (Fin N) (Fin N) ℝ) : pm σ (c • A) = c • pm σ A := rfl
theorem pm_transpose (A : Matrix (Fin N) (Fin N) ℝ) : pm σ Aᵀ = (pm σ A)ᵀ := rfl
theorem pm_one : pm σ (1 : Matrix (Fin N) (Fin N) ℝ) = 1 := submatrix_one_equiv σ
theorem pm_zero : pm σ (0 : Matrix (Fin N) (Fin N) ℝ) = 0 := rfl
theorem pm_trace (A : Matrix (Fin N) (Fin N) ℝ) : (pm σ A).trace = A.trace := by
  simp only [Matrix.trace, diag_apply, submatrix_apply]
  exact Equiv.sum_comp σ (fun i => A i i)
theorem pm_det (A : Matrix (Fin N) (Fin N) ℝ) : (pm σ A).det = A.det := det_submatrix_equiv_self σ A
theorem pm_inv (A : Matrix (Fin N) (Fin N) ℝ) : (pm σ A)⁻¹ = pm σ A⁻¹ := inv_submatrix_equiv A σ σ
theorem pm_mul (A B : Matrix (Fin N) (Fin N) ℝ) : pm σ (A * B) = pm σ A * pm σ B := (submatrix_mul_equiv A B σ σ σ).symm
theorem pm_half (A : Matrix (Fin N) (Fin N) ℝ) : (1 / 2 : ℝ) • (pm σ A + (pm σ A)ᵀ) = pm σ ((1 / 2 : ℝ) • (A + Aᵀ)) := rfl

theorem sum_perm {M : Type*} [AddCommMonoid M] (f : Fin N → M) : ∑ i, f (σ i) = ∑ i, f i := Equiv.sum_comp σ f

theorem sum2_perm (f : Fin N → Fin N → ℝ) : ∑ i, ∑ j, f (σ i) (σ j) = ∑ i, ∑ j, f i j := by
  rw [← sum_perm σ (fun i => ∑ j, f i j)]
  exact Finset.sum_congr rfl fun i _ => sum_perm σ (f (σ i))

theorem dot_perm (x y : Fin N → ℝ) : (x ∘ σ) ⬝ᵥ (y ∘ σ) = x ⬝ᵥ y := sum_perm σ (fun i => x i * y i)

theorem mulVec_perm (A : Matrix (Fin N) (Fin N) ℝ) (x : Fin N → ℝ) : pm σ A *ᵥ (x ∘ σ) = (A *ᵥ x) ∘ σ := by
  ext i
  exact sum_perm σ (fun j => A (σ i) j * x j)

theorem quad_perm (A : Matrix (Fin N) (Fin N) ℝ) (x y : Fin N → ℝ) : (x ∘ σ) ⬝ᵥ (pm σ A *ᵥ (y ∘ σ)) = x ⬝ᵥ (A *ᵥ y) := by
  rw [mulVec_perm, dot_perm]

theorem quad_ge_perm (A : Matrix (Fin N) (Fin N) ℝ) (c : ℝ) :
    (∀ x : Fin N → ℝ, c * (x ⬝ᵥ x) ≤ x ⬝ᵥ (pm σ A *ᵥ x)) ↔ ∀ x : Fin N → ℝ, c * (x ⬝ᵥ x) ≤ x ⬝ᵥ (A *ᵥ x) := by
  constructor
  · intro h x
    have := h (x ∘ σ)
    rwa [dot_perm, quad_perm] at this
  · intro h x
    have := h (x ∘ σ.symm)
    rw [← dot_perm σ, ← quad_perm σ] at this
    simpa [Function.comp_assoc] using this

theorem minEig_perm {A : Matrix (Fin N) (Fin N) ℝ} (hA : Aᵀ = A) : minEig (pm σ A) = minEig A := by
  rcases Nat.eq_zero_or_pos N with rfl | hN
  · congr 1
    ext i
    exact i.elim0
  · have : Nonempty (Fin N) := ⟨⟨0, hN⟩⟩
    have hA' : (pm σ A)ᵀ = pm σ A := by rw [← pm_transpose, hA]
    apply le_antisymm
    · exact le_ciInf ((Psd.eigvalsh_ge_iff hA _).2 ((quad_ge_perm σ A _).1 ((Psd.eigvalsh_ge_iff hA' _).1 (Psd.minEig_le _))))
    · exact le_ciInf ((Psd.eigvalsh_ge_iff hA' _).2 ((quad_ge_perm σ A _).2 ((Psd.eigvalsh_ge_iff hA _).1 (Psd.minEig_le _))))

theorem ensurePsd_perm (A : Matrix (Fin N) (Fin N) ℝ) {jitter : ℝ} (hj : 0 ≤ jitter) :
    ensurePsd (pm σ A) jitter = (ensurePsd A jitter).map (pm σ) := by
  obtain ⟨k, -, e, hk⟩ := Psd.ensurePsd_spec A hj
  obtain ⟨k', -, e', hk'⟩ := Psd.ensurePsd_spec (pm σ A) hj
  rw [pm_half] at e' hk'
  rw [quad_ge_perm, minEig_perm σ (Psd.half_symm A)] at hk'
  have hkk : k' = k := by
    rcases hk with ⟨h1, h2⟩ | ⟨h1, h2, -⟩ <;> rcases hk' with ⟨h1', h2'⟩ | ⟨h1', h2', -⟩
    · rw [h1, h1']
    · exact absurd h2 h2'
    · exact absurd h2' h2
    · rw [h1, h1']
  rw [e, e', hkk]
  show _ = Except.ok (pm σ _)
  rw [pm_add, pm_smul _ k, pm_one]

theorem jitter_nonneg : (0 : ℝ) ≤ defaultJitter := by unfold defaultJitter; positivity

theorem guard_perm (A : Matrix (Fin N) (Fin N) ℝ) : ensurePsd (pm σ A) defaultJitter = (ensurePsd A defaultJitter).map (pm σ) :=
  ensurePsd_perm σ A jitter_nonneg

/-! ## Sample moments and shrunk means -/

theorem wMean_perm (X : Fin T → Fin N → ℝ) (p : Fin T → ℝ) : wMean (px σ X) p = wMean X p ∘ σ := rfl
theorem wCov_perm (X : Fin T → Fin N → ℝ) (p : Fin T → ℝ) : wCov (px σ X) p = pm σ (wCov X p) := rfl

theorem sample_perm {T' : ℕ} (X : Fin T → Fin N → ℝ) (p : Fin T' → ℝ) :
    estimateSampleMoments (px σ X) p = (estimateSampleMoments X p).map (fun ms => (ms.1 ∘ σ, pm σ ms.2)) := by
  unfold estimateSampleMoments
  split
  · simp only
    split
    · rfl
    · rfl
  · rfl

theorem jorion_perm (mu : Fin N → ℝ) (S : Matrix (Fin N) (Fin N) ℝ) (n : ℤ) :
    shrinkMeanJorion (mu ∘ σ) (pm σ S) n = (shrinkMeanJorion mu S n).map (· ∘ σ) := by
  unfold shrinkMeanJorion
  split
  · rfl
  · simp only
    have hA : (1 / 2 : ℝ) • (pm σ S + (pm σ S)ᵀ) + (1 / 10 ^ 8 : ℝ) • (1 : Matrix (Fin N) (Fin N) ℝ)
        = pm σ ((1 / 2 : ℝ) • (S + Sᵀ) + (1 / 10 ^ 8 : ℝ) • (1 : Matrix (Fin N) (Fin N) ℝ)) := by
      rw [pm_half, pm_add, pm_smul _ (1 / 10 ^ 8 : ℝ), pm_one]
    rw [hA, pm_det]
    generalize ((1 / 2 : ℝ) • (S + Sᵀ) + (1 / 10 ^ 8 : ℝ) • (1 : Matrix (Fin N) (Fin N) ℝ)) = A
    split
    · rfl
    · rw [pm_inv]
      have e1 : (fun _ : Fin N => (1 : ℝ)) ⬝ᵥ (pm σ A⁻¹ *ᵥ (mu ∘ σ)) = (fun _ : Fin N => (1 : ℝ)) ⬝ᵥ (A⁻¹ *ᵥ mu) :=
        quad_perm σ A⁻¹ (fun _ => 1) mu
      have e2 : (fun _ : Fin N => (1 : ℝ)) ⬝ᵥ (pm σ A⁻¹ *ᵥ (fun _ : Fin N => (1 : ℝ))) = (fun _ : Fin N => (1 : ℝ)) ⬝ᵥ (A⁻¹ *ᵥ fun _ => 1) :=
        quad_perm σ A⁻¹ (fun _ => 1) (fun _ => 1)
      rw [e1, e2]
      generalize ((fun _ : Fin N => (1 : ℝ)) ⬝ᵥ (A⁻¹ *ᵥ mu)) / ((fun _ : Fin N => (1 : ℝ)) ⬝ᵥ (A⁻¹ *ᵥ fun _ => 1)) = g
      have e3 : (fun i => (mu ∘ σ) i - g) ⬝ᵥ (pm σ A⁻¹ *ᵥ (fun i => (mu ∘ σ) i - g)) = (fun i => mu i - g) ⬝ᵥ (A⁻¹ *ᵥ fun i => mu i - g) :=
        quad_perm σ A⁻¹ (fun i => mu i - g) (fun i => mu i - g)
      rw [e3]
      rfl

/-- Reordered James–Stein target. -/
def pTarget : JsTarget N → JsTarget N
  | .custom t => .custom (t ∘ σ)
  | t => t

theorem jsTarget_perm (mu : Fin N → ℝ) (t : JsTarget N) : jsTarget (mu ∘ σ) (pTarget σ t) = (jsTarget mu t).map (· ∘ σ) := by
  cases t with
  | grandMean =>
    show Except.ok _ = Except.ok _
    congr 1
    ext i
    simp only [Function.comp]
    rw [sum_perm σ mu]
  | custom t => rfl
  | otherString => rfl

theorem jsShrink_perm (n : ℤ) (G : Matrix (Fin N) (Fin N) ℝ) (d : Fin N → ℝ) : jsShrink n (pm σ G) (d ∘ σ) = jsShrink n G d := by
  unfold jsShrink
  have : (d ∘ σ) ⬝ᵥ (((n : ℝ) • pm σ G) *ᵥ (d ∘ σ)) = d ⬝ᵥ (((n : ℝ) • G) *ᵥ d) := quad_perm σ ((n : ℝ) • G) d d
  simp only [this]

theorem jamesStein_perm {pinv pinv' : Matrix (Fin N) (Fin N) ℝ → Matrix (Fin N) (Fin N) ℝ} (hp : ∀ A, pinv' (pm σ A) = pm σ (pinv A))
    (mu : Fin N → ℝ) (S : Matrix (Fin N) (Fin N) ℝ) (n : ℤ) (t : JsTarget N) :
    shrinkMeanJamesStein pinv' (mu ∘ σ) (pm σ S) n (pTarget σ t) = (shrinkMeanJamesStein pinv mu S n t).map (· ∘ σ) := by
  unfold shrinkMeanJamesStein
  split
  · rfl
  · rw [jsTarget_perm]
    cases jsTarget mu t with
    | error e => rfl
    | ok t =>
      simp only [Except.map]
      rw [pm_half, guard_perm]
      cases ensurePsd ((1 / 2 : ℝ) • (S + Sᵀ)) defaultJitter with
      | error e => rfl
      | ok C =>
        simp only [Except.map]
        rw [hp]
        have := jsShrink_perm σ n (pinv C) (fun i => mu i - t i)
        congr 1
        ext i
        simp only [Function.comp]
        rw [← this]
        rfl

/-! ## Shrunk covariances -/

theorem colMean_perm (X : Fin T → Fin N → ℝ) : colMean (px σ X) = colMean X ∘ σ := rfl
theorem centred_perm (X : Fin T → Fin N → ℝ) : centred (px σ X) = px σ (centred X) := rfl
theorem secondMoment_perm (X : Fin T → Fin N → ℝ) : secondMoment (px σ X) = pm σ (secondMoment X) := rfl
theorem npCov1_perm (X : Fin T → Fin N → ℝ) : npCov1 (px σ X) = pm σ (npCov1 X) := rfl

theorem lwIdentity_perm (S : Matrix (Fin N) (Fin N) ℝ) : lwIdentity (pm σ S) = pm σ (lwIdentity S) := by
  unfold lwIdentity
  rw [pm_trace, pm_smul, pm_one]

theorem lwRbar_perm (S : Matrix (Fin N) (Fin N) ℝ) : lwRbar (pm σ S) = lwRbar S := by
  unfold lwRbar
  rw [← sum2_perm σ (fun i j => S i j / (Real.sqrt (S i i) * Real.sqrt (S j j)))]
  rfl

theorem lwConstCorr_perm (S : Matrix (Fin N) (Fin N) ℝ) : lwConstCorr (pm σ S) = pm σ (lwConstCorr S) := by
  ext i j
  simp only [lwConstCorr, of_apply, submatrix_apply, lwRbar_perm, σ.injective.eq_iff]

theorem lwPi_perm (X : Fin T → Fin N → ℝ) (S : Matrix (Fin N) (Fin N) ℝ) : lwPi (px σ X) (pm σ S) = pm σ (lwPi X S) := rfl

theorem lwPiHat_perm (P : Matrix (Fin N) (Fin N) ℝ) : lwPiHat (pm σ P) = lwPiHat P := by
  unfold lwPiHat
  rw [← sum2_perm σ (fun i j => P i j)]
  rfl

theorem lwRho_perm (b : Bool) (P F : Matrix (Fin N) (Fin N) ℝ) : lwRho b (pm σ P) (pm σ F) = lwRho b P F := by
  unfold lwRho
  rw [pm_trace, lwPiHat_perm, ← sum2_perm σ (fun i j => if i = j then 0 else F i j)]
  simp only [σ.injective.eq_iff, submatrix_apply]

theorem lwGamma_perm (S F : Matrix (Fin N) (Fin N) ℝ) : lwGamma (pm σ S) (pm σ F) = lwGamma S F :=
  sum2_perm σ (fun i j => (S i j - F i j) ^ 2)

theorem lwBlend_perm (d : Option ℝ) (F S : Matrix (Fin N) (Fin N) ℝ) : lwBlend d (pm σ F) (pm σ S) = (lwBlend d F S).map (pm σ) := by
  cases d with
  | none => rfl
  | some d =>
    unfold lwBlend
    have : d • pm σ F + (1 - d) • pm σ S = pm σ (d • F + (1 - d) • S) := rfl
    simp only
    rw [this, guard_perm]
    cases ensurePsd (d • F + (1 - d) • S) defaultJitter <;> rfl

theorem ledoitWolf_perm (X : Fin T → Fin N → ℝ) (S : Matrix (Fin N) (Fin N) ℝ) (t : LwTarget) :
    shrinkLedoitWolf (px σ X) (pm σ S) t = (shrinkLedoitWolf X S t).map (pm σ) := by
  unfold shrinkLedoitWolf
  split
  · rfl
  · simp only
    rw [pm_half, centred_perm, lwPi_perm]
    generalize (1 / 2 : ℝ) • (S + Sᵀ) = S
    generalize lwPi (centred X) S = P
    cases t with
    | identity =>
      simp only
      rw [lwIdentity_perm, lwPiHat_perm, lwRho_perm, lwGamma_perm, lwBlend_perm]
    | constantCorrelation =>
      simp only
      have : ((∀ i, 0 < pm σ S i i) ∧ N ≠ 1) ↔ ((∀ i, 0 < S i i) ∧ N ≠ 1) :=
        and_congr_left fun _ => ⟨fun h i => by simpa using h (σ.symm i), fun h i => h (σ i)⟩
      by_cases hc : (∀ i, 0 < S i i) ∧ N ≠ 1
      · rw [if_pos hc, if_pos (this.2 hc), lwConstCorr_perm, lwPiHat_perm, lwRho_perm, lwGamma_perm, lwBlend_perm]
      · rw [if_neg hc, if_neg (fun h => hc (this.1 h))]
        rfl
    | otherString => rfl

theorem oasShrinkage_perm (n : ℕ) (C : Matrix (Fin N) (Fin N) ℝ) : oasShrinkage n (pm σ C) = oasShrinkage n C := by
  unfold oasShrinkage
  have : ∑ i, ∑ j, (pm σ C) i j ^ 2 = ∑ i, ∑ j, C i j ^ 2 := sum2_perm σ (fun i j => C i j ^ 2)
  simp only [this, pm_trace]

theorem oasBlend_perm (s : ℝ) (C : Matrix (Fin N) (Fin N) ℝ) : oasBlend s (pm σ C) = pm σ (oasBlend s C) := by
  unfold oasBlend
  rw [pm_trace, pm_add, pm_smul _ (s * (C.trace / N)), pm_one, pm_smul]

theorem oas_perm (X : Fin T → Fin N → ℝ) (c : Bool) : shrinkOas (px σ X) c = (shrinkOas X c).map (pm σ) := by
  unfold shrinkOas
  split
  · rfl
  · simp only
    have : (if c = true then px σ X else centred (px σ X)) = px σ (if c = true then X else centred X) := by
      cases c <;> rfl
    rw [this, secondMoment_perm]
    split
    · rfl
    · rw [oasShrinkage_perm, oasBlend_perm, guard_perm]

theorem vecMulVec_perm (r : Fin N → ℝ) : vecMulVec (r ∘ σ) (r ∘ σ) = pm σ (vecMulVec r r) := rfl

theorem ewma_foldl_perm (lam : ℝ) (rows : List (Fin N → ℝ)) (C : Matrix (Fin N) (Fin N) ℝ) :
    (rows.map (· ∘ σ)).foldl (ewmaStep lam) (pm σ C) = pm σ (rows.foldl (ewmaStep lam) C) := by
  induction rows generalizing C with
  | nil => rfl
  | cons r rows ih =>
    simp only [List.map_cons, List.foldl_cons]
    rw [← ih]
    rfl

theorem ewma_perm (rows : List (Fin N → ℝ)) (span minPeriods : ℤ) :
    covarianceEwma (rows.map (· ∘ σ)) span minPeriods = (covarianceEwma rows span minPeriods).map (pm σ) := by
  unfold covarianceEwma
  simp only [List.length_map]
  split
  · rfl
  · split
    · rfl
    · cases rows with
      | nil => rfl
      | cons r rest =>
        simp only [List.map_cons]
        rw [vecMulVec_perm, ewma_foldl_perm]
        rfl

/-! ## Tyler -/

theorem frob_perm (A : Matrix (Fin N) (Fin N) ℝ) : frob (pm σ A) = frob A := by
  unfold frob
  rw [← sum2_perm σ (fun i j => A i j ^ 2)]
  rfl

theorem tylerWeight_perm (G : Matrix (Fin N) (Fin N) ℝ) (x : Fin N → ℝ) : tylerWeight (pm σ G) (x ∘ σ) = tylerWeight G x := by
  unfold tylerWeight
  rw [quad_perm]

theorem tylerUpdate_perm (G : Matrix (Fin N) (Fin N) ℝ) (X : Fin T → Fin N → ℝ) :
    tylerUpdate (pm σ G) (px σ X) = (tylerUpdate G X).map (pm σ) := by
  unfold tylerUpdate
  have hw : ∀ t, tylerWeight (pm σ G) (px σ X t) = tylerWeight G (X t) := fun t => tylerWeight_perm σ G (X t)
  simp only [hw]
  have hU : (Matrix.of fun i j => (∑ t, (px σ X t i * Real.sqrt (tylerWeight G (X t))) * (px σ X t j * Real.sqrt (tylerWeight G (X t)))) / (T : ℝ))
      = pm σ (Matrix.of fun i j => (∑ t, (X t i * Real.sqrt (tylerWeight G (X t))) * (X t j * Real.sqrt (tylerWeight G (X t)))) / (T : ℝ)) := rfl
  rw [hU, pm_half, pm_trace]
  split <;> rfl

theorem tylerLoop_perm {pinv pinv' : Matrix (Fin N) (Fin N) ℝ → Matrix (Fin N) (Fin N) ℝ} (hp : ∀ A, pinv' (pm σ A) = pm σ (pinv A))
    (X : Fin T → Fin N → ℝ) (s tol : ℝ) (F : Matrix (Fin N) (Fin N) ℝ) (n : ℕ) (C : Matrix (Fin N) (Fin N) ℝ) :
    tylerLoop pinv' (px σ X) s tol (pm σ F) n (pm σ C) = (tylerLoop pinv X s tol F n C).map (pm σ) := by
  induction n generalizing C with
  | zero => rfl
  | succ n ih =>
    unfold tylerLoop
    rw [hp, tylerUpdate_perm]
    cases tylerUpdate (pinv C) X with
    | error e => rfl
    | ok U =>
      simp only [Except.map]
      have hU : (if 0 < s then (1 - s) • pm σ U + s • pm σ F else pm σ U) = pm σ (if 0 < s then (1 - s) • U + s • F else U) := by
        split <;> rfl
      rw [hU, ← pm_sub, frob_perm, frob_perm, ih]
      generalize (if 0 < s then (1 - s) • U + s • F else U) = U'
      by_cases hc : frob (U' - C) / max (frob C) (1 / 10 ^ 12) ≤ tol
      · rw [if_pos hc, if_pos hc]
      · rw [if_neg hc, if_neg hc]
        rfl

theorem tylerTarget_perm (sh : ℝ) (target : Option (Matrix (Fin N) (Fin N) ℝ)) :
    tylerTarget sh (target.map (pm σ)) = (tylerTarget sh target).map (pm σ) := by
  cases target with
  | none =>
    show Except.ok _ = Except.ok (pm σ _)
    rw [pm_smul, pm_one]
  | some A =>
    unfold tylerTarget
    simp only [Option.map_some]
    rw [pm_half, guard_perm]
    cases ensurePsd ((1 / 2 : ℝ) • (A + Aᵀ)) defaultJitter with
    | error e => rfl
    | ok B =>
      simp only [Except.map]
      rw [pm_trace]
      split
      · rfl
      · rfl

theorem tylerTraceTarget_perm (S : Matrix (Fin N) (Fin N) ℝ) : tylerTraceTarget (pm σ S) = tylerTraceTarget S := by
  unfold tylerTraceTarget
  rw [pm_trace]

theorem tyler_perm {pinv pinv' : Matrix (Fin N) (Fin N) ℝ → Matrix (Fin N) (Fin N) ℝ} (hp : ∀ A, pinv' (pm σ A) = pm σ (pinv A))
    (X : Fin T → Fin N → ℝ) (s tol : ℝ) (target : Option (Matrix (Fin N) (Fin N) ℝ)) (maxIter : ℤ) (guard : Bool) :
    tyler pinv' (px σ X) s tol (target.map (pm σ)) maxIter guard = (tyler pinv X s tol target maxIter guard).map (pm σ) := by
  unfold tyler
  split
  · rfl
  split
  · rfl
  split
  · rfl
  rw [centred_perm, npCov1_perm, guard_perm, tylerTarget_perm]
  cases ensurePsd (npCov1 (centred X)) defaultJitter with
  | error e => rfl
  | ok S =>
    cases tylerTarget s target with
    | error e => rfl
    | ok F =>
      simp only [Except.map]
      split
      · rfl
      · rw [tylerTraceTarget_perm, ← pm_smul, tylerLoop_perm σ hp]
        cases tylerLoop pinv (centred X) s tol F maxIter.toNat (((N : ℝ) / tylerTraceTarget S) • S) with
        | error e => rfl
        | ok C =>
          simp only [Except.map]
          rw [← pm_smul, pm_half, guard_perm]
          cases guard <;> rfl

/-! ## Graphical lasso -/

/-- A function of a symmetric matrix does not depend on the eigen-decomposition used. -/
theorem func_unique {V W : Matrix (Fin N) (Fin N) ℝ} {d e : Fin N → ℝ} (hV : V * Vᵀ = 1) (hW : W * Wᵀ = 1)
    (h : V * diagonal d * Vᵀ = W * diagonal e * Wᵀ) (f g : Fin N → ℝ) (hfg : ∀ i j, d j = e i → f j = g i) :
    V * diagonal f * Vᵀ = W * diagonal g * Wᵀ := by
  have hV' : Vᵀ * V = 1 := mul_eq_one_comm.1 hV
  have hW' : Wᵀ * W = 1 := mul_eq_one_comm.1 hW
  set M := Wᵀ * V with hM
  have h1 : M * diagonal d = diagonal e * M := by
    have := congrArg (fun Z => Wᵀ * Z * V) h
    calc M * diagonal d = Wᵀ * V * diagonal d * (Vᵀ * V) := by rw [hV', Matrix.mul_one]
      _ = Wᵀ * (V * diagonal d * Vᵀ) * V := by simp only [Matrix.mul_assoc]
      _ = Wᵀ * (W * diagonal e * Wᵀ) * V := this
      _ = (Wᵀ * W) * diagonal e * (Wᵀ * V) := by simp only [Matrix.mul_assoc]
      _ = diagonal e * M := by rw [hW', Matrix.one_mul]
  have h2 : M * diagonal f = diagonal g * M := by
    ext i j
    have := congrFun (congrFun h1 i) j
    rw [mul_diagonal, diagonal_mul] at this ⊢
    by_cases h0 : M i j = 0
    · rw [h0]; ring
    · have : d j = e i := by
        have h3 : M i j * (d j - e i) = 0 := by rw [mul_sub]; linarith
        rcases mul_eq_zero.1 h3 with h4 | h4
        · exact absurd h4 h0
        · linarith
      rw [hfg i j this]; ring
  calc V * diagonal f * Vᵀ = (W * Wᵀ) * V * diagonal f * Vᵀ := by rw [hW, Matrix.one_mul]
    _ = W * (M * diagonal f) * Vᵀ := by rw [hM]; simp only [Matrix.mul_assoc]
    _ = W * (diagonal g * M) * Vᵀ := by rw [h2]
    _ = W * diagonal g * Wᵀ * (V * Vᵀ) := by rw [hM]; simp only [Matrix.mul_assoc]
    _ = W * diagonal g * Wᵀ := by rw [hV, Matrix.mul_one]

theorem pm_decomp (V : Matrix (Fin N) (Fin N) ℝ) (f : Fin N → ℝ) :
    pm σ (V * diagonal f * Vᵀ) = V.submatrix σ id * diagonal f * (V.submatrix σ id)ᵀ := by
  ext i j
  show (V * diagonal f * Vᵀ) (σ i) (σ j) = _
  rw [Matrix.mul_assoc, Matrix.mul_assoc, Matrix.mul_apply, Matrix.mul_apply]
  simp [diagonal_mul]

theorem rows_orth {V : Matrix (Fin N) (Fin N) ℝ} (hV : V * Vᵀ = 1) : V.submatrix σ id * (V.submatrix σ id)ᵀ = 1 := by
  have := pm_decomp σ V (fun _ => 1)
  rw [diagonal_one, Matrix.mul_one, Matrix.mul_one, hV, pm_one] at this
  exact this.symm

/-- Two eigen-solvers agree, up to the reordering, on every function of a symmetric matrix. -/
theorem eigh_func_perm {eigh eigh' : Eigh N} (he : IsEigh eigh) (he' : IsEigh eigh') {A : Matrix (Fin N) (Fin N) ℝ} (hA : Aᵀ = A)
    (f g : Fin N → ℝ) (hfg : ∀ i j, (eigh' (pm σ A)).1 j = (eigh A).1 i → f j = g i) :
    (eigh' (pm σ A)).2 * diagonal f * ((eigh' (pm σ A)).2)ᵀ = pm σ ((eigh A).2 * diagonal g * ((eigh A).2)ᵀ) := by
  obtain ⟨h1, h2⟩ := he A hA
  obtain ⟨h1', h2'⟩ := he' (pm σ A) (by rw [← pm_transpose, hA])
  rw [pm_decomp]
  refine func_unique h1' (rows_orth σ h1) ?_ f g hfg
  rw [← h2', ← pm_decomp, ← h2]

theorem admmTheta_perm {eigh eigh' : Eigh N} (he : IsEigh eigh) (he' : IsEigh eigh') (rho : ℝ) {S Z U : Matrix (Fin N) (Fin N) ℝ}
    (hS : Sᵀ = S) (hZ : Zᵀ = Z) (hU : Uᵀ = U) :
    admmTheta eigh' rho (pm σ S) (pm σ Z) (pm σ U) = pm σ (admmTheta eigh rho S Z U) := by
  unfold admmTheta
  simp only
  have hK : rho • (pm σ Z - pm σ U) - pm σ S = pm σ (rho • (Z - U) - S) := rfl
  have hKt : (rho • (Z - U) - S)ᵀ = rho • (Z - U) - S := by simp [hS, hZ, hU]
  rw [hK]
  generalize rho • (Z - U) - S = K at hKt ⊢
  have e1 : ∀ (V : Matrix (Fin N) (Fin N) ℝ) (d : Fin N → ℝ), Matrix.of (fun i j => V i j * d j) = V * diagonal d := by
    intro V d; ext i j; simp [mul_diagonal]
  rw [e1, e1, eigh_func_perm σ he he' hKt _ (fun l => ((eigh K).1 l + Real.sqrt (max ((eigh K).1 l ^ 2 + 4 * rho) 0)) / (2 * rho))
    (fun i j h => by simp only [h]), pm_half]

theorem softOff_perm (tau : ℝ) (A : Matrix (Fin N) (Fin N) ℝ) : softOff tau (pm σ A) = pm σ (softOff tau A) := by
  ext i j
  simp only [softOff, of_apply, submatrix_apply, σ.injective.eq_iff]

theorem admmDone_perm (rho tol : ℝ) (A Z Z' U : Matrix (Fin N) (Fin N) ℝ) :
    admmDone rho tol (pm σ A) (pm σ Z) (pm σ Z') (pm σ U) ↔ admmDone rho tol A Z Z' U := by
  unfold admmDone
  rw [← pm_sub, ← pm_sub, ← pm_smul, ← pm_smul, frob_perm, frob_perm, frob_perm, frob_perm, frob_perm]

theorem theta_symm (eigh : Eigh N) (rho : ℝ) (S Z U : Matrix (Fin N) (Fin N) ℝ) :
    (admmTheta eigh rho S Z U)ᵀ = admmTheta eigh rho S Z U := Psd.half_symm _

theorem admmLoop_perm {eigh eigh' : Eigh N} (he : IsEigh eigh) (he' : IsEigh eigh') {S : Matrix (Fin N) (Fin N) ℝ} (hS : Sᵀ = S)
    (alpha rho tol : ℝ) (n : ℕ) {Z U : Matrix (Fin N) (Fin N) ℝ} (hZ : Zᵀ = Z) (hU : Uᵀ = U) :
    admmLoop eigh' (pm σ S) alpha rho tol n (pm σ Z) (pm σ U) = (admmLoop eigh S alpha rho tol n Z U).map (pm σ) := by
  induction n generalizing Z U with
  | zero => rfl
  | succ n ih =>
    unfold admmLoop
    simp only
    rw [admmTheta_perm σ he he' rho hS hZ hU]
    have hT := theta_symm eigh rho S Z U
    generalize admmTheta eigh rho S Z U = Th at hT ⊢
    rw [← pm_add, softOff_perm]
    have hX : (Th + U)ᵀ = Th + U := by simp [hT, hU]
    have hZ' := softOff_transpose (tau := alpha / rho) hX
    generalize softOff (alpha / rho) (Th + U) = Z' at hZ' ⊢
    have e : pm σ U + pm σ Th - pm σ Z' = pm σ (U + Th - Z') := rfl
    rw [e]
    by_cases hd : admmDone rho tol Th Z' Z (U + Th - Z')
    · rw [if_pos hd, if_pos ((admmDone_perm σ rho tol _ _ _ _).2 hd)]
      rfl
    · rw [if_neg hd, if_neg (fun h => hd ((admmDone_perm σ rho tol _ _ _ _).1 h))]
      exact ih hZ' (by simp [hT, hU, hZ'])

/-- Reordered pair. -/
abbrev pp (cp : Matrix (Fin N) (Fin N) ℝ × Matrix (Fin N) (Fin N) ℝ) : Matrix (Fin N) (Fin N) ℝ × Matrix (Fin N) (Fin N) ℝ :=
  (pm σ cp.1, pm σ cp.2)

section glasso

variable {eigh eigh' : Eigh N} (he : IsEigh eigh) (he' : IsEigh eigh')
  {pinv pinv' : Matrix (Fin N) (Fin N) ℝ → Matrix (Fin N) (Fin N) ℝ} (hp : ∀ A, pinv' (pm σ A) = pm σ (pinv A))

include he he' hp

theorem admm_perm {S : Matrix (Fin N) (Fin N) ℝ} (hS : Sᵀ = S) (alpha : ℝ) :
    admm eigh' pinv' (pm σ S) alpha = (admm eigh pinv S alpha).map (pp σ) := by
  unfold admm
  have hA : pm σ S + alpha • (1 : Matrix (Fin N) (Fin N) ℝ) = pm σ (S + alpha • 1) := by rw [pm_add, pm_smul, pm_one]
  rw [hA, pm_det]
  have hAt : ((S + alpha • (1 : Matrix (Fin N) (Fin N) ℝ))⁻¹)ᵀ = (S + alpha • (1 : Matrix (Fin N) (Fin N) ℝ))⁻¹ := by
    rw [transpose_nonsing_inv]; simp [hS]
  split
  · rfl
  · have h0 := admmLoop_perm σ he he' hS alpha 1 (1 / 10 ^ 4) 200 hAt (U := 0) transpose_zero
    rw [pm_zero] at h0
    rw [pm_inv, h0]
    cases admmLoop eigh S alpha 1 (1 / 10 ^ 4) 200 (S + alpha • 1)⁻¹ 0 with
    | error e => rfl
    | ok P =>
      simp only [Except.map]
      rw [pm_det]
      have e : (if P.det = 0 then pinv' (pm σ P) else (pm σ P)⁻¹) = pm σ (if P.det = 0 then pinv P else P⁻¹) := by
        split
        · rw [hp]
        · rw [pm_inv]
      rw [e, guard_perm]
      cases ensurePsd (if P.det = 0 then pinv P else P⁻¹) defaultJitter <;> rfl

omit he he' hp in
theorem partMoment_perm (X : Fin T → Fin N → ℝ) (sel : Fin T → Prop) : partMoment (px σ X) sel = pm σ (partMoment X sel) := rfl

omit he he' hp in
theorem partMoment_symm (X : Fin T → Fin N → ℝ) (sel : Fin T → Prop) : (partMoment X sel)ᵀ = partMoment X sel := by
  ext i j
  simp only [partMoment, transpose_apply, of_apply]
  congr 1
  exact Finset.sum_congr rfl fun t _ => by split <;> ring

theorem foldScore_perm (X : Fin T → Fin N → ℝ) (K : ℕ) (alpha : ℝ) (fold : ℕ) :
    foldScore eigh' pinv' (px σ X) K alpha fold = foldScore eigh pinv X K alpha fold := by
  unfold foldScore
  rw [partMoment_perm, partMoment_perm, admm_perm σ he he' hp (partMoment_symm X _)]
  cases admm eigh pinv (partMoment X fun t => (t : ℕ) % K ≠ fold) alpha with
  | error e => rfl
  | ok cp =>
    simp only [Except.map]
    rw [pm_det, ← pm_mul, pm_trace]

theorem cvScore_perm (X : Fin T → Fin N → ℝ) (alpha : ℝ) : cvScore eigh' pinv' (px σ X) alpha = cvScore eigh pinv X alpha := by
  unfold cvScore
  have : foldScore eigh' pinv' (px σ X) (min 5 T) alpha = foldScore eigh pinv X (min 5 T) alpha :=
    funext (foldScore_perm σ he he' hp X (min 5 T) alpha)
  rw [this]

omit he he' hp in
theorem alphaMax_perm (S : Matrix (Fin N) (Fin N) ℝ) : alphaMax (pm σ S) = alphaMax S := by
  unfold alphaMax
  congr 1
  refine Equiv.iSup_congr (σ.prodCongr σ) fun ij => ?_
  simp [σ.injective.eq_iff]

omit he he' hp in
theorem alphaGrid_perm (S : Matrix (Fin N) (Fin N) ℝ) : alphaGrid (pm σ S) = alphaGrid S := by
  unfold alphaGrid
  rw [alphaMax_perm]

theorem chooseAlpha_perm (X : Fin T → Fin N → ℝ) (a : GlassoAlpha) :
    chooseAlpha eigh' pinv' (px σ X) a = chooseAlpha eigh pinv X a := by
  cases a with
  | num a => rfl
  | auto =>
    unfold chooseAlpha
    have : cvScore eigh' pinv' (px σ X) = cvScore eigh pinv X := funext (cvScore_perm σ he he' hp X)
    rw [this, secondMoment_perm, alphaGrid_perm]

omit he he' hp in
theorem secondMoment_symm (X : Fin T → Fin N → ℝ) : (secondMoment X)ᵀ = secondMoment X := by
  ext i j
  simp only [secondMoment, transpose_apply, of_apply]
  congr 1
  exact Finset.sum_congr rfl fun t _ => by ring

theorem glasso_perm (X : Fin T → Fin N → ℝ) (a : GlassoAlpha) (c : Bool) :
    glasso eigh' pinv' (px σ X) a c = (glasso eigh pinv X a c).map (pp σ) := by
  unfold glasso
  have : glassoData (px σ X) c = px σ (glassoData X c) := by cases c <;> rfl
  rw [this, chooseAlpha_perm σ he he' hp]
  split
  · rfl
  · cases chooseAlpha eigh pinv (glassoData X c) a with
    | error e => rfl
    | ok a =>
      simp only
      rw [secondMoment_perm, admm_perm σ he he' hp (secondMoment_symm _)]

end glasso

/-! ## Column-wise means -/

theorem huber_perm (tol : ℝ) (n : ℕ) (X : Fin T → Fin N → ℝ) : huberMean tol n (px σ X) = huberMean tol n X ∘ σ := rfl

theorem mom_perm (perm : Equiv.Perm (Fin T)) (b : Blocks) (X : Fin T → Fin N → ℝ) :
    momMean perm b (px σ X) = (momMean perm b X).map (· ∘ σ) := by
  unfold momMean
  cases momBlocks T b <;> rfl

end PyV.Equi
