import Verif.Lemmas.Glasso
import Verif.Lemmas.Ensembles
import Verif.Lemmas.Moments
import Mathlib.Analysis.InnerProductSpace.Basic
import Mathlib.Tactic.Linarith

/-! # C125: graphical lasso (`sparse_precision_glasso`) -/

namespace PyV.Props

open PyV PyV.Mom PyV.Valid PyV.Psd Matrix

variable {N T : ℕ} {eigh : Eigh N} {pinv : Matrix (Fin N) (Fin N) ℝ → Matrix (Fin N) (Fin N) ℝ}

/-- The penalised likelihood the graphical lasso minimises over positive definite matrices (Friedman et al., diagonal not penalised). -/
noncomputable def lassoObjective (S : Matrix (Fin N) (Fin N) ℝ) (alpha : ℝ) (P : Matrix (Fin N) (Fin N) ℝ) : ℝ :=
  -Real.log P.det + (S * P).trace + alpha * ∑ i, ∑ j, if i = j then 0 else |P i j|

/-- The matrix fitted: `(1/T) Σ_t x_t x_tᵀ` of the rows, centred unless `assume_centered`. -/
noncomputable def fitted (R : Fin T → Fin N → ℝ) (assumeCentered : Bool) : Matrix (Fin N) (Fin N) ℝ :=
  Matrix.of fun i j => (∑ t, (R t i - if assumeCentered then 0 else (∑ s, R s i) / T) * (R t j - if assumeCentered then 0 else (∑ s, R s j) / T)) / T

theorem fitted_eq (R : Fin T → Fin N → ℝ) (b : Bool) : secondMoment (glassoData R b) = fitted R b := by
  ext i j
  cases b <;> simp [secondMoment, glassoData, fitted, centred, colMean]

theorem fitted_psd (R : Fin T → Fin N → ℝ) (b : Bool) : (secondMoment (glassoData R b)).PosSemidef := secondMoment_psd _

theorem frob_sq (A : Matrix (Fin N) (Fin N) ℝ) : frob A ^ 2 = ∑ i, ∑ j, A i j ^ 2 :=
  Real.sq_sqrt (Finset.sum_nonneg fun i _ => Finset.sum_nonneg fun j _ => sq_nonneg _)

theorem frob_nonneg (A : Matrix (Fin N) (Fin N) ℝ) : 0 ≤ frob A := Real.sqrt_nonneg _

theorem entry_le_frob (A : Matrix (Fin N) (Fin N) ℝ) (i j : Fin N) : |A i j| ≤ frob A := by
  unfold frob
  rw [← Real.sqrt_sq_eq_abs]
  apply Real.sqrt_le_sqrt
  calc A i j ^ 2 ≤ ∑ j, A i j ^ 2 := Finset.single_le_sum (f := fun j => A i j ^ 2) (fun _ _ => sq_nonneg _) (Finset.mem_univ j)
    _ ≤ _ := Finset.single_le_sum (f := fun i => ∑ j, A i j ^ 2) (fun _ _ => Finset.sum_nonneg fun _ _ => sq_nonneg _) (Finset.mem_univ i)

theorem frob_le {A : Matrix (Fin N) (Fin N) ℝ} {c : ℝ} (hc : 0 ≤ c) (h : ∀ i j, |A i j| ≤ c) : frob A ≤ c * N := by
  unfold frob
  apply Real.sqrt_le_iff.2
  refine ⟨by positivity, ?_⟩
  calc ∑ i, ∑ j, A i j ^ 2 ≤ ∑ _i : Fin N, ∑ _j : Fin N, c ^ 2 := by
        refine Finset.sum_le_sum fun i _ => Finset.sum_le_sum fun j _ => ?_
        rw [← sq_abs]
        exact pow_le_pow_left₀ (abs_nonneg _) (h i j) 2
    _ = (c * N) ^ 2 := by simp; ring

/-- Cauchy–Schwarz for the entrywise inner product. -/
theorem frob_inner (A B : Matrix (Fin N) (Fin N) ℝ) : |∑ i, ∑ j, A i j * B i j| ≤ frob A * frob B := by
  have h := Finset.sum_mul_sq_le_sq_mul_sq (Finset.univ : Finset (Fin N × Fin N)) (fun q => A q.1 q.2) (fun q => B q.1 q.2)
  simp only [Fintype.sum_prod_type] at h
  rw [← frob_sq, ← frob_sq, ← mul_pow] at h
  exact abs_le_of_sq_le_sq h (mul_nonneg (frob_nonneg _) (frob_nonneg _))

theorem frob_triangle (A B : Matrix (Fin N) (Fin N) ℝ) : frob (A + B) ≤ frob A + frob B := by
  have h := frob_inner A B
  apply le_of_sq_le_sq _ (add_nonneg (frob_nonneg _) (frob_nonneg _))
  have : frob (A + B) ^ 2 = frob A ^ 2 + 2 * (∑ i, ∑ j, A i j * B i j) + frob B ^ 2 := by
    rw [frob_sq, frob_sq, frob_sq]
    simp only [Matrix.add_apply, Finset.mul_sum, ← Finset.sum_add_distrib]
    exact Finset.sum_congr rfl fun i _ => Finset.sum_congr rfl fun j _ => by ring
  rw [this]
  nlinarith [le_abs_self (∑ i, ∑ j, A i j * B i j)]

/-- Optimality conditions of the graphical lasso with residuals: `cov` is the inverse of `P`; `cov = S + G + E` where `G` is `alpha`
times a subgradient of the off-diagonal L1 norm at `Z`, `Z` is close to `P` and `E` is small. With `E = 0` and `Z = P` these are the
exact conditions. -/
structure NearKkt (S : Matrix (Fin N) (Fin N) ℝ) (alpha : ℝ) (cov P Z G E : Matrix (Fin N) (Fin N) ℝ) (e r : ℝ) : Prop where
  split : cov = S + G + E
  diag : ∀ i, G i i = 0
  bound : ∀ i j, |G i j| ≤ alpha
  sign : ∀ i j, i ≠ j → Z i j ≠ 0 → G i j = alpha * Real.sign (Z i j)
  resid : frob E ≤ e
  close : frob (P - Z) ≤ r

theorem admm_ok {S : Matrix (Fin N) (Fin N) ℝ} (he : IsEigh eigh) (hS : S.PosSemidef) {alpha : ℝ} (ha : 0 < alpha)
    {cov P : Matrix (Fin N) (Fin N) ℝ} (h : admm eigh pinv S alpha = .ok (cov, P)) :
    P.PosDef ∧ cov = P⁻¹ ∧ cov.PosDef ∧ ∃ Z G E, NearKkt S alpha cov P Z G E (1 / 10 ^ 4 * (Real.sqrt N + alpha * N))
      (2 / 10 ^ 4 * (Real.sqrt N + frob P)) := by
  have hSt : Sᵀ = S := by
    have := hS.isHermitian
    rwa [IsHermitian, conjTranspose_eq_transpose_of_trivial] at this
  unfold admm at h
  split at h
  · cases h
  split at h
  · cases h
  rename_i prec hl
  have hZ0 : ((S + alpha • (1 : Matrix (Fin N) (Fin N) ℝ))⁻¹)ᵀ = (S + alpha • 1)⁻¹ := by
    rw [transpose_nonsing_inv]; simp [hSt]
  obtain ⟨hp, Z1, Z0, G, h1, h2, h3, h4, h5, h6⟩ := admmLoop_spec he hSt one_pos ha.le hZ0 (by simp) hl
  rw [if_neg hp.det_pos.ne', ensurePsd_of_psd hp.inv.posSemidef (by norm_num [defaultJitter])] at h
  simp only at h
  injection h with h
  injection h with e1 e2
  subst e1; subst e2
  refine ⟨hp, rfl, hp.inv, Z1, G, Z1 - Z0, ?_, h2, ?_, ?_, ?_, ?_⟩
  · rw [h1, one_smul, add_assoc]
  · simpa using h3
  · simpa using h4
  · rw [one_smul, one_smul] at h6
    have := frob_le ha.le (A := G) (by simpa using h3)
    calc _ ≤ _ := h6
      _ ≤ _ := by linarith
  · have t : frob Z1 ≤ frob prec + frob (prec - Z1) := by
      have e : Z1 = prec + -(prec - Z1) := by abel
      have hneg : frob (-(prec - Z1)) = frob (prec - Z1) := by unfold frob; simp only [Matrix.neg_apply, neg_sq]
      calc frob Z1 = frob (prec + -(prec - Z1)) := by rw [← e]
        _ ≤ _ := frob_triangle _ _
        _ = _ := by rw [hneg]
    have hm : max (frob prec) (frob Z1) ≤ frob prec + frob (prec - Z1) :=
      max_le (by linarith [frob_nonneg (prec - Z1)]) t
    have hs := Real.sqrt_nonneg (N : ℝ)
    have hp0 := frob_nonneg prec
    linarith

theorem searchAlpha_spec {score : ℝ → Except PyErr ℝ} : ∀ {l : List ℝ} {b0 best : Option (ℝ × ℝ)},
    searchAlpha score l b0 = .ok best →
    (∀ a ∈ l, ∃ s, score a = .ok s) ∧
    (∀ b, best = some b → (b0 = some b ∨ (b.1 ∈ l ∧ score b.1 = .ok b.2)) ∧ (∀ a ∈ l, ∀ s, score a = .ok s → s ≤ b.2 + 1 / 10 ^ 8) ∧
      ∀ c, b0 = some c → c.2 ≤ b.2) ∧
    (best = none → l = [] ∧ b0 = none) := by
  intro l
  induction l with
  | nil =>
    intro b0 best h
    injection h with h
    subst h
    exact ⟨by simp, fun b hb => ⟨.inl hb, by simp, fun c hc => by rw [hb] at hc; injection hc with hc; rw [hc]⟩, fun h => ⟨rfl, h⟩⟩
  | cons a as ih =>
    intro b0 best h
    unfold searchAlpha at h
    split at h
    · cases h
    rename_i s hs
    obtain ⟨i1, i2, i3⟩ := ih h
    have hnew : ∃ c, betterAlpha b0 a s = some c ∧ (b0 = some c ∨ c = (a, s)) ∧ s ≤ c.2 + 1 / 10 ^ 8 ∧ ∀ d, b0 = some d → d.2 ≤ c.2 := by
      unfold betterAlpha
      cases b0 with
      | none => exact ⟨_, rfl, .inr rfl, by norm_num, by simp⟩
      | some b =>
        simp only
        split_ifs with hc
        · refine ⟨_, rfl, .inr rfl, by norm_num, fun d hd => ?_⟩
          injection hd with hd
          subst hd
          have : (0 : ℝ) < 1 / 10 ^ 8 := by norm_num
          simp only
          linarith
        · push Not at hc
          exact ⟨_, rfl, .inl rfl, hc, fun d hd => by injection hd with hd; rw [hd]⟩
    obtain ⟨c, c1, c2, c3, c4⟩ := hnew
    refine ⟨fun x hx => ?_, fun b hb => ?_, fun hn => ?_⟩
    · rcases List.mem_cons.1 hx with rfl | hx
      · exact ⟨s, hs⟩
      · exact i1 x hx
    · obtain ⟨j1, j2, j3⟩ := i2 b hb
      have hcb := j3 c c1
      refine ⟨?_, ?_, fun d hd => (c4 d hd).trans hcb⟩
      · rcases j1 with j1 | j1
        · rw [c1] at j1
          injection j1 with j1
          subst j1
          rcases c2 with c2 | c2
          · exact .inl c2
          · exact .inr ⟨by rw [c2]; exact List.mem_cons_self .., by rw [c2]; exact hs⟩
        · exact .inr ⟨List.mem_cons_of_mem _ j1.1, j1.2⟩
      · intro x hx y hy
        rcases List.mem_cons.1 hx with rfl | hx
        · rw [hs] at hy
          injection hy with hy
          subst hy
          linarith
        · exact j2 x hx y hy
    · have := (i3 hn).2
      rw [c1] at this
      cases this

theorem alphaGrid_pos {S : Matrix (Fin N) (Fin N) ℝ} {a : ℝ} (h : a ∈ alphaGrid S) : 0 < a := by
  obtain ⟨k, -, rfl⟩ := List.mem_map.1 h
  have : 0 < alphaMax S := lt_of_lt_of_le (by norm_num) (le_max_right _ _)
  positivity

theorem choose_auto {X : Fin T → Fin N → ℝ} {a : ℝ} (h : chooseAlpha eigh pinv X .auto = .ok a) :
    a ∈ alphaGrid (secondMoment X) ∧ ∃ s, cvScore eigh pinv X a = .ok s ∧
      ∀ a' ∈ alphaGrid (secondMoment X), ∃ s', cvScore eigh pinv X a' = .ok s' ∧ s' ≤ s + 1 / 10 ^ 8 := by
  unfold chooseAlpha at h
  simp only at h
  split at h
  · cases h
  split at h
  · cases h
  · rename_i hs
    have := ((searchAlpha_spec hs).2.2 rfl).1
    exact absurd this (by simp [alphaGrid, List.range_succ])
  · rename_i b hs
    injection h with h
    subst h
    obtain ⟨h1, h2, -⟩ := searchAlpha_spec hs
    obtain ⟨k1, k2, -⟩ := h2 b rfl
    rcases k1 with k1 | ⟨k1, k3⟩
    · cases k1
    · refine ⟨k1, b.2, k3, fun a' ha' => ?_⟩
      obtain ⟨s', hs'⟩ := h1 a' ha'
      exact ⟨s', hs', k2 a' ha' s' hs'⟩

/-- **C125.** Whatever `glasso` returns comes from a positive penalty: the given one, or one of the five candidates. -/
theorem glasso_alpha {R : Fin T → Fin N → ℝ} {alpha : GlassoAlpha} {b : Bool} {out} (h : glasso eigh pinv R alpha b = .ok out) :
    2 ≤ T ∧ ∃ a, 0 < a ∧ chooseAlpha eigh pinv (glassoData R b) alpha = .ok a ∧ admm eigh pinv (fitted R b) a = .ok out := by
  unfold glasso at h
  split at h
  · cases h
  rename_i hT
  split at h
  · cases h
  rename_i a hc
  refine ⟨by omega, a, ?_, hc, by rw [← fitted_eq]; exact h⟩
  cases alpha with
  | auto => exact alphaGrid_pos (choose_auto hc).1
  | num x =>
    unfold chooseAlpha at hc
    simp only at hc
    split at hc
    · cases hc
    rename_i hx
    injection hc with hc
    subst hc
    exact not_le.1 hx

/-- **C125.** Every estimate the graphical lasso returns is positive definite, the covariance is the inverse of the precision, and the
pair satisfies the optimality conditions of the penalised likelihood up to the stopping tolerance. In particular every variance is the
sample variance up to `1e-4 (sqrt N + alpha N)`, and every covariance is within `alpha` of the sample covariance up to the same amount. -/
theorem C125_conditions (he : IsEigh eigh) {R : Fin T → Fin N → ℝ} {alpha : ℝ} {b : Bool} {cov P : Matrix (Fin N) (Fin N) ℝ}
    (h : glasso eigh pinv R (.num alpha) b = .ok (cov, P)) :
    0 < alpha ∧ P.PosDef ∧ cov.PosDef ∧ cov * P = 1 ∧
      (∃ Z G E, NearKkt (fitted R b) alpha cov P Z G E (1 / 10 ^ 4 * (Real.sqrt N + alpha * N)) (2 / 10 ^ 4 * (Real.sqrt N + frob P))) ∧
      (∀ i, |cov i i - fitted R b i i| ≤ 1 / 10 ^ 4 * (Real.sqrt N + alpha * N)) ∧
      ∀ i j, |cov i j - fitted R b i j| ≤ alpha + 1 / 10 ^ 4 * (Real.sqrt N + alpha * N) := by
  obtain ⟨hT, a, ha, hc, hout⟩ := glasso_alpha h
  have e : a = alpha := by
    unfold chooseAlpha at hc
    simp only at hc
    split at hc
    · cases hc
    injection hc with hc
    exact hc.symm
  subst e
  have hS : (fitted R b).PosSemidef := by rw [← fitted_eq]; exact fitted_psd R b
  obtain ⟨h1, h2, h3, Z, G, E, hk⟩ := admm_ok he hS ha hout
  refine ⟨ha, h1, h3, ?_, ⟨Z, G, E, hk⟩, fun i => ?_, fun i j => ?_⟩
  · rw [h2]; exact nonsing_inv_mul _ (isUnit_iff_ne_zero.2 h1.det_pos.ne')
  · have e : cov i i - fitted R b i i = E i i := by
      rw [hk.split]; simp only [Matrix.add_apply, hk.diag]; ring
    rw [e]
    exact (entry_le_frob E i i).trans hk.resid
  · have e : cov i j - fitted R b i j = G i j + E i j := by
      rw [hk.split]; simp only [Matrix.add_apply]; ring
    rw [e]
    exact (abs_add_le _ _).trans (add_le_add (hk.bound i j) ((entry_le_frob E i j).trans hk.resid))

theorem trace_mul_eq (A B : Matrix (Fin N) (Fin N) ℝ) (hA : Aᵀ = A) : (A * B).trace = ∑ i, ∑ j, A i j * B i j := by
  simp only [Matrix.trace, Matrix.diag, Matrix.mul_apply]
  rw [Finset.sum_comm]
  refine Finset.sum_congr rfl fun i _ => Finset.sum_congr rfl fun j _ => ?_
  rw [← congrFun (congrFun hA j) i]
  rfl

/-- Near-optimality from the conditions. -/
theorem near_optimal {S cov P Z G E Q : Matrix (Fin N) (Fin N) ℝ} {alpha e r : ℝ} (ha : 0 ≤ alpha) (hP : P.PosDef) (hcov : cov = P⁻¹)
    (hSt : Sᵀ = S) (hk : NearKkt S alpha cov P Z G E e r) (hQ : Q.PosDef) :
    lassoObjective S alpha P ≤ lassoObjective S alpha Q + e * frob (Q - P) + 2 * alpha * N * r := by
  have hct : covᵀ = cov := by
    have := hP.inv.isHermitian
    rw [IsHermitian, conjTranspose_eq_transpose_of_trivial] at this
    rw [hcov, this]
  have hlog := log_det_le hP hQ
  rw [← hcov, trace_mul_eq _ _ hct] at hlog
  -- inner products
  have hGQ : ∑ i, ∑ j, G i j * Q i j ≤ alpha * ∑ i, ∑ j, if i = j then 0 else |Q i j| := by
    rw [Finset.mul_sum]
    refine Finset.sum_le_sum fun i _ => ?_
    rw [Finset.mul_sum]
    refine Finset.sum_le_sum fun j _ => ?_
    by_cases hij : i = j
    · subst hij; simp [hk.diag]
    · rw [if_neg hij]
      calc G i j * Q i j ≤ |G i j * Q i j| := le_abs_self _
        _ = |G i j| * |Q i j| := abs_mul _ _
        _ ≤ _ := mul_le_mul_of_nonneg_right (hk.bound i j) (abs_nonneg _)
  have hGP : alpha * (∑ i, ∑ j, if i = j then 0 else |P i j|) - 2 * alpha * ∑ i, ∑ j, |(P - Z) i j| ≤ ∑ i, ∑ j, G i j * P i j := by
    rw [Finset.mul_sum, Finset.mul_sum, ← Finset.sum_sub_distrib]
    refine Finset.sum_le_sum fun i _ => ?_
    rw [Finset.mul_sum, Finset.mul_sum, ← Finset.sum_sub_distrib]
    refine Finset.sum_le_sum fun j _ => ?_
    by_cases hij : i = j
    · subst hij
      simp only [if_true, hk.diag]
      have := mul_nonneg ha (abs_nonneg ((P - Z) i i))
      linarith
    · rw [if_neg hij]
      have hd : |P i j| ≤ |Z i j| + |(P - Z) i j| := by
        have : P i j = Z i j + (P - Z) i j := by simp
        calc |P i j| = |Z i j + (P - Z) i j| := by rw [← this]
          _ ≤ _ := abs_add_le _ _
      have hGZ : G i j * Z i j = alpha * |Z i j| := by
        by_cases hz : Z i j = 0
        · rw [hz]; simp
        · rw [hk.sign i j hij hz, mul_assoc]
          congr 1
          rcases lt_or_gt_of_ne hz with h | h
          · rw [Real.sign_of_neg h, abs_of_neg h]; ring
          · rw [Real.sign_of_pos h, abs_of_pos h]; ring
      have hGD : -(alpha * |(P - Z) i j|) ≤ G i j * (P - Z) i j := by
        have : |G i j * (P - Z) i j| ≤ alpha * |(P - Z) i j| := by
          rw [abs_mul]; exact mul_le_mul_of_nonneg_right (hk.bound i j) (abs_nonneg _)
        linarith [neg_abs_le (G i j * (P - Z) i j)]
      have hGP : G i j * P i j = G i j * Z i j + G i j * (P - Z) i j := by simp; ring
      rw [hGP, hGZ]
      have := mul_le_mul_of_nonneg_left hd ha
      linarith
  have hL1 : ∑ i, ∑ j, |(P - Z) i j| ≤ N * r := by
    have h1 := frob_inner (P - Z) (Matrix.of fun i j => Real.sign ((P - Z) i j))
    have h2 : frob (Matrix.of fun i j => Real.sign ((P - Z) i j)) ≤ 1 * N := by
      refine frob_le zero_le_one fun i j => ?_
      rcases Real.sign_apply_eq ((P - Z) i j) with h | h | h <;> rw [Matrix.of_apply, h] <;> simp
    have h3 : ∀ i j, (P - Z) i j * (Matrix.of fun i j => Real.sign ((P - Z) i j)) i j = |(P - Z) i j| := by
      intro i j
      rw [Matrix.of_apply]
      rcases lt_trichotomy ((P - Z) i j) 0 with h | h | h
      · rw [Real.sign_of_neg h, abs_of_neg h]; ring
      · rw [h]; simp
      · rw [Real.sign_of_pos h, abs_of_pos h]; ring
    simp only [h3] at h1
    calc _ ≤ _ := (le_abs_self _).trans h1
      _ ≤ r * N := by
        refine mul_le_mul hk.close (by linarith) (frob_nonneg _) ((frob_nonneg _).trans hk.close)
      _ = _ := mul_comm _ _
  have hE : ∑ i, ∑ j, E i j * (Q - P) i j ≤ e * frob (Q - P) :=
    (le_abs_self _).trans ((frob_inner _ _).trans (mul_le_mul_of_nonneg_right hk.resid (frob_nonneg _)))
  have hsplit : ∑ i, ∑ j, cov i j * (Q - P) i j = (S * Q).trace - (S * P).trace + (∑ i, ∑ j, G i j * Q i j - ∑ i, ∑ j, G i j * P i j) +
      ∑ i, ∑ j, E i j * (Q - P) i j := by
    rw [trace_mul_eq _ _ hSt, trace_mul_eq _ _ hSt, hk.split]
    simp only [← Finset.sum_sub_distrib, ← Finset.sum_add_distrib]
    refine Finset.sum_congr rfl fun i _ => Finset.sum_congr rfl fun j _ => ?_
    simp only [Matrix.add_apply, Matrix.sub_apply]
    ring
  unfold lassoObjective
  have hL1' := mul_le_mul_of_nonneg_left hL1 (mul_nonneg zero_le_two ha)
  rw [hsplit] at hlog
  linarith

/-- Held-out log-likelihood (up to constants) of a penalty, averaged over the folds: fold `f` holds out the rows whose number is `f`
modulo the number of folds, and the precision is the lasso fitted to the other rows. -/
def HeldOut (eigh : Eigh N) (pinv : Matrix (Fin N) (Fin N) ℝ → Matrix (Fin N) (Fin N) ℝ) (X : Fin T → Fin N → ℝ) (a s : ℝ) : Prop :=
  ∃ P : ℕ → Matrix (Fin N) (Fin N) ℝ,
    (∀ f < min 5 T, ∃ cov, admm eigh pinv (partMoment X fun t => (t : ℕ) % min 5 T ≠ f) a = .ok (cov, P f)) ∧
    s = (∑ f ∈ Finset.range (min 5 T),
      (Real.log |(P f).det| - (partMoment X (fun t => (t : ℕ) % min 5 T = f) * P f).trace)) / (min 5 T : ℕ)

theorem cvScore_iff {X : Fin T → Fin N → ℝ} {a s : ℝ} : cvScore eigh pinv X a = .ok s ↔ HeldOut eigh pinv X a s := by
  have key : ∀ f, ∀ v, foldScore eigh pinv X (min 5 T) a f = .ok v ↔ ∃ cp, admm eigh pinv (partMoment X fun t => (t : ℕ) % min 5 T ≠ f) a = .ok cp ∧
      v = Real.log |cp.2.det| - (partMoment X (fun t => (t : ℕ) % min 5 T = f) * cp.2).trace := by
    intro f v
    unfold foldScore
    split
    · rename_i e he; simp [he]
    · rename_i cp hcp
      simp only [hcp, Except.ok.injEq]
      exact ⟨fun h => ⟨cp, rfl, h.symm⟩, fun ⟨c, h1, h2⟩ => by rw [h1, h2]⟩
  generalize hK : min 5 T = K at *
  unfold cvScore HeldOut
  rw [hK]
  constructor
  · intro h
    split at h
    · cases h
    rename_i sc hsc
    injection h with h
    rw [Ens.mapE_iff, List.forall₂_iff_get] at hsc
    obtain ⟨hl, hg⟩ := hsc
    rw [List.length_range] at hl
    have hex : ∀ f, f < K → ∃ cp, admm eigh pinv (partMoment X fun t => (t : ℕ) % K ≠ f) a = .ok cp ∧
        sc.getD f 0 = Real.log |cp.2.det| - (partMoment X (fun t => (t : ℕ) % K = f) * cp.2).trace := by
      intro f hf
      have := hg f (by simpa using hf) (by omega)
      simp only [List.get_eq_getElem, List.getElem_range] at this
      obtain ⟨cp, h1, h2⟩ := (key f _).1 this
      refine ⟨cp, h1, ?_⟩
      rw [← h2]
      simp [List.getD, hl ▸ hf]
    choose! cp hcp using hex
    refine ⟨fun f => (cp f).2, fun f hf => ⟨(cp f).1, (hcp f hf).1⟩, ?_⟩
    rw [← h, ← hl]
    congr 1
    rw [← Finset.sum_congr rfl (fun f hf => (hcp f (Finset.mem_range.1 hf)).2), hl]
    clear * -
    induction sc with
    | nil => simp
    | cons x xs ih => rw [List.sum_cons, List.length_cons, Finset.sum_range_succ', add_comm, ih]; simp [List.getD]
  · rintro ⟨P, h1, rfl⟩
    have : mapE (foldScore eigh pinv X K a) (List.range K) = .ok ((List.range K).map fun f =>
        Real.log |(P f).det| - (partMoment X (fun t => (t : ℕ) % K = f) * P f).trace) := by
      rw [Ens.mapE_iff, List.forall₂_map_right_iff, List.forall₂_same]
      intro f hf
      obtain ⟨c, hc⟩ := h1 f (List.mem_range.1 hf)
      exact (key f _).2 ⟨_, hc, rfl⟩
    rw [this]
    simp only [List.length_map, List.length_range]
    rw [← List.sum_toFinset _ List.nodup_range, List.toFinset_range]

/-- **C125.** With `alpha="auto"` the result is the one for a penalty of the grid `a_max * 100^(-k/4)`, `k = 0..4`, where `a_max` is the
largest off-diagonal entry (at least `1e-6`); the held-out log-likelihood of that penalty is within `1e-8` of the best of the five. -/
theorem C125_auto {R : Fin T → Fin N → ℝ} {b : Bool} {out} (h : glasso eigh pinv R .auto b = .ok out) :
    ∃ k : ℕ, k < 5 ∧ ∃ amax a s, a = amax * (1 / 100 : ℝ) ^ ((k : ℝ) / 4) ∧ 0 < a ∧ glasso eigh pinv R (.num a) b = .ok out ∧
      (1 / 10 ^ 6 ≤ amax ∧ (∀ i j, i ≠ j → |fitted R b i j| ≤ amax) ∧ (amax = 1 / 10 ^ 6 ∨ ∃ i j, i ≠ j ∧ amax = |fitted R b i j|)) ∧
      HeldOut eigh pinv (glassoData R b) a s ∧
      ∀ k' : ℕ, k' < 5 → ∃ s', HeldOut eigh pinv (glassoData R b) (amax * (1 / 100 : ℝ) ^ ((k' : ℝ) / 4)) s' ∧ s' ≤ s + 1 / 10 ^ 8 := by
  obtain ⟨hT, a, ha, hc, hout⟩ := glasso_alpha h
  obtain ⟨h1, s, hs, hall⟩ := choose_auto hc
  have hm := h1
  unfold alphaGrid at h1
  obtain ⟨k, hk, rfl⟩ := List.mem_map.1 h1
  refine ⟨k, List.mem_range.1 hk, alphaMax (secondMoment (glassoData R b)), _, s, rfl, ha, ?_, ?_, cvScore_iff.1 hs, fun k' hk' => ?_⟩
  · unfold glasso
    rw [if_neg (by omega)]
    simp only [chooseAlpha]
    rw [if_neg (not_le.2 ha)]
    simpa only [fitted_eq] using hout
  · rw [fitted_eq]
    have hbdd : BddAbove (Set.range fun ij : Fin N × Fin N => |if ij.1 = ij.2 then 0 else fitted R b ij.1 ij.2|) := (Set.finite_range _).bddAbove
    refine ⟨le_max_right _ _, fun i j hij => ?_, ?_⟩
    · have := le_ciSup hbdd (i, j)
      simp only [if_neg hij] at this
      exact this.trans (le_max_left _ _)
    · unfold alphaMax
      rcases le_total (⨆ ij : Fin N × Fin N, |if ij.1 = ij.2 then 0 else fitted R b ij.1 ij.2|) (1 / 10 ^ 6) with hle | hle
      · exact .inl (max_eq_right hle)
      · right
        rw [max_eq_left hle]
        have hne : Nonempty (Fin N × Fin N) := by
          by_contra hc
          rw [not_nonempty_iff] at hc
          rw [Real.iSup_of_isEmpty] at hle
          norm_num at hle
        obtain ⟨⟨i, j⟩, hij⟩ := exists_eq_ciSup_of_finite (f := fun ij : Fin N × Fin N => |if ij.1 = ij.2 then 0 else fitted R b ij.1 ij.2|)
        rw [← hij] at hle ⊢
        simp only at hle ⊢
        split_ifs at hle with he
        · norm_num at hle
        · exact ⟨i, j, he, by rw [if_neg he]⟩
  · obtain ⟨s', h2, h3⟩ := hall _ (List.mem_map.2 ⟨k', List.mem_range.2 hk', rfl⟩)
    exact ⟨s', cvScore_iff.1 h2, h3⟩

theorem admm_error {S : Matrix (Fin N) (Fin N) ℝ} (he : IsEigh eigh) (hS : S.PosSemidef) {alpha : ℝ} (ha : 0 < alpha)
    {e : PyErr} (h : admm eigh pinv S alpha = .error e) : e = .runtimeError := by
  have hSt : Sᵀ = S := by
    have := hS.isHermitian
    rwa [IsHermitian, conjTranspose_eq_transpose_of_trivial] at this
  unfold admm at h
  split at h
  · rename_i hdet
    have : (S + alpha • (1 : Matrix (Fin N) (Fin N) ℝ)).PosDef := (PosDef.one.smul ha).posSemidef_add hS
    exact absurd hdet this.det_pos.ne'
  split at h
  · rename_i e' hl
    injection h with h
    subst h
    have : ∀ fuel Z U, admmLoop eigh S alpha 1 (1 / 10 ^ 4) fuel Z U = .error e' → e' = .runtimeError := by
      intro fuel
      induction fuel with
      | zero => intro Z U h; injection h with h; exact h.symm
      | succ n ih =>
        intro Z U h
        unfold admmLoop at h
        simp only at h
        split_ifs at h
        exact ih _ _ h
    exact this _ _ _ hl
  rename_i prec hl
  have hZ0 : ((S + alpha • (1 : Matrix (Fin N) (Fin N) ℝ))⁻¹)ᵀ = (S + alpha • 1)⁻¹ := by
    rw [transpose_nonsing_inv]; simp [hSt]
  obtain ⟨hp, -⟩ := admmLoop_spec he hSt one_pos ha.le hZ0 (by simp) hl
  rw [if_neg hp.det_pos.ne', ensurePsd_of_psd hp.inv.posSemidef (by norm_num [defaultJitter])] at h
  cases h

/-- **C125.** Too few rows and a penalty that is not positive are `ValueError`s, and then only those (and an automatic penalty without
assets); the only other failure is the `RuntimeError` of an iteration that did not converge. -/
theorem C125_errors (he : IsEigh eigh) (R : Fin T → Fin N → ℝ) (alpha : GlassoAlpha) (b : Bool) :
    ((T < 2 ∨ (∃ a, alpha = .num a ∧ a ≤ 0) ∨ (alpha = .auto ∧ N = 0)) ↔ glasso eigh pinv R alpha b = .error .valueError) ∧
      ∀ e, glasso eigh pinv R alpha b = .error e → e = .valueError ∨ e = .runtimeError := by
  have hpart : ∀ (X : Fin T → Fin N → ℝ) (sel : Fin T → Prop), (partMoment X sel).PosSemidef := by
    intro X sel
    classical
    refine PosSemidef.of_dotProduct_mulVec_nonneg ?_ fun x => ?_
    · ext i j
      simp only [partMoment, conjTranspose_apply, Matrix.of_apply, star_trivial]
      congr 1
      exact Finset.sum_congr rfl fun t _ => by rw [mul_comm]
    · have : star x ⬝ᵥ (partMoment X sel *ᵥ x) = (∑ t, if sel t then (∑ i, x i * X t i) ^ 2 else 0) / ((Finset.univ.filter sel).card : ℝ) := by
        simp only [partMoment, dotProduct, mulVec, star_trivial, Matrix.of_apply]
        simp only [div_mul_eq_mul_div, ← Finset.sum_div, mul_div_assoc', Finset.mul_sum, Finset.sum_mul]
        congr 1
        rw [Finset.sum_congr rfl (fun y _ => Finset.sum_comm), Finset.sum_comm]
        refine Finset.sum_congr rfl fun t _ => ?_
        split_ifs
        · rw [sq, Finset.sum_mul_sum]
          exact Finset.sum_congr rfl fun i _ => Finset.sum_congr rfl fun j _ => by ring
        · simp
      rw [this]
      refine div_nonneg (Finset.sum_nonneg fun t _ => ?_) (Nat.cast_nonneg _)
      split_ifs <;> positivity
  have hfold : ∀ (X : Fin T → Fin N → ℝ) K a f e, 0 < a → foldScore eigh pinv X K a f = .error e → e = .runtimeError := by
    intro X K a f e ha h
    unfold foldScore at h
    split at h
    · rename_i e' h'
      injection h with h
      subst h
      exact admm_error he (hpart X _) ha h'
    · cases h
  have hmap : ∀ (g : ℕ → Except PyErr ℝ) (l : List ℕ) e, (∀ f e, g f = .error e → e = .runtimeError) → mapE g l = .error e → e = .runtimeError := by
    intro g l e hg
    induction l with
    | nil => intro h; cases h
    | cons a l ih =>
      intro h
      unfold mapE at h
      split at h
      · rename_i e' h'
        injection h with h
        subst h
        exact hg _ _ h'
      · split at h
        · rename_i e' h'
          injection h with h
          subst h
          exact ih h'
        · cases h
  have hsearch : ∀ (g : ℝ → Except PyErr ℝ) (l : List ℝ) b0 e, (∀ f ∈ l, ∀ e, g f = .error e → e = .runtimeError) →
      searchAlpha g l b0 = .error e → e = .runtimeError := by
    intro g l b0 e hg
    induction l generalizing b0 with
    | nil => intro h; cases h
    | cons a l ih =>
      intro h
      unfold searchAlpha at h
      split at h
      · rename_i e' h'
        injection h with h
        subst h
        exact hg _ (List.mem_cons_self ..) _ h'
      · exact ih _ (fun f hf => hg f (List.mem_cons_of_mem _ hf)) h
  have hchoose : ∀ X : Fin T → Fin N → ℝ, ∀ e, ¬(alpha = .auto ∧ N = 0) → (∀ a, alpha = .num a → 0 < a) →
      chooseAlpha eigh pinv X alpha = .error e → e = .runtimeError := by
    intro X e h1 h2 h
    cases alpha with
    | num a =>
      simp only [chooseAlpha] at h
      rw [if_neg (not_le.2 (h2 a rfl))] at h
      cases h
    | auto =>
      simp only [chooseAlpha] at h
      rw [if_neg (by simpa using h1)] at h
      split at h
      · rename_i e' h'
        injection h with h
        subst h
        refine hsearch _ _ _ _ (fun a ha e h => ?_) h'
        unfold cvScore at h
        split at h
        · rename_i e'' h''
          injection h with h
          subst h
          exact hmap _ _ _ (fun f e => hfold X _ a f e (alphaGrid_pos ha)) h''
        · cases h
      · cases h
      · cases h
  by_cases hbad : T < 2 ∨ (∃ a, alpha = .num a ∧ a ≤ 0) ∨ (alpha = .auto ∧ N = 0)
  · have : glasso eigh pinv R alpha b = .error .valueError := by
      unfold glasso
      split
      · rfl
      rename_i hT
      rcases hbad with h | ⟨a, rfl, ha⟩ | ⟨rfl, hN⟩
      · exact absurd h hT
      · simp only [chooseAlpha]
        rw [if_pos ha]
      · simp only [chooseAlpha]
        rw [if_pos hN]
    refine ⟨⟨fun _ => this, fun _ => hbad⟩, fun e h => ?_⟩
    rw [this] at h
    injection h with h
    exact .inl h.symm
  · push Not at hbad
    obtain ⟨hT, hnum, hauto⟩ := hbad
    have : ∀ e, glasso eigh pinv R alpha b = .error e → e = .runtimeError := by
      intro e h
      cases hc : chooseAlpha eigh pinv (glassoData R b) alpha with
      | error e' =>
        have h' := hchoose _ e' (by tauto) hnum hc
        unfold glasso at h
        rw [if_neg (by omega), hc] at h
        injection h with h
        rw [← h, h']
      | ok a =>
        have ha : 0 < a := by
          cases alpha with
          | auto => exact alphaGrid_pos (choose_auto hc).1
          | num x =>
            simp only [chooseAlpha] at hc
            rw [if_neg (not_le.2 (hnum x rfl))] at hc
            injection hc with hc
            rw [← hc]; exact hnum x rfl
        unfold glasso at h
        rw [if_neg (by omega), hc] at h
        exact admm_error he (fitted_psd R b) ha h
    refine ⟨⟨fun h => ?_, fun h => ?_⟩, fun e h => .inr (this e h)⟩
    · rcases h with h | ⟨a, rfl, ha⟩ | ⟨h1, h2⟩
      · omega
      · exact absurd ha (not_le.2 (hnum a rfl))
      · exact absurd h2 (hauto h1)
    · cases this _ h

/-- **C125.** The returned precision minimises the penalised likelihood up to the stopping tolerance: no positive definite matrix `Q`
has an objective lower by more than the stated multiple of `1e-4`. -/
theorem C125_near_optimal (he : IsEigh eigh) {R : Fin T → Fin N → ℝ} {alpha : ℝ} {b : Bool} {cov P : Matrix (Fin N) (Fin N) ℝ}
    (h : glasso eigh pinv R (.num alpha) b = .ok (cov, P)) (Q : Matrix (Fin N) (Fin N) ℝ) (hQ : Q.PosDef) :
    lassoObjective (fitted R b) alpha P ≤ lassoObjective (fitted R b) alpha Q +
      1 / 10 ^ 4 * ((Real.sqrt N + alpha * N) * frob (Q - P) + 4 * alpha * N * (Real.sqrt N + frob P)) := by
  obtain ⟨ha, hP, -, hinv, ⟨Z, G, E, hk⟩, -⟩ := C125_conditions he h
  have hS : (fitted R b)ᵀ = fitted R b := by
    ext i j; simp only [fitted, transpose_apply, Matrix.of_apply]
    congr 1
    exact Finset.sum_congr rfl fun t _ => mul_comm _ _
  have hcov : cov = P⁻¹ := (Matrix.inv_eq_left_inv hinv).symm
  have := near_optimal ha.le hP hcov hS hk hQ
  calc _ ≤ _ := this
    _ = _ := by ring

/-! ## The returned precision is not sparse -/

/-- A symmetric two by two matrix with equal diagonal entries, from its eigenvalues `p` (on `(1,1)`) and `m` (on `(1,-1)`). -/
noncomputable def twoByTwo (p m : ℝ) : Matrix (Fin 2) (Fin 2) ℝ := !![(p + m) / 2, (p - m) / 2; (p - m) / 2, (p + m) / 2]

theorem twoByTwo_inv {p m : ℝ} (hp : p ≠ 0) (hm : m ≠ 0) : (twoByTwo p m)⁻¹ = twoByTwo p⁻¹ m⁻¹ := by
  apply Matrix.inv_eq_right_inv
  ext i j
  fin_cases i <;> fin_cases j <;> simp [twoByTwo, Matrix.mul_apply] <;> field_simp <;> ring

theorem twoByTwo_posDef {p m : ℝ} (hp : 0 < p) (hm : 0 < m) : (twoByTwo p m).PosDef := by
  refine PosDef.of_dotProduct_mulVec_pos ?_ fun x hx => ?_
  · ext i j
    fin_cases i <;> fin_cases j <;> simp [twoByTwo]
  · have : star x ⬝ᵥ (twoByTwo p m *ᵥ x) = p / 2 * (x 0 + x 1) ^ 2 + m / 2 * (x 0 - x 1) ^ 2 := by
      simp [twoByTwo, dotProduct, mulVec, Fin.sum_univ_two]
      ring
    rw [this]
    by_contra hc
    have h1 : 0 ≤ p / 2 * (x 0 + x 1) ^ 2 := by positivity
    have h2 : 0 ≤ m / 2 * (x 0 - x 1) ^ 2 := by positivity
    have e1 : p / 2 * (x 0 + x 1) ^ 2 = 0 := by linarith
    have e2 : m / 2 * (x 0 - x 1) ^ 2 = 0 := by linarith
    have f1 : x 0 + x 1 = 0 := by
      rcases mul_eq_zero.1 e1 with h | h
      · linarith
      · exact pow_eq_zero_iff (two_ne_zero) |>.1 h
    have f2 : x 0 - x 1 = 0 := by
      rcases mul_eq_zero.1 e2 with h | h
      · linarith
      · exact pow_eq_zero_iff (two_ne_zero) |>.1 h
    apply hx
    ext i
    fin_cases i <;> simp <;> linarith

/-- The update on such matrices acts on the eigenvalues. -/
theorem theta_two {eigh : Eigh 2} (he : IsEigh eigh) {s1 s2 z1 z2 : ℝ} :
    ∃ t1 t2 : ℝ, 0 < t1 ∧ 0 < t2 ∧ t1 - t1⁻¹ = z1 - s1 ∧ t2 - t2⁻¹ = z2 - s2 ∧
      admmTheta eigh 1 (twoByTwo s1 s2) (twoByTwo z1 z2) 0 = twoByTwo t1 t2 := by
  have ht : ∀ a b : ℝ, (twoByTwo a b)ᵀ = twoByTwo a b := by
    intro a b; ext i j; fin_cases i <;> fin_cases j <;> simp [twoByTwo]
  obtain ⟨hp, heq⟩ := theta_eq he one_pos (ht s1 s2) (ht z1 z2) (U := 0) (by simp)
  set Θ := admmTheta eigh 1 (twoByTwo s1 s2) (twoByTwo z1 z2) 0 with hΘ
  have hsym : Θ 1 0 = Θ 0 1 := by
    have := hp.isHermitian.apply 0 1
    simpa using this
  have hdet := hp.det_pos
  rw [det_fin_two, hsym] at hdet
  have hent : ∀ i j, Θ i j - Θ⁻¹ i j = (twoByTwo z1 z2) i j - (twoByTwo s1 s2) i j := by
    intro i j
    have := congrFun (congrFun heq i) j
    simpa using this
  have hinv : Θ⁻¹ = (Θ.det)⁻¹ • !![Θ 1 1, -Θ 0 1; -Θ 1 0, Θ 0 0] := by
    rw [Matrix.inv_def, adjugate_fin_two, Ring.inverse_eq_inv']
  have hd : Θ 0 0 = Θ 1 1 := by
    have a := hent 0 0
    have b := hent 1 1
    rw [hinv] at a b
    simp [twoByTwo] at a b
    have hδ : 0 < Θ.det := hp.det_pos
    have : (Θ 0 0 - Θ 1 1) * (1 + (Θ.det)⁻¹) = 0 := by linarith
    rcases mul_eq_zero.1 this with h | h
    · linarith
    · have : 0 < (Θ.det)⁻¹ := by positivity
      linarith
  have hΘ2 : Θ = twoByTwo (Θ 0 0 + Θ 0 1) (Θ 0 0 - Θ 0 1) := by
    ext i j
    fin_cases i <;> fin_cases j <;> simp [twoByTwo, hsym, hd]
  have hpos : 0 < Θ 0 0 := by
    have := hp.diag_pos (i := 0)
    simpa using this
  rw [← hd] at hdet
  have h1 : 0 < Θ 0 0 + Θ 0 1 := by
    by_contra hc; push Not at hc; nlinarith
  have h2 : 0 < Θ 0 0 - Θ 0 1 := by
    by_contra hc; push Not at hc; nlinarith
  rw [hΘ2, twoByTwo_inv h1.ne' h2.ne', ← hΘ2] at hent
  have a := hent 0 0
  have b := hent 0 1
  simp [twoByTwo] at a b
  exact ⟨_, _, h1, h2, by linarith, by linarith, hΘ2⟩

theorem step_bound {t z s α : ℝ} (ht : 0 < t) (hz : 0 < z) (hα : 0 ≤ α) (hs : z⁻¹ = s + α) (h : t - t⁻¹ = z - s) :
    0 ≤ t - z ∧ t - z ≤ α := by
  have e : (t - z) * (1 + (t * z)⁻¹) = α := by
    have : (t - z) * (1 + (t * z)⁻¹) = t - t⁻¹ - (z - z⁻¹) := by field_simp; ring
    rw [this, h, hs]; ring
  have hp : 0 < (t * z)⁻¹ := by positivity
  have h0 : 0 ≤ t - z := by
    by_contra hc; push Not at hc; nlinarith
  exact ⟨h0, by nlinarith⟩

theorem two_diff {t1 t2 z1 z2 a : ℝ} (b1 : 0 ≤ t1 - z1) (b2 : t1 - z1 ≤ a) (c1 : 0 ≤ t2 - z2) (c2 : t2 - z2 ≤ a) (i j : Fin 2) :
    |twoByTwo t1 t2 i j - twoByTwo z1 z2 i j| ≤ a := by
  have h1 : |(t1 + t2) / 2 - (z1 + z2) / 2| ≤ a := by rw [abs_le]; constructor <;> linarith
  have h2 : |(t1 - t2) / 2 - (z1 - z2) / 2| ≤ a := by rw [abs_le]; constructor <;> linarith
  fin_cases i <;> fin_cases j
  · exact h1
  · exact h2
  · exact h2
  · exact h1

/-- **C125** (counterexample) "sparse": for two assets and the observations `(1, 1e-6)`, `(1e-6, 1)` with penalty `1e-5` a diagonal
precision matrix is optimal, but the returned precision has a non-zero off-diagonal entry: the iterate `Theta` is returned, not its
thresholded copy. -/
theorem C125_counterexample (eigh : Eigh 2) (he : IsEigh eigh) (pinv : Matrix (Fin 2) (Fin 2) ℝ → Matrix (Fin 2) (Fin 2) ℝ) :
    let R : Fin 2 → Fin 2 → ℝ := ![![1, 1 / 10 ^ 6], ![1 / 10 ^ 6, 1]]
    (∃ D : Matrix (Fin 2) (Fin 2) ℝ, D.PosDef ∧ D 0 1 = 0 ∧
      ∀ Q : Matrix (Fin 2) (Fin 2) ℝ, Q.PosDef → lassoObjective (fitted R true) (1 / 10 ^ 5) D ≤ lassoObjective (fitted R true) (1 / 10 ^ 5) Q) ∧
    ∃ cov P, glasso eigh pinv R (.num (1 / 10 ^ 5)) true = .ok (cov, P) ∧ P 0 1 ≠ 0 := by
  intro R
  set ε : ℝ := 1 / 10 ^ 6 with hε
  set α : ℝ := 1 / 10 ^ 5 with hα
  set s1 : ℝ := (1 + ε ^ 2) / 2 + ε with hs1
  set s2 : ℝ := (1 + ε ^ 2) / 2 - ε with hs2
  have hα0 : 0 < α := by rw [hα]; norm_num
  have p1 : 0 < s1 := by rw [hs1, hε]; norm_num
  have p2 : 0 < s2 := by rw [hs2, hε]; norm_num
  have hS : fitted R true = twoByTwo s1 s2 := by
    ext i j
    fin_cases i <;> fin_cases j <;> simp [fitted, R, twoByTwo, Fin.sum_univ_two, hs1, hs2] <;> ring
  refine ⟨⟨twoByTwo ((1 + ε ^ 2) / 2)⁻¹ ((1 + ε ^ 2) / 2)⁻¹, twoByTwo_posDef (by positivity) (by positivity), by simp [twoByTwo],
    fun Q hQ => ?_⟩, ?_⟩
  · have hk : NearKkt (fitted R true) α (twoByTwo ((1 + ε ^ 2) / 2) ((1 + ε ^ 2) / 2)) (twoByTwo ((1 + ε ^ 2) / 2)⁻¹ ((1 + ε ^ 2) / 2)⁻¹)
        (twoByTwo ((1 + ε ^ 2) / 2)⁻¹ ((1 + ε ^ 2) / 2)⁻¹) (twoByTwo (-ε) ε) 0 0 0 := by
      refine ⟨?_, ?_, ?_, ?_, ?_, ?_⟩
      · rw [hS]
        ext i j
        fin_cases i <;> fin_cases j <;> simp [twoByTwo, hs1, hs2] <;> ring
      · intro i; fin_cases i <;> simp [twoByTwo]
      · intro i j
        have : ∀ x : ℝ, x = 0 ∨ x = -ε → |x| ≤ α := by
          rintro x (rfl | rfl)
          · rw [abs_zero]; exact hα0.le
          · rw [abs_neg, hα, hε]; norm_num [abs_of_pos]
        fin_cases i <;> fin_cases j <;> simp only [twoByTwo] <;> apply this
        · left; simp
        · right; simp; ring
        · right; simp; ring
        · left; simp
      · intro i j hij hne
        fin_cases i <;> fin_cases j <;> simp [twoByTwo] at hij hne
      · simp [frob]
      · simp [frob]
    have := near_optimal hα0.le (twoByTwo_posDef (by positivity) (by positivity)) (by
      rw [twoByTwo_inv (by positivity) (by positivity), inv_inv]) (by
      rw [hS]; ext i j; fin_cases i <;> fin_cases j <;> simp [twoByTwo]) hk hQ
    simpa using this
  · clear_value α s1 s2
    obtain ⟨t1, t2, q1, q2, e1, e2, hT⟩ := theta_two he (s1 := s1) (s2 := s2) (z1 := (s1 + α)⁻¹) (z2 := (s2 + α)⁻¹)
    obtain ⟨b1, b2⟩ := step_bound q1 (by positivity) hα0.le (inv_inv _) e1
    obtain ⟨c1, c2⟩ := step_bound q2 (by positivity) hα0.le (inv_inv _) e2
    have hne : t1 ≠ t2 := by
      intro hc
      rw [hc, e2] at e1
      have hlt : s2 < s1 := by rw [hs1, hs2, hε]; norm_num
      have : (s1 + α)⁻¹ < (s2 + α)⁻¹ := inv_strictAnti₀ (by positivity) (by linarith)
      linarith
    have hadd : twoByTwo s1 s2 + α • (1 : Matrix (Fin 2) (Fin 2) ℝ) = twoByTwo (s1 + α) (s2 + α) := by
      ext i j
      fin_cases i <;> fin_cases j <;> simp [twoByTwo] <;> ring
    have hZ : (twoByTwo s1 s2 + α • (1 : Matrix (Fin 2) (Fin 2) ℝ))⁻¹ = twoByTwo (s1 + α)⁻¹ (s2 + α)⁻¹ := by
      rw [hadd, twoByTwo_inv (by positivity) (by positivity)]
    have hdet : (twoByTwo s1 s2 + α • (1 : Matrix (Fin 2) (Fin 2) ℝ)).det ≠ 0 := by
      rw [hadd]; exact (twoByTwo_posDef (by positivity) (by positivity)).det_pos.ne'
    obtain ⟨-, f2, -⟩ := softOff_spec hα0.le (twoByTwo t1 t2)
    have hsq : (1 : ℝ) ≤ Real.sqrt ((2 : ℕ) : ℝ) := by
      rw [Real.one_le_sqrt]; norm_num
    have hdiff : ∀ i j, |twoByTwo t1 t2 i j - twoByTwo (s1 + α)⁻¹ (s2 + α)⁻¹ i j| ≤ α := by
      exact two_diff b1 b2 c1 c2
    have g1 : frob (twoByTwo t1 t2 - softOff α (twoByTwo t1 t2)) ≤ α * 2 := by
      have := frob_le hα0.le (A := twoByTwo t1 t2 - softOff α (twoByTwo t1 t2)) (fun i j => f2 i j)
      simpa using this
    have g2 : frob (softOff α (twoByTwo t1 t2) - twoByTwo (s1 + α)⁻¹ (s2 + α)⁻¹) ≤ 2 * α * 2 := by
      have := frob_le (c := 2 * α) (by positivity) (A := softOff α (twoByTwo t1 t2) - twoByTwo (s1 + α)⁻¹ (s2 + α)⁻¹) (fun i j => by
        have h1 := f2 i j
        have h2 := hdiff i j
        rw [Matrix.sub_apply]
        rw [abs_le] at h1 h2 ⊢
        constructor <;> linarith [h1.1, h1.2, h2.1, h2.2])
      simpa using this
    have hdone : admmDone 1 (1 / 10 ^ 4) (twoByTwo t1 t2) (softOff α (twoByTwo t1 t2)) (twoByTwo (s1 + α)⁻¹ (s2 + α)⁻¹)
        (0 + twoByTwo t1 t2 - softOff α (twoByTwo t1 t2)) := by
      have k1 : α * 2 ≤ 1 / 10 ^ 4 * Real.sqrt ((2 : ℕ) : ℝ) := by
        have := mul_le_mul_of_nonneg_left hsq (by norm_num : (0 : ℝ) ≤ 1 / 10 ^ 4)
        refine le_trans ?_ this
        rw [hα]; norm_num
      have k2 : 2 * α * 2 ≤ 1 / 10 ^ 4 * Real.sqrt ((2 : ℕ) : ℝ) := by
        have := mul_le_mul_of_nonneg_left hsq (by norm_num : (0 : ℝ) ≤ 1 / 10 ^ 4)
        refine le_trans ?_ this
        rw [hα]; norm_num
      unfold admmDone
      refine ⟨?_, ?_⟩
      · have : 0 ≤ max (frob (twoByTwo t1 t2)) (frob (softOff α (twoByTwo t1 t2))) := le_max_of_le_left (frob_nonneg _)
        have : 0 ≤ (1 / 10 ^ 4 : ℝ) * max (frob (twoByTwo t1 t2)) (frob (softOff α (twoByTwo t1 t2))) := by positivity
        linarith
      · have := frob_nonneg ((1 : ℝ) • (0 + twoByTwo t1 t2 - softOff α (twoByTwo t1 t2)))
        rw [one_smul ℝ (softOff α (twoByTwo t1 t2) - _)]
        have : 0 ≤ (1 / 10 ^ 4 : ℝ) * frob ((1 : ℝ) • (0 + twoByTwo t1 t2 - softOff α (twoByTwo t1 t2))) := by positivity
        linarith
    have hloop : admmLoop eigh (twoByTwo s1 s2) α 1 (1 / 10 ^ 4) 200 (twoByTwo s1 s2 + α • 1)⁻¹ 0 = .ok (twoByTwo t1 t2) := by
      rw [hZ]
      unfold admmLoop
      simp only
      rw [hT, add_zero, div_one, if_pos hdone]
    refine ⟨(twoByTwo t1 t2)⁻¹, twoByTwo t1 t2, ?_, by simpa [twoByTwo, sub_eq_zero] using hne⟩
    have hp := twoByTwo_posDef q1 q2
    unfold glasso
    rw [if_neg (by norm_num)]
    simp only [chooseAlpha]
    rw [if_neg (not_le.2 hα0)]
    simp only
    rw [fitted_eq, hS]
    unfold admm
    rw [if_neg hdet, hloop]
    simp only
    rw [if_neg hp.det_pos.ne', ensurePsd_of_psd hp.inv.posSemidef (by norm_num [defaultJitter])]

/-! ## Concrete successes -/

/-- For one asset of second moment one and a small penalty the first iteration ends the loop. -/
theorem admm_one {eigh : Eigh 1} (he : IsEigh eigh) (pinv : Matrix (Fin 1) (Fin 1) ℝ → Matrix (Fin 1) (Fin 1) ℝ) {α : ℝ} (h0 : 0 < α)
    (h1 : α ≤ 1 / 10 ^ 4) : ∃ cov P, admm eigh pinv 1 α = .ok (cov, P) := by
  set z : ℝ := (1 + α)⁻¹ with hz
  have hz0 : 0 < z := by positivity
  have hadd : (1 : Matrix (Fin 1) (Fin 1) ℝ) + α • 1 = Matrix.of fun _ _ => 1 + α := by
    ext i j
    fin_cases i; fin_cases j; simp
  have hZ : ((1 : Matrix (Fin 1) (Fin 1) ℝ) + α • 1)⁻¹ = Matrix.of fun _ _ => z := by
    apply Matrix.inv_eq_right_inv
    rw [hadd]
    ext i j
    fin_cases i; fin_cases j
    simp [Matrix.mul_apply, hz]
    field_simp
  have hdet : ((1 : Matrix (Fin 1) (Fin 1) ℝ) + α • 1).det ≠ 0 := by
    rw [hadd]; simp; positivity
  obtain ⟨hp, heq⟩ := theta_eq he one_pos (S := (1 : Matrix (Fin 1) (Fin 1) ℝ)) (Z := Matrix.of fun _ _ => z) (U := 0) (by simp)
    (by ext i j; rfl) (by simp)
  set Θ := admmTheta eigh 1 1 (Matrix.of fun _ _ => z) 0 with hΘ
  set t := Θ 0 0 with ht
  have ht0 : 0 < t := by simpa using hp.diag_pos (i := 0)
  have hΘt : Θ = Matrix.of fun _ _ => t := by
    ext i j
    fin_cases i; fin_cases j; rfl
  have hinv : Θ⁻¹ = Matrix.of fun _ _ => t⁻¹ := by
    apply Matrix.inv_eq_right_inv
    rw [hΘt]
    ext i j
    fin_cases i; fin_cases j
    simp [Matrix.mul_apply, ht0.ne']
  have e : t - t⁻¹ = z - 1 := by
    have := congrFun (congrFun heq 0) 0
    rw [hinv] at this
    simpa [← ht] using this
  obtain ⟨b1, b2⟩ := step_bound ht0 hz0 h0.le (inv_inv _) e
  have hsoft : softOff α Θ = Θ := by
    ext i j
    fin_cases i; fin_cases j; simp [softOff]
  have hfr0 : frob (0 : Matrix (Fin 1) (Fin 1) ℝ) = 0 := by simp [frob]
  have hdone : admmDone 1 (1 / 10 ^ 4) Θ Θ (Matrix.of fun _ _ => z) (0 + Θ - Θ) := by
    refine ⟨?_, ?_⟩
    · rw [sub_self, hfr0]
      have : 0 ≤ max (frob Θ) (frob Θ) := le_max_of_le_left (frob_nonneg _)
      positivity
    · have : frob (Θ - Matrix.of fun _ _ => z) ≤ α * ((1 : ℕ) : ℝ) := frob_le h0.le fun i j => by
        rw [hΘt]
        show |t - z| ≤ α
        rw [abs_of_nonneg b1]
        exact b2
      rw [one_smul, zero_add, sub_self, smul_zero, hfr0]
      simp only [Nat.cast_one, mul_one, Real.sqrt_one, mul_zero, add_zero] at this ⊢
      linarith
  have hloop : admmLoop eigh 1 α 1 (1 / 10 ^ 4) 200 (1 + α • 1)⁻¹ 0 = .ok Θ := by
    rw [hZ]
    unfold admmLoop
    simp only
    rw [← hΘ, add_zero, div_one, hsoft, if_pos hdone]
  refine ⟨Θ⁻¹, Θ, ?_⟩
  unfold admm
  rw [if_neg hdet, hloop]
  simp only
  rw [if_neg hp.det_pos.ne', ensurePsd_of_psd hp.inv.posSemidef (by norm_num [defaultJitter])]

private theorem search_ok {score : ℝ → Except PyErr ℝ} : ∀ (l : List ℝ) (b : Option (ℝ × ℝ)), (∀ a ∈ l, ∃ s, score a = .ok s) →
    ∃ r, searchAlpha score l b = .ok r
  | [], b, _ => ⟨b, rfl⟩
  | a :: l, b, h => by
    obtain ⟨s, hs⟩ := h a (by simp)
    obtain ⟨r, hr⟩ := search_ok l (betterAlpha b a s) fun x hx => h x (by simp [hx])
    exact ⟨r, by rw [searchAlpha, hs]; exact hr⟩

/-- Two observations 1 of one asset, not centred: the automatic penalty succeeds, so the statement of `C125_auto` is not empty. -/
example (eigh : Eigh 1) (he : IsEigh eigh) (pinv : Matrix (Fin 1) (Fin 1) ℝ → Matrix (Fin 1) (Fin 1) ℝ) :
    ∃ out, glasso (T := 2) eigh pinv (fun _ _ => 1) .auto true = .ok out := by
  have hmom : secondMoment (glassoData (T := 2) (N := 1) (fun _ _ => 1) true) = 1 := by
    rw [fitted_eq]
    ext i j
    fin_cases i; fin_cases j
    simp [fitted]
  have hpart : ∀ sel : Fin 2 → Prop, (∃ t, sel t) → partMoment (N := 1) (fun (_ : Fin 2) _ => (1 : ℝ)) sel = 1 := by
    intro sel ⟨t, ht⟩
    classical
    ext i j
    obtain rfl : i = j := Subsingleton.elim i j
    have hc : ((Finset.univ.filter sel).card : ℝ) ≠ 0 := by
      have : 0 < (Finset.univ.filter sel).card := Finset.card_pos.2 ⟨t, by simp [ht]⟩
      positivity
    rw [Matrix.one_apply_eq]
    simp only [partMoment, Matrix.of_apply, mul_one, ← Finset.sum_filter, Finset.sum_const, nsmul_eq_mul]
    exact div_self hc
  have hmax : alphaMax (1 : Matrix (Fin 1) (Fin 1) ℝ) = 1 / 10 ^ 6 := by
    unfold alphaMax
    have : (⨆ ij : Fin 1 × Fin 1, |if ij.1 = ij.2 then (0 : ℝ) else (1 : Matrix (Fin 1) (Fin 1) ℝ) ij.1 ij.2|) = 0 := by
      have : ∀ ij : Fin 1 × Fin 1, |if ij.1 = ij.2 then (0 : ℝ) else (1 : Matrix (Fin 1) (Fin 1) ℝ) ij.1 ij.2| = 0 := by
        intro ij
        rw [if_pos (Subsingleton.elim _ _), abs_zero]
      simp [this]
    rw [this, max_eq_right (by norm_num)]
  have hgrid : ∀ a ∈ alphaGrid (1 : Matrix (Fin 1) (Fin 1) ℝ), 0 < a ∧ a ≤ 1 / 10 ^ 4 := by
    intro a ha
    unfold alphaGrid at ha
    obtain ⟨k, -, rfl⟩ := List.mem_map.1 ha
    rw [hmax]
    have h1 : (1 / 100 : ℝ) ^ ((k : ℝ) / 4) ≤ 1 := Real.rpow_le_one (by norm_num) (by norm_num) (by positivity)
    have h2 : (0 : ℝ) < (1 / 100 : ℝ) ^ ((k : ℝ) / 4) := Real.rpow_pos_of_pos (by norm_num) _
    refine ⟨by positivity, ?_⟩
    nlinarith
  have hdata : glassoData (T := 2) (N := 1) (fun _ _ => 1) true = fun _ _ => (1 : ℝ) := rfl
  have hscore : ∀ a ∈ alphaGrid (1 : Matrix (Fin 1) (Fin 1) ℝ), ∃ s, cvScore (T := 2) eigh pinv (fun _ _ => 1) a = .ok s := by
    intro a ha
    obtain ⟨cov, P, h⟩ := admm_one he pinv (hgrid a ha).1 (hgrid a ha).2
    refine ⟨_, cvScore_iff.2 ⟨fun _ => P, fun f hf => ⟨cov, ?_⟩, rfl⟩⟩
    rw [hpart]
    · exact h
    · have : f < 2 := by simpa using hf
      interval_cases f
      · exact ⟨1, by norm_num⟩
      · exact ⟨0, by norm_num⟩
  obtain ⟨r, hr⟩ := search_ok _ none hscore
  unfold glasso
  rw [if_neg (by norm_num)]
  have hch : ∃ a, 0 < a ∧ a ≤ 1 / 10 ^ 4 ∧ chooseAlpha eigh pinv (glassoData (T := 2) (N := 1) (fun _ _ => 1) true) .auto = .ok a := by
    unfold chooseAlpha
    simp only
    rw [if_neg (by norm_num), hmom, hdata, hr]
    cases r with
    | none =>
      refine ⟨_, ?_, ?_, rfl⟩ <;> simp only [alphaGrid, hmax, List.getLastD_eq_getLast?, List.range_succ] <;> norm_num <;> positivity
    | some b =>
      have h2 : chooseAlpha eigh pinv (glassoData (T := 2) (N := 1) (fun _ _ => 1) true) .auto = .ok b.1 := by
        unfold chooseAlpha
        simp only
        rw [if_neg (by norm_num), hmom, hdata, hr]
      have h3 := (choose_auto h2).1
      rw [hmom] at h3
      exact ⟨b.1, (hgrid _ h3).1, (hgrid _ h3).2, rfl⟩
  obtain ⟨a, h1, h2, h3⟩ := hch
  rw [h3]
  simp only
  rw [hmom]
  obtain ⟨cov, P, h⟩ := admm_one he pinv h1 h2
  exact ⟨_, h⟩

/-- Two correlated assets with a fixed penalty: the returned pair is positive definite and inverse. -/
example (eigh : Eigh 2) (he : IsEigh eigh) (pinv : Matrix (Fin 2) (Fin 2) ℝ → Matrix (Fin 2) (Fin 2) ℝ) :
    ∃ cov P, glasso (T := 2) eigh pinv ![![1, 1 / 10 ^ 6], ![1 / 10 ^ 6, 1]] (.num (1 / 10 ^ 5)) true = .ok (cov, P) ∧ P.PosDef ∧ cov * P = 1 := by
  obtain ⟨-, cov, P, h, -⟩ := C125_counterexample eigh he pinv
  obtain ⟨-, h2, -, h3, -⟩ := C125_conditions he h
  exact ⟨cov, P, h, h2, h3⟩

end PyV.Props
