import Verif.Props.TwoFunds
import Verif.Props.FrontierSpacing

/-! # Property C262: the first-order certificate of a minimum-variance portfolio -/

namespace PyV.Props

open PyV PyV.Api PyV.Spec.Api PyV.Opt PyV.Spec.Opt PyV.Spec.Con PyV.Risk PyV.Spec Matrix

variable {N : ℕ}

/-- What one more unit of asset `i` adds to half the variance plus impact cost of the portfolio `x`: its covariance with the portfolio
and the marginal impact of the trade. -/
def marginal (C : Fin N → Fin N → ℝ) (w0 imp : Option (Fin N → ℝ)) (x : Fin N → ℝ) (i : Fin N) : ℝ :=
  (∑ j, C i j * x j) + (imp.getD 0) i * (x i - (w0.getD x) i)

private theorem cost_dir {C : Fin N → Fin N → ℝ} (hcov : IsCov C) {w0 imp : Option (Fin N → ℝ)} (himp : ∀ l, imp = some l → ∀ i, 0 ≤ l i)
    (x d : Fin N → ℝ) : ∃ b, 0 ≤ b ∧ ∀ s : ℝ, varianceCost C w0 imp (fun i => x i + s * d i) =
      varianceCost C w0 imp x + 2 * s * (∑ i, marginal C w0 imp x i * d i) + s ^ 2 * b := by
  have hl : ∀ i, 0 ≤ (imp.getD 0) i := by
    intro i
    cases imp with
    | none => simp
    | some l => exact himp l rfl i
  have e : ∑ i, ∑ j, x i * C i j * d j = ∑ i, (∑ j, C i j * x j) * d i := by
    rw [Finset.sum_comm]
    refine Finset.sum_congr rfl fun i _ => ?_
    rw [Finset.sum_mul]
    refine Finset.sum_congr rfl fun j _ => ?_
    rw [hcov.1 j i]; ring
  cases w0 with
  | none =>
    refine ⟨quad C d, hcov.2 d, fun s => ?_⟩
    unfold varianceCost marginal
    simp only [Option.getD_none, sub_self, mul_zero, add_zero, ne_eq, OfNat.ofNat_ne_zero, not_false_eq_true, zero_pow, Finset.sum_const_zero]
    rw [quad_dir hcov.1, e]
  | some v =>
    refine ⟨quad C d + ∑ i, (imp.getD 0) i * d i ^ 2, add_nonneg (hcov.2 d) (Finset.sum_nonneg fun i _ => mul_nonneg (hl i) (sq_nonneg _)),
      fun s => ?_⟩
    unfold varianceCost marginal
    simp only [Option.getD_some]
    rw [quad_dir hcov.1, e]
    have e2 : ∑ i, (imp.getD 0) i * (x i + s * d i - v i) ^ 2 = ∑ i, (imp.getD 0) i * (x i - v i) ^ 2 +
        2 * s * (∑ i, (imp.getD 0) i * (x i - v i) * d i) + s ^ 2 * ∑ i, (imp.getD 0) i * d i ^ 2 := by
      rw [Finset.mul_sum, Finset.mul_sum, ← Finset.sum_add_distrib, ← Finset.sum_add_distrib]
      exact Finset.sum_congr rfl fun i _ => by ring
    have e3 : ∑ i, ((∑ j, C i j * x j) + (imp.getD 0) i * (x i - v i)) * d i =
        (∑ i, (∑ j, C i j * x j) * d i) + ∑ i, (imp.getD 0) i * (x i - v i) * d i := by
      rw [← Finset.sum_add_distrib]
      exact Finset.sum_congr rfl fun i _ => by ring
    rw [e2, e3]
    ring

private theorem first_order_unit {a b : ℝ} (hb : 0 ≤ b) (h : ∀ s : ℝ, 0 ≤ s → s ≤ 1 → 0 ≤ 2 * s * a + s ^ 2 * b) : 0 ≤ a := by
  by_contra hc
  push Not at hc
  set s := -a / (b - a) with hs
  have hpos : 0 < b - a := by linarith
  have h0 : 0 < s := div_pos (by linarith) hpos
  have h1 : s ≤ 1 := (div_le_one hpos).2 (by linarith)
  have h2 := h s h0.le h1
  have h3 : s * b ≤ -a := by
    rw [hs, div_mul_eq_mul_div, div_le_iff₀ hpos]
    nlinarith
  nlinarith

/-- **C262** A portfolio is what `min_variance_at_return` returns exactly when it satisfies the constraints in force, reaches the target,
and no admissible trade `y − x` has a negative marginal cost. -/
theorem C262_certificate {solver : Opt.Solver} (hsnd : Sound solver) (hcmp : Complete solver)
    (w : Wrapper N) (mu : Fin N → ℝ) (cov : Matrix (Fin N) (Fin N) ℝ) (hmu : w.mu = some mu) (hcov : w.cov = some cov)
    (hlog : w.isLog = false) (hpsd : IsCov (fun i j => cov i j)) (hpd : ∀ x : Fin N → ℝ, x ≠ 0 → 0 < quad (fun i j => cov i j) x)
    (con : Option (PyV.Con.Spec ℝ)) (c : PyV.Con.Spec ℝ) (hin : InForce w con c)
    (costs : Option Costs) (w0 imp prop : Option (Fin N → ℝ)) (htr : Trading w costs w0 imp prop)
    (himp : ∀ l, imp = some l → ∀ i, 0 ≤ l i) (target : ℝ) (x : Fin N → ℝ) :
    (∃ r, w.minVarianceAtReturn solver target con costs = .ok r ∧ r.w = x) ↔
      (Satisfies c x ∧ target ≤ ret mu x ∧ ∀ y : Fin N → ℝ, Satisfies c y → target ≤ ret mu y →
        0 ≤ ∑ i, marginal (fun i j => cov i j) w0 imp x i * (y i - x i)) := by
  obtain ⟨hyes, hno⟩ := C260_unlimited hsnd hcmp w mu cov hmu hcov hlog hpsd hpd con c hin costs w0 imp prop htr himp target
  constructor
  · rintro ⟨r, hr, rfl⟩
    have hex : ∃ x : Fin N → ℝ, Satisfies c x ∧ target ≤ ret mu x := by
      by_contra hne
      push Not at hne
      rw [hno hne] at hr
      cases hr
    obtain ⟨r', hr', s1, s2, s3, -, s5⟩ := hyes hex
    rw [hr] at hr'
    injection hr' with hr'
    subst hr'
    refine ⟨s1, s3 ▸ s2, fun y hy hty => ?_⟩
    obtain ⟨b, hb, hexp⟩ := cost_dir hpsd himp r.w (fun i => y i - r.w i) (w0 := w0)
    refine first_order_unit hb fun s h0 h1 => ?_
    have hm : (fun i => r.w i + s * (y i - r.w i)) = mix s r.w y := by
      funext i; unfold mix; ring
    have hz : Satisfies c (mix s r.w y) := satisfies_mix hin h0 h1 s1 hy
    have hzr : target ≤ ret mu (mix s r.w y) := by
      have : ret mu (mix s r.w y) = (1 - s) * ret mu r.w + s * ret mu y := by
        unfold ret mix
        rw [Finset.mul_sum, Finset.mul_sum, ← Finset.sum_add_distrib]
        exact Finset.sum_congr rfl fun i _ => by ring
      rw [this, ← s3]
      nlinarith
    have hle : varianceCost (fun i j => cov i j) w0 imp r.w ≤ varianceCost (fun i j => cov i j) w0 imp (mix s r.w y) := by
      by_cases he : mix s r.w y = r.w
      · rw [he]
      · exact (s5 _ hz hzr he).le
    have := hexp s
    rw [hm] at this
    linarith
  · rintro ⟨h1, h2, h3⟩
    obtain ⟨r, hr, s1, s2, s3, -, s5⟩ := hyes ⟨x, h1, h2⟩
    refine ⟨r, hr, ?_⟩
    by_contra hne
    have hlt := s5 x h1 h2 fun e => hne e.symm
    obtain ⟨b, hb, hexp⟩ := cost_dir hpsd himp x (fun i => r.w i - x i) (w0 := w0)
    have h4 := hexp 1
    have h5 : (fun i => x i + 1 * (r.w i - x i)) = r.w := by funext i; ring
    rw [h5] at h4
    have := h3 r.w s1 (s3 ▸ s2)
    linarith

/-- **C262** Without trading costs: every admissible portfolio that reaches the target has, with the portfolio returned, a covariance of at
least the variance returned. -/
theorem C262_covariance {solver : Opt.Solver} (hsnd : Sound solver) (hcmp : Complete solver)
    (w : Wrapper N) (mu : Fin N → ℝ) (cov : Matrix (Fin N) (Fin N) ℝ) (hmu : w.mu = some mu) (hcov : w.cov = some cov)
    (hlog : w.isLog = false) (hpsd : IsCov (fun i j => cov i j)) (hpd : ∀ x : Fin N → ℝ, x ≠ 0 → 0 < quad (fun i j => cov i j) x)
    (con : Option (PyV.Con.Spec ℝ)) (c : PyV.Con.Spec ℝ) (hin : InForce w con c) (htr : Trading w none none none none)
    {target : ℝ} {r : Opt.Result N} (hr : w.minVarianceAtReturn solver target con none = .ok r) {y : Fin N → ℝ} (hy : Satisfies c y)
    (hty : target ≤ ret mu y) : r.risk ^ 2 ≤ ∑ i, ∑ j, y i * cov i j * r.w j := by
  obtain ⟨h1, h2, h3⟩ := (C262_certificate hsnd hcmp w mu cov hmu hcov hlog hpsd hpd con c hin none none none none htr (by simp) target r.w).1
    ⟨r, hr, rfl⟩
  obtain ⟨r', hr', -, -, -, hrisk, -⟩ := (C260_unlimited hsnd hcmp w mu cov hmu hcov hlog hpsd hpd con c hin none none none none htr (by simp) target).1
    ⟨r.w, h1, h2⟩
  rw [hr] at hr'
  injection hr' with hr'
  subst hr'
  have hq0 : 0 ≤ quad (fun i j => cov i j) r.w := hpsd.2 _
  rw [hrisk, Real.sq_sqrt hq0]
  have := h3 y hy hty
  have e : ∑ i, marginal (fun i j => cov i j) none none r.w i * (y i - r.w i) =
      (∑ i, ∑ j, y i * cov i j * r.w j) - quad (fun i j => cov i j) r.w := by
    unfold marginal quad
    rw [← Finset.sum_sub_distrib]
    refine Finset.sum_congr rfl fun i _ => ?_
    rw [← Finset.sum_sub_distrib]
    simp only [Option.getD_none, sub_self, mul_zero, add_zero]
    rw [Finset.sum_mul]
    exact Finset.sum_congr rfl fun j _ => by ring
  rw [e] at this
  linarith

/-- Two uncorrelated assets with variances 1 and 2 under the default constraints: (2/3, 1/3) meets the certificate, so it is what the method
returns for the target 0, and its covariance with every other portfolio is at least 2/3. -/
example : ∃ (w : Wrapper 2) (solver : Opt.Solver) (r : Opt.Result 2), Sound solver ∧ Complete solver ∧
    w.minVarianceAtReturn solver 0 none none = .ok r ∧ r.w = ![2 / 3, 1 / 3] ∧ ∀ y : Fin 2 → ℝ, (∀ i, 0 ≤ y i) → ∑ i, y i = 1 →
      r.risk ^ 2 ≤ ∑ i, ∑ j, y i * (!![1, 0; 0, 2] : Matrix (Fin 2) (Fin 2) ℝ) i j * r.w j := by
  obtain ⟨solver, h1, h2⟩ := exists_solver
  obtain ⟨w, hmu, hcov, -, hlog, -, hin, htr⟩ := exists_wrapper (N := 2) (by norm_num) (some ![1 / 10, 1 / 50]) (some !![1, 0; 0, 2]) none false
  have hq : ∀ x : Fin 2 → ℝ, quad (fun i j => (!![1, 0; 0, 2] : Matrix (Fin 2) (Fin 2) ℝ) i j) x = x 0 ^ 2 + 2 * x 1 ^ 2 := by
    intro x
    simp [quad, Fin.sum_univ_two]
    ring
  have hpsd : IsCov (fun i j => (!![1, 0; 0, 2] : Matrix (Fin 2) (Fin 2) ℝ) i j) :=
    ⟨by intro i j; fin_cases i <;> fin_cases j <;> simp, fun x => by
      show 0 ≤ quad _ x
      rw [hq]; positivity⟩
  have hpd : ∀ x : Fin 2 → ℝ, x ≠ 0 → 0 < quad (fun i j => (!![1, 0; 0, 2] : Matrix (Fin 2) (Fin 2) ℝ) i j) x := by
    intro x hx
    rw [hq]
    by_contra hle
    have h0 : x 0 = 0 := by nlinarith [sq_nonneg (x 0), sq_nonneg (x 1)]
    have h1 : x 1 = 0 := by nlinarith [sq_nonneg (x 0), sq_nonneg (x 1)]
    exact hx (funext fun i => by fin_cases i <;> simp [h0, h1])
  obtain ⟨r, hr, hrw⟩ := (C262_certificate h1 h2 w _ _ hmu hcov hlog hpsd hpd none _ hin none none none none htr (by simp) 0 ![2 / 3, 1 / 3]).2
    ⟨(satisfies_default _).2 ⟨by simp [Fin.forall_fin_two]; norm_num, by simp [Fin.sum_univ_two]; norm_num⟩, by simp [ret, Fin.sum_univ_two]; norm_num, by
      intro y hy _
      obtain ⟨-, hs⟩ := (satisfies_default _).1 hy
      rw [Fin.sum_univ_two] at hs
      simp [marginal, Fin.sum_univ_two]
      linarith⟩
  refine ⟨w, solver, r, h1, h2, hr, hrw, fun y hy hs => ?_⟩
  refine C262_covariance h1 h2 w _ _ hmu hcov hlog hpsd hpd none _ hin htr hr ((satisfies_default _).2 ⟨hy, hs⟩) ?_
  have := hy 0
  have := hy 1
  simp [ret, Fin.sum_univ_two]
  linarith

end PyV.Props
