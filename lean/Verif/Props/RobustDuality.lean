import Verif.Props.RobustOrder
import Mathlib.Tactic

/-! # Property C237: penalising and capping estimation risk are two sides of one coin -/

namespace PyV.Props

open PyV PyV.Api PyV.Spec.Api PyV.Opt PyV.Spec.Opt PyV.Spec.Con PyV.Spec Matrix

variable {N : ℕ}

/-- The estimation risk of a matrix is one function of the weights. -/
theorem estimationRisk_unique {S : Matrix (Fin N) (Fin N) ℝ} {f g : (Fin N → ℝ) → ℝ} (hf : IsEstimationRisk S f) (hg : IsEstimationRisk S g) : f = g := by
  obtain ⟨L, hL, rfl⟩ := hf
  obtain ⟨M, hM, rfl⟩ := hg
  rw [isChol_unique hL hM]

private theorem frontier_column {solver : Opt.Solver} (hsnd : Sound solver) (hcmp : Complete solver) {factor : Bayes.Factor} (hf : CholOk factor)
    (w : Wrapper N) (mu : Fin N → ℝ) (cov : Matrix (Fin N) (Fin N) ℝ) (hmu : w.mu = some mu) (hcov : w.cov = some cov)
    (hS : ∃ L, IsChol (w.unc.getD cov) L) (con : Option (PyV.Con.Spec ℝ)) (c : PyV.Con.Spec ℝ)
    (hin : InForce w con c) (hb : ∃ M, ∀ x : Fin N → ℝ, Satisfies c x → ∀ i, |x i| ≤ M) (hne : ∃ x : Fin N → ℝ, Satisfies c x)
    (costs : Option Costs) (w0 imp : Option (Fin N → ℝ)) (htr : Trading w costs w0 imp none)
    (num : ℤ) (maxLam : ℝ) (lambdas : Option (List ℝ)) (cols : List (Column N))
    (hcols : w.robustFrontier solver factor num maxLam lambdas con costs = .ok cols) (col : Column N) (hcol : col ∈ cols)
    {rho : (Fin N → ℝ) → ℝ} (hrho : IsEstimationRisk (w.unc.getD cov) rho) :
    Satisfies c col.w ∧ col.ret = ret (reportedMean w.isLog mu cov) col.w ∧ rho col.w ≤ col.risk ∧ (0 < col.lam → col.risk = rho col.w) ∧
      ∀ x, Satisfies c x → col.lam * rho col.w - ret mu col.w ≤ col.lam * rho x - ret mu x := by
  have key := C110_robust_frontier_partial hsnd hcmp hf w mu cov hmu hcov hS con c hin hb hne costs w0 imp htr num maxLam lambdas
  obtain ⟨grid, hg⟩ : ∃ grid, PenaltyGrid num maxLam lambdas grid := by
    by_contra h
    rw [key.2 h] at hcols
    cases hcols
  obtain ⟨cols', hc', -, -, -, rho', hrho', hall⟩ := key.1 grid hg
  rw [hcols] at hc'
  injection hc' with hc'
  subst hc'
  rw [estimationRisk_unique hrho hrho']
  exact hall col hcol

/-- **C237** Take a portfolio of `robust_lambda_frontier` with positive penalty and give `solve_robust_gamma_portfolio` its own squared
estimation risk as the cap, with a smaller penalty (for instance none): it succeeds and reports the same expected return and the same squared
estimation risk. -/
theorem C237_own_risk_as_cap {solver : Opt.Solver} (hsnd : Sound solver) (hcmp : Complete solver) {factor : Bayes.Factor} (hf : CholOk factor)
    (w : Wrapper N) (mu : Fin N → ℝ) (cov : Matrix (Fin N) (Fin N) ℝ) (hmu : w.mu = some mu) (hcov : w.cov = some cov)
    (hS : ∃ L, IsChol (w.unc.getD cov) L) (con : Option (PyV.Con.Spec ℝ)) (c : PyV.Con.Spec ℝ)
    (hin : InForce w con c) (hb : ∃ M, ∀ x : Fin N → ℝ, Satisfies c x → ∀ i, |x i| ≤ M) (hne : ∃ x : Fin N → ℝ, Satisfies c x)
    (costs : Option Costs) (w0 imp : Option (Fin N → ℝ)) (htr : Trading w costs w0 imp none)
    (num : ℤ) (maxLam : ℝ) (lambdas : Option (List ℝ)) (cols : List (Column N))
    (hcols : w.robustFrontier solver factor num maxLam lambdas con costs = .ok cols) (col : Column N) (hcol : col ∈ cols)
    (gm : ℝ) (h0 : 0 ≤ gm) (hlt : gm < col.lam) :
    ∃ r, w.robustGamma solver factor gm (col.risk ^ 2) con costs = .ok r ∧ r.ret = ret mu col.w ∧ r.risk = col.risk ^ 2 ∧
      (w.isLog = false → r.ret = col.ret) := by
  obtain ⟨rho, hrho, -, -, hok⟩ := C117_gamma_partial hsnd hcmp hf w mu cov hmu hcov hS con c hin hb costs w0 imp htr gm (col.risk ^ 2)
  obtain ⟨s1, s2, -, s4, s5⟩ := frontier_column hsnd hcmp hf w mu cov hmu hcov hS con c hin hb hne costs w0 imp htr num maxLam lambdas cols hcols col hcol hrho
  have s4 := s4 (h0.trans_lt hlt)
  have hn : ∀ x, 0 ≤ rho x := by
    obtain ⟨L, -, rfl⟩ := hrho
    exact fun x => Real.sqrt_nonneg _
  obtain ⟨r, hr, r1, r2, r3, r4, -, r6⟩ := hok h0 (sq_nonneg _) ⟨col.w, s1, by rw [s4]⟩
  have hle : rho r.w ≤ rho col.w := by
    have := r2.trans r3
    rw [s4] at this
    exact (pow_le_pow_iff_left₀ (hn _) (hn _) two_ne_zero).1 this
  have h1 := r6 col.w s1 (by rw [s4])
  have h2 := s5 r.w r1
  have heq : rho r.w = rho col.w := by
    refine le_antisymm hle ?_
    by_contra h
    push Not at h
    nlinarith
  rw [heq] at h1 h2
  have hret : r.ret = ret mu col.w := by rw [r4]; linarith
  refine ⟨r, hr, hret, ?_, fun hl => ?_⟩
  · rw [heq, ← s4] at r2
    exact le_antisymm r3 r2
  · rw [hret, s2]
    unfold reportedMean
    rw [hl]
    simp

/-- **C237** A cap that the portfolio of `robust_lambda_frontier` for the same penalty respects does not bind: the capped problem reaches
the same compromise between expected return and estimation risk, and no more than that risk is needed when the penalty is positive. -/
theorem C237_loose_cap {solver : Opt.Solver} (hsnd : Sound solver) (hcmp : Complete solver) {factor : Bayes.Factor} (hf : CholOk factor)
    (w : Wrapper N) (mu : Fin N → ℝ) (cov : Matrix (Fin N) (Fin N) ℝ) (hmu : w.mu = some mu) (hcov : w.cov = some cov)
    (hS : ∃ L, IsChol (w.unc.getD cov) L) (con : Option (PyV.Con.Spec ℝ)) (c : PyV.Con.Spec ℝ)
    (hin : InForce w con c) (hb : ∃ M, ∀ x : Fin N → ℝ, Satisfies c x → ∀ i, |x i| ≤ M) (hne : ∃ x : Fin N → ℝ, Satisfies c x)
    (costs : Option Costs) (w0 imp : Option (Fin N → ℝ)) (htr : Trading w costs w0 imp none)
    (num : ℤ) (maxLam : ℝ) (lambdas : Option (List ℝ)) (cols : List (Column N))
    (hcols : w.robustFrontier solver factor num maxLam lambdas con costs = .ok cols) (col : Column N) (hcol : col ∈ cols)
    (hpos : 0 < col.lam) (cap : ℝ) (hcap : col.risk ^ 2 ≤ cap) :
    ∃ r, w.robustGamma solver factor col.lam cap con costs = .ok r ∧
      col.lam * Real.sqrt r.risk - r.ret = col.lam * col.risk - ret mu col.w := by
  obtain ⟨rho, hrho, -, -, hok⟩ := C117_gamma_partial hsnd hcmp hf w mu cov hmu hcov hS con c hin hb costs w0 imp htr col.lam cap
  obtain ⟨s1, s2, -, s4, s5⟩ := frontier_column hsnd hcmp hf w mu cov hmu hcov hS con c hin hb hne costs w0 imp htr num maxLam lambdas cols hcols col hcol hrho
  have s4 := s4 hpos
  have hn : ∀ x, 0 ≤ rho x := by
    obtain ⟨L, -, rfl⟩ := hrho
    exact fun x => Real.sqrt_nonneg _
  obtain ⟨r, hr, r1, r2, r3, r4, r5, r6⟩ := hok hpos.le ((sq_nonneg _).trans hcap) ⟨col.w, s1, by rw [← s4]; exact hcap⟩
  refine ⟨r, hr, ?_⟩
  rw [r5 hpos, Real.sqrt_sq (hn _), r4, s4]
  exact le_antisymm (r6 col.w s1 (by rw [← s4]; exact hcap)) (s5 r.w r1)

/-- Two assets with uncertainties 2 and 1, penalty 1: the hypotheses are met by a column with positive penalty. -/
example : ∃ (w : Wrapper 2) (solver : Opt.Solver) (factor : Bayes.Factor) (cols : List (Column 2)), Sound solver ∧ Complete solver ∧ CholOk factor ∧
    (∃ L, IsChol (Matrix.diagonal ![(4 : ℝ), 1]) L) ∧ w.cov = some (Matrix.diagonal ![4, 1]) ∧ w.unc = none ∧
    InForce w none PyV.Con.defaultSpec ∧ w.robustFrontier solver factor 1 1 none none none = .ok cols ∧ ∃ col ∈ cols, 0 < col.lam := by
  obtain ⟨solver, h1, h2⟩ := exists_solver
  obtain ⟨factor, hf⟩ := cholOk_exists
  obtain ⟨w, hmu, hcov, -, -, hunc, hin, htr⟩ := exists_wrapper (N := 2) (by norm_num)
    (some ![1/10, 0]) (some (Matrix.diagonal ![4, 1])) none false
  have hS : ∃ L, IsChol (Matrix.diagonal ![(4 : ℝ), 1]) L := diagonal_chol (fun i => by fin_cases i <;> norm_num)
  obtain ⟨cols, hcols, hp, -⟩ := (C110_robust_frontier_partial h1 h2 hf w _ _ hmu hcov (by rw [hunc]; exact hS) none PyV.Con.defaultSpec hin default_bounded
    ⟨![1, 0], (satisfies_default _).2 ⟨fun i => by fin_cases i <;> simp, by simp⟩⟩ none none none htr 1 1 none).1 [1]
    ⟨by norm_num, by norm_num, Or.inl ⟨rfl, rfl⟩⟩
  refine ⟨w, solver, factor, cols, h1, h2, hf, hS, hcov, hunc, hin, hcols, ?_⟩
  have : (1 : ℝ) ∈ cols.map Column.lam := hp.symm.subset (by simp)
  obtain ⟨col, hc, e⟩ := List.mem_map.1 this
  exact ⟨col, hc, by rw [e]; norm_num⟩

end PyV.Props
