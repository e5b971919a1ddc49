import Verif.Props.WorstCase
import Verif.Props.WrapperCvar
import Verif.Props.WrapperRobust
import Verif.Props.BayesRobust
import Verif.Lemmas.Cholesky

/-! # Properties C280 and C281: least CVaR is least worst expected loss; robust portfolios have the best worst expected return -/

namespace PyV.Props

open PyV PyV.Api PyV.Spec.Api PyV.Opt PyV.Spec.Opt PyV.Spec.Con PyV.Risk PyV.Spec Matrix

variable {N : ℕ}

/-! ## C280 -/

/-- `v` is the largest expected loss of the portfolio `x` over the reweightings of the scenarios that make none more than `1 / alpha` times
as likely. -/
def WorstLoss (s : Scen N) (alpha : ℝ) (x : Fin N → ℝ) (v : ℝ) : Prop :=
  IsGreatest {l | ∃ q, Reweights s.p (1 / alpha) q ∧ l = meanLoss q (pnl s x)} v

theorem worstLoss_iff {s : Scen N} (hp : IsProb s.p) {alpha : ℝ} (h0 : 0 < alpha) (h1 : alpha < 1) (x : Fin N → ℝ) (v : ℝ) :
    WorstLoss s alpha x v ↔ IsCvar s.p (pnl s x) (1 - alpha) v := by
  have hs : IsArgsort (fun y : Fin s.T → ℝ => Tuple.sort y) := fun y => Tuple.monotone_sort y
  obtain ⟨r, hr, hg⟩ := C278_worst_case hs x s.R hp (by linarith : 0 < 1 - alpha) (by linarith) false
  obtain ⟨r', hr', hc⟩ := portfolioCvar_ok hs (w := x) (R := s.R) (p := some s.p) (demean := false) hp (by linarith : 0 < 1 - alpha) (by linarith)
  have : r = r' := Except.ok.inj (hr.symm.trans hr')
  subst this
  simp only [sub_sub_cancel, Bool.false_eq_true, if_false, sub_zero] at hg
  have key : WorstLoss s alpha x r := hg
  have hc' : IsCvar s.p (pnl s x) (1 - alpha) r := hc
  constructor
  · intro h
    rw [h.unique key]
    exact hc'
  · intro h
    rw [cvar_unique h hc']
    exact key

theorem turnoverCost_none (f : (Fin N → ℝ) → ℝ) (w0 : Option (Fin N → ℝ)) (x : Fin N → ℝ) : turnoverCost f w0 none x = f x := by
  simp [turnoverCost]

/-- **C280** without trading costs, `min_cvar_at_return` returns an allowed portfolio that reaches the target and whose worst expected loss,
over all reweightings of the scenarios that make none more than `1 / alpha` times as likely, is the least of all such portfolios; the risk
reported is its absolute value. -/
theorem C280_min_cvar {solver : Opt.Solver} (hsnd : Sound solver) (hcmp : Complete solver) (argsort : Argsort)
    (hs : ∀ T, IsArgsort (argsort T)) (sim : Sim) (w : Wrapper N) (s : Scen N) (hscen : w.scen = some s) (hp : IsProb s.p)
    (hlog : w.isLog = false) (con : Option (PyV.Con.Spec ℝ)) (c : PyV.Con.Spec ℝ)
    (hin : InForce w con c) (hb : ∃ M, ∀ x : Fin N → ℝ, Satisfies c x → ∀ i, |x i| ≤ M)
    (costs : Option Costs) (w0 imp : Option (Fin N → ℝ)) (htr : Trading w costs w0 imp none)
    (target alpha : ℝ) (h0 : 0 < alpha) (h1 : alpha < 1) (seed : Option ℤ)
    (hreach : ∃ x : Fin N → ℝ, Satisfies c x ∧ target ≤ ret (scenMean s) x) :
    ∃ r v, w.minCvarAtReturn solver argsort sim target alpha seed con costs = .ok r ∧ Satisfies c r.w ∧
      target ≤ ret (scenMean s) r.w ∧ WorstLoss s alpha r.w v ∧ r.risk = |v| ∧
      ∀ x vx, Satisfies c x → target ≤ ret (scenMean s) x → WorstLoss s alpha x vx → v ≤ vx := by
  obtain ⟨r, hr, hsat, hret, -, -, v, hv, hrisk, hmin⟩ := (C109_min_cvar_at_return_partial hsnd hcmp argsort hs sim w s hscen hp hlog con c hin hb
    costs w0 imp none htr (by simp) target alpha h0 h1 seed).1 hreach
  refine ⟨r, v, hr, hsat, hret, (worstLoss_iff hp h0 h1 _ _).2 hv, hrisk, fun x vx hx ht hvx => ?_⟩
  have := hmin x vx hx ht ((worstLoss_iff hp h0 h1 _ _).1 hvx)
  rwa [turnoverCost_none, turnoverCost_none] at this

/-- **C280** every column of `cvar_frontier` (without trading costs) has the least worst expected loss among the allowed portfolios with at
least its expected return. -/
theorem C280_frontier {solver : Opt.Solver} (hsnd : Sound solver) (hcmp : Complete solver) (argsort : Argsort)
    (hs : ∀ T, IsArgsort (argsort T)) (sim : Sim) (w : Wrapper N) (s : Scen N) (hscen : w.scen = some s) (hp : IsProb s.p)
    (hlog : w.isLog = false) (con : Option (PyV.Con.Spec ℝ)) (c : PyV.Con.Spec ℝ)
    (hin : InForce w con c) (hb : ∃ M, ∀ x : Fin N → ℝ, Satisfies c x → ∀ i, |x i| ≤ M) (hne : ∃ x : Fin N → ℝ, Satisfies c x)
    (costs : Option Costs) (w0 imp : Option (Fin N → ℝ)) (htr : Trading w costs w0 imp none)
    (alpha : ℝ) (h0 : 0 < alpha) (h1 : alpha < 1) (seed : Option ℤ) (num : ℕ) (enforce : Bool) :
    ∃ F, w.cvarFrontier solver argsort sim num alpha seed con costs enforce = .ok F ∧
      ∀ j, Satisfies c (fun i => F.f.weights i j) ∧ ∀ v x vx, WorstLoss s alpha (fun i => F.f.weights i j) v → Satisfies c x →
        ret (scenMean s) (fun i => F.f.weights i j) ≤ ret (scenMean s) x → WorstLoss s alpha x vx → v ≤ vx := by
  obtain ⟨cvar, cols, f, σ, hcv, hF, hfr, hw, -⟩ := C114_cvar_frontier hsnd hcmp argsort hs sim w s hscen hp hlog con c hin hb hne costs w0 imp none
    htr (by simp) alpha h0 h1 seed num enforce
  refine ⟨_, hF, fun j => ?_⟩
  have e : (fun i => f.weights i j) = cols.get (σ j) := funext fun i => hw j i
  show Satisfies c (fun i => f.weights i j) ∧ _
  rw [e]
  have hmem : cols.get (σ j) ∈ cols := List.get_mem _ _
  refine ⟨hfr.inside _ hmem, fun v x vx hv hx hret hvx => ?_⟩
  have := hfr.efficient _ hmem x hx hret
  rw [turnoverCost_none, turnoverCost_none, cvar_unique (hcv _) ((worstLoss_iff hp h0 h1 _ _).1 hv),
    cvar_unique (hcv _) ((worstLoss_iff hp h0 h1 _ _).1 hvx)] at this
  exact this

/-- Two scenarios, tail level one half: the wrapper finds the portfolio wholly in the first asset, whose worst expected loss is -1/10. -/
example : ∃ (w : Wrapper 2) (solver : Opt.Solver), Sound solver ∧ Complete solver ∧ ∃ r v,
    w.minCvarAtReturn solver (fun _ x => Tuple.sort x) (fun _ _ _ _ _ _ _ => 0) (1 / 10) (1 / 2) none none none = .ok r ∧
      r.w 0 = 1 ∧ WorstLoss exScen (1 / 2) r.w v ∧ v = -(1 / 10) := by
  obtain ⟨solver, h1, h2⟩ := exists_solver
  obtain ⟨w, hmu, -, hsc, hlog, -, hin, htr⟩ := exists_wrapper (N := 2) (by norm_num) none none (some exScen) false
  have hA : Satisfies (PyV.Con.defaultSpec : PyV.Con.Spec ℝ) (![1, 0] : Fin 2 → ℝ) :=
    (satisfies_default _).2 ⟨by intro i; fin_cases i <;> simp, by simp⟩
  have hAr : (1 / 10 : ℝ) ≤ ret (scenMean exScen) ![1, 0] := by rw [exScen_ret]; simp
  obtain ⟨r, v, hr, hsat, -, hv, -, hmin⟩ := C280_min_cvar h1 h2 (fun _ x => Tuple.sort x) (fun T x => Tuple.monotone_sort x)
    (fun _ _ _ _ _ _ _ => 0) w _ hsc exScen_prob hlog none _ hin default_bounded none none none htr (1 / 10) (1 / 2) (by norm_num)
    (by norm_num) none ⟨_, hA, hAr⟩
  obtain ⟨vA, hvA⟩ : ∃ vA, IsCvar exScen.p (pnl exScen ![1, 0]) (1 - 1 / 2) vA := ⟨_, cvar_two _⟩
  have h3 := hmin _ vA hA hAr ((worstLoss_iff exScen_prob (by norm_num) (by norm_num) _ _).2 hvA)
  have hv' := (worstLoss_iff exScen_prob (by norm_num) (by norm_num) _ _).1 hv
  have e1 := exScen_cvar _ hA _ hvA
  have e2 := exScen_cvar _ hsat _ hv'
  have h4 := (satisfies_default r.w).1 hsat
  rw [Fin.sum_univ_two] at h4
  have h5 := h4.1 1
  have h6 : r.w 0 = 1 := by
    rw [e1, e2] at h3
    simp at h3 h4 h5
    linarith
  exact ⟨w, solver, h1, h2, r, v, hr, h6, hv, by rw [e2, h6]; norm_num⟩

/-! ## C281 -/

/-- `v` is the least expected return of the portfolio `x` over the mean vectors in the ellipsoid of radius `lam` around `mu`, with shape
matrix `S`. -/
def WorstReturn (S : Matrix (Fin N) (Fin N) ℝ) (mu : Fin N → ℝ) (lam : ℝ) (x : Fin N → ℝ) (v : ℝ) : Prop :=
  IsLeast {l | ∃ m : Fin N → ℝ, (m - mu) ⬝ᵥ (S⁻¹ *ᵥ (m - mu)) ≤ lam ^ 2 ∧ l = ret m x} v

theorem quad_eq_dot (S : Matrix (Fin N) (Fin N) ℝ) (x : Fin N → ℝ) : Spec.Opt.quad S x = x ⬝ᵥ (S *ᵥ x) := by
  simp only [Spec.Opt.quad, dotProduct, mulVec, Finset.mul_sum, mul_assoc]

theorem ret_dot (m x : Fin N → ℝ) : ret m x = x ⬝ᵥ m := by
  simp only [ret, dotProduct, mul_comm]

theorem worstReturn_exists {S : Matrix (Fin N) (Fin N) ℝ} (hS : S.PosDef) {lam : ℝ} (hl : 0 ≤ lam) (mu x : Fin N → ℝ) :
    WorstReturn S mu lam x (ret mu x - lam * Real.sqrt (Spec.Opt.quad S x)) := by
  have hunit : IsUnit S.det := hS.det_pos.ne'.isUnit
  have hinv1 : S * S⁻¹ = 1 := Matrix.mul_nonsing_inv _ hunit
  have hinv2 : S⁻¹ * S = 1 := Matrix.nonsing_inv_mul _ hunit
  have hQ0 : 0 ≤ x ⬝ᵥ (S *ᵥ x) := PyV.Psd.quad_nonneg hS.posSemidef x
  rw [quad_eq_dot]
  refine ⟨?_, ?_⟩
  · rcases hQ0.eq_or_lt with h0 | hpos
    · refine ⟨mu, by rw [sub_self, zero_dotProduct]; positivity, ?_⟩
      rw [← h0, Real.sqrt_zero, mul_zero, sub_zero]
    · set q := x ⬝ᵥ (S *ᵥ x) with hq
      have hsq : 0 < Real.sqrt q := Real.sqrt_pos.2 hpos
      refine ⟨mu - (lam / Real.sqrt q) • (S *ᵥ x), ?_, ?_⟩
      · have e : mu - (lam / Real.sqrt q) • (S *ᵥ x) - mu = (-(lam / Real.sqrt q)) • (S *ᵥ x) := by rw [neg_smul]; abel
        rw [e, mulVec_smul, dotProduct_smul, smul_dotProduct, mulVec_mulVec, hinv2, one_mulVec, smul_eq_mul, smul_eq_mul, dotProduct_comm, ← hq]
        refine le_of_eq ?_
        have : -(lam / Real.sqrt q) * (-(lam / Real.sqrt q) * q) = lam ^ 2 * (q / Real.sqrt q ^ 2) := by field_simp
        rw [this, Real.sq_sqrt hQ0, div_self hpos.ne', mul_one]
      · rw [ret_dot, ret_dot, dotProduct_sub, dotProduct_smul, smul_eq_mul, ← hq]
        congr 1
        rw [div_mul_eq_mul_div, mul_div_assoc]
        congr 1
        rw [eq_div_iff hsq.ne', Real.mul_self_sqrt hQ0]
  · rintro l ⟨m, hm, rfl⟩
    set d := m - mu with hd
    have hmu' : ret m x = ret mu x + x ⬝ᵥ d := by rw [ret_dot, ret_dot, ← dotProduct_add]; congr 1; rw [hd]; abel
    have hz : S *ᵥ (S⁻¹ *ᵥ d) = d := by rw [mulVec_mulVec, hinv1, one_mulVec]
    have hzq : (S⁻¹ *ᵥ d) ⬝ᵥ (S *ᵥ (S⁻¹ *ᵥ d)) = d ⬝ᵥ (S⁻¹ *ᵥ d) := by rw [hz, dotProduct_comm]
    have hcs : (x ⬝ᵥ (S *ᵥ (S⁻¹ *ᵥ d))) ^ 2 ≤ (x ⬝ᵥ (S *ᵥ x)) * ((S⁻¹ *ᵥ d) ⬝ᵥ (S *ᵥ (S⁻¹ *ᵥ d))) := psd_cauchy_schwarz hS.posSemidef x (S⁻¹ *ᵥ d)
    rw [hzq, hz] at hcs
    have h3 : (x ⬝ᵥ d) ^ 2 ≤ lam ^ 2 * (x ⬝ᵥ (S *ᵥ x)) :=
      hcs.trans (by rw [mul_comm]; exact mul_le_mul_of_nonneg_right hm hQ0)
    have h4 := Real.abs_le_sqrt h3
    rw [Real.sqrt_mul (sq_nonneg _), Real.sqrt_sq hl] at h4
    rw [hmu']
    linarith [(abs_le.mp h4).1]

theorem penalty_nonneg {num : ℤ} {maxLam : ℝ} {lambdas : Option (List ℝ)} {grid : List ℝ} (hg : PenaltyGrid num maxLam lambdas grid) :
    ∀ l ∈ grid, 0 ≤ l := by
  intro l hl
  unfold PenaltyGrid at hg
  cases lambdas with
  | some ls => obtain ⟨-, h, rfl⟩ := hg; exact h l hl
  | none =>
    obtain ⟨-, hm, ⟨-, rfl⟩ | ⟨-, -, rfl⟩ | ⟨hn, -, -, h⟩⟩ := hg
    · rw [List.mem_singleton] at hl; rwa [hl]
    · rw [List.mem_singleton] at hl; rw [hl]
    · obtain ⟨k, hk, rfl⟩ := List.getElem_of_mem hl
      have h1 := h k hk
      have hn' : (0 : ℝ) < (num : ℝ) - 1 := by
        have : (1 : ℝ) < (num : ℝ) := by exact_mod_cast hn
        linarith
      by_contra hc
      push Not at hc
      have := mul_neg_of_neg_of_pos hc hn'
      rw [h1] at this
      have : (0 : ℝ) ≤ k * maxLam := by positivity
      linarith

/-- **C281** for a diagonal uncertainty matrix `S`: every portfolio of the robust frontier (without trading costs) has the largest worst
expected return, over the mean vectors within the ellipsoid of radius its penalty, of all allowed portfolios. Missing: other uncertainty
matrices, for which this is false of the code. -/
theorem C281_diagonal_partial {solver : Opt.Solver} (hsnd : Sound solver) (hcmp : Complete solver) {factor : Bayes.Factor} (hf : CholOk factor)
    (w : Wrapper N) (mu : Fin N → ℝ) (cov : Matrix (Fin N) (Fin N) ℝ) (hmu : w.mu = some mu) (hcov : w.cov = some cov)
    (hS : (w.unc.getD cov).PosDef) (hd : ∀ i j, i ≠ j → (w.unc.getD cov) i j = 0) (con : Option (PyV.Con.Spec ℝ)) (c : PyV.Con.Spec ℝ)
    (hin : InForce w con c) (hb : ∃ M, ∀ x : Fin N → ℝ, Satisfies c x → ∀ i, |x i| ≤ M) (hne : ∃ x : Fin N → ℝ, Satisfies c x)
    (costs : Option Costs) (w0 imp : Option (Fin N → ℝ)) (htr : Trading w costs w0 imp none)
    (num : ℤ) (maxLam : ℝ) (lambdas : Option (List ℝ)) (grid : List ℝ) (hg : PenaltyGrid num maxLam lambdas grid) :
    ∃ cols, w.robustFrontier solver factor num maxLam lambdas con costs = .ok cols ∧ (cols.map Column.lam).Perm grid ∧
      ∀ col ∈ cols, Satisfies c col.w ∧ ∃ v, WorstReturn (w.unc.getD cov) mu col.lam col.w v ∧
        ∀ x vx, Satisfies c x → WorstReturn (w.unc.getD cov) mu col.lam x vx → vx ≤ v := by
  obtain ⟨cols, hcols, hperm, -, -, rho, ⟨L, hL, rfl⟩, hall⟩ := (C110_robust_frontier_partial hsnd hcmp hf w mu cov hmu hcov (exists_chol_iff.2 hS) con c
    hin hb hne costs w0 imp htr num maxLam lambdas).1 grid hg
  refine ⟨cols, hcols, hperm, fun col hcol => ?_⟩
  obtain ⟨h1, -, -, -, h5⟩ := hall col hcol
  have hl : 0 ≤ col.lam := penalty_nonneg hg _ (hperm.subset (List.mem_map.2 ⟨col, hcol, rfl⟩))
  have hq := (C67_right_iff_diagonal hL).2 hd
  refine ⟨h1, _, worstReturn_exists hS hl mu col.w, fun x vx hx hvx => ?_⟩
  rw [hvx.unique (worstReturn_exists hS hl mu x)]
  have := h5 x hx
  rw [hq, hq] at this
  linarith

theorem coneNorm_quad (L : Matrix (Fin N) (Fin N) ℝ) (x : Fin N → ℝ) : coneNorm L x = Real.sqrt (Spec.Opt.quad (Lᵀ * L) x) := by
  rw [quad_eq_dot, ← mulVec_mulVec, dotProduct_mulVec, vecMul_transpose]
  unfold coneNorm
  congr 1
  exact Finset.sum_congr rfl fun i _ => by rw [sq]; rfl

theorem posDef_right {S L : Matrix (Fin N) (Fin N) ℝ} (hL : IsChol S L) : (Lᵀ * L).PosDef := by
  have hS : S.PosDef := exists_chol_iff.1 ⟨L, hL⟩
  have hdet : L.det ≠ 0 := by
    intro h
    have := hS.det_pos
    rw [← hL.1, det_mul, h, zero_mul] at this
    exact lt_irrefl _ this
  have hpsd : (Lᵀ * L).PosSemidef := by
    have := posSemidef_conjTranspose_mul_self L
    rwa [conjTranspose_eq_transpose_of_trivial] at this
  refine hpsd.posDef_iff_isUnit.2 ?_
  rw [isUnit_iff_isUnit_det, det_mul, det_transpose]
  exact (mul_ne_zero hdet hdet).isUnit

/-- **C281** what the code does for any positive definite uncertainty matrix `S = L L'`: the portfolios have the largest worst expected return
over the ellipsoid with shape matrix `L' L` instead of `S`. -/
theorem C281_actual {solver : Opt.Solver} (hsnd : Sound solver) (hcmp : Complete solver) {factor : Bayes.Factor} (hf : CholOk factor)
    (w : Wrapper N) (mu : Fin N → ℝ) (cov : Matrix (Fin N) (Fin N) ℝ) (hmu : w.mu = some mu) (hcov : w.cov = some cov)
    (hS : (w.unc.getD cov).PosDef) (con : Option (PyV.Con.Spec ℝ)) (c : PyV.Con.Spec ℝ)
    (hin : InForce w con c) (hb : ∃ M, ∀ x : Fin N → ℝ, Satisfies c x → ∀ i, |x i| ≤ M) (hne : ∃ x : Fin N → ℝ, Satisfies c x)
    (costs : Option Costs) (w0 imp : Option (Fin N → ℝ)) (htr : Trading w costs w0 imp none)
    (num : ℤ) (maxLam : ℝ) (lambdas : Option (List ℝ)) (grid : List ℝ) (hg : PenaltyGrid num maxLam lambdas grid) :
    ∃ cols L, IsChol (w.unc.getD cov) L ∧ w.robustFrontier solver factor num maxLam lambdas con costs = .ok cols ∧
      (cols.map Column.lam).Perm grid ∧
      ∀ col ∈ cols, Satisfies c col.w ∧ ∃ v, WorstReturn (Lᵀ * L) mu col.lam col.w v ∧
        ∀ x vx, Satisfies c x → WorstReturn (Lᵀ * L) mu col.lam x vx → vx ≤ v := by
  obtain ⟨cols, hcols, hperm, -, -, rho, ⟨L, hL, rfl⟩, hall⟩ := (C110_robust_frontier_partial hsnd hcmp hf w mu cov hmu hcov (exists_chol_iff.2 hS) con c
    hin hb hne costs w0 imp htr num maxLam lambdas).1 grid hg
  refine ⟨cols, L, hL, hcols, hperm, fun col hcol => ?_⟩
  obtain ⟨h1, -, -, -, h5⟩ := hall col hcol
  have hl : 0 ≤ col.lam := penalty_nonneg hg _ (hperm.subset (List.mem_map.2 ⟨col, hcol, rfl⟩))
  refine ⟨h1, _, worstReturn_exists (posDef_right hL) hl mu col.w, fun x vx hx hvx => ?_⟩
  rw [hvx.unique (worstReturn_exists (posDef_right hL) hl mu x)]
  have := h5 x hx
  rw [coneNorm_quad, coneNorm_quad] at this
  linarith

/-- **C281** is false of the code in general: with mean uncertainty `[[1, 1], [1, 2]]` and no expected returns, the penalty 1 gives the
portfolio wholly in the second asset, whose worst expected return `-sqrt 2` is below the `-1` of the first asset. -/
theorem C281_counterexample {solver : Opt.Solver} (hsnd : Sound solver) (hcmp : Complete solver) {factor : Bayes.Factor} (hf : CholOk factor) :
    ∃ (w : Wrapper 2) (col : Column 2), w.mu = some ![0, 0] ∧ w.cov = some !![1, 1; 1, 2] ∧ w.unc = none ∧ InForce w none PyV.Con.defaultSpec ∧
      w.robustFrontier solver factor 1 1 none none none = .ok [col] ∧ col.lam = 1 ∧ col.w = ![0, 1] ∧
      WorstReturn !![1, 1; 1, 2] ![0, 0] 1 col.w (-Real.sqrt 2) ∧
      Satisfies (PyV.Con.defaultSpec : PyV.Con.Spec ℝ) ![1, 0] ∧ WorstReturn !![1, 1; 1, 2] ![0, 0] 1 ![1, 0] (-1) := by
  obtain ⟨w, hmu, hcov, -, hlog, hunc, hin, htr⟩ := exists_wrapper (N := 2) (by norm_num) (some ![0, 0]) (some !![1, 1; 1, 2]) none false
  have hSe : w.unc.getD !![1, 1; 1, 2] = !![1, 1; 1, 2] := by rw [hunc]; rfl
  have hch : ∃ L, IsChol (!![1, 1; 1, 2] : Matrix (Fin 2) (Fin 2) ℝ) L := ⟨_, (chol_example _).2 rfl⟩
  have hpd := exists_chol_iff.1 hch
  have e0 : Satisfies (PyV.Con.defaultSpec : PyV.Con.Spec ℝ) ![(1 : ℝ), 0] :=
    (satisfies_default _).2 ⟨fun i => by fin_cases i <;> simp, by simp⟩
  have e1 : Satisfies (PyV.Con.defaultSpec : PyV.Con.Spec ℝ) ![(0 : ℝ), 1] :=
    (satisfies_default _).2 ⟨fun i => by fin_cases i <;> simp, by simp⟩
  obtain ⟨cols, hcols, hperm, -, -, rho, ⟨L, hL, rfl⟩, hall⟩ := (C110_robust_frontier_partial hsnd hcmp hf w _ _ hmu hcov (by rw [hSe]; exact hch) none
    PyV.Con.defaultSpec hin default_bounded ⟨_, e0⟩ none none none htr 1 1 none).1 [1] ⟨by norm_num, by norm_num, Or.inl ⟨rfl, rfl⟩⟩
  have hlen : cols.length = 1 := by simpa using hperm.length_eq
  obtain ⟨col, rfl⟩ := List.length_eq_one_iff.1 hlen
  have hlam : col.lam = 1 := by simpa using hperm.eq_singleton
  obtain ⟨h1, -, -, -, h5⟩ := hall col (by simp)
  rw [hSe] at hL
  have hLe := (chol_example L).1 hL
  have hn : ∀ x : Fin 2 → ℝ, x 0 + x 1 = 1 → coneNorm L x = Real.sqrt (x 0 ^ 2 + 1) := by
    intro x hx
    subst hLe
    unfold coneNorm
    simp [Fin.sum_univ_two, hx]
  obtain ⟨hw0, hw1⟩ := (satisfies_default _).1 h1
  rw [Fin.sum_univ_two] at hw1
  have h6 := h5 _ e1
  rw [hlam, hn _ hw1, hn _ (by simp)] at h6
  simp [ret, Fin.sum_univ_two] at h6
  have h7 : col.w 0 = 0 := h6
  have hw : col.w = ![0, 1] := by
    funext i; fin_cases i
    · simpa using h7
    · show col.w 1 = 1; linarith
  refine ⟨w, col, hmu, hcov, hunc, hin, hcols, hlam, hw, ?_, e0, ?_⟩
  · have := worstReturn_exists hpd (zero_le_one) (![0, 0] : Fin 2 → ℝ) col.w
    rw [hw] at this ⊢
    convert this using 1
    simp [ret, Spec.Opt.quad, Fin.sum_univ_two]
  · have := worstReturn_exists hpd (zero_le_one) (![0, 0] : Fin 2 → ℝ) ![1, 0]
    convert this using 1
    simp [ret, Spec.Opt.quad, Fin.sum_univ_two]

/-- The identity uncertainty and a grid of penalties meet the hypotheses of `C281_diagonal_partial`. -/
example {solver : Opt.Solver} (hsnd : Sound solver) (hcmp : Complete solver) {factor : Bayes.Factor} (hf : CholOk factor) :
    ∃ (w : Wrapper 2) (cols : List (Column 2)), w.robustFrontier solver factor 3 2 none none none = .ok cols ∧ (cols.map Column.lam).Perm [0, 1, 2] := by
  obtain ⟨w, hmu, hcov, -, hlog, hunc, hin, htr⟩ := exists_wrapper (N := 2) (by norm_num) (some ![0, 1]) (some 1) none false
  have hSe : w.unc.getD (1 : Matrix (Fin 2) (Fin 2) ℝ) = 1 := by rw [hunc]; rfl
  have e0 : Satisfies (PyV.Con.defaultSpec : PyV.Con.Spec ℝ) ![(1 : ℝ), 0] :=
    (satisfies_default _).2 ⟨fun i => by fin_cases i <;> simp, by simp⟩
  obtain ⟨cols, h, hp, -⟩ := C281_diagonal_partial hsnd hcmp hf w _ _ hmu hcov (by rw [hSe]; exact Matrix.PosDef.one)
    (fun i j hij => by rw [hSe]; exact Matrix.one_apply_ne hij) none _ hin default_bounded ⟨_, e0⟩ none none none htr 3 2 none [0, 1, 2]
    ⟨by norm_num, by norm_num, Or.inr (Or.inr ⟨by norm_num, by norm_num, by norm_num, fun k hk => by
      simp at hk; interval_cases k <;> norm_num⟩)⟩
  exact ⟨w, cols, h, hp⟩

end PyV.Props
