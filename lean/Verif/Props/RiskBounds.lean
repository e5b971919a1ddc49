import Verif.Props.FrontierQueries
import Verif.Props.Mixtures
import Verif.Props.WrapperCvar

/-! # Property C265: CVaR, VaR and volatility of one portfolio -/

namespace PyV.Props

open PyV PyV.Api PyV.Spec.Api PyV.Opt PyV.Spec.Opt PyV.Spec.Con PyV.Risk PyV.Spec Matrix

variable {N T : ℕ}

/-- Expected excess over a threshold is bounded by the first two moments. -/
private theorem excess_le {p Y : Fin T → ℝ} (hp : IsProb p) {m σ : ℝ} (hm : expect p Y = m) (hσ : expect p (fun t => Y t ^ 2) = σ ^ 2 + m ^ 2) (a : ℝ) :
    expect p (fun t => max (Y t - a) 0) ≤ (Real.sqrt (σ ^ 2 + (m - a) ^ 2) + (m - a)) / 2 := by
  have hz : ∑ t, p t * (Y t - a) = m - a := by
    have : ∑ t, p t * (Y t - a) = expect p Y - (∑ t, p t) * a := by
      unfold expect
      rw [Finset.sum_mul, ← Finset.sum_sub_distrib]
      exact Finset.sum_congr rfl fun t _ => by ring
    rw [this, hm, hp.sum, one_mul]
  have hz2 : ∑ t, p t * (Y t - a) ^ 2 = σ ^ 2 + (m - a) ^ 2 := by
    have : ∑ t, p t * (Y t - a) ^ 2 = expect p (fun t => Y t ^ 2) - 2 * a * expect p Y + (∑ t, p t) * a ^ 2 := by
      unfold expect
      rw [Finset.sum_mul, Finset.mul_sum, ← Finset.sum_sub_distrib, ← Finset.sum_add_distrib]
      exact Finset.sum_congr rfl fun t _ => by ring
    rw [this, hm, hσ, hp.sum]
    ring
  have habs : ∑ t, p t * |Y t - a| ≤ Real.sqrt (σ ^ 2 + (m - a) ^ 2) := by
    refine Real.le_sqrt_of_sq_le ?_
    rw [← hz2]
    have h := Finset.sum_mul_sq_le_sq_mul_sq Finset.univ (fun t => Real.sqrt (p t)) (fun t => Real.sqrt (p t) * |Y t - a|)
    have e1 : ∀ t, Real.sqrt (p t) * (Real.sqrt (p t) * |Y t - a|) = p t * |Y t - a| := fun t => by
      rw [← mul_assoc, Real.mul_self_sqrt (hp.nonneg t)]
    have e2 : ∀ t, Real.sqrt (p t) ^ 2 = p t := fun t => Real.sq_sqrt (hp.nonneg t)
    have e3 : ∀ t, (Real.sqrt (p t) * |Y t - a|) ^ 2 = p t * (Y t - a) ^ 2 := fun t => by rw [mul_pow, e2, sq_abs]
    simp only [e1, e2, e3, hp.sum, one_mul] at h
    exact h
  have e : expect p (fun t => max (Y t - a) 0) = ((∑ t, p t * |Y t - a|) + ∑ t, p t * (Y t - a)) / 2 := by
    unfold expect
    rw [← Finset.sum_add_distrib, Finset.sum_div]
    refine Finset.sum_congr rfl fun t _ => ?_
    show p t * max (Y t - a) 0 = _
    rcases le_total 0 (Y t - a) with h | h
    · rw [max_eq_left h, abs_of_nonneg h]; ring
    · rw [max_eq_right h, abs_of_nonpos h]; ring
  rw [e, hz]
  linarith

private theorem cvar_le {p X : Fin T → ℝ} (hp : IsProb p) {m σ conf v : ℝ} (hσ0 : 0 ≤ σ) (hm : expect p X = m)
    (hσ : expect p (fun t => X t ^ 2) = σ ^ 2 + m ^ 2) (h0 : 0 < conf) (h1 : conf < 1) (hv : IsCvar p X conf v) :
    v ≤ -m + σ * Real.sqrt (conf / (1 - conf)) := by
  set d := 1 - conf with hd
  have hd0 : 0 < d := by rw [hd]; linarith
  set q := Real.sqrt (conf * d) with hq
  have hq0 : 0 < q := Real.sqrt_pos.2 (mul_pos h0 hd0)
  have hq2 : q ^ 2 = conf * d := Real.sq_sqrt (mul_pos h0 hd0).le
  set k := (2 * conf - 1) / (2 * q) with hk
  refine (hv.2 ⟨-m + σ * k, rfl⟩).trans ?_
  have hex := excess_le hp (Y := fun t => -X t) (m := -m) (σ := σ) (by
    rw [← hm]; unfold expect; rw [← Finset.sum_neg_distrib]; exact Finset.sum_congr rfl fun t _ => by ring) (by
    simp only [neg_sq]; exact hσ) (-m + σ * k)
  have hroot : Real.sqrt (σ ^ 2 + (-m - (-m + σ * k)) ^ 2) = σ / (2 * q) := by
    have : σ ^ 2 + (-m - (-m + σ * k)) ^ 2 = (σ / (2 * q)) ^ 2 := by
      rw [hk]
      field_simp
      have : 4 * q ^ 2 + (2 * conf - 1) ^ 2 = 1 := by rw [hq2, hd]; ring
      linear_combination σ ^ 2 * this
    rw [this, Real.sqrt_sq (div_nonneg hσ0 (by linarith))]
  rw [hroot] at hex
  have hsq : Real.sqrt (conf / d) = conf / q := by
    rw [hq, Real.sqrt_div' _ hd0.le, Real.sqrt_mul h0.le, ← div_div, Real.div_sqrt]
  have hval : (σ / (2 * q) + (-m - (-m + σ * k))) / 2 = σ * d / (2 * q) := by
    rw [hk, hd]
    field_simp
    ring
  rw [hval] at hex
  have hex2 : expect p (fun t => max (-X t - (-m + σ * k)) 0) / d ≤ σ / (2 * q) := by
    rw [div_le_iff₀ hd0]
    refine hex.trans (le_of_eq ?_)
    ring
  unfold ru
  rw [hsq]
  have hfin : -m + σ * k + σ / (2 * q) = -m + σ * (conf / q) := by
    rw [hk]
    field_simp
    ring
  rw [← hfin]
  linarith

private theorem cov_moments {R : Fin T → Fin N → ℝ} {p : Fin T → ℝ} {mu : Fin N → ℝ} {S : Matrix (Fin N) (Fin N) ℝ}
    (e1 : ∀ i, mu i = expect p (fun t => R t i)) (e2 : ∀ i j, S i j = expect p (fun t => R t i * R t j) - mu i * mu j) (x : Fin N → ℝ) :
    expect p (Risk.pnl R x) = ret mu x ∧ expect p (fun t => Risk.pnl R x t ^ 2) = quad (fun i j => S i j) x + ret mu x ^ 2 := by
  constructor
  · unfold expect Risk.pnl ret
    simp only [e1, expect, Finset.mul_sum, Finset.sum_mul]
    rw [Finset.sum_comm]
    exact Finset.sum_congr rfl fun i _ => Finset.sum_congr rfl fun t _ => by ring
  · have h : quad (fun i j => S i j) x + ret mu x ^ 2 = ∑ i, ∑ j, x i * expect p (fun t => R t i * R t j) * x j := by
      unfold quad ret
      rw [sq, Finset.sum_mul_sum, ← Finset.sum_add_distrib]
      refine Finset.sum_congr rfl fun i _ => ?_
      rw [← Finset.sum_add_distrib]
      refine Finset.sum_congr rfl fun j _ => ?_
      show x i * S i j * x j + _ = _
      rw [e2]; ring
    rw [h]
    unfold expect Risk.pnl
    simp only [sq, Finset.sum_mul_sum, Finset.mul_sum, Finset.sum_mul]
    rw [Finset.sum_comm]
    refine Finset.sum_congr rfl fun i _ => ?_
    rw [Finset.sum_comm]
    exact Finset.sum_congr rfl fun j _ => Finset.sum_congr rfl fun t _ => by ring

/-- **C265** With the sample mean and covariance of the scenarios: the VaR and CVaR of a portfolio at any confidence are at most its expected loss plus
its volatility times the square root of `confidence / (1 − confidence)`, and the CVaR is at least the expected loss; with `demean` the expected
loss counts as zero. -/
theorem C265_moment_bounds {argsort : (Fin T → ℝ) → Equiv.Perm (Fin T)} (hs : IsArgsort argsort) (R : Fin T → Fin N → ℝ) {p : Fin T → ℝ} (hp : IsProb p)
    (x : Fin N → ℝ) {conf : ℝ} (h0 : 0 < conf) (h1 : conf < 1) (demean : Bool) :
    ∃ mu S v u, Mom.estimateSampleMoments R p = .ok (mu, S) ∧ portfolioCvar argsort x R (some p) (some conf) demean = .ok v ∧
      portfolioVar argsort x R (some p) (some conf) demean = .ok u ∧
      (if demean then 0 else -(ret mu x)) ≤ v ∧ u ≤ v ∧
      v ≤ (if demean then 0 else -(ret mu x)) + Real.sqrt (quad (fun i j => S i j) x) * Real.sqrt (conf / (1 - conf)) := by
  obtain ⟨mu, S, em, e1, e2, hpsd⟩ := C35_sample_moments R hp
  obtain ⟨u, v, hu, hv, -, -, -, huv, -⟩ := C13_var_cvar_bracket hs x R (some p) hp conf h0 h1 demean
  obtain ⟨v', hv', hc⟩ := (C12_cvar_is_ru_minimum hs x R (some p) hp conf demean).1 ⟨h0, h1⟩
  rw [hv] at hv'
  injection hv' with hv'
  subst hv'
  obtain ⟨m1, m2⟩ := cov_moments e1 e2 x
  have hq : 0 ≤ quad (fun i j => S i j) x := by
    have : quad (fun i j => S i j) x = expect p (fun t => (Risk.pnl R x t - ret mu x) ^ 2) := by
      have h : expect p (fun t => (Risk.pnl R x t - ret mu x) ^ 2) =
          expect p (fun t => Risk.pnl R x t ^ 2) - 2 * ret mu x * expect p (Risk.pnl R x) + (∑ t, p t) * ret mu x ^ 2 := by
        unfold expect
        rw [Finset.sum_mul, Finset.mul_sum, ← Finset.sum_sub_distrib, ← Finset.sum_add_distrib]
        exact Finset.sum_congr rfl fun t _ => by ring
      rw [h, m1, m2, hp.sum]
      ring
    rw [this]
    exact Finset.sum_nonneg fun t _ => mul_nonneg (hp.nonneg t) (sq_nonneg _)
  have heff : effPnl x R (some p) demean = fun t => Risk.pnl R x t - (if demean then ret mu x else 0) := by
    rw [← m1]
    exact eff_shift x R p demean
  have hsub : ∀ k : ℝ, expect p (fun t => Risk.pnl R x t - k) = ret mu x - k := by
    intro k
    have : expect p (fun t => Risk.pnl R x t - k) = expect p (Risk.pnl R x) - (∑ t, p t) * k := by
      unfold expect
      rw [Finset.sum_mul, ← Finset.sum_sub_distrib]
      exact Finset.sum_congr rfl fun t _ => by ring
    rw [this, m1, hp.sum, one_mul]
  have hsub2 : ∀ k : ℝ, expect p (fun t => (Risk.pnl R x t - k) ^ 2) = quad (fun i j => S i j) x + (ret mu x - k) ^ 2 := by
    intro k
    have h : expect p (fun t => (Risk.pnl R x t - k) ^ 2) =
        expect p (fun t => Risk.pnl R x t ^ 2) - 2 * k * expect p (Risk.pnl R x) + (∑ t, p t) * k ^ 2 := by
      unfold expect
      rw [Finset.sum_mul, Finset.mul_sum, ← Finset.sum_sub_distrib, ← Finset.sum_add_distrib]
      exact Finset.sum_congr rfl fun t _ => by ring
    rw [h, m1, m2, hp.sum]
    ring
  rw [heff] at hc
  have hmean : (if demean then 0 else -(ret mu x)) = -(ret mu x - if demean then ret mu x else 0) := by
    cases demean <;> simp
  refine ⟨mu, S, v, u, em, hv, hu, ?_, huv, ?_⟩
  · rw [hmean, ← hsub]
    refine cvar_expected_loss hp (a := 1 - conf) (by linarith) (by linarith) ?_
    rw [sub_sub_cancel]
    exact hc
  · rw [hmean]
    refine cvar_le hp (Real.sqrt_nonneg _) (hsub _) ?_ h0 h1 hc
    rw [hsub2, Real.sq_sqrt hq]

/-- **C265** Across methods: on a wrapper whose moments are those of its scenarios, the least CVaR for a target return is at most the CVaR of the
least-variance portfolio for that target, hence at most minus its return plus its volatility times `√((1 − α)/α)`; and the least volatility is
at most the volatility of the least-CVaR portfolio. -/
theorem C265_methods {solver : Opt.Solver} (hsnd : Sound solver) (hcmp : Complete solver) (argsort : Argsort)
    (hs : ∀ T, IsArgsort (argsort T)) (sim : Sim) (w : Wrapper N) (s : Scen N) (hscen : w.scen = some s) (hp : IsProb s.p)
    (mu : Fin N → ℝ) (S : Matrix (Fin N) (Fin N) ℝ) (hmom : Mom.estimateSampleMoments s.R s.p = .ok (mu, S)) (hmu : w.mu = some mu) (hcov : w.cov = some S)
    (hlog : w.isLog = false) (con : Option (PyV.Con.Spec ℝ)) (c : PyV.Con.Spec ℝ)
    (hin : InForce w con c) (hb : ∃ M, ∀ x : Fin N → ℝ, Satisfies c x → ∀ i, |x i| ≤ M) (htr : Trading w none none none none)
    (target alpha : ℝ) (h0 : 0 < alpha) (h1 : alpha < 1) (seed : Option ℤ) (hreach : ∃ x : Fin N → ℝ, Satisfies c x ∧ target ≤ ret mu x) :
    ∃ rv rc cv cc, w.minVarianceAtReturn solver target con none = .ok rv ∧ w.minCvarAtReturn solver argsort sim target alpha seed con none = .ok rc ∧
      portfolioCvar (argsort s.T) rv.w s.R (some s.p) (some (1 - alpha)) false = .ok cv ∧
      portfolioCvar (argsort s.T) rc.w s.R (some s.p) (some (1 - alpha)) false = .ok cc ∧
      cc ≤ cv ∧ cv ≤ -rv.ret + rv.risk * Real.sqrt ((1 - alpha) / alpha) ∧ rv.risk ≤ Real.sqrt (quad (fun i j => S i j) rc.w) := by
  obtain ⟨mu', S', em, e1, e2, hpsd⟩ := C35_sample_moments s.R hp
  rw [hmom] at em
  simp only [Except.ok.injEq, Prod.mk.injEq] at em
  obtain ⟨rfl, rfl⟩ := em
  have hC : IsCov (fun i j => S i j) := by
    refine ⟨fun i j => ?_, fun x => ?_⟩
    · show S i j = S j i
      rw [e2, e2]
      unfold expect
      rw [mul_comm (mu i)]
      congr 1
      exact Finset.sum_congr rfl fun t _ => by ring
    · have := hpsd.dotProduct_mulVec_nonneg x
      simp only [star_trivial] at this
      refine this.trans (le_of_eq ?_)
      unfold dotProduct mulVec dotProduct
      refine Finset.sum_congr rfl fun i _ => ?_
      rw [Finset.mul_sum]
      exact Finset.sum_congr rfl fun j _ => by ring
  have hsm : scenMean s = mu := by
    funext i
    rw [e1]
    rfl
  obtain ⟨rv, a1, a2, a3, a4, a5, a6⟩ := (C107_min_variance_at_return hsnd hcmp w mu S hmu hcov hlog hC con c hin hb none none none none htr (by simp) target).1 hreach
  obtain ⟨rc, b1, b2, b3, b4, -, v, b6, b7, b8⟩ := (C109_min_cvar_at_return_partial hsnd hcmp argsort hs sim w s hscen hp hlog con c hin hb none none none none htr
    (by simp) target alpha h0 h1 seed).1 (by rw [hsm]; exact hreach)
  have hc0 : 0 < 1 - alpha := by linarith
  have hc1 : 1 - alpha < 1 := by linarith
  obtain ⟨mu', S', cv, u, em, g1, -, -, -, g5⟩ := C265_moment_bounds (hs s.T) s.R hp rv.w hc0 hc1 false
  rw [hmom] at em
  simp only [Except.ok.injEq, Prod.mk.injEq] at em
  obtain ⟨rfl, rfl⟩ := em
  obtain ⟨cv', g1', gcv⟩ := (C12_cvar_is_ru_minimum (hs s.T) rv.w s.R (some s.p) hp (1 - alpha) false).1 ⟨hc0, hc1⟩
  rw [g1] at g1'
  injection g1' with g1'
  subst g1'
  obtain ⟨cc, k1, kcc⟩ := (C12_cvar_is_ru_minimum (hs s.T) rc.w s.R (some s.p) hp (1 - alpha) false).1 ⟨hc0, hc1⟩
  have hcc : cc = v := kcc.unique b6
  have hle := b8 rv.w cv a2 (by rw [hsm, ← a4]; exact a3) gcv
  simp only [turnoverCost, Option.getD_none, Pi.zero_apply, zero_mul, Finset.sum_const_zero, add_zero] at hle
  have hvar := a6 rc.w b2 (by rw [← hsm]; exact b3)
  simp only [varianceCost, Option.getD_none, Pi.zero_apply, zero_mul, Finset.sum_const_zero, add_zero] at hvar
  refine ⟨rv, rc, cv, cc, a1, b1, g1, k1, hcc ▸ hle, ?_, ?_⟩
  · simp only [Bool.false_eq_true, if_false] at g5
    rw [a4, a5]
    rw [sub_sub_cancel] at g5
    exact g5
  · rw [a5]
    exact Real.sqrt_le_sqrt hvar

/-- Two assets over two equally likely scenarios, default constraints: the hypotheses hold. -/
example : ∃ (w : Wrapper 2) (solver : Opt.Solver) (rv rc : Opt.Result 2) (cv cc : ℝ), Sound solver ∧ Complete solver ∧
    w.minVarianceAtReturn solver (3 / 20) none none = .ok rv ∧
    w.minCvarAtReturn solver (fun _ x => Tuple.sort x) (fun _ _ _ _ _ _ _ => 0) (3 / 20) (1 / 2) none none none = .ok rc ∧
      cc ≤ cv ∧ cv ≤ -rv.ret + rv.risk * Real.sqrt ((1 - 1 / 2) / (1 / 2)) := by
  obtain ⟨solver, h1, h2⟩ := exists_solver
  obtain ⟨mu, S, em, e1, -⟩ := C35_sample_moments exScen.R exScen_prob
  obtain ⟨w, hmu, hcov, hsc, hlog, -, hin, htr⟩ := exists_wrapper (N := 2) (by norm_num) (some mu) (some S) (some exScen) false
  have hm1 : mu 1 = 1 / 5 := by
    rw [e1]
    show ∑ t : Fin 2, (1 / 2 : ℝ) * (![![1 / 10, 1 / 20], ![1 / 10, 7 / 20]] : Fin 2 → Fin 2 → ℝ) t 1 = 1 / 5
    simp [Fin.sum_univ_two]
    norm_num
  obtain ⟨rv, rc, cv, cc, a1, a2, -, -, a5, a6, -⟩ := C265_methods h1 h2 (fun _ x => Tuple.sort x) (fun T x => Tuple.monotone_sort x)
    (fun _ _ _ _ _ _ _ => 0) w exScen hsc exScen_prob mu S em hmu hcov hlog none _ hin default_bounded htr (3 / 20) (1 / 2) (by norm_num) (by norm_num) none
    ⟨![0, 1], (satisfies_default _).2 ⟨by intro i; fin_cases i <;> simp, by simp⟩, by simp [ret, Fin.sum_univ_two, hm1]; norm_num⟩
  exact ⟨w, solver, rv, rc, cv, cc, h1, h2, a1, a2, a5, a6⟩

end PyV.Props
