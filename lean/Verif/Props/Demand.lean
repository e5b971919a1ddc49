import Verif.Props.TwoFunds
import Verif.Props.RobustDuality
import Mathlib.Tactic

/-! # Properties C272, C273 and C274: equal treatment, and how weights respond to expected returns and to variances -/

namespace PyV.Props

open PyV PyV.Api PyV.Spec.Api PyV.Opt PyV.Spec.Opt PyV.Spec.Con PyV.Risk PyV.Spec Matrix

variable {N : ℕ}

private theorem ret_perm (σ : Equiv.Perm (Fin N)) {mu : Fin N → ℝ} (h : ∀ i, mu (σ i) = mu i) (x : Fin N → ℝ) :
    ret mu (fun i => x (σ i)) = ret mu x := by
  unfold ret
  rw [← Equiv.sum_comp σ (fun i => mu i * x i)]
  exact Finset.sum_congr rfl fun i _ => by rw [h]

private theorem quad_perm (σ : Equiv.Perm (Fin N)) {C : Fin N → Fin N → ℝ} (h : ∀ i j, C (σ i) (σ j) = C i j) (x : Fin N → ℝ) :
    quad C (fun i => x (σ i)) = quad C x := by
  unfold quad
  rw [← Equiv.sum_comp σ (fun i => ∑ j, x i * C i j * x j)]
  refine Finset.sum_congr rfl fun i _ => ?_
  rw [← Equiv.sum_comp σ (fun j => x (σ i) * C (σ i) j * x j)]
  exact Finset.sum_congr rfl fun j _ => by rw [h]

/-- **C272** Assets that nothing distinguishes are treated alike: if a rearrangement of the assets changes neither the moments nor what the constraints allow,
the minimum-variance portfolio for any target is unchanged by it. -/
theorem C272_alike {solver : Opt.Solver} (hsnd : Sound solver) (hcmp : Complete solver) (σ : Equiv.Perm (Fin N))
    (w : Wrapper N) (mu : Fin N → ℝ) (cov : Matrix (Fin N) (Fin N) ℝ) (hmu : w.mu = some mu) (hcov : w.cov = some cov)
    (hlog : w.isLog = false) (hpsd : IsCov (fun i j => cov i j)) (hpd : ∀ x : Fin N → ℝ, x ≠ 0 → 0 < quad (fun i j => cov i j) x)
    (con : Option (PyV.Con.Spec ℝ)) (c : PyV.Con.Spec ℝ) (hin : InForce w con c) (htr : Trading w none none none none)
    (hm : ∀ i, mu (σ i) = mu i) (hc : ∀ i j, cov (σ i) (σ j) = cov i j)
    (hs : ∀ x : Fin N → ℝ, Satisfies c x → Satisfies c (fun i => x (σ i))) (target : ℝ) {r : Opt.Result N}
    (hr : w.minVarianceAtReturn solver target con none = .ok r) (i : Fin N) : r.w (σ i) = r.w i := by
  obtain ⟨hyes, hno⟩ := C260_unlimited hsnd hcmp w mu cov hmu hcov hlog hpsd hpd con c hin none none none none htr (by simp) target
  have hex : ∃ x : Fin N → ℝ, Satisfies c x ∧ target ≤ ret mu x := by
    by_contra hcon
    push Not at hcon
    rw [hno hcon] at hr
    cases hr
  obtain ⟨r', hr', hsat, hge, hret, -, hbest⟩ := hyes hex
  rw [hr] at hr'
  injection hr' with hr'
  subst hr'
  by_contra hne
  have hlt := hbest (fun i => r.w (σ i)) (hs _ hsat) (by rw [ret_perm σ hm]; linarith) (fun h => hne (congrFun h i))
  simp only [varianceCost, Option.getD_none, Pi.zero_apply, zero_mul, Finset.sum_const_zero, add_zero] at hlt
  rw [quad_perm σ hc] at hlt
  exact lt_irrefl _ hlt

/-- **C272** In particular, `N` interchangeable assets under the default constraints get `1/N` each. -/
theorem C272_equal_weights {solver : Opt.Solver} (hsnd : Sound solver) (hcmp : Complete solver)
    (w : Wrapper N) (m a b : ℝ) (hmu : w.mu = some (fun _ => m))
    (hcov : w.cov = some (Matrix.of fun i j => if i = j then a else b)) (hlog : w.isLog = false)
    (hpd : ∀ x : Fin N → ℝ, x ≠ 0 → 0 < quad (fun i j => if i = j then a else b) x) (con : Option (PyV.Con.Spec ℝ))
    (hin : InForce w con PyV.Con.defaultSpec) (htr : Trading w none none none none) {target : ℝ} (ht : target ≤ m) (hN : 0 < N) :
    ∃ r, w.minVarianceAtReturn solver target con none = .ok r ∧ ∀ i, r.w i = 1 / N := by
  have hpsd : IsCov (fun i j => (Matrix.of fun i j : Fin N => if i = j then a else b) i j) := by
    refine ⟨fun i j => by simp [eq_comm], fun x => ?_⟩
    by_cases hx : x = 0
    · subst hx; simp
    · exact (hpd x hx).le
  have hNr : (0:ℝ) < N := by exact_mod_cast hN
  have hfeas : ∃ x : Fin N → ℝ, Satisfies (PyV.Con.defaultSpec : PyV.Con.Spec ℝ) x ∧ target ≤ ret (fun _ => m) x := by
    refine ⟨fun _ => 1 / N, (satisfies_default _).2 ⟨fun i => by positivity, ?_⟩, ?_⟩
    · rw [Finset.sum_const, Finset.card_univ, Fintype.card_fin, nsmul_eq_mul]
      field_simp
    · unfold ret
      rw [Finset.sum_const, Finset.card_univ, Fintype.card_fin, nsmul_eq_mul]
      have : (N:ℝ) * (m * (1 / N)) = m := by field_simp
      linarith
  obtain ⟨r, hr, hsat, -⟩ := (C260_unlimited hsnd hcmp w _ _ hmu hcov hlog hpsd hpd con _ hin none none none none htr (by simp) target).1 hfeas
  refine ⟨r, hr, fun i => ?_⟩
  have hall : ∀ j, r.w j = r.w i := by
    intro j
    have := C272_alike hsnd hcmp (Equiv.swap i j) w _ _ hmu hcov hlog hpsd hpd con _ hin htr (fun _ => rfl)
      (fun k l => by simp [Matrix.of_apply]) (fun x hx => ?_) target hr i
    · rwa [Equiv.swap_apply_left] at this
    · obtain ⟨h1, h2⟩ := (satisfies_default _).1 hx
      exact (satisfies_default _).2 ⟨fun k => h1 _, by rw [Equiv.sum_comp (Equiv.swap i j) x]; exact h2⟩
  have hsum := ((satisfies_default _).1 hsat).2
  rw [Finset.sum_congr rfl fun j _ => hall j, Finset.sum_const, Finset.card_univ, Fintype.card_fin, nsmul_eq_mul] at hsum
  field_simp
  linarith

/-- The weights move with the expected returns: on balance the assets whose expected return rose (relative to the others) gained weight. -/
def FollowsReturns (mu mu' x x' : Fin N → ℝ) : Prop := 0 ≤ ∑ i, (mu' i - mu i) * (x' i - x i)

private theorem follows_of {mu mu' x x' : Fin N → ℝ} {a b a' b' : ℝ} (h : a - ret mu x ≤ b - ret mu x') (h' : b' - ret mu' x' ≤ a' - ret mu' x)
    (e : a' - a ≤ b' - b) : FollowsReturns mu mu' x x' := by
  have : ∑ i, (mu' i - mu i) * (x' i - x i) = (ret mu' x' - ret mu' x) - (ret mu x' - ret mu x) := by
    unfold ret
    rw [← Finset.sum_sub_distrib, ← Finset.sum_sub_distrib, ← Finset.sum_sub_distrib]
    exact Finset.sum_congr rfl fun i _ => by ring
  unfold FollowsReturns
  rw [this]
  linarith

/-- If the expected return of a single asset rises, its weight does not fall. -/
theorem FollowsReturns.single {mu mu' x x' : Fin N → ℝ} (h : FollowsReturns mu mu' x x') {i : Fin N} (hi : mu i < mu' i)
    (hj : ∀ j, j ≠ i → mu' j = mu j) : x i ≤ x' i := by
  unfold FollowsReturns at h
  rw [Finset.sum_eq_single i (fun j _ hne => by rw [hj j hne, sub_self, zero_mul]) (fun hn => absurd (Finset.mem_univ i) hn)] at h
  have : 0 ≤ x' i - x i := by
    by_contra hc
    push Not at hc
    nlinarith
  linarith

/-- **C273** (penalised) Of two robust frontiers that differ only in the expected returns, portfolios with the same penalty follow the expected returns: raising
the expected return of one asset never lowers its weight. -/
theorem C273_robust_frontier {s1 s2 : Opt.Solver} (hs1 : Sound s1) (hc1 : Complete s1) (hs2 : Sound s2) (hc2 : Complete s2) {f1 f2 : Bayes.Factor}
    (hf1 : CholOk f1) (hf2 : CholOk f2) (w w' : Wrapper N) (mu mu' : Fin N → ℝ) (cov cov' : Matrix (Fin N) (Fin N) ℝ)
    (hmu : w.mu = some mu) (hcov : w.cov = some cov) (hmu' : w'.mu = some mu') (hcov' : w'.cov = some cov')
    (hS : ∃ L, IsChol (w.unc.getD cov) L) (hSS : w'.unc.getD cov' = w.unc.getD cov)
    (con con' : Option (PyV.Con.Spec ℝ)) (c : PyV.Con.Spec ℝ) (hin : InForce w con c) (hin' : InForce w' con' c)
    (hb : ∃ M, ∀ x : Fin N → ℝ, Satisfies c x → ∀ i, |x i| ≤ M) (hne : ∃ x : Fin N → ℝ, Satisfies c x)
    (costs costs' : Option Costs) (w0 imp w0' imp' : Option (Fin N → ℝ)) (htr : Trading w costs w0 imp none) (htr' : Trading w' costs' w0' imp' none)
    (num : ℤ) (maxLam : ℝ) (lambdas : Option (List ℝ)) (hg : ∃ grid, PenaltyGrid num maxLam lambdas grid) :
    ∃ R R', w.robustFrontier s1 f1 num maxLam lambdas con costs = .ok R ∧ w'.robustFrontier s2 f2 num maxLam lambdas con' costs' = .ok R' ∧
      ∀ col ∈ R, ∀ col' ∈ R', col.lam = col'.lam → FollowsReturns mu mu' col.w col'.w ∧
        ∀ i, mu i < mu' i → (∀ j, j ≠ i → mu' j = mu j) → col.w i ≤ col'.w i := by
  obtain ⟨grid, hg⟩ := hg
  obtain ⟨R, hR, -, -, -, rho, hrho, hcol⟩ := (C110_robust_frontier_partial hs1 hc1 hf1 w mu cov hmu hcov hS con c hin hb hne costs w0 imp htr num maxLam
    lambdas).1 grid hg
  obtain ⟨R', hR', -, -, -, rho', hrho', hcol'⟩ := (C110_robust_frontier_partial hs2 hc2 hf2 w' mu' cov' hmu' hcov' (by rw [hSS]; exact hS) con' c hin' hb hne
    costs' w0' imp' htr' num maxLam lambdas).1 grid hg
  rw [hSS] at hrho'
  have e := estimationRisk_unique hrho hrho'
  subst e
  refine ⟨R, R', hR, hR', fun col hm col' hm' hl => ?_⟩
  have h1 := (hcol col hm).2.2.2.2 col'.w (hcol' col' hm').1
  have h2 := (hcol' col' hm').2.2.2.2 col.w (hcol col hm).1
  rw [← hl] at h2
  have hF : FollowsReturns mu mu' col.w col'.w := follows_of h1 h2 (by linarith)
  exact ⟨hF, fun i hi hj => hF.single hi hj⟩

/-- **C273** (capped) The same for `solve_robust_gamma_portfolio` with the same penalty and cap. -/
theorem C273_robust_gamma {s1 s2 : Opt.Solver} (hs1 : Sound s1) (hc1 : Complete s1) (hs2 : Sound s2) (hc2 : Complete s2) {f1 f2 : Bayes.Factor}
    (hf1 : CholOk f1) (hf2 : CholOk f2) (w w' : Wrapper N) (mu mu' : Fin N → ℝ) (cov cov' : Matrix (Fin N) (Fin N) ℝ)
    (hmu : w.mu = some mu) (hcov : w.cov = some cov) (hmu' : w'.mu = some mu') (hcov' : w'.cov = some cov')
    (hS : ∃ L, IsChol (w.unc.getD cov) L) (hSS : w'.unc.getD cov' = w.unc.getD cov)
    (con con' : Option (PyV.Con.Spec ℝ)) (c : PyV.Con.Spec ℝ) (hin : InForce w con c) (hin' : InForce w' con' c)
    (hb : ∃ M, ∀ x : Fin N → ℝ, Satisfies c x → ∀ i, |x i| ≤ M)
    (costs costs' : Option Costs) (w0 imp w0' imp' : Option (Fin N → ℝ)) (htr : Trading w costs w0 imp none) (htr' : Trading w' costs' w0' imp' none)
    (gm gs : ℝ) {r r' : Opt.Result N} (hr : w.robustGamma s1 f1 gm gs con costs = .ok r) (hr' : w'.robustGamma s2 f2 gm gs con' costs' = .ok r') :
    FollowsReturns mu mu' r.w r'.w ∧ ∀ i, mu i < mu' i → (∀ j, j ≠ i → mu' j = mu j) → r.w i ≤ r'.w i := by
  obtain ⟨rho, hrho, hneg, hinf, hyes⟩ := C117_gamma_partial hs1 hc1 hf1 w mu cov hmu hcov hS con c hin hb costs w0 imp htr gm gs
  obtain ⟨rho', hrho', -, hinf', hyes'⟩ := C117_gamma_partial hs2 hc2 hf2 w' mu' cov' hmu' hcov' (by rw [hSS]; exact hS) con' c hin' hb costs' w0' imp' htr'
    gm gs
  rw [hSS] at hrho'
  have e := estimationRisk_unique hrho hrho'
  subst e
  have hgm : 0 ≤ gm := by
    by_contra hc
    rw [hneg (.inl (not_le.mp hc))] at hr
    cases hr
  have hgs : 0 ≤ gs := by
    by_contra hc
    rw [hneg (.inr (not_le.mp hc))] at hr
    cases hr
  have hfeas : ∃ x : Fin N → ℝ, Satisfies c x ∧ rho x ^ 2 ≤ gs := by
    by_contra hc
    push Not at hc
    rw [hinf hgm hgs hc] at hr
    cases hr
  obtain ⟨q, hq, hsat, hrisk, hcap, -, -, hbest⟩ := hyes hgm hgs hfeas
  obtain ⟨q', hq', hsat', hrisk', hcap', -, -, hbest'⟩ := hyes' hgm hgs hfeas
  rw [hr] at hq
  rw [hr'] at hq'
  injection hq with hq
  injection hq' with hq'
  subst hq hq'
  have h1 := hbest r'.w hsat' (hrisk'.trans hcap')
  have h2 := hbest' r.w hsat (hrisk.trans hcap)
  have hF : FollowsReturns mu mu' r.w r'.w := follows_of h1 h2 (by linarith)
  exact ⟨hF, fun i hi hj => hF.single hi hj⟩

/-- **C274** Of two calls of `min_variance_at_return` that differ only in the covariance, each portfolio is the less exposed to what was added: the variance
added to the first portfolio is at least the variance added to the second; in particular, if only the variance of one asset rises, the asset is held no more. -/
theorem C274_riskier {s1 s2 : Opt.Solver} (hs1 : Sound s1) (hc1 : Complete s1) (hs2 : Sound s2) (hc2 : Complete s2)
    (w w' : Wrapper N) (mu : Fin N → ℝ) (cov cov' : Matrix (Fin N) (Fin N) ℝ) (hmu : w.mu = some mu) (hcov : w.cov = some cov)
    (hmu' : w'.mu = some mu) (hcov' : w'.cov = some cov') (hlog : w.isLog = false) (hlog' : w'.isLog = false)
    (hpsd : IsCov (fun i j => cov i j)) (hpsd' : IsCov (fun i j => cov' i j))
    (con con' : Option (PyV.Con.Spec ℝ)) (c : PyV.Con.Spec ℝ) (hin : InForce w con c) (hin' : InForce w' con' c)
    (hb : ∃ M, ∀ x : Fin N → ℝ, Satisfies c x → ∀ i, |x i| ≤ M)
    (costs costs' : Option Costs) (w0 imp prop prop' : Option (Fin N → ℝ)) (htr : Trading w costs w0 imp prop) (htr' : Trading w' costs' w0 imp prop')
    (himp : ∀ l, imp = some l → ∀ i, 0 ≤ l i) (target : ℝ) (hne : ∃ x : Fin N → ℝ, Satisfies c x ∧ target ≤ ret mu x) :
    ∃ r r', w.minVarianceAtReturn s1 target con costs = .ok r ∧ w'.minVarianceAtReturn s2 target con' costs' = .ok r' ∧
      quad (fun i j => cov' i j) r'.w - quad (fun i j => cov i j) r'.w ≤ quad (fun i j => cov' i j) r.w - quad (fun i j => cov i j) r.w ∧
      ∀ i, cov i i < cov' i i → (∀ j k, ¬ (j = i ∧ k = i) → cov' j k = cov j k) → |r'.w i| ≤ |r.w i| := by
  obtain ⟨r, hr, hsat, hge, hret, -, hbest⟩ := (C107_min_variance_at_return hs1 hc1 w mu cov hmu hcov hlog hpsd con c hin hb costs w0 imp prop htr himp
    target).1 hne
  obtain ⟨r', hr', hsat', hge', hret', -, hbest'⟩ := (C107_min_variance_at_return hs2 hc2 w' mu cov' hmu' hcov' hlog' hpsd' con' c hin' hb costs' w0 imp prop'
    htr' himp target).1 hne
  have h1 := hbest r'.w hsat' (by rw [← hret']; exact hge')
  have h2 := hbest' r.w hsat (by rw [← hret]; exact hge)
  unfold varianceCost at h1 h2
  have key : quad (fun i j => cov' i j) r'.w - quad (fun i j => cov i j) r'.w ≤ quad (fun i j => cov' i j) r.w - quad (fun i j => cov i j) r.w := by linarith
  refine ⟨r, r', hr, hr', key, fun i hi hj => ?_⟩
  have hd : ∀ x : Fin N → ℝ, quad (fun i j => cov' i j) x - quad (fun i j => cov i j) x = (cov' i i - cov i i) * x i ^ 2 := by
    intro x
    unfold quad
    rw [← Finset.sum_sub_distrib, Finset.sum_eq_single i]
    · rw [← Finset.sum_sub_distrib, Finset.sum_eq_single i]
      · ring
      · intro k _ hk
        show x i * cov' i k * x k - x i * cov i k * x k = 0
        rw [hj i k (fun h => hk h.2), sub_self]
      · intro h; exact absurd (Finset.mem_univ i) h
    · intro j _ hjne
      rw [← Finset.sum_sub_distrib]
      refine Finset.sum_eq_zero fun k _ => ?_
      show x j * cov' j k * x k - x j * cov j k * x k = 0
      rw [hj j k (fun h => hjne h.1), sub_self]
    · intro h; exact absurd (Finset.mem_univ i) h
  rw [hd, hd] at key
  have : r'.w i ^ 2 ≤ r.w i ^ 2 := le_of_mul_le_mul_left key (by linarith)
  exact sq_le_sq.mp this

private theorem diag2 {a b : ℝ} (ha : 0 < a) (hb : 0 < b) : IsCov (fun i j => (!![a, 0; 0, b] : Matrix (Fin 2) (Fin 2) ℝ) i j) := by
  refine ⟨fun i j => by fin_cases i <;> fin_cases j <;> simp, fun x => ?_⟩
  have h1 : 0 ≤ a * x 0 ^ 2 := by positivity
  have h2 : 0 ≤ b * x 1 ^ 2 := by positivity
  simp [Fin.sum_univ_two]
  nlinarith

private theorem quad_diag2 (a b : ℝ) (x : Fin 2 → ℝ) : quad (fun i j => (!![a, 0; 0, b] : Matrix (Fin 2) (Fin 2) ℝ) i j) x = a * x 0 ^ 2 + b * x 1 ^ 2 := by
  simp [quad, Fin.sum_univ_two]
  ring

/-- **C273** does not extend to return targets: with `min_variance_at_return` a higher expected return of the riskier asset lets the same target be reached with
less of it. Here its weight falls from at least 1/2 to 1/4. -/
theorem C273_not_at_target {solver : Opt.Solver} (hsnd : Sound solver) (hcmp : Complete solver) :
    ∃ (w w' : Wrapper 2) (r r' : Opt.Result 2), w.mu = some ![0, 1] ∧ w'.mu = some ![0, 2] ∧ w.cov = some !![1, 0; 0, 100] ∧ w'.cov = some !![1, 0; 0, 100] ∧
      InForce w none PyV.Con.defaultSpec ∧ InForce w' none PyV.Con.defaultSpec ∧
      w.minVarianceAtReturn solver (1 / 2) none none = .ok r ∧ w'.minVarianceAtReturn solver (1 / 2) none none = .ok r' ∧ 1 / 2 ≤ r.w 1 ∧ r'.w 1 ≤ 1 / 4 := by
  obtain ⟨w, hmu, hcov, -, hlog, -, hin, htr⟩ := exists_wrapper (N := 2) (by norm_num) (some ![0, 1]) (some !![1, 0; 0, 100]) none false
  obtain ⟨w', hmu', hcov', -, hlog', -, hin', htr'⟩ := exists_wrapper (N := 2) (by norm_num) (some ![0, 2]) (some !![1, 0; 0, 100]) none false
  have hp := diag2 (a := 1) (b := 100) (by norm_num) (by norm_num)
  obtain ⟨r, hr, -, hge, hret, -⟩ := (C107_min_variance_at_return hsnd hcmp w _ _ hmu hcov hlog hp none _ hin default_bounded none none none none htr (by simp)
    (1 / 2)).1 ⟨![0, 1], (satisfies_default _).2 ⟨by intro i; fin_cases i <;> simp, by simp⟩, by simp [ret, Fin.sum_univ_two]; norm_num⟩
  have hx : Satisfies (PyV.Con.defaultSpec : PyV.Con.Spec ℝ) (![3 / 4, 1 / 4] : Fin 2 → ℝ) :=
    (satisfies_default _).2 ⟨by intro i; fin_cases i <;> norm_num, by simp [Fin.sum_univ_two]; norm_num⟩
  have hxr : (1:ℝ) / 2 ≤ ret (![0, 2] : Fin 2 → ℝ) ![3 / 4, 1 / 4] := by simp [ret, Fin.sum_univ_two]; norm_num
  obtain ⟨r', hr', hsat', hge', hret', -, hbest⟩ := (C107_min_variance_at_return hsnd hcmp w' _ _ hmu' hcov' hlog' hp none _ hin' default_bounded none none none
    none htr' (by simp) (1 / 2)).1 ⟨_, hx, hxr⟩
  refine ⟨w, w', r, r', hmu, hmu', hcov, hcov', hin, hin', hr, hr', ?_, ?_⟩
  · rw [hret] at hge
    simpa [ret, Fin.sum_univ_two] using hge
  · have := hbest _ hx hxr
    simp only [varianceCost, Option.getD_none, Pi.zero_apply, zero_mul, Finset.sum_const_zero, add_zero] at this
    rw [quad_diag2, quad_diag2] at this
    have hs := ((satisfies_default _).1 hsat').2
    rw [Fin.sum_univ_two] at hs
    rw [hret'] at hge'
    simp [ret, Fin.sum_univ_two] at hge' this
    have e : r'.w 0 = 1 - r'.w 1 := by linarith
    rw [e] at this
    by_contra hc
    push Not at hc
    nlinarith

/-- Two interchangeable assets share equally; the riskier of two assets is held no more after its variance rises. -/
example {solver : Opt.Solver} (hsnd : Sound solver) (hcmp : Complete solver) :
    (∃ (w : Wrapper 2) (r : Opt.Result 2), w.minVarianceAtReturn solver 0 none none = .ok r ∧ ∀ i, r.w i = 1 / 2) ∧
    ∃ (w w' : Wrapper 2) (r r' : Opt.Result 2), w.minVarianceAtReturn solver 0 none none = .ok r ∧ w'.minVarianceAtReturn solver 0 none none = .ok r' ∧
      |r'.w 1| ≤ |r.w 1| := by
  constructor
  · obtain ⟨w, hmu, hcov, -, hlog, -, hin, htr⟩ := exists_wrapper (N := 2) (by norm_num) (some (fun _ => 1 / 10))
      (some (Matrix.of fun i j => if i = j then 2 else 1)) none false
    obtain ⟨r, hr, h⟩ := C272_equal_weights hsnd hcmp w (1 / 10) 2 1 hmu hcov hlog (fun x hx => by
      have h0 : quad (fun i j : Fin 2 => if i = j then (2:ℝ) else 1) x = (x 0 + x 1) ^ 2 + x 0 ^ 2 + x 1 ^ 2 := by
        simp [quad, Fin.sum_univ_two]
        ring
      rw [h0]
      by_contra hc
      have h1 : x 0 = 0 := by nlinarith [sq_nonneg (x 0 + x 1), sq_nonneg (x 0), sq_nonneg (x 1)]
      have h2 : x 1 = 0 := by nlinarith [sq_nonneg (x 0 + x 1), sq_nonneg (x 0), sq_nonneg (x 1)]
      exact hx (funext fun i => by fin_cases i <;> assumption)) none hin htr (target := 0) (by norm_num) (by norm_num)
    exact ⟨w, r, hr, by simpa using h⟩
  · obtain ⟨w, hmu, hcov, -, hlog, -, hin, htr⟩ := exists_wrapper (N := 2) (by norm_num) (some ![1 / 10, 1 / 5]) (some !![1, 0; 0, 2]) none false
    obtain ⟨w', hmu', hcov', -, hlog', -, hin', htr'⟩ := exists_wrapper (N := 2) (by norm_num) (some ![1 / 10, 1 / 5]) (some !![1, 0; 0, 3]) none false
    obtain ⟨r, r', h1, h2, -, h3⟩ := C274_riskier hsnd hcmp hsnd hcmp w w' _ _ _ hmu hcov hmu' hcov' hlog hlog' (diag2 (by norm_num) (by norm_num))
      (diag2 (by norm_num) (by norm_num)) none none _ hin hin' default_bounded none none none none none none htr htr' (by simp) 0
      ⟨![0, 1], (satisfies_default _).2 ⟨by intro i; fin_cases i <;> simp, by simp⟩, by simp [ret, Fin.sum_univ_two]⟩
    exact ⟨w, w', r, r', h1, h2, h3 1 (by norm_num) (fun j k h => by fin_cases j <;> fin_cases k <;> simp_all)⟩

/-- Raising the second expected return: the weight of the second asset does not fall on the robust frontier, nor with a cap. -/
example {solver : Opt.Solver} (hsnd : Sound solver) (hcmp : Complete solver) {factor : Bayes.Factor} (hf : CholOk factor) :
    ∃ (w w' : Wrapper 2) (R R' : List (Column 2)), w.robustFrontier solver factor 3 2 none none none = .ok R ∧
      w'.robustFrontier solver factor 3 2 none none none = .ok R' ∧ ∀ col ∈ R, ∀ col' ∈ R', col.lam = col'.lam → col.w 1 ≤ col'.w 1 := by
  obtain ⟨w, hmu, hcov, -, -, hunc, hin, htr⟩ := exists_wrapper (N := 2) (by norm_num) (some ![1 / 10, 1 / 20]) (some !![1, 1; 1, 2]) none false
  obtain ⟨w', hmu', hcov', -, -, hunc', hin', htr'⟩ := exists_wrapper (N := 2) (by norm_num) (some ![1 / 10, 1 / 5]) (some !![1, 1; 1, 2]) none false
  obtain ⟨R, R', h1, h2, h3⟩ := C273_robust_frontier hsnd hcmp hsnd hcmp hf hf w w' _ _ _ _ hmu hcov hmu' hcov' (by rw [hunc]; exact ⟨_, (chol_example _).2 rfl⟩)
    (by rw [hunc, hunc']) none none _ hin hin' default_bounded ⟨![0, 1], (satisfies_default _).2 ⟨by intro i; fin_cases i <;> simp, by simp⟩⟩ none none none none
    none none htr htr' 3 2 none ⟨[0, 1, 2], by norm_num, by norm_num, .inr (.inr ⟨by norm_num, by norm_num, by norm_num, fun k hk => by
      simp at hk
      interval_cases k <;> norm_num⟩)⟩
  exact ⟨w, w', R, R', h1, h2, fun col hm col' hm' hl => (h3 col hm col' hm' hl).2 1 (by norm_num) (fun j hj => by fin_cases j <;> simp_all)⟩

end PyV.Props
