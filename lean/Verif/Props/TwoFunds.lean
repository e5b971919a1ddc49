import Verif.Props.FrontierUnique
import Verif.Lemmas.FrankWolfe

/-! # Properties C260 and C261: unlimited weights, and two-fund separation -/

namespace PyV.Props

open PyV PyV.Api PyV.Spec.Api PyV.Opt PyV.Spec.Opt PyV.Spec.Con PyV.Risk PyV.Spec Matrix

variable {N : ℕ}

/-! ## A positive definite variance attains its minimum on every closed set -/

private theorem quad_cont (C : Fin N → Fin N → ℝ) : Continuous (quad C) := by
  unfold quad
  fun_prop

private theorem quad_lower {C : Fin N → Fin N → ℝ} (hpd : ∀ x : Fin N → ℝ, x ≠ 0 → 0 < quad C x) :
    ∃ m, 0 < m ∧ ∀ x : Fin N → ℝ, m * ‖x‖ ^ 2 ≤ quad C x := by
  have hs : IsCompact (Metric.sphere (0 : Fin N → ℝ) 1) := isCompact_sphere _ _
  have hq0 : quad C 0 = 0 := by simp [quad]
  rcases (Metric.sphere (0 : Fin N → ℝ) 1).eq_empty_or_nonempty with he | hne
  · refine ⟨1, one_pos, fun x => ?_⟩
    have : x = 0 := by
      by_contra hx
      have hn : ‖x‖ ≠ 0 := norm_ne_zero_iff.2 hx
      have : (‖x‖⁻¹ • x) ∈ Metric.sphere (0 : Fin N → ℝ) 1 := by
        rw [mem_sphere_zero_iff_norm, norm_smul, norm_inv, norm_norm, inv_mul_cancel₀ hn]
      rw [he] at this
      exact this
    rw [this, hq0]
    simp
  · obtain ⟨x0, hx0, hmin⟩ := hs.exists_isMinOn hne (quad_cont C).continuousOn
    have hx00 : x0 ≠ 0 := by
      rintro rfl
      simp at hx0
    refine ⟨quad C x0, hpd x0 hx00, fun x => ?_⟩
    by_cases hx : x = 0
    · rw [hx, hq0]; simp
    have hn : ‖x‖ ≠ 0 := norm_ne_zero_iff.2 hx
    have hmem : (‖x‖⁻¹ • x) ∈ Metric.sphere (0 : Fin N → ℝ) 1 := by
      rw [mem_sphere_zero_iff_norm, norm_smul, norm_inv, norm_norm, inv_mul_cancel₀ hn]
    have h1 : quad C x0 ≤ quad C (‖x‖⁻¹ • x) := hmin hmem
    have h2 : quad C (‖x‖⁻¹ • x) = ‖x‖⁻¹ ^ 2 * quad C x := by
      unfold quad
      rw [Finset.mul_sum]
      refine Finset.sum_congr rfl fun i _ => ?_
      rw [Finset.mul_sum]
      refine Finset.sum_congr rfl fun j _ => ?_
      simp only [Pi.smul_apply, smul_eq_mul]
      ring
    rw [h2] at h1
    calc quad C x0 * ‖x‖ ^ 2 ≤ ‖x‖⁻¹ ^ 2 * quad C x * ‖x‖ ^ 2 := mul_le_mul_of_nonneg_right h1 (sq_nonneg _)
      _ = quad C x := by field_simp

private theorem exists_least {C : Fin N → Fin N → ℝ} (hpd : ∀ x : Fin N → ℝ, x ≠ 0 → 0 < quad C x) {S : Set (Fin N → ℝ)} (hcl : IsClosed S)
    (hne : S.Nonempty) {f : (Fin N → ℝ) → ℝ} (hf : Continuous f) {k : ℝ} (hge : ∀ x, quad C x ≤ f x + k) : ∃ x ∈ S, ∀ y ∈ S, f x ≤ f y := by
  obtain ⟨m, hm, hlow⟩ := quad_lower hpd
  obtain ⟨x0, hx0⟩ := hne
  set S' := S ∩ {x | f x ≤ f x0} with hS'
  have hcl' : IsClosed S' := hcl.inter (isClosed_le hf continuous_const)
  have hbd : Bornology.IsBounded S' := by
    rw [Metric.isBounded_iff_subset_closedBall 0]
    refine ⟨Real.sqrt ((f x0 + k) / m), fun x hx => ?_⟩
    rw [mem_closedBall_zero_iff]
    refine Real.le_sqrt_of_sq_le ?_
    rw [le_div_iff₀ hm, mul_comm]
    have h1 := hlow x
    have h2 := hge x
    have h3 : f x ≤ f x0 := hx.2
    linarith
  have hcomp : IsCompact S' := Metric.isCompact_of_isClosed_isBounded hcl' hbd
  obtain ⟨x, hx, hmin⟩ := hcomp.exists_isMinOn ⟨x0, hx0, le_refl (f x0)⟩ hf.continuousOn
  refine ⟨x, hx.1, fun y hy => ?_⟩
  rcases le_total (f y) (f x0) with h | h
  · exact hmin ⟨hy, h⟩
  · exact (hx.2 : f x ≤ f x0).trans h

private theorem total_pd {solver : Opt.Solver} (hcmp : Complete solver) (mean : Fin N → ℝ) (cov : Fin N → Fin N → ℝ)
    (user : User N) (w0 lam : Option (Fin N → ℝ)) (hcov : IsCov cov) (hpd : ∀ x : Fin N → ℝ, x ≠ 0 → 0 < quad cov x)
    (hlam : ∀ l, lam = some l → ∀ i, 0 ≤ l i) (target : Option ℝ) (hn : ∃ w, Reaches user mean target w) :
    ∃ x, solver _ inferInstance (mvProg (mvInit mean cov user w0 lam) target) = some x ∧
      mvSolve solver (mvInit mean cov user w0 lam) target = .ok x := by
  obtain ⟨k, hk⟩ := C69_quadratic_turnover_value mean cov user w0 lam target
  have himp : ∀ x, 0 ≤ mvCost cov w0 lam x - quad cov x := by
    intro x
    rw [mvCost_eq]
    unfold varianceCost
    rw [add_sub_cancel_left]
    refine Finset.sum_nonneg fun i _ => mul_nonneg ?_ (sq_nonneg _)
    cases lam with
    | none => simp
    | some l => exact hlam l rfl i
  obtain ⟨w, hw, hmin⟩ := exists_least (f := fun x => value (mvProg (mvInit mean cov user w0 lam) target) x) hpd
    (isClosed_reaches user mean target) hn (by unfold value; fun_prop) (k := k) (fun x => by
      have := hk x
      have := himp x
      linarith)
  obtain ⟨x, hx⟩ := hcmp _ inferInstance (mvProg (mvInit mean cov user w0 lam) target)
    (convex_mv mean cov user w0 lam target hcov hlam) ⟨w, (feasible_mv _ _ _).2 hw, fun y hy => hmin y ((feasible_mv _ _ _).1 hy)⟩
  refine ⟨x, hx, ?_⟩
  unfold mvSolve
  rw [hx]

/-- **C260** With a positive definite covariance the constraints need not bound the weights: whenever some portfolio satisfying them
reaches the target, `min_variance_at_return` returns the one of least variance plus impact cost among those, its own return and volatility;
otherwise it raises `InfeasibleOptimizationError`. -/
theorem C260_unlimited {solver : Opt.Solver} (hsnd : Sound solver) (hcmp : Complete solver)
    (w : Wrapper N) (mu : Fin N → ℝ) (cov : Matrix (Fin N) (Fin N) ℝ) (hmu : w.mu = some mu) (hcov : w.cov = some cov)
    (hlog : w.isLog = false) (hpsd : IsCov (fun i j => cov i j)) (hpd : ∀ x : Fin N → ℝ, x ≠ 0 → 0 < quad (fun i j => cov i j) x)
    (con : Option (PyV.Con.Spec ℝ)) (c : PyV.Con.Spec ℝ) (hin : InForce w con c)
    (costs : Option Costs) (w0 imp prop : Option (Fin N → ℝ)) (htr : Trading w costs w0 imp prop)
    (himp : ∀ l, imp = some l → ∀ i, 0 ≤ l i) (target : ℝ) :
    ((∃ x : Fin N → ℝ, Satisfies c x ∧ target ≤ ret mu x) →
      ∃ r, w.minVarianceAtReturn solver target con costs = .ok r ∧ Satisfies c r.w ∧ target ≤ r.ret ∧ r.ret = ret mu r.w ∧
        r.risk = Real.sqrt (quad (fun i j => cov i j) r.w) ∧
        ∀ x, Satisfies c x → target ≤ ret mu x → x ≠ r.w →
          varianceCost (fun i j => cov i j) w0 imp r.w < varianceCost (fun i j => cov i j) w0 imp x) ∧
    ((∀ x : Fin N → ℝ, Satisfies c x → ret mu x < target) →
      w.minVarianceAtReturn solver target con costs = .error .infeasible) := by
  obtain ⟨u, hu, hall⟩ := user_spec hin
  have hre : ∀ x, Reaches u mu (some target) x ↔ Satisfies c x ∧ target ≤ ret mu x := by
    intro x
    constructor
    · rintro ⟨h1, h2⟩; exact ⟨(hall x).1 h1, h2 _ rfl⟩
    · rintro ⟨h1, h2⟩; exact ⟨(hall x).2 h1, fun t ht => by injection ht with ht; subst ht; exact h2⟩
  constructor
  · rintro ⟨x, hx⟩
    have hn : ∃ x, Reaches u mu (some target) x := ⟨x, (hre x).2 hx⟩
    obtain ⟨y, hy1, hy2⟩ := total_pd hcmp mu (fun i j => cov i j) u w0 imp hpsd hpd himp (some target) hn
    obtain ⟨h1, h2⟩ := C90_min_variance hsnd mu (fun i j => cov i j) u w0 imp hpsd himp (some target) y (fun _ => ⟨y, hy1⟩) hy2
    rw [mvCost_eq] at h2
    refine ⟨⟨y, retOf mu y, vol (fun i j => cov i j) y⟩, ?_, ((hre y).1 h1).1, ((hre y).1 h1).2, rfl, rfl, fun x hx ht hne => ?_⟩
    · unfold Wrapper.minVarianceAtReturn Wrapper.moments
      simp only [hmu, hcov, hu, mvOf_trading htr, hy2, asInfeasible, Wrapper.report, hlog]
      rfl
    · refine lt_of_le_of_ne (h2 x ((hre x).2 ⟨hx, ht⟩)) fun he => hne ?_
      refine unique_min hpd w0 imp himp u mu target x ((hall x).2 hx) y h1.1 ht ((hre y).1 h1).2 (fun v hv hv2 => ?_)
        (fun v hv hv2 => h2 v ((hre v).2 ⟨(hall v).1 hv, hv2⟩))
      exact he.symm.le.trans (h2 v ((hre v).2 ⟨(hall v).1 hv, hv2⟩))
  · intro hno
    unfold Wrapper.minVarianceAtReturn Wrapper.moments
    simp only [hmu, hcov, hu, mvOf_trading htr]
    cases hs : mvSolve solver (mvInit mu (fun i j => cov i j) u w0 imp) (some target) with
    | error e =>
      rw [mvSolve_error _ _ _ hs]; rfl
    | ok y =>
      exfalso
      obtain ⟨_, _, h1, -⟩ := C90_min_variance_with_ridge hsnd mu (fun i j => cov i j) u w0 imp hpsd himp (some target) y hs
      obtain ⟨h1, h2⟩ := (hre y).1 h1
      exact absurd h2 (not_le.2 (hno y h1))

/-- **C107** Constraints that do not bound the weights: for every covariance matrix, and constraints that
need not bound the weights, `min_variance_at_return` returns a portfolio of least variance plus impact cost among those reaching the
target whenever there is one, and otherwise raises `InfeasibleOptimizationError`. -/
theorem C107_unbounded {solver : Opt.Solver} (hsnd : Sound solver) (hcmp : Complete solver)
    (w : Wrapper N) (mu : Fin N → ℝ) (cov : Matrix (Fin N) (Fin N) ℝ) (hmu : w.mu = some mu) (hcov : w.cov = some cov)
    (hlog : w.isLog = false) (hpsd : IsCov (fun i j => cov i j)) (con : Option (PyV.Con.Spec ℝ)) (c : PyV.Con.Spec ℝ) (hin : InForce w con c)
    (costs : Option Costs) (w0 imp prop : Option (Fin N → ℝ)) (htr : Trading w costs w0 imp prop)
    (himp : ∀ l, imp = some l → ∀ i, 0 ≤ l i) (target : ℝ) :
    ((∃ x : Fin N → ℝ, Satisfies c x ∧ target ≤ ret mu x) ↔ ∃ r, w.minVarianceAtReturn solver target con costs = .ok r) ∧
    (∀ r, w.minVarianceAtReturn solver target con costs = .ok r → Satisfies c r.w ∧ target ≤ r.ret ∧ r.ret = ret mu r.w ∧
        r.risk = Real.sqrt (quad (fun i j => cov i j) r.w) ∧
        ∀ x, Satisfies c x → target ≤ ret mu x →
          varianceCost (fun i j => cov i j) w0 imp r.w ≤ varianceCost (fun i j => cov i j) w0 imp x) ∧
    ((∀ x : Fin N → ℝ, Satisfies c x → ret mu x < target) →
      w.minVarianceAtReturn solver target con costs = .error .infeasible) := by
  obtain ⟨u, hu, hall⟩ := user_spec hin
  have hre : ∀ x, Reaches u mu (some target) x ↔ Satisfies c x ∧ target ≤ ret mu x := by
    intro x
    constructor
    · rintro ⟨h1, h2⟩; exact ⟨(hall x).1 h1, h2 _ rfl⟩
    · rintro ⟨h1, h2⟩; exact ⟨(hall x).2 h1, fun t ht => by injection ht with ht; subst ht; exact h2⟩
  have none_left : (∀ x : Fin N → ℝ, Satisfies c x → ret mu x < target) →
      w.minVarianceAtReturn solver target con costs = .error .infeasible := by
    intro hno
    unfold Wrapper.minVarianceAtReturn Wrapper.moments
    simp only [hmu, hcov, hu, mvOf_trading htr]
    cases hs : mvSolve solver (mvInit mu (fun i j => cov i j) u w0 imp) (some target) with
    | error e =>
      rw [mvSolve_error _ _ _ hs]; rfl
    | ok y =>
      exfalso
      obtain ⟨_, _, h1, -⟩ := C90_min_variance_with_ridge hsnd mu (fun i j => cov i j) u w0 imp hpsd himp (some target) y hs
      obtain ⟨h1, h2⟩ := (hre y).1 h1
      exact absurd h2 (not_le.2 (hno y h1))
  have main : (∃ x : Fin N → ℝ, Satisfies c x ∧ target ≤ ret mu x) →
      ∃ r, w.minVarianceAtReturn solver target con costs = .ok r ∧ Satisfies c r.w ∧ target ≤ r.ret ∧ r.ret = ret mu r.w ∧
        r.risk = Real.sqrt (quad (fun i j => cov i j) r.w) ∧
        ∀ x, Satisfies c x → target ≤ ret mu x →
          varianceCost (fun i j => cov i j) w0 imp r.w ≤ varianceCost (fun i j => cov i j) w0 imp x := by
    rintro ⟨x, hx⟩
    obtain ⟨k, hk⟩ := C69_quadratic_turnover_value mu (fun i j => cov i j) u w0 imp (some target)
    have hge : ∀ x, 0 ≤ mvCost (fun i j => cov i j) w0 imp x := by
      intro x
      rw [mvCost_eq]
      unfold varianceCost
      refine add_nonneg (hpsd.2 x) (Finset.sum_nonneg fun i _ => mul_nonneg ?_ (sq_nonneg _))
      cases imp with
      | none => simp
      | some l => exact himp l rfl i
    obtain ⟨z, hz⟩ := exists_optimal (pr := mvProg (mvInit mu (fun i j => cov i j) u w0 imp) (some target))
      (convex_mv mu (fun i j => cov i j) u w0 imp (some target) hpsd himp) rfl ⟨x, (feasible_mv _ _ _).2 ((hre x).2 hx)⟩
      ⟨-k, fun x _ => by
        have := hk x
        have := hge x
        linarith⟩
    obtain ⟨y, hy1⟩ := hcmp _ inferInstance (mvProg (mvInit mu (fun i j => cov i j) u w0 imp) (some target))
      (convex_mv mu (fun i j => cov i j) u w0 imp (some target) hpsd himp) ⟨z, hz⟩
    have hy2 : mvSolve solver (mvInit mu (fun i j => cov i j) u w0 imp) (some target) = .ok y := by
      unfold mvSolve
      rw [hy1]
    obtain ⟨h1, h2⟩ := C90_min_variance hsnd mu (fun i j => cov i j) u w0 imp hpsd himp (some target) y (fun _ => ⟨y, hy1⟩) hy2
    rw [mvCost_eq] at h2
    refine ⟨⟨y, retOf mu y, vol (fun i j => cov i j) y⟩, ?_, ((hre y).1 h1).1, ((hre y).1 h1).2, rfl, rfl, fun x hx ht => ?_⟩
    · unfold Wrapper.minVarianceAtReturn Wrapper.moments
      simp only [hmu, hcov, hu, mvOf_trading htr, hy2, asInfeasible, Wrapper.report, hlog]
      rfl
    · exact h2 x ((hre x).2 ⟨hx, ht⟩)
  refine ⟨⟨fun h => ?_, fun ⟨r, h⟩ => ?_⟩, fun r h => ?_, none_left⟩
  · obtain ⟨r, h, -⟩ := main h
    exact ⟨r, h⟩
  · by_contra hne
    push Not at hne
    rw [none_left hne] at h
    cases h
  · by_cases hex : ∃ x : Fin N → ℝ, Satisfies c x ∧ target ≤ ret mu x
    · obtain ⟨r', h', h''⟩ := main hex
      rw [h] at h'
      injection h' with h'
      subst h'
      exact h''
    · push Not at hex
      rw [none_left hex] at h
      cases h

/-- Two assets that are the same asset twice, with shorts and no bounds: the covariance is singular, portfolios of any size have the same
risk, and the method answers. -/
example : ∃ (w : Wrapper 2) (solver : Opt.Solver) (c : PyV.Con.Spec ℝ) (r : Opt.Result 2), Sound solver ∧ Complete solver ∧
    w.minVarianceAtReturn solver 0 (some c) none = .ok r ∧ r.w 0 + r.w 1 = 1 ∧
      (∃ x : Fin 2 → ℝ, x ≠ 0 ∧ quad (fun _ _ => (1 : ℝ)) x = 0) ∧ ∀ M : ℝ, ∃ x : Fin 2 → ℝ, Satisfies c x ∧ M ≤ x 0 := by
  obtain ⟨solver, h1, h2⟩ := exists_solver
  obtain ⟨w, hmu, hcov, -, hlog, -, -, htr⟩ := exists_wrapper (N := 2) (by norm_num) (some ![1, 1]) (some (Matrix.of fun _ _ => 1)) none false
  set c : PyV.Con.Spec ℝ := ⟨false, some (.fin 1), none, [], [], [], []⟩ with hc
  have hin : InForce w (some c) c := Or.inl ⟨rfl, ⟨by norm_num, by simp [hc, FinOpt, Fin'], by simp [hc, BoundsOK], by simp [hc], by simp [hc],
    by simp [hc], by simp [hc]⟩⟩
  have hpsd : IsCov (fun i j : Fin 2 => (Matrix.of fun _ _ => (1 : ℝ)) i j) := by
    refine ⟨fun i j => by simp, fun x => ?_⟩
    have : ∑ u : Fin 2, ∑ v : Fin 2, x u * (1 : ℝ) * x v = (x 0 + x 1) ^ 2 := by simp [Fin.sum_univ_two]; ring
    show 0 ≤ ∑ u : Fin 2, ∑ v : Fin 2, x u * (1 : ℝ) * x v
    rw [this]
    exact sq_nonneg _
  have hsat : ∀ x : Fin 2 → ℝ, x 0 + x 1 = 1 → Satisfies c x := by
    intro x hx
    refine ⟨by simp [hc], fun t ht => ?_, by simp [hc, InBounds], by simp [hc], by simp [hc], by simp [hc], by simp [hc]⟩
    simp only [hc, Option.some.injEq, PyFloat.fin.injEq] at ht
    rw [Fin.sum_univ_two, hx, ht]
  obtain ⟨U1, U2, -⟩ := C107_unbounded h1 h2 w _ _ hmu hcov hlog hpsd (some c) c hin none none none none htr (by simp) 0
  obtain ⟨r, hr⟩ := U1.1 ⟨![1, 0], hsat _ (by simp), by simp [ret, Fin.sum_univ_two]⟩
  refine ⟨w, solver, c, r, h1, h2, hr, ?_, ⟨![1, -1], fun h => by simpa using congrFun h 0, by simp [quad, Fin.sum_univ_two]⟩,
    fun M => ⟨![M, 1 - M], hsat _ (by simp), by simp⟩⟩
  have := (U2 r hr).1.total 1 rfl
  simpa [Fin.sum_univ_two] using this

/-! ## Two funds -/

/-- The constraints are equations: what satisfies them is closed under combining portfolios with any two weights adding to one. -/
def OnlyEquations (N : ℕ) (c : PyV.Con.Spec ℝ) : Prop :=
  ∀ x y : Fin N → ℝ, Satisfies c x → Satisfies c y → ∀ a : ℝ, Satisfies c fun i => a * x i + (1 - a) * y i

/-- A specification with only a total weight and equality rows is such. -/
theorem only_equations {c : PyV.Con.Spec ℝ} (h1 : c.longOnly = false) (h2 : c.bounds = none) (h3 : c.relative = []) (h4 : c.groups = [])
    (h5 : c.ineqRows = []) : OnlyEquations N c := by
  intro x y hx hy a
  have lin : ∀ g : Fin N → ℝ, ∑ i, g i * (a * x i + (1 - a) * y i) = a * ∑ i, g i * x i + (1 - a) * ∑ i, g i * y i := by
    intro g
    rw [Finset.mul_sum, Finset.mul_sum, ← Finset.sum_add_distrib]
    exact Finset.sum_congr rfl fun i _ => by ring
  refine ⟨fun h => (by rw [h1] at h; cases h), fun t ht => ?_, (by rw [h2]; trivial), (by rw [h3]; simp), (by rw [h4]; simp), (by rw [h5]; simp), fun e he r hr => ?_⟩
  · have := lin fun _ => 1
    simp only [one_mul] at this
    rw [this, hx.total t ht, hy.total t ht]
    ring
  · rw [lin, hx.eq e he r hr, hy.eq e he r hr]
    ring

theorem quad_dir {C : Fin N → Fin N → ℝ} (hsym : ∀ i j, C i j = C j i) (x d : Fin N → ℝ) (s : ℝ) :
    quad C (fun i => x i + s * d i) = quad C x + 2 * s * (∑ i, ∑ j, x i * C i j * d j) + s ^ 2 * quad C d := by
  have e : ∑ i, ∑ j, d i * C i j * x j = ∑ i, ∑ j, x i * C i j * d j := by
    rw [Finset.sum_comm]
    refine Finset.sum_congr rfl fun i _ => Finset.sum_congr rfl fun j _ => ?_
    rw [hsym j i]; ring
  have : quad C (fun i => x i + s * d i) = quad C x + s * (∑ i, ∑ j, x i * C i j * d j) + s * (∑ i, ∑ j, d i * C i j * x j) + s ^ 2 * quad C d := by
    unfold quad
    simp only [Finset.mul_sum, ← Finset.sum_add_distrib]
    exact Finset.sum_congr rfl fun i _ => Finset.sum_congr rfl fun j _ => by ring
  rw [this, e]
  ring

/-- At a minimum, no feasible direction lowers the variance to first order. -/
private theorem first_order {a b : ℝ} (hb : 0 ≤ b) (h : ∀ s : ℝ, 0 ≤ s → 0 ≤ 2 * s * a + s ^ 2 * b) : 0 ≤ a := by
  by_contra hc
  push Not at hc
  rcases hb.lt_or_eq with hb | hb
  · have := h (-a / b) (div_nonneg (by linarith) hb.le)
    have e : 2 * (-a / b) * a + (-a / b) ^ 2 * b = -(a ^ 2 / b) := by field_simp; ring
    rw [e] at this
    have : 0 < a ^ 2 / b := div_pos (by nlinarith) hb
    linarith
  · have := h 1 zero_le_one
    rw [← hb] at this
    linarith

/-- **C261** Two-fund separation: when the constraints are equations and the covariance is positive definite, every mixture of two
portfolios returned by `min_variance_at_return` is what the method returns for the mixture of their returns. -/
theorem C261_two_funds {solver : Opt.Solver} (hsnd : Sound solver) (hcmp : Complete solver)
    (w : Wrapper N) (mu : Fin N → ℝ) (cov : Matrix (Fin N) (Fin N) ℝ) (hmu : w.mu = some mu) (hcov : w.cov = some cov)
    (hlog : w.isLog = false) (hpsd : IsCov (fun i j => cov i j)) (hpd : ∀ x : Fin N → ℝ, x ≠ 0 → 0 < quad (fun i j => cov i j) x)
    (con : Option (PyV.Con.Spec ℝ)) (c : PyV.Con.Spec ℝ) (hin : InForce w con c) (heq : OnlyEquations N c)
    (htr : Trading w none none none none) {t₁ t₂ : ℝ} {r₁ r₂ : Opt.Result N} (h₁ : w.minVarianceAtReturn solver t₁ con none = .ok r₁)
    (h₂ : w.minVarianceAtReturn solver t₂ con none = .ok r₂) {a : ℝ} (ha : 0 ≤ a ∧ a ≤ 1) :
    ∃ r, w.minVarianceAtReturn solver (a * r₁.ret + (1 - a) * r₂.ret) con none = .ok r ∧
      (∀ i, r.w i = a * r₁.w i + (1 - a) * r₂.w i) ∧ r.ret = a * r₁.ret + (1 - a) * r₂.ret := by
  set C : Fin N → Fin N → ℝ := fun i j => cov i j with hC
  have hvc : ∀ x, varianceCost C (none : Option (Fin N → ℝ)) none x = quad C x := by
    intro x
    simp [varianceCost, hC]
  have U := C260_unlimited hsnd hcmp w mu cov hmu hcov hlog hpsd hpd con c hin none none none none htr (by simp)
  simp only [← hC] at U
  have opt : ∀ t r, w.minVarianceAtReturn solver t con none = .ok r → Satisfies c r.w ∧ t ≤ r.ret ∧ r.ret = ret mu r.w ∧
      ∀ x, Satisfies c x → t ≤ ret mu x → quad C r.w ≤ quad C x := by
    intro t r h
    obtain ⟨hyes, hno⟩ := U t
    by_cases hex : ∃ x : Fin N → ℝ, Satisfies c x ∧ t ≤ ret mu x
    · obtain ⟨r', e, b1, b2, b3, -, b5⟩ := hyes hex
      rw [h] at e
      injection e with e
      subst e
      refine ⟨b1, b2, b3, fun x hx ht => ?_⟩
      by_cases hxe : x = r.w
      · rw [hxe]
      · have := b5 x hx ht hxe
        rw [hvc, hvc] at this
        exact this.le
    · push Not at hex
      rw [hno hex] at h
      cases h
  have hlin : ∀ (x y : Fin N → ℝ) (p q : ℝ), ret mu (fun i => p * x i + q * y i) = p * ret mu x + q * ret mu y := by
    intro x y p q
    unfold ret
    rw [Finset.mul_sum, Finset.mul_sum, ← Finset.sum_add_distrib]
    exact Finset.sum_congr rfl fun i _ => by ring
  -- directions between portfolios satisfying the equations, not lowering the return
  have cone : ∀ t r, w.minVarianceAtReturn solver t con none = .ok r → ∀ x y : Fin N → ℝ, Satisfies c x → Satisfies c y → ret mu y ≤ ret mu x →
      0 ≤ ∑ i, ∑ j, r.w i * C i j * (x j - y j) := by
    intro t r h x y hx hy hxy
    obtain ⟨s1, s2, s3, s4⟩ := opt t r h
    refine first_order (b := quad C fun i => x i - y i) (hpsd.2 _) fun s hs => ?_
    have hsat : Satisfies c fun i => r.w i + s * (x i - y i) := by
      have h3 := heq _ _ (heq x r.w hx s1 s) (heq y r.w hy s1 (-s)) (1 / 2)
      have h4 := heq _ _ h3 s1 2
      convert h4 using 2
      ring
    have hret : t ≤ ret mu fun i => r.w i + s * (x i - y i) := by
      have e1 : (fun i => r.w i + s * (x i - y i)) = fun i => 1 * r.w i + s * (fun i => 1 * x i + (-1) * y i) i := by
        funext i; ring
      rw [e1, hlin, hlin, ← s3]
      have := mul_nonneg hs (sub_nonneg.2 hxy)
      linarith
    have := s4 _ hsat hret
    rw [quad_dir hpsd.1] at this
    linarith
  obtain ⟨p1, p2, p3, p4⟩ := opt _ _ h₁
  obtain ⟨q1, q2, q3, q4⟩ := opt _ _ h₂
  set z : Fin N → ℝ := fun i => a * r₁.w i + (1 - a) * r₂.w i with hz
  have hzs : Satisfies c z := heq _ _ p1 q1 a
  have hzr : ret mu z = a * r₁.ret + (1 - a) * r₂.ret := by rw [hz, hlin, p3, q3]
  obtain ⟨r, hr, k1, k2, k3, -, k5⟩ := (U (a * r₁.ret + (1 - a) * r₂.ret)).1 ⟨z, hzs, hzr.ge⟩
  have hrz : r.w = z := by
    by_contra hne
    have h1 := k5 z hzs hzr.ge fun e => hne e.symm
    rw [hvc, hvc] at h1
    have hle : ret mu z ≤ ret mu r.w := by rw [hzr, ← k3]; exact k2
    have c1 := cone _ _ h₁ r.w z k1 hzs hle
    have c2 := cone _ _ h₂ r.w z k1 hzs hle
    have c3 : ∑ i, ∑ j, z i * C i j * (r.w j - z j) =
        a * (∑ i, ∑ j, r₁.w i * C i j * (r.w j - z j)) + (1 - a) * ∑ i, ∑ j, r₂.w i * C i j * (r.w j - z j) := by
      simp only [Finset.mul_sum, ← Finset.sum_add_distrib]
      exact Finset.sum_congr rfl fun i _ => Finset.sum_congr rfl fun j _ => by rw [hz]; ring
    have c4 : 0 ≤ ∑ i, ∑ j, z i * C i j * (r.w j - z j) := by
      rw [c3]
      exact add_nonneg (mul_nonneg ha.1 c1) (mul_nonneg (by linarith [ha.2]) c2)
    have e := quad_dir hpsd.1 z (fun i => r.w i - z i) 1
    have e2 : (fun i => z i + 1 * (r.w i - z i)) = r.w := by funext i; ring
    rw [e2] at e
    have := hpsd.2 fun i => r.w i - z i
    have : 0 ≤ quad C fun i => r.w i - z i := this
    linarith
  refine ⟨r, hr, fun i => by rw [hrz], ?_⟩
  rw [k3, hrz, hzr]

/-- Three uncorrelated assets, fully invested, shorts allowed: the weights are not bounded, the targets 2 and 7 are both reached (the
second needs a short position), and the portfolio for the average of the two returns is the average of the two portfolios. -/
example : ∃ (w : Wrapper 3) (solver : Opt.Solver) (c : PyV.Con.Spec ℝ) (r₁ r₂ r : Opt.Result 3), Sound solver ∧ Complete solver ∧
    OnlyEquations 3 c ∧ w.minVarianceAtReturn solver 2 (some c) none = .ok r₁ ∧ w.minVarianceAtReturn solver 7 (some c) none = .ok r₂ ∧
      7 ≤ r₂.ret ∧ w.minVarianceAtReturn solver (1 / 2 * r₁.ret + (1 - 1 / 2) * r₂.ret) (some c) none = .ok r ∧
      ∀ i, r.w i = 1 / 2 * r₁.w i + (1 - 1 / 2) * r₂.w i := by
  obtain ⟨solver, h1, h2⟩ := exists_solver
  obtain ⟨w, hmu, hcov, -, hlog, -, -, htr⟩ := exists_wrapper (N := 3) (by norm_num) (some ![0, 1, 3]) (some 1) none false
  set c : PyV.Con.Spec ℝ := ⟨false, some (.fin 1), none, [], [], [], []⟩ with hc
  have hin : InForce w (some c) c := Or.inl ⟨rfl, ⟨by norm_num, by simp [hc, FinOpt, Fin'], by simp [hc, BoundsOK], by simp [hc], by simp [hc],
    by simp [hc], by simp [hc]⟩⟩
  have heq : OnlyEquations 3 c := only_equations rfl rfl rfl rfl rfl
  have hq : ∀ x : Fin 3 → ℝ, quad (fun i j => (1 : Matrix (Fin 3) (Fin 3) ℝ) i j) x = ∑ i, x i ^ 2 := by
    intro x
    simp [quad, Matrix.one_apply, sq]
  have hpsd : IsCov (fun i j => (1 : Matrix (Fin 3) (Fin 3) ℝ) i j) := by
    refine ⟨fun i j => by simp [Matrix.one_apply, eq_comm], fun x => ?_⟩
    show 0 ≤ quad _ x
    rw [hq]
    exact Finset.sum_nonneg fun i _ => sq_nonneg _
  have hpd : ∀ x : Fin 3 → ℝ, x ≠ 0 → 0 < quad (fun i j => (1 : Matrix (Fin 3) (Fin 3) ℝ) i j) x := by
    intro x hx
    rw [hq]
    obtain ⟨i, hi⟩ := Function.ne_iff.1 hx
    exact Finset.sum_pos' (fun i _ => sq_nonneg _) ⟨i, Finset.mem_univ _, by have : x i ≠ 0 := hi; positivity⟩
  have hsat : ∀ x : Fin 3 → ℝ, x 0 + x 1 + x 2 = 1 → Satisfies c x := by
    intro x hx
    refine ⟨by simp [hc], fun t ht => ?_, by simp [hc, InBounds], by simp [hc], by simp [hc], by simp [hc], by simp [hc]⟩
    simp only [hc, Option.some.injEq, PyFloat.fin.injEq] at ht
    rw [Fin.sum_univ_three, hx, ht]
  have U := C260_unlimited h1 h2 w _ _ hmu hcov hlog hpsd hpd (some c) c hin none none none none htr (by simp)
  obtain ⟨r₁, e1, -⟩ := (U 2).1 ⟨![0, 0, 1], hsat _ (by simp), by simp [ret, Fin.sum_univ_three]; norm_num⟩
  obtain ⟨r₂, e2, -, g2, -⟩ := (U 7).1 ⟨![-2, 0, 3], hsat _ (by simp; norm_num), by simp [ret, Fin.sum_univ_three]; norm_num⟩
  obtain ⟨r, e3, e4, -⟩ := C261_two_funds h1 h2 w _ _ hmu hcov hlog hpsd hpd (some c) c hin heq htr e1 e2 (a := 1 / 2) (by norm_num)
  exact ⟨w, solver, c, r₁, r₂, r, h1, h2, heq, e1, e2, g2, e3, e4⟩

end PyV.Props
