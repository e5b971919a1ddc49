import Verif.Props.OptCvar

set_option linter.unusedSectionVars false

/-! # C69, C90, C91: mean-variance programmes and efficient frontiers -/

namespace PyV.Props

open PyV PyV.Opt PyV.Risk PyV.Spec PyV.Spec.Opt

variable {N T : ℕ}

theorem feasible_mv (m : MV N) (target : Option ℝ) (x : Fin N → ℝ) :
    Feasible (mvProg m target) x ↔ Reaches m.user m.mean target x := by
  have hl : ∀ r, r ∈ withTarget m.user m.mean target ↔ r ∈ m.user.G.getD [] ∨ ∃ t, target = some t ∧
      r = (fun i => -(m.mean i), -t) := by
    intro r; unfold withTarget; cases target <;> simp
  constructor
  · rintro ⟨h1, -, h3⟩
    refine ⟨⟨fun r hr => ?_, fun r hr => ?_⟩, fun t ht => ?_⟩
    · have := h1 r ((hl r).2 (Or.inl hr)); unfold slack at this; linarith
    · have := h3 r hr; unfold slack at this; linarith
    · have := h1 _ ((hl _).2 (Or.inr ⟨t, ht, rfl⟩))
      simp only [slack, neg_mul, Finset.sum_neg_distrib] at this; linarith
  · rintro ⟨⟨h1, h2⟩, h3⟩
    refine ⟨fun r hr => ?_, by simp [mvProg], fun r hr => ?_⟩
    · rcases (hl r).1 hr with hr | ⟨t, ht, rfl⟩
      · have := h1 r hr; unfold slack; linarith
      · have := h3 t ht
        simp only [slack, neg_mul, Finset.sum_neg_distrib]; linarith
    · have := h2 r hr; unfold slack; linarith

/-- What `MeanVariance` minimises: variance plus quadratic impact (only when both arguments are given). -/
def mvCost (cov : Fin N → Fin N → ℝ) (w0 lam : Option (Fin N → ℝ)) (w : Fin N → ℝ) : ℝ :=
  quad cov w + (match w0, lam with | some v, some l => impact l v w | _, _ => 0)

/-- **C69** The quadratic programme equals variance plus `sum_i lambda_i (w_i - w0_i)^2`, up to a constant. -/
theorem C69_quadratic_turnover_value (mean : Fin N → ℝ) (cov : Fin N → Fin N → ℝ) (user : User N)
    (w0 lam : Option (Fin N → ℝ)) (target : Option ℝ) :
    ∃ k, ∀ w, value (mvProg (mvInit mean cov user w0 lam) target) w = mvCost cov w0 lam w - k := by
  have base : ∀ w : Fin N → ℝ, 1 / 2 * ∑ u, ∑ v, w u * (2 * cov u v) * w v = quad cov w := by
    intro w
    unfold quad
    rw [Finset.mul_sum]
    apply Finset.sum_congr rfl; intro i _
    rw [Finset.mul_sum]
    apply Finset.sum_congr rfl; intro j _
    ring
  have plain : (w0 = none ∨ lam = none) →
      ∃ k, ∀ w, value (mvProg (mvInit mean cov user w0 lam) target) w = mvCost cov w0 lam w - k := by
    intro h
    have e : mvInit mean cov user w0 lam = ⟨mean, cov, fun i j => 2 * cov i j, fun _ => 0, user⟩ := by
      rcases h with rfl | rfl
      · cases lam <;> rfl
      · cases w0 <;> rfl
    have e2 : ∀ w, mvCost cov w0 lam w = quad cov w := by
      intro w; unfold mvCost
      rcases h with rfl | rfl
      · cases lam <;> simp
      · cases w0 <;> simp
    refine ⟨0, fun w => ?_⟩
    rw [e, e2, sub_zero, ← base]
    simp [value, mvProg]
  cases w0 with
  | none => exact plain (Or.inl rfl)
  | some v =>
    cases lam with
    | none => exact plain (Or.inr rfl)
    | some l =>
      refine ⟨∑ i, l i * v i ^ 2, fun w => ?_⟩
      simp only [value, mvProg, mvInit, quadraticTurnover, mvCost]
      have : ∀ u, ∑ j, w u * (2 * cov u j + 2 * (if u = j then l u else 0)) * w j =
          ∑ j, w u * (2 * cov u j) * w j + 2 * l u * w u ^ 2 := by
        intro u
        rw [show 2 * l u * w u ^ 2 = ∑ j, (if u = j then 2 * l u * w u * w j else 0) by simp; ring,
          ← Finset.sum_add_distrib]
        apply Finset.sum_congr rfl; intro j _
        split_ifs <;> ring
      simp only [this]
      rw [Finset.sum_add_distrib, mul_add, base, add_assoc, add_sub_assoc]
      congr 1
      unfold impact
      rw [Finset.mul_sum, ← Finset.sum_add_distrib, ← Finset.sum_sub_distrib]
      apply Finset.sum_congr rfl; intro i _
      ring

theorem quad_diag (P : Fin N → Fin N → ℝ) (d w : Fin N → ℝ) :
    ∑ i, ∑ j, w i * (P i j + (if i = j then d i else 0)) * w j = ∑ i, ∑ j, w i * P i j * w j + ∑ i, d i * w i ^ 2 := by
  rw [← Finset.sum_add_distrib]
  apply Finset.sum_congr rfl; intro u _
  rw [show d u * w u ^ 2 = ∑ j, (if u = j then d u * w u * w j else 0) by simp; ring, ← Finset.sum_add_distrib]
  apply Finset.sum_congr rfl; intro j _
  split_ifs <;> ring

theorem convex_init (mean : Fin N → ℝ) (cov : Fin N → Fin N → ℝ) (user : User N) (w0 lam : Option (Fin N → ℝ))
    (hcov : IsCov cov) (hlam : ∀ l, lam = some l → ∀ i, 0 ≤ l i) :
    (∀ i j, (mvInit mean cov user w0 lam).P i j = (mvInit mean cov user w0 lam).P j i) ∧
    ∀ x : Fin N → ℝ, 0 ≤ ∑ i, ∑ j, x i * (mvInit mean cov user w0 lam).P i j * x j := by
  have e : ∃ d : Fin N → ℝ, (∀ i, 0 ≤ d i) ∧
      (mvInit mean cov user w0 lam).P = fun i j => 2 * cov i j + (if i = j then d i else 0) := by
    cases w0 with
    | none => exact ⟨0, fun _ => le_rfl, by cases lam <;> simp [mvInit]⟩
    | some v =>
      cases lam with
      | none => exact ⟨0, fun _ => le_rfl, by simp [mvInit]⟩
      | some l =>
        refine ⟨fun i => 2 * l i, fun i => by have := hlam l rfl i; positivity, ?_⟩
        funext i j
        simp only [mvInit, quadraticTurnover]
        split_ifs <;> ring
  obtain ⟨d, hd, e⟩ := e
  rw [e]
  refine ⟨fun i j => ?_, fun x => ?_⟩
  · simp only [hcov.1 i j]
    by_cases h : i = j
    · subst h; rfl
    · rw [if_neg h, if_neg (Ne.symm h)]
  · rw [quad_diag]
    have : ∑ i, ∑ j, x i * (2 * cov i j) * x j = 2 * ∑ i, ∑ j, x i * cov i j * x j := by
      rw [Finset.mul_sum]; apply Finset.sum_congr rfl; intro i _
      rw [Finset.mul_sum]; apply Finset.sum_congr rfl; intro j _
      ring
    rw [this]
    exact add_nonneg (mul_nonneg (by norm_num) (hcov.2 x)) (Finset.sum_nonneg fun i _ => mul_nonneg (hd i) (sq_nonneg _))

theorem convex_mv (mean : Fin N → ℝ) (cov : Fin N → Fin N → ℝ) (user : User N) (w0 lam : Option (Fin N → ℝ))
    (target : Option ℝ) (hcov : IsCov cov) (hlam : ∀ l, lam = some l → ∀ i, 0 ≤ l i) :
    Convex (mvProg (mvInit mean cov user w0 lam) target) := convex_init mean cov user w0 lam hcov hlam

theorem convex_ridge (mean : Fin N → ℝ) (cov : Fin N → Fin N → ℝ) (user : User N) (w0 lam : Option (Fin N → ℝ))
    (target : Option ℝ) (hcov : IsCov cov) (hlam : ∀ l, lam = some l → ∀ i, 0 ≤ l i) :
    Convex { mvProg (mvInit mean cov user w0 lam) target with P := mvRidge (mvInit mean cov user w0 lam) } := by
  obtain ⟨h1, h2⟩ := convex_init mean cov user w0 lam hcov hlam
  refine ⟨fun i j => ?_, fun x => ?_⟩
  · simp only [mvRidge, h1 i j]
    by_cases h : i = j
    · subst h; rfl
    · rw [if_neg h, if_neg (Ne.symm h)]
  · simp only [mvRidge]
    rw [quad_diag]
    refine add_nonneg (h2 x) (Finset.sum_nonneg fun i _ => mul_nonneg (le_trans ?_ (le_max_left _ _)) (sq_nonneg _))
    positivity

/-- **C90** If CVXOPT solves the stated programme, the returned weights are allowed, reach the target and have the smallest
variance plus impact among all allowed weights that reach it. -/
theorem C90_min_variance {solver : Opt.Solver} (hsnd : Sound solver) (mean : Fin N → ℝ) (cov : Fin N → Fin N → ℝ)
    (user : User N) (w0 lam : Option (Fin N → ℝ)) (hcov : IsCov cov) (hlam : ∀ l, lam = some l → ∀ i, 0 ≤ l i)
    (target : Option ℝ) (w : Fin N → ℝ)
    (hfirst : (∃ v, Reaches user mean target v) →
      ∃ x, solver _ inferInstance (mvProg (mvInit mean cov user w0 lam) target) = some x)
    (h : mvSolve solver (mvInit mean cov user w0 lam) target = .ok w) :
    Reaches user mean target w ∧ ∀ v, Reaches user mean target v → mvCost cov w0 lam w ≤ mvCost cov w0 lam v := by
  obtain ⟨k, hk⟩ := C69_quadratic_turnover_value mean cov user w0 lam target
  unfold mvSolve at h
  cases hx : solver _ inferInstance (mvProg (mvInit mean cov user w0 lam) target) with
  | none =>
    exfalso
    rw [hx] at h
    simp only at h
    cases hy : solver _ inferInstance { mvProg (mvInit mean cov user w0 lam) target with P := mvRidge (mvInit mean cov user w0 lam) } with
    | none => rw [hy] at h; cases h
    | some y =>
      have hf := (hsnd _ _ _ _ (convex_ridge mean cov user w0 lam target hcov hlam) hy).1
      have : Feasible (mvProg (mvInit mean cov user w0 lam) target) y := ⟨hf.1, hf.2, hf.3⟩
      obtain ⟨x, hx'⟩ := hfirst ⟨y, (feasible_mv _ _ _).1 this⟩
      rw [hx'] at hx; cases hx
  | some x =>
    rw [hx] at h
    injection h with h; subst h
    obtain ⟨hf, ho⟩ := hsnd _ _ _ _ (convex_mv mean cov user w0 lam target hcov hlam) hx
    refine ⟨(feasible_mv _ _ _).1 hf, fun v hv => ?_⟩
    have := ho v ((feasible_mv _ _ _).2 hv)
    rw [hk, hk] at this
    linarith

/-- **C90** In every case, including the retry after a solver failure, the weights are allowed, reach the target, and are
optimal up to `ridge/2` times the difference of squared norms. -/
theorem C90_min_variance_with_ridge {solver : Opt.Solver} (hsnd : Sound solver) (mean : Fin N → ℝ)
    (cov : Fin N → Fin N → ℝ) (user : User N) (w0 lam : Option (Fin N → ℝ)) (hcov : IsCov cov)
    (hlam : ∀ l, lam = some l → ∀ i, 0 ≤ l i) (target : Option ℝ) (w : Fin N → ℝ)
    (h : mvSolve solver (mvInit mean cov user w0 lam) target = .ok w) :
    ∃ ridge, (ridge = 0 ∨ ridge = max (1 / 10 ^ 8)
        (1 / 10 ^ 8 * (∑ k, (mvInit mean cov user w0 lam).P k k) / max (N : ℝ) 1)) ∧
      Reaches user mean target w ∧
      ∀ v, Reaches user mean target v →
        mvCost cov w0 lam w + ridge / 2 * ∑ i, w i ^ 2 ≤ mvCost cov w0 lam v + ridge / 2 * ∑ i, v i ^ 2 := by
  obtain ⟨k, hk⟩ := C69_quadratic_turnover_value mean cov user w0 lam target
  unfold mvSolve at h
  cases hx : solver _ inferInstance (mvProg (mvInit mean cov user w0 lam) target) with
  | some x =>
    rw [hx] at h
    injection h with h; subst h
    obtain ⟨hf, ho⟩ := hsnd _ _ _ _ (convex_mv mean cov user w0 lam target hcov hlam) hx
    refine ⟨0, Or.inl rfl, (feasible_mv _ _ _).1 hf, fun v hv => ?_⟩
    have := ho v ((feasible_mv _ _ _).2 hv)
    rw [hk, hk] at this
    linarith
  | none =>
    rw [hx] at h
    simp only at h
    cases hy : solver _ inferInstance { mvProg (mvInit mean cov user w0 lam) target with P := mvRidge (mvInit mean cov user w0 lam) } with
    | none => rw [hy] at h; cases h
    | some y =>
      rw [hy] at h
      injection h with h; subst h
      obtain ⟨hf, ho⟩ := hsnd _ _ _ _ (convex_ridge mean cov user w0 lam target hcov hlam) hy
      refine ⟨_, Or.inr rfl, (feasible_mv _ _ _).1 ⟨hf.1, hf.2, hf.3⟩, fun v hv => ?_⟩
      have hv' := (feasible_mv (mvInit mean cov user w0 lam) target v).2 hv
      have := ho v ⟨hv'.1, hv'.2, hv'.3⟩
      have ev : ∀ z, value { mvProg (mvInit mean cov user w0 lam) target with P := mvRidge (mvInit mean cov user w0 lam) } z =
          value (mvProg (mvInit mean cov user w0 lam) target) z + (max (1 / 10 ^ 8)
            (1 / 10 ^ 8 * (∑ k, (mvInit mean cov user w0 lam).P k k) / max (N : ℝ) 1)) / 2 * ∑ i, z i ^ 2 := by
        intro z
        simp only [value, mvRidge]
        generalize max (1 / 10 ^ 8) (1 / 10 ^ 8 * (∑ k, (mvInit mean cov user w0 lam).P k k) / max (N : ℝ) 1) = ρ
        have : ∀ u, ∑ j, z u * ((mvInit mean cov user w0 lam).P u j + (if u = j then ρ else 0)) * z j =
            ∑ j, z u * (mvInit mean cov user w0 lam).P u j * z j + ρ * z u ^ 2 := by
          intro u
          rw [show ρ * z u ^ 2 = ∑ j, (if u = j then ρ * z u * z j else 0) by simp; ring,
            ← Finset.sum_add_distrib]
          apply Finset.sum_congr rfl; intro j _
          split_ifs <;> ring
        simp only [this]
        rw [Finset.sum_add_distrib, ← Finset.mul_sum]
        simp only [mvProg]
        ring
      rw [ev, ev, hk, hk] at this
      linarith

/-- **C90** With a bounded, non-empty feasible set a complete solver always returns a portfolio (at the first attempt). -/
theorem C90_total {solver : Opt.Solver} (hcmp : Complete solver) (mean : Fin N → ℝ) (cov : Fin N → Fin N → ℝ)
    (user : User N) (w0 lam : Option (Fin N → ℝ)) (hcov : IsCov cov) (hlam : ∀ l, lam = some l → ∀ i, 0 ≤ l i)
    (target : Option ℝ) (hb : ∃ M, ∀ w, Allowed user w → ∀ i, |w i| ≤ M) (hn : ∃ w, Reaches user mean target w) :
    ∃ x, solver _ inferInstance (mvProg (mvInit mean cov user w0 lam) target) = some x ∧
      mvSolve solver (mvInit mean cov user w0 lam) target = .ok x := by
  obtain ⟨w, hw, hmin⟩ := exists_min user mean target hb hn (value (mvProg (mvInit mean cov user w0 lam) target))
    (by unfold value; fun_prop)
  obtain ⟨x, hx⟩ := hcmp _ inferInstance (mvProg (mvInit mean cov user w0 lam) target)
    (convex_mv mean cov user w0 lam target hcov hlam) ⟨w, (feasible_mv _ _ _).2 hw, fun y hy => hmin y ((feasible_mv _ _ _).1 hy)⟩
  refine ⟨x, hx, ?_⟩
  unfold mvSolve
  rw [hx]

theorem exCov : IsCov (![![4/100, 0], ![0, 1/100]] : Fin 2 → Fin 2 → ℝ) := by
  refine ⟨fun i j => by fin_cases i <;> fin_cases j <;> simp, fun w => ?_⟩
  simp [Fin.sum_univ_two]
  nlinarith [sq_nonneg (w 0), sq_nonneg (w 1)]

/-- Non-vacuity: a two-asset problem with impact costs and a target is solved. -/
example : ∃ solver w, Sound solver ∧
    mvSolve solver (mvInit ![1/10, 1/20] ![![4/100, 0], ![0, 1/100]] exUser (some ![1/2, 1/2]) (some ![1, 2])) (some (3/40)) =
      .ok w := by
  obtain ⟨s, hs, hc⟩ := exists_solver
  obtain ⟨w, -, hw⟩ := C90_total hc ![1/10, 1/20] ![![4/100, 0], ![0, 1/100]] exUser (some ![1/2, 1/2]) (some ![1, 2]) exCov
    (by intro l hl i; injection hl with hl; subst hl; fin_cases i <;> simp) (some (3/40)) exUser_bounded ⟨![1, 0], (exUser_iff _).2 (by simp), fun t ht => by
      injection ht with ht; subst ht
      simp [Fin.sum_univ_two]; norm_num⟩
  exact ⟨s, w, hs, hw⟩

end PyV.Props
