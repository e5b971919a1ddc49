import Verif.Props.WrapperCvar
import Verif.Lemmas.FrankWolfe

/-! # Property C293: tail risk when the constraints leave the weights unbounded -/

namespace PyV.Props

open PyV PyV.Api PyV.Spec.Api PyV.Opt PyV.Spec.Opt PyV.Spec.Con PyV.Risk PyV.Spec Matrix

variable {N T : ℕ}

/-- The programme has an optimal point whenever the objective it stands for is bounded below. -/
theorem solve_of_bounded {solver : Opt.Solver} (hcmp : Complete solver) (a : CvArgs N T) (hp : IsProb a.p)
    (h0 : 0 < a.alpha) (h1 : a.alpha < 1) (hcost : ∀ c, a.costs = some c → ∀ i, 0 ≤ c i) (cvar : (Fin N → ℝ) → ℝ)
    (hcv : ∀ x, IsCvar a.p (pnlOf a x) (1 - a.alpha) (cvar x)) (target : Option ℝ)
    (hn : ∃ w, Reaches a.user (cvMean a) target w) {m : ℝ} (hm : ∀ w, Reaches a.user (cvMean a) target w → m ≤ cvCost a cvar w) :
    ∃ w, cvSolve solver a target = .ok w := by
  obtain ⟨w, hw⟩ := hn
  have hs : IsArgsort (fun x : Fin T → ℝ => Tuple.sort x) := fun x => Tuple.monotone_sort x
  have same : ∀ x r, portfolioCvar (fun x => Tuple.sort x) x a.R (some a.p) (some (1 - a.alpha)) false = .ok r → r = cvar x := by
    intro x r h
    obtain ⟨r', h', hc⟩ := cvar_spec hs a hp h0 h1 x
    rw [h] at h'; injection h' with h'; subst h'
    exact cvar_unique hc (hcv x)
  by_cases hc : a.w0 = none ∨ a.costs = none
  · rw [cvSolve_plain hc]
    have hz : ∀ v, cvCost a cvar v = cvar v := by
      intro v; unfold cvCost
      rcases hc with hc | hc
      · rw [hc]; cases a.costs <;> simp
      · rw [hc]; cases a.w0 <;> simp
    obtain ⟨r, hr, hl⟩ := C66_lp_value hs a hp h0 h1 target w hw
    obtain ⟨x0, hx0, -, -⟩ := hl.1
    obtain ⟨z, hz'⟩ := exists_optimal (pr := addTarget (cvMean a) target (cvPlain a)) (convex_cv _ _ rfl)
      (by unfold addTarget; cases target <;> rfl) ⟨x0, hx0⟩ ⟨m, fun x hx => by
        have hx' := hx
        unfold cvPlain at hx'
        rw [feasible_cvBase] at hx'
        obtain ⟨r', hr', hl'⟩ := C66_lp_value hs a hp h0 h1 target _ hx'.2.2.2.1
        have g1 := hm _ hx'.2.2.2.1
        have g2 := hl'.2 ⟨x, hx, rfl, rfl⟩
        rw [hz, ← same _ _ hr'] at g1
        exact g1.trans g2⟩
    obtain ⟨x, hx⟩ := hcmp _ inferInstance _ (convex_cv _ _ rfl) ⟨z, hz'⟩
    rw [hx]; exact ⟨_, rfl⟩
  · obtain ⟨w0, hw0⟩ := Option.ne_none_iff_exists'.1 (fun h => hc (Or.inl h))
    obtain ⟨costs, hco⟩ := Option.ne_none_iff_exists'.1 (fun h => hc (Or.inr h))
    have hcost' := hcost costs hco
    have hz : ∀ v, cvCost a cvar v = cvar v + turnover costs w0 v := by
      intro v; unfold cvCost; rw [hw0, hco]
    unfold cvSolve
    rw [hw0, hco]
    obtain ⟨r, hr, hl⟩ := C69_linear_turnover_value hs a hp h0 h1 w0 costs hcost' target w hw
    obtain ⟨x0, hx0, -, -⟩ := hl.1
    obtain ⟨z, hz'⟩ := exists_optimal (pr := addTarget (cvMean a) target (cvCosts a w0 costs)) (convex_cv _ _ rfl)
      (by unfold addTarget; cases target <;> rfl) ⟨x0, hx0⟩ ⟨m, fun x hx => by
        have hx' := hx
        unfold cvCosts at hx'
        rw [feasible_cvBase] at hx'
        obtain ⟨r', hr', hl'⟩ := C69_linear_turnover_value hs a hp h0 h1 w0 costs hcost' target _ hx'.2.2.2.1
        have g1 := hm _ hx'.2.2.2.1
        have g2 := hl'.2 ⟨x, hx, rfl, rfl⟩
        rw [hz, ← same _ _ hr'] at g1
        exact g1.trans g2⟩
    obtain ⟨x, hx⟩ := hcmp _ inferInstance _ (convex_cv _ _ rfl) ⟨z, hz'⟩
    dsimp only
    rw [hx]; exact ⟨_, rfl⟩

/-- **C293** On scenarios, `min_cvar_at_return` answers exactly when some portfolio satisfying the constraints reaches the target and CVaR
plus proportional cost is bounded below over those that do; its answer is then a minimiser. In every other case, also when the target is
reachable but risk can be lowered without limit, it raises `InfeasibleOptimizationError`. -/
theorem C293_answers_iff_bounded {solver : Opt.Solver} (hsnd : Sound solver) (hcmp : Complete solver) (argsort : Argsort)
    (hs : ∀ T, IsArgsort (argsort T)) (sim : Sim) (w : Wrapper N) (s : Scen N) (hscen : w.scen = some s) (hp : IsProb s.p)
    (hlog : w.isLog = false) (con : Option (PyV.Con.Spec ℝ)) (c : PyV.Con.Spec ℝ) (hin : InForce w con c)
    (costs : Option Costs) (w0 imp prop : Option (Fin N → ℝ)) (htr : Trading w costs w0 imp prop)
    (hprop : ∀ l, prop = some l → ∀ i, 0 ≤ l i) (target alpha : ℝ) (h0 : 0 < alpha) (h1 : alpha < 1) (seed : Option ℤ) :
    ((∃ r, w.minCvarAtReturn solver argsort sim target alpha seed con costs = .ok r) ↔
      (∃ x : Fin N → ℝ, Satisfies c x ∧ target ≤ ret (scenMean s) x) ∧
      ∃ m, ∀ x v, Satisfies c x → target ≤ ret (scenMean s) x → IsCvar s.p (pnl s x) (1 - alpha) v → m ≤ turnoverCost (fun _ => v) w0 prop x) ∧
    (∀ r, w.minCvarAtReturn solver argsort sim target alpha seed con costs = .ok r → Satisfies c r.w ∧ target ≤ ret (scenMean s) r.w ∧
        r.ret = ret (w.mu.getD (scenMean s)) r.w ∧ ∃ v, IsCvar s.p (pnl s r.w) (1 - alpha) v ∧ r.risk = |v| ∧
          ∀ x vx, Satisfies c x → target ≤ ret (scenMean s) x → IsCvar s.p (pnl s x) (1 - alpha) vx →
            turnoverCost (fun _ => v) w0 prop r.w ≤ turnoverCost (fun _ => vx) w0 prop x) ∧
    ∀ e, w.minCvarAtReturn solver argsort sim target alpha seed con costs = .error e → e = .infeasible := by
  obtain ⟨u, hu, hall⟩ := user_spec hin
  obtain ⟨w0', prop', ha, hpr, hcost⟩ := cvOf_trading htr s.R s.p alpha u
  set a : CvArgs N s.T := ⟨s.R, s.p, alpha, u, w0', prop'⟩ with hadef
  have hcs : ∀ l, a.costs = some l → ∀ i, 0 ≤ l i := fun l hl => hprop l (hpr l hl)
  have hre : ∀ x, Reaches u (cvMean a) (some target) x ↔ Satisfies c x ∧ target ≤ ret (scenMean s) x := by
    intro x
    constructor
    · rintro ⟨h1, h2⟩; exact ⟨(hall x).1 h1, h2 _ rfl⟩
    · rintro ⟨h1, h2⟩; exact ⟨(hall x).2 h1, fun t ht => by injection ht with ht; subst ht; exact h2⟩
  have hex : ∀ x, ∃ r, portfolioCvar (argsort s.T) x s.R (some s.p) (some (1 - alpha)) false = .ok r ∧
      IsCvar s.p (pnl s x) (1 - alpha) r := fun x => cvar_spec (hs s.T) a hp h0 h1 x
  choose cvar hcv hiscv using hex
  have hsp := cvSolve_spec (hs s.T) hsnd a hp h0 h1 hcs cvar hcv (some target)
  have call : w.minCvarAtReturn solver argsort sim target alpha seed con costs =
      match cvSolve solver a (some target) with
      | .ok y => .ok ⟨y, retOf (w.mu.getD (scenMean s)) y, |cvar y|⟩
      | .error _ => .error .infeasible := by
    unfold Wrapper.minCvarAtReturn
    simp only [scenarioInputs_scen sim hscen hp hlog, hu, ha]
    cases hy : cvSolve solver a (some target) with
    | ok y => simp only [asInfeasible, hcv y]
    | error e => rw [cvSolve_error _ _ _ hy]; rfl
  have least : ∀ y, cvSolve solver a (some target) = .ok y → Satisfies c y ∧ target ≤ ret (scenMean s) y ∧
      ∀ x vx, Satisfies c x → target ≤ ret (scenMean s) x → IsCvar s.p (pnl s x) (1 - alpha) vx →
        turnoverCost (fun _ => cvar y) w0 prop y ≤ turnoverCost (fun _ => vx) w0 prop x := by
    intro y hy
    obtain ⟨g1, g2⟩ := hsp y hy
    refine ⟨((hre y).1 g1).1, ((hre y).1 g1).2, fun x vx hx ht hvx => ?_⟩
    have := g2 x ((hre x).2 ⟨hx, ht⟩)
    rw [hcost] at this
    have e : vx = cvar x := cvar_unique hvx (hiscv x)
    rw [e]
    exact this
  rw [call]
  refine ⟨⟨?_, ?_⟩, ?_, ?_⟩
  · rintro ⟨r, h⟩
    cases hy : cvSolve solver a (some target) with
    | error e => rw [hy] at h; cases h
    | ok y =>
      obtain ⟨g1, g2, g3⟩ := least y hy
      exact ⟨⟨y, g1, g2⟩, _, g3⟩
  · rintro ⟨⟨x, hx⟩, m, hm⟩
    obtain ⟨y, hy⟩ := solve_of_bounded hcmp a hp h0 h1 hcs cvar hiscv (some target) ⟨x, (hre x).2 hx⟩ (m := m) (fun v hv => by
      rw [hcost]
      exact hm v (cvar v) ((hre v).1 hv).1 ((hre v).1 hv).2 (hiscv v))
    rw [hy]
    exact ⟨_, rfl⟩
  · intro r h
    cases hy : cvSolve solver a (some target) with
    | error e => rw [hy] at h; cases h
    | ok y =>
      rw [hy] at h
      injection h with h; subst h
      obtain ⟨g1, g2, g3⟩ := least y hy
      exact ⟨g1, g2, rfl, cvar y, hiscv y, rfl, g3⟩
  · intro e h
    cases hy : cvSolve solver a (some target) with
    | error e' => rw [hy] at h; injection h with h; exact h.symm
    | ok y => rw [hy] at h; cases h

/-- CVaR is at least the expected loss. -/
theorem mean_le_cvar {p x : Fin T → ℝ} {conf v : ℝ} (hp : IsProb p) (h0 : 0 < conf) (h1 : conf < 1) (hv : IsCvar p x conf v) :
    -(∑ t, p t * x t) ≤ v := by
  obtain ⟨k, hk⟩ := hv.1
  rw [← hk]
  unfold ru expect
  have e1 : ∑ t, p t * (-(x t) - k) = -(∑ t, p t * x t) - k := by
    have : ∑ t, p t * (-(x t) - k) = -(∑ t, p t * x t) - (∑ t, p t) * k := by
      rw [Finset.sum_mul, ← Finset.sum_neg_distrib, ← Finset.sum_sub_distrib]
      exact Finset.sum_congr rfl fun t _ => by ring
    rw [this, hp.sum, one_mul]
  have e2 : ∑ t, p t * (-(x t) - k) ≤ ∑ t, p t * max (-(x t) - k) 0 :=
    Finset.sum_le_sum fun t _ => mul_le_mul_of_nonneg_left (le_max_left _ _) (hp.nonneg t)
  have e3 : 0 ≤ ∑ t, p t * max (-(x t) - k) 0 := Finset.sum_nonneg fun t _ => mul_nonneg (hp.nonneg t) (le_max_right _ _)
  have e4 : ∑ t, p t * max (-(x t) - k) 0 ≤ (∑ t, p t * max (-(x t) - k) 0) / (1 - conf) := by
    rw [le_div_iff₀ (by linarith)]
    nlinarith
  linarith

/-- **C293** A cap on the expected return suffices: when some portfolio satisfying the constraints reaches the target and none satisfying
them earns more than some level, `min_cvar_at_return` answers, however large the weights may be. -/
theorem C293_bounded_return {solver : Opt.Solver} (hsnd : Sound solver) (hcmp : Complete solver) (argsort : Argsort)
    (hs : ∀ T, IsArgsort (argsort T)) (sim : Sim) (w : Wrapper N) (s : Scen N) (hscen : w.scen = some s) (hp : IsProb s.p)
    (hlog : w.isLog = false) (con : Option (PyV.Con.Spec ℝ)) (c : PyV.Con.Spec ℝ) (hin : InForce w con c)
    (costs : Option Costs) (w0 imp prop : Option (Fin N → ℝ)) (htr : Trading w costs w0 imp prop)
    (hprop : ∀ l, prop = some l → ∀ i, 0 ≤ l i) (target alpha : ℝ) (h0 : 0 < alpha) (h1 : alpha < 1) (seed : Option ℤ)
    (hn : ∃ x : Fin N → ℝ, Satisfies c x ∧ target ≤ ret (scenMean s) x)
    {M : ℝ} (hM : ∀ x : Fin N → ℝ, Satisfies c x → ret (scenMean s) x ≤ M) :
    ∃ r, w.minCvarAtReturn solver argsort sim target alpha seed con costs = .ok r := by
  refine (C293_answers_iff_bounded hsnd hcmp argsort hs sim w s hscen hp hlog con c hin costs w0 imp prop htr hprop target alpha h0 h1 seed).1.2
    ⟨hn, -M, fun x v hx _ hv => ?_⟩
  have h2 := mean_le_cvar hp (by linarith) (by linarith) hv
  have h3 : ∑ t, s.p t * pnl s x t = ret (scenMean s) x := by
    unfold ret
    simp only [Finset.mul_sum, Finset.sum_mul]
    rw [Finset.sum_comm]
    exact Finset.sum_congr rfl fun i _ => Finset.sum_congr rfl fun t _ => by ring
  have h4 : 0 ≤ turnoverCost (fun _ => v) w0 prop x - v := by
    unfold turnoverCost
    rw [add_sub_cancel_left]
    refine Finset.sum_nonneg fun i _ => mul_nonneg ?_ (abs_nonneg _)
    cases prop with
    | none => simp
    | some l => exact hprop l rfl i
  have h5 := hM x hx
  linarith

/-- **C293** Money machines: when the constraints allow moving without limit from some portfolio along trades that gain at least a fixed
amount in every scenario, `min_cvar_at_return` without trading costs raises `InfeasibleOptimizationError`, although the target is within
reach. -/
theorem C293_money_machine {solver : Opt.Solver} (hsnd : Sound solver) (hcmp : Complete solver) (argsort : Argsort)
    (hs : ∀ T, IsArgsort (argsort T)) (sim : Sim) (w : Wrapper N) (s : Scen N) (hscen : w.scen = some s) (hp : IsProb s.p)
    (hlog : w.isLog = false) (con : Option (PyV.Con.Spec ℝ)) (c : PyV.Con.Spec ℝ) (hin : InForce w con c)
    (htr : Trading w none none none none) (target alpha : ℝ) (h0 : 0 < alpha) (h1 : alpha < 1) (seed : Option ℤ)
    {x d : Fin N → ℝ} {g : ℝ} (hg : 0 < g) (hgain : ∀ t, g ≤ pnl s d t) (hx : ∀ k : ℝ, 0 ≤ k → Satisfies c fun i => x i + k * d i) :
    (∃ y : Fin N → ℝ, Satisfies c y ∧ target ≤ ret (scenMean s) y) ∧
    w.minCvarAtReturn solver argsort sim target alpha seed con none = .error .infeasible := by
  have hpn : ∀ k t, pnl s (fun i => x i + k * d i) t = pnl s x t + k * pnl s d t := by
    intro k t
    simp only [pnl, Finset.mul_sum, ← Finset.sum_add_distrib]
    exact Finset.sum_congr rfl fun i _ => by ring
  have hrt : ∀ y : Fin N → ℝ, ret (scenMean s) y = ∑ t, s.p t * pnl s y t := by
    intro y
    unfold ret
    simp only [Finset.mul_sum, Finset.sum_mul]
    rw [Finset.sum_comm]
    exact Finset.sum_congr rfl fun t _ => Finset.sum_congr rfl fun i _ => by ring
  have hret : ∀ k, 0 ≤ k → ret (scenMean s) x + k * g ≤ ret (scenMean s) fun i => x i + k * d i := by
    intro k hk
    rw [hrt, hrt]
    have : k * g = ∑ t, s.p t * (k * g) := by rw [← Finset.sum_mul, hp.sum, one_mul]
    rw [this, ← Finset.sum_add_distrib]
    refine Finset.sum_le_sum fun t _ => ?_
    rw [hpn]
    have h2 := mul_le_mul_of_nonneg_left (mul_le_mul_of_nonneg_left (hgain t) hk) (hp.nonneg t)
    linarith
  have reach : ∀ k, |target - ret (scenMean s) x| / g ≤ k → target ≤ ret (scenMean s) fun i => x i + k * d i := by
    intro k hk
    have hk0 : 0 ≤ k := le_trans (div_nonneg (abs_nonneg _) hg.le) hk
    have h2 := hret k hk0
    rw [div_le_iff₀ hg] at hk
    have h3 := le_abs_self (target - ret (scenMean s) x)
    linarith
  refine ⟨⟨_, hx (|target - ret (scenMean s) x| / g) (div_nonneg (abs_nonneg _) hg.le), reach _ le_rfl⟩, ?_⟩
  obtain ⟨A1, -, A3⟩ := C293_answers_iff_bounded hsnd hcmp argsort hs sim w s hscen hp hlog con c hin none none none none htr (by simp) target alpha h0 h1 seed
  cases hcall : w.minCvarAtReturn solver argsort sim target alpha seed con none with
  | error e => rw [A3 e hcall]
  | ok r =>
    exfalso
    obtain ⟨-, m, hm⟩ := A1.1 ⟨r, hcall⟩
    have hex : ∀ y : Fin N → ℝ, ∃ v, IsCvar s.p (pnl s y) (1 - alpha) v := by
      intro y
      obtain ⟨v, -, hv⟩ := portfolioCvar_ok (argsort := argsort s.T) (hs s.T) (w := y) (R := s.R) (p := some s.p) (demean := false) hp
        (show 0 < 1 - alpha by linarith) (show 1 - alpha < 1 by linarith)
      exact ⟨v, hv⟩
    obtain ⟨v0, hv0⟩ := hex x
    obtain ⟨k0, hk0⟩ := hv0.1
    set k : ℝ := |target - ret (scenMean s) x| / g + (|v0 - m| + 1) / g with hk
    have hka : |target - ret (scenMean s) x| / g ≤ k := by
      rw [hk]; exact le_add_of_nonneg_right (div_nonneg (by positivity) hg.le)
    have hkp : 0 ≤ k := le_trans (div_nonneg (abs_nonneg _) hg.le) hka
    obtain ⟨v, hv⟩ := hex fun i => x i + k * d i
    have h2 := hm _ v (hx k hkp) (reach k hka) hv
    rw [show turnoverCost (fun _ : Fin N → ℝ => v) none none (fun i => x i + k * d i) = v by simp [turnoverCost]] at h2
    have h3 : v ≤ v0 - k * g := by
      refine (hv.2 ⟨k0 - k * g, rfl⟩).trans ?_
      rw [← hk0]
      unfold ru expect
      have h4 : ∑ t, s.p t * max (-(pnl s (fun i => x i + k * d i) t) - (k0 - k * g)) 0 ≤ ∑ t, s.p t * max (-(pnl s x t) - k0) 0 := by
        refine Finset.sum_le_sum fun t _ => mul_le_mul_of_nonneg_left (max_le_max ?_ le_rfl) (hp.nonneg t)
        rw [hpn]
        have := mul_le_mul_of_nonneg_left (hgain t) hkp
        linarith
      have h5 := div_le_div_of_nonneg_right h4 (show (0 : ℝ) ≤ 1 - (1 - alpha) by linarith)
      linarith
    have h6 : |v0 - m| + 1 ≤ k * g := by
      rw [hk, add_mul, div_mul_cancel₀ _ hg.ne', div_mul_cancel₀ _ hg.ne']
      linarith [abs_nonneg (target - ret (scenMean s) x)]
    have h7 := le_abs_self (v0 - m)
    linarith

/-- Two assets, fully invested, shorts allowed, two scenarios. With returns `(1, 0)` and `(0, 1)` the weights are unlimited and the
method answers; with returns `(1, 0)` and `(1, 0)` it reports that no portfolio earns 0, which the first asset alone does. -/
example : ∃ (w w' : Wrapper 2) (solver : Opt.Solver) (argsort : Argsort) (c : PyV.Con.Spec ℝ), Sound solver ∧ Complete solver ∧
    (∀ T, IsArgsort (argsort T)) ∧ (∀ M : ℝ, ∃ x : Fin 2 → ℝ, Satisfies c x ∧ M ≤ x 0) ∧ ∀ sim,
      (∃ r, w.minCvarAtReturn solver argsort sim 0 (1 / 2) none (some c) none = .ok r) ∧
      w'.minCvarAtReturn solver argsort sim 0 (1 / 2) none (some c) none = .error .infeasible := by
  obtain ⟨solver, h1, h2⟩ := exists_solver
  obtain ⟨w, -, -, hsc, hlog, -, -, htr⟩ := exists_wrapper (N := 2) (by norm_num) none none
    (some ⟨2, ![![1, 0], ![0, 1]], fun _ => 1 / 2⟩) false
  obtain ⟨w', -, -, hsc', hlog', -, -, htr'⟩ := exists_wrapper (N := 2) (by norm_num) none none
    (some ⟨2, ![![1, 0], ![1, 0]], fun _ => 1 / 2⟩) false
  set c : PyV.Con.Spec ℝ := ⟨false, some (.fin 1), none, [], [], [], []⟩ with hc
  have hin : ∀ w : Wrapper 2, InForce w (some c) c := fun w => Or.inl ⟨rfl, ⟨by norm_num, by simp [hc, FinOpt, Fin'], by simp [hc, BoundsOK],
    by simp [hc], by simp [hc], by simp [hc], by simp [hc]⟩⟩
  have hsat : ∀ x : Fin 2 → ℝ, x 0 + x 1 = 1 → Satisfies c x := by
    intro x hx
    refine ⟨by simp [hc], fun t ht => ?_, by simp [hc, InBounds], by simp [hc], by simp [hc], by simp [hc], by simp [hc]⟩
    simp only [hc, Option.some.injEq, PyFloat.fin.injEq] at ht
    rw [Fin.sum_univ_two, hx, ht]
  have hp : IsProb (fun _ : Fin 2 => (1 / 2 : ℝ)) := ⟨by intro t; positivity, by simp⟩
  refine ⟨w, w', solver, fun T x => Tuple.sort x, c, h1, h2, fun T x => Tuple.monotone_sort x, fun M => ⟨![M, 1 - M], hsat _ (by simp), by simp⟩,
    fun sim => ⟨?_, ?_⟩⟩
  · refine C293_bounded_return h1 h2 _ (fun T x => Tuple.monotone_sort x) sim w _ hsc hp hlog (some c) c (hin w) none none none none htr (by simp) 0 (1 / 2)
      (by norm_num) (by norm_num) none ⟨![1, 0], hsat _ (by simp), ?_⟩ (M := 1 / 2) (fun x hx => ?_)
    · simp [ret, scenMean, Fin.sum_univ_two]
    · have := hx.total 1 rfl
      rw [Fin.sum_univ_two] at this
      simp [ret, scenMean, Fin.sum_univ_two]
      linarith
  · exact (C293_money_machine h1 h2 _ (fun T x => Tuple.monotone_sort x) sim w' _ hsc' hp hlog' (some c) c (hin w') htr' 0 (1 / 2)
      (by norm_num) (by norm_num) none (x := ![1, 0]) (d := ![1, -1]) one_pos (fun t => by
        change Fin 2 at t
        fin_cases t <;> simp [pnl, Fin.sum_univ_two]) fun k _ => hsat _ (by simp)).2

end PyV.Props
