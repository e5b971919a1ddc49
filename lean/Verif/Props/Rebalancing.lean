import Verif.Props.TradingCosts

/-! # Property C289: rebalancing again and again from the last answer -/

namespace PyV.Props

open PyV PyV.Api PyV.Spec.Api PyV.Opt PyV.Spec.Opt PyV.Spec.Con PyV.Risk PyV.Spec Matrix

variable {N : ℕ}

/-- **C289** (impact costs) A portfolio is rebalanced with `min_variance_at_return` again and again, with the same target, constraints and impact
costs, each time starting from the last answer. Every call succeeds; the volatility never rises; and after any number of rebalancings the variance
left plus the impact paid for all the trades after the first is at most the variance after the first. -/
theorem C289_impact {solver : Opt.Solver} (hsnd : Sound solver) (hcmp : Complete solver)
    (w : Wrapper N) (mu : Fin N → ℝ) (cov : Matrix (Fin N) (Fin N) ℝ) (hmu : w.mu = some mu) (hcov : w.cov = some cov)
    (hlog : w.isLog = false) (hpsd : IsCov (fun i j => cov i j)) (con : Option (PyV.Con.Spec ℝ)) (c : PyV.Con.Spec ℝ)
    (hin : InForce w con c) (hb : ∃ M, ∀ x : Fin N → ℝ, Satisfies c x → ∀ i, |x i| ≤ M) (l : Fin N → ℝ) (hl : ∀ i, 0 ≤ l i) (target : ℝ)
    (hne : ∃ x : Fin N → ℝ, Satisfies c x ∧ target ≤ ret mu x) (v : Fin N → ℝ) :
    ∃ r : ℕ → Result N,
      w.minVarianceAtReturn solver target con (some ⟨List.ofFn v, some (List.ofFn l), none⟩) = .ok (r 0) ∧
      (∀ k, w.minVarianceAtReturn solver target con (some ⟨List.ofFn (r k).w, some (List.ofFn l), none⟩) = .ok (r (k + 1))) ∧
      (∀ k, (r (k + 1)).risk ≤ (r k).risk) ∧
      ∀ n, quad (fun i j => cov i j) (r n).w + ∑ k ∈ Finset.range n, ∑ i, l i * ((r (k + 1)).w i - (r k).w i) ^ 2 ≤
        quad (fun i j => cov i j) (r 0).w := by
  have call : ∀ h : Fin N → ℝ, ∃ q, w.minVarianceAtReturn solver target con (some ⟨List.ofFn h, some (List.ofFn l), none⟩) = .ok q ∧
      Satisfies c q.w ∧ target ≤ ret mu q.w ∧ q.risk = Real.sqrt (quad (fun i j => cov i j) q.w) ∧
      ∀ x, Satisfies c x → target ≤ ret mu x → quad (fun i j => cov i j) q.w + impact l h q.w ≤ quad (fun i j => cov i j) x + impact l h x := by
    intro h
    obtain ⟨q, h1, h2, h3, h4, h5, h6⟩ := (C107_min_variance_at_return hsnd hcmp w mu cov hmu hcov hlog hpsd con c hin hb
      (some ⟨List.ofFn h, some (List.ofFn l), none⟩) (some h) (some l) none (Or.inl ⟨_, h, rfl, rfl, rfl⟩)
      (fun l' e => by injection e with e; subst e; exact hl) target).1 hne
    exact ⟨q, h1, h2, h4 ▸ h3, h5, h6⟩
  choose next hnext using call
  let r : ℕ → Result N := fun k => Nat.rec (next v) (fun _ q => next q.w) k
  have hgood : ∀ k, Satisfies c (r k).w ∧ target ≤ ret mu (r k).w ∧ (r k).risk = Real.sqrt (quad (fun i j => cov i j) (r k).w) := by
    intro k
    cases k with
    | zero => exact ⟨(hnext v).2.1, (hnext v).2.2.1, (hnext v).2.2.2.1⟩
    | succ k => exact ⟨(hnext (r k).w).2.1, (hnext (r k).w).2.2.1, (hnext (r k).w).2.2.2.1⟩
  have hstep : ∀ k, quad (fun i j => cov i j) (r (k + 1)).w + impact l (r k).w (r (k + 1)).w ≤ quad (fun i j => cov i j) (r k).w := by
    intro k
    have := (hnext (r k).w).2.2.2.2 (r k).w (hgood k).1 (hgood k).2.1
    rwa [impact_self, add_zero] at this
  refine ⟨r, (hnext v).1, fun k => (hnext (r k).w).1, fun k => ?_, fun n => ?_⟩
  · rw [(hgood k).2.2, (hgood (k + 1)).2.2]
    refine Real.sqrt_le_sqrt ?_
    have := hstep k
    have := impact_nonneg hl (r k).w (r (k + 1)).w
    linarith
  · induction n with
    | zero => simp
    | succ n ih =>
      rw [Finset.sum_range_succ]
      have := hstep n
      unfold impact at this
      linarith

/-- Going on from an optimum costs at least as much as stopping there. -/
private theorem settled {f : (Fin N → ℝ) → ℝ} {l h q x : Fin N → ℝ} (hl : ∀ i, 0 ≤ l i) (hq : f q + turnover l h q ≤ f x + turnover l h x) :
    f q ≤ f x + turnover l q x := by
  have : turnover l h x ≤ turnover l q x + turnover l h q := by
    unfold turnover
    rw [← Finset.sum_add_distrib]
    refine Finset.sum_le_sum fun i _ => ?_
    rw [← mul_add]
    exact mul_le_mul_of_nonneg_left (abs_sub_le (x i) (q i) (h i)) (hl i)
  linarith

/-- **C289** (proportional costs) Rebalancing with `min_cvar_at_return` in the same way, with the same proportional costs, gains nothing after the
first call: however often it is repeated, the CVaR left plus the costs of all the trades after the first is exactly the CVaR after the first, and
no allowed portfolio that reaches the target is worth moving to from any of the answers. -/
theorem C289_proportional {solver : Opt.Solver} (hsnd : Sound solver) (hcmp : Complete solver) (argsort : Argsort)
    (hs : ∀ T, IsArgsort (argsort T)) (sim : Sim) (w : Wrapper N) (s : Scen N) (hscen : w.scen = some s) (hp : IsProb s.p)
    (hlog : w.isLog = false) (con : Option (PyV.Con.Spec ℝ)) (c : PyV.Con.Spec ℝ)
    (hin : InForce w con c) (hb : ∃ M, ∀ x : Fin N → ℝ, Satisfies c x → ∀ i, |x i| ≤ M) (l : Fin N → ℝ) (hl : ∀ i, 0 ≤ l i)
    (target alpha : ℝ) (h0 : 0 < alpha) (h1 : alpha < 1) (seed : Option ℤ)
    (hne : ∃ x : Fin N → ℝ, Satisfies c x ∧ target ≤ ret (scenMean s) x) (v : Fin N → ℝ) :
    ∃ (r : ℕ → Result N) (cr : ℕ → ℝ),
      w.minCvarAtReturn solver argsort sim target alpha seed con (some ⟨List.ofFn v, none, some (List.ofFn l)⟩) = .ok (r 0) ∧
      (∀ k, w.minCvarAtReturn solver argsort sim target alpha seed con (some ⟨List.ofFn (r k).w, none, some (List.ofFn l)⟩) = .ok (r (k + 1))) ∧
      (∀ k, IsCvar s.p (pnl s (r k).w) (1 - alpha) (cr k) ∧ (r k).risk = |cr k|) ∧
      (∀ n, cr n + ∑ k ∈ Finset.range n, ∑ i, l i * |(r (k + 1)).w i - (r k).w i| = cr 0) ∧
      ∀ k x cx, Satisfies c x → target ≤ ret (scenMean s) x → IsCvar s.p (pnl s x) (1 - alpha) cx →
        cr k ≤ cx + ∑ i, l i * |x i - (r k).w i| := by
  have hcv : ∀ x : Fin N → ℝ, ∃ cx, IsCvar s.p (pnl s x) (1 - alpha) cx := by
    intro x
    obtain ⟨cx, -, h⟩ := portfolioCvar_ok (conf := 1 - alpha) (demean := false) (hs s.T) (w := x) (R := s.R) (p := some s.p) hp (by linarith) (by linarith)
    exact ⟨cx, h⟩
  choose cv hcv using hcv
  have call : ∀ h : Fin N → ℝ, ∃ q, w.minCvarAtReturn solver argsort sim target alpha seed con (some ⟨List.ofFn h, none, some (List.ofFn l)⟩) = .ok q ∧
      Satisfies c q.w ∧ target ≤ ret (scenMean s) q.w ∧ q.risk = |cv q.w| ∧
      ∀ x, Satisfies c x → target ≤ ret (scenMean s) x → cv q.w + turnover l h q.w ≤ cv x + turnover l h x := by
    intro h
    obtain ⟨q, g1, g2, g3, g4, -, cr, g5, g6, g7⟩ := (C109_min_cvar_at_return_partial hsnd hcmp argsort hs sim w s hscen hp hlog con c hin hb
      (some ⟨List.ofFn h, none, some (List.ofFn l)⟩) (some h) none (some l) (Or.inl ⟨_, h, rfl, rfl, rfl⟩)
      (fun l' e => by injection e with e; subst e; exact hl) target alpha h0 h1 seed).1 hne
    have e : cr = cv q.w := cvar_unique g5 (hcv q.w)
    subst e
    exact ⟨q, g1, g2, g3, g6, fun x hx ht => g7 x (cv x) hx ht (hcv x)⟩
  choose next hnext using call
  let r : ℕ → Result N := fun k => Nat.rec (next v) (fun _ q => next q.w) k
  have hgood : ∀ k, ∃ h, r k = next h := by
    intro k
    cases k with
    | zero => exact ⟨v, rfl⟩
    | succ k => exact ⟨(r k).w, rfl⟩
  have hset : ∀ k x, Satisfies c x → target ≤ ret (scenMean s) x → cv (r k).w ≤ cv x + turnover l (r k).w x := by
    intro k x hx ht
    obtain ⟨h, e⟩ := hgood k
    rw [e]
    exact settled hl ((hnext h).2.2.2.2 x hx ht)
  have hok : ∀ k, Satisfies c (r k).w ∧ target ≤ ret (scenMean s) (r k).w ∧ (r k).risk = |cv (r k).w| := by
    intro k
    obtain ⟨h, e⟩ := hgood k
    rw [e]
    exact ⟨(hnext h).2.1, (hnext h).2.2.1, (hnext h).2.2.2.1⟩
  have hstep : ∀ k, cv (r (k + 1)).w + turnover l (r k).w (r (k + 1)).w = cv (r k).w := by
    intro k
    refine le_antisymm ?_ (hset k _ (hok (k + 1)).1 (hok (k + 1)).2.1)
    have := (hnext (r k).w).2.2.2.2 (r k).w (hok k).1 (hok k).2.1
    rwa [turnover_self, add_zero] at this
  refine ⟨r, fun k => cv (r k).w, (hnext v).1, fun k => (hnext (r k).w).1, fun k => ⟨hcv _, (hok k).2.2⟩, fun n => ?_, fun k x cx hx ht hcx => ?_⟩
  · induction n with
    | zero => simp
    | succ n ih =>
      rw [Finset.sum_range_succ]
      have := hstep n
      unfold turnover at this
      linarith
  · rw [cvar_unique hcx (hcv x)]
    exact hset k x hx ht

/-- Both sequences exist for a concrete case: two uncorrelated assets and impact costs; two scenarios and proportional costs. -/
example : ∃ (w w' : Wrapper 2) (solver : Opt.Solver), Sound solver ∧ Complete solver ∧
    (∃ r : ℕ → Result 2, ∀ k, w.minVarianceAtReturn solver 0 none (some ⟨List.ofFn (r k).w, some (List.ofFn ![1, 2]), none⟩) = .ok (r (k + 1))) ∧
    ∀ argsort sim, (∀ T, IsArgsort (argsort T)) → ∃ r : ℕ → Result 2, ∀ k,
      w'.minCvarAtReturn solver argsort sim 0 (1 / 2) none none (some ⟨List.ofFn (r k).w, none, some (List.ofFn fun _ : Fin 2 => 1 / 100)⟩) =
        .ok (r (k + 1)) := by
  obtain ⟨solver, h1, h2⟩ := exists_solver
  obtain ⟨w, hmu, hcov, -, hlog, -, hin, -⟩ := exists_wrapper (N := 2) (by norm_num) (some ![1 / 10, 1 / 50])
    (some (Matrix.diagonal ![4, 1])) none false
  obtain ⟨w', -, -, hsc, hlog', -, hin', -⟩ := exists_wrapper (N := 2) (by norm_num) none none (some exScen) false
  have hv : Satisfies (PyV.Con.defaultSpec : PyV.Con.Spec ℝ) ![(0 : ℝ), 1] :=
    (satisfies_default _).2 ⟨by intro i; fin_cases i <;> simp, by simp⟩
  refine ⟨w, w', solver, h1, h2, ?_, fun argsort sim hs => ?_⟩
  · obtain ⟨r, -, hr, -⟩ := C289_impact h1 h2 w _ _ hmu hcov hlog (by
      constructor
      · intro i j; fin_cases i <;> fin_cases j <;> simp
      · intro x
        simp [Fin.sum_univ_two]
        nlinarith [sq_nonneg (x 0), sq_nonneg (x 1)]) none _ hin default_bounded ![1, 2] (by intro i; fin_cases i <;> simp) 0
      ⟨![0, 1], hv, by simp [ret, Fin.sum_univ_two]⟩ ![1, 0]
    exact ⟨r, hr⟩
  · obtain ⟨r, -, -, hr, -⟩ := C289_proportional h1 h2 argsort hs sim w' exScen hsc exScen_prob hlog' none _ hin' default_bounded
      (fun _ => 1 / 100) (by intro i; norm_num) 0 (1 / 2) (by norm_num) (by norm_num) none ⟨![0, 1], hv, by rw [exScen_ret]; simp⟩ ![1, 0]
    exact ⟨r, hr⟩

end PyV.Props
