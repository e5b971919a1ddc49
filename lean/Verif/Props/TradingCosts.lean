import Verif.Props.WrapperCvar

/-! # C209, C210: what transaction costs do to the chosen portfolio

Both properties are stated for the two single-portfolio methods of the wrapper, with the costs passed to the method or to the
constructor. -/

namespace PyV.Props

open PyV PyV.Api PyV.Spec.Api PyV.Opt PyV.Spec.Opt PyV.Spec.Con PyV.Risk PyV.Spec Matrix

variable {N : ℕ}

theorem varianceCost_some (C : Fin N → Fin N → ℝ) (v l x : Fin N → ℝ) :
    varianceCost C (some v) (some l) x = quad C x + impact l v x := rfl

theorem turnoverCost_some (f : (Fin N → ℝ) → ℝ) (v l x : Fin N → ℝ) :
    turnoverCost f (some v) (some l) x = f x + turnover l v x := rfl

theorem impact_self (l v : Fin N → ℝ) : impact l v v = 0 := by simp [impact]

theorem turnover_self (l v : Fin N → ℝ) : turnover l v v = 0 := by simp [turnover]

theorem impact_nonneg {l : Fin N → ℝ} (hl : ∀ i, 0 ≤ l i) (v x : Fin N → ℝ) : 0 ≤ impact l v x :=
  Finset.sum_nonneg fun i _ => mul_nonneg (hl i) (sq_nonneg _)

theorem turnover_nonneg {l : Fin N → ℝ} (hl : ∀ i, 0 ≤ l i) (v x : Fin N → ℝ) : 0 ≤ turnover l v x :=
  Finset.sum_nonneg fun i _ => mul_nonneg (hl i) (abs_nonneg _)

theorem impact_pos {l : Fin N → ℝ} (hl : ∀ i, 0 < l i) {v x : Fin N → ℝ} (h : impact l v x ≤ 0) : x = v := by
  have h0 : impact l v x = 0 := le_antisymm h (impact_nonneg (fun i => (hl i).le) v x)
  have := (Finset.sum_eq_zero_iff_of_nonneg (fun i _ => mul_nonneg (hl i).le (sq_nonneg (x i - v i)))).1 h0
  funext i
  have h := this i (Finset.mem_univ i)
  rcases mul_eq_zero.1 h with h | h
  · exact absurd h (hl i).ne'
  · exact sub_eq_zero.1 (pow_eq_zero_iff (two_ne_zero) |>.1 h)

theorem turnover_pos {l : Fin N → ℝ} (hl : ∀ i, 0 < l i) {v x : Fin N → ℝ} (h : turnover l v x ≤ 0) : x = v := by
  have h0 : turnover l v x = 0 := le_antisymm h (turnover_nonneg (fun i => (hl i).le) v x)
  have := (Finset.sum_eq_zero_iff_of_nonneg (fun i _ => mul_nonneg (hl i).le (abs_nonneg (x i - v i)))).1 h0
  funext i
  have h := this i (Finset.mem_univ i)
  rcases mul_eq_zero.1 h with h | h
  · exact absurd h (hl i).ne'
  · exact sub_eq_zero.1 (abs_eq_zero.1 h)

theorem impact_smul (k : ℝ) (l v x : Fin N → ℝ) : impact (fun i => k * l i) v x = k * impact l v x := by
  simp only [impact, Finset.mul_sum, mul_assoc]

theorem turnover_smul (k : ℝ) (l v x : Fin N → ℝ) : turnover (fun i => k * l i) v x = k * turnover l v x := by
  simp only [turnover, Finset.mul_sum, mul_assoc]

/-- **C209** `min_variance_at_return` with market impact costs, when the current holdings `v` satisfy the constraints and reach the
target: trading pays for itself (the variance saved is at least the impact paid), so the reported volatility is never above the
volatility of the current holdings; if no allowed portfolio that reaches the target has less variance than the current holdings, the
reported volatility is exactly theirs, and with positive costs the holdings themselves are returned. -/
theorem C209_min_variance {solver : Opt.Solver} (hsnd : Sound solver) (hcmp : Complete solver)
    (w : Wrapper N) (mu : Fin N → ℝ) (cov : Matrix (Fin N) (Fin N) ℝ) (hmu : w.mu = some mu) (hcov : w.cov = some cov)
    (hlog : w.isLog = false) (hpsd : IsCov (fun i j => cov i j)) (con : Option (PyV.Con.Spec ℝ)) (c : PyV.Con.Spec ℝ)
    (hin : InForce w con c) (hb : ∃ M, ∀ x : Fin N → ℝ, Satisfies c x → ∀ i, |x i| ≤ M)
    (costs : Option Costs) (v l : Fin N → ℝ) (prop : Option (Fin N → ℝ)) (htr : Trading w costs (some v) (some l) prop)
    (hl : ∀ i, 0 ≤ l i) (target : ℝ) (hv : Satisfies c v) (hvt : target ≤ ret mu v) :
    ∃ r, w.minVarianceAtReturn solver target con costs = .ok r ∧
      quad (fun i j => cov i j) r.w + ∑ i, l i * (r.w i - v i) ^ 2 ≤ quad (fun i j => cov i j) v ∧
      r.risk ≤ Real.sqrt (quad (fun i j => cov i j) v) ∧
      ((∀ x, Satisfies c x → target ≤ ret mu x → quad (fun i j => cov i j) v ≤ quad (fun i j => cov i j) x) →
        r.risk = Real.sqrt (quad (fun i j => cov i j) v) ∧ ((∀ i, 0 < l i) → r.w = v)) := by
  obtain ⟨r, h1, h2, h3, h4, h5, h6⟩ := (C107_min_variance_at_return hsnd hcmp w mu cov hmu hcov hlog hpsd con c hin hb costs
    (some v) (some l) prop htr (fun l' e => by injection e with e; subst e; exact hl) target).1 ⟨v, hv, hvt⟩
  have h7 := h6 v hv hvt
  rw [varianceCost_some, varianceCost_some, impact_self, add_zero] at h7
  have h8 := impact_nonneg hl v r.w
  refine ⟨r, h1, h7, ?_, fun hbest => ?_⟩
  · rw [h5]; exact Real.sqrt_le_sqrt (by linarith)
  · have h9 := hbest r.w h2 (h4 ▸ h3)
    refine ⟨?_, fun hpos => impact_pos hpos (by linarith)⟩
    rw [h5, le_antisymm (by linarith) h9]

/-- **C209** `min_cvar_at_return` with proportional costs, when the current holdings `v` satisfy the constraints and reach the
target: the CVaR saved is at least the cost paid; if no allowed portfolio that reaches the target has smaller CVaR than the current
holdings, the CVaR of the result is exactly theirs, and with positive costs the holdings themselves are returned. -/
theorem C209_min_cvar {solver : Opt.Solver} (hsnd : Sound solver) (hcmp : Complete solver) (argsort : Argsort)
    (hs : ∀ T, IsArgsort (argsort T)) (sim : Sim) (w : Wrapper N) (s : Scen N) (hscen : w.scen = some s) (hp : IsProb s.p)
    (hlog : w.isLog = false) (con : Option (PyV.Con.Spec ℝ)) (c : PyV.Con.Spec ℝ)
    (hin : InForce w con c) (hb : ∃ M, ∀ x : Fin N → ℝ, Satisfies c x → ∀ i, |x i| ≤ M)
    (costs : Option Costs) (v l : Fin N → ℝ) (imp : Option (Fin N → ℝ)) (htr : Trading w costs (some v) imp (some l))
    (hl : ∀ i, 0 ≤ l i) (target alpha : ℝ) (h0 : 0 < alpha) (h1 : alpha < 1) (seed : Option ℤ)
    (hv : Satisfies c v) (hvt : target ≤ ret (scenMean s) v) (cv : ℝ) (hcv : IsCvar s.p (pnl s v) (1 - alpha) cv) :
    ∃ r cr, w.minCvarAtReturn solver argsort sim target alpha seed con costs = .ok r ∧ IsCvar s.p (pnl s r.w) (1 - alpha) cr ∧
      r.risk = |cr| ∧ cr + ∑ i, l i * |r.w i - v i| ≤ cv ∧
      ((∀ x cx, Satisfies c x → target ≤ ret (scenMean s) x → IsCvar s.p (pnl s x) (1 - alpha) cx → cv ≤ cx) →
        cr = cv ∧ ((∀ i, 0 < l i) → r.w = v)) := by
  obtain ⟨r, g1, g2, g3, g4, -, cr, g5, g6, g7⟩ := (C109_min_cvar_at_return_partial hsnd hcmp argsort hs sim w s hscen hp hlog con c
    hin hb costs (some v) imp (some l) htr (fun l' e => by injection e with e; subst e; exact hl) target alpha h0 h1 seed).1 ⟨v, hv, hvt⟩
  have g8 := g7 v cv hv hvt hcv
  rw [turnoverCost_some, turnoverCost_some, turnover_self, add_zero] at g8
  have g9 := turnover_nonneg hl v r.w
  refine ⟨r, cr, g1, g5, g6, g8, fun hbest => ?_⟩
  have g10 := hbest r.w cr g2 g3 g5
  exact ⟨le_antisymm (by linarith) g10, fun hpos => turnover_pos hpos (by linarith)⟩

/-- **C210** `min_variance_at_return`, two calls that differ only in the level of the impact costs (`a` times and `b` times the vector
`l`, `a < b`): the call with the higher costs trades no more, as measured by the impact `l`, and reports no smaller volatility. -/
theorem C210_min_variance {solver : Opt.Solver} (hsnd : Sound solver) (hcmp : Complete solver)
    (w : Wrapper N) (mu : Fin N → ℝ) (cov : Matrix (Fin N) (Fin N) ℝ) (hmu : w.mu = some mu) (hcov : w.cov = some cov)
    (hlog : w.isLog = false) (hpsd : IsCov (fun i j => cov i j)) (con : Option (PyV.Con.Spec ℝ)) (c : PyV.Con.Spec ℝ)
    (hin : InForce w con c) (hb : ∃ M, ∀ x : Fin N → ℝ, Satisfies c x → ∀ i, |x i| ≤ M)
    (ca cb : Option Costs) (v l : Fin N → ℝ) (a b : ℝ) (ha : 0 ≤ a) (hab : a < b) (hl : ∀ i, 0 ≤ l i) (prop prop' : Option (Fin N → ℝ))
    (hta : Trading w ca (some v) (some (fun i => a * l i)) prop) (htb : Trading w cb (some v) (some (fun i => b * l i)) prop')
    (target : ℝ) (hne : ∃ x : Fin N → ℝ, Satisfies c x ∧ target ≤ ret mu x) :
    ∃ ra rb, w.minVarianceAtReturn solver target con ca = .ok ra ∧ w.minVarianceAtReturn solver target con cb = .ok rb ∧
      ∑ i, l i * (rb.w i - v i) ^ 2 ≤ ∑ i, l i * (ra.w i - v i) ^ 2 ∧ ra.risk ≤ rb.risk := by
  have hb0 : 0 ≤ b := ha.trans hab.le
  obtain ⟨ra, a1, a2, a3, a4, a5, a6⟩ := (C107_min_variance_at_return hsnd hcmp w mu cov hmu hcov hlog hpsd con c hin hb ca
    _ _ prop hta (fun l' e => by injection e with e; subst e; exact fun i => mul_nonneg ha (hl i)) target).1 hne
  obtain ⟨rb, b1, b2, b3, b4, b5, b6⟩ := (C107_min_variance_at_return hsnd hcmp w mu cov hmu hcov hlog hpsd con c hin hb cb
    _ _ prop' htb (fun l' e => by injection e with e; subst e; exact fun i => mul_nonneg hb0 (hl i)) target).1 hne
  have k1 := a6 rb.w b2 (b4 ▸ b3)
  have k2 := b6 ra.w a2 (a4 ▸ a3)
  rw [varianceCost_some, varianceCost_some, impact_smul, impact_smul] at k1 k2
  have k3 : impact l v rb.w ≤ impact l v ra.w := by
    have : (b - a) * impact l v rb.w ≤ (b - a) * impact l v ra.w := by linarith
    exact le_of_mul_le_mul_left this (by linarith)
  refine ⟨ra, rb, a1, b1, k3, ?_⟩
  rw [a5, b5]
  refine Real.sqrt_le_sqrt ?_
  have := mul_le_mul_of_nonneg_left k3 ha
  linarith

/-- **C210** `min_cvar_at_return`, two calls that differ only in the level of the proportional costs: the call with the higher costs
trades no more and its portfolio has no smaller CVaR. -/
theorem C210_min_cvar {solver : Opt.Solver} (hsnd : Sound solver) (hcmp : Complete solver) (argsort : Argsort)
    (hs : ∀ T, IsArgsort (argsort T)) (sim : Sim) (w : Wrapper N) (s : Scen N) (hscen : w.scen = some s) (hp : IsProb s.p)
    (hlog : w.isLog = false) (con : Option (PyV.Con.Spec ℝ)) (c : PyV.Con.Spec ℝ)
    (hin : InForce w con c) (hb : ∃ M, ∀ x : Fin N → ℝ, Satisfies c x → ∀ i, |x i| ≤ M)
    (ca cb : Option Costs) (v l : Fin N → ℝ) (a b : ℝ) (ha : 0 ≤ a) (hab : a < b) (hl : ∀ i, 0 ≤ l i) (imp imp' : Option (Fin N → ℝ))
    (hta : Trading w ca (some v) imp (some (fun i => a * l i))) (htb : Trading w cb (some v) imp' (some (fun i => b * l i)))
    (target alpha : ℝ) (h0 : 0 < alpha) (h1 : alpha < 1) (seed : Option ℤ)
    (hne : ∃ x : Fin N → ℝ, Satisfies c x ∧ target ≤ ret (scenMean s) x) :
    ∃ ra rb va vb, w.minCvarAtReturn solver argsort sim target alpha seed con ca = .ok ra ∧
      w.minCvarAtReturn solver argsort sim target alpha seed con cb = .ok rb ∧
      IsCvar s.p (pnl s ra.w) (1 - alpha) va ∧ IsCvar s.p (pnl s rb.w) (1 - alpha) vb ∧ ra.risk = |va| ∧ rb.risk = |vb| ∧
      ∑ i, l i * |rb.w i - v i| ≤ ∑ i, l i * |ra.w i - v i| ∧ va ≤ vb := by
  have hb0 : 0 ≤ b := ha.trans hab.le
  obtain ⟨ra, a1, a2, a3, a4, -, va, a5, a6, a7⟩ := (C109_min_cvar_at_return_partial hsnd hcmp argsort hs sim w s hscen hp hlog con c
    hin hb ca _ imp _ hta (fun l' e => by injection e with e; subst e; exact fun i => mul_nonneg ha (hl i)) target alpha h0 h1 seed).1 hne
  obtain ⟨rb, b1, b2, b3, b4, -, vb, b5, b6, b7⟩ := (C109_min_cvar_at_return_partial hsnd hcmp argsort hs sim w s hscen hp hlog con c
    hin hb cb _ imp' _ htb (fun l' e => by injection e with e; subst e; exact fun i => mul_nonneg hb0 (hl i)) target alpha h0 h1 seed).1 hne
  have k1 := a7 rb.w vb b2 b3 b5
  have k2 := b7 ra.w va a2 a3 a5
  rw [turnoverCost_some, turnoverCost_some, turnover_smul, turnover_smul] at k1 k2
  have k3 : turnover l v rb.w ≤ turnover l v ra.w := by
    have : (b - a) * turnover l v rb.w ≤ (b - a) * turnover l v ra.w := by linarith
    exact le_of_mul_le_mul_left this (by linarith)
  refine ⟨ra, rb, va, vb, a1, b1, a5, b5, a6, b6, k3, ?_⟩
  have := mul_le_mul_of_nonneg_left k3 ha
  linarith

/-- The hypotheses are met: holding only the second of two uncorrelated assets with variances 4 and 1, costs 1 and 2 per unit. -/
example : ∃ (w : Wrapper 2) (solver : Opt.Solver) (r : _), Sound solver ∧ Complete solver ∧
    w.minVarianceAtReturn solver 0 none (some ⟨List.ofFn ![0, 1], some (List.ofFn ![1, 2]), none⟩) = .ok r ∧ r.risk ≤ 1 := by
  obtain ⟨solver, h1, h2⟩ := exists_solver
  obtain ⟨w, hmu, hcov, -, hlog, -, hin, -⟩ := exists_wrapper (N := 2) (by norm_num) (some ![1 / 10, 1 / 50])
    (some (Matrix.diagonal ![4, 1])) none false
  obtain ⟨r, g1, -, g2, -⟩ := C209_min_variance h1 h2 w _ _ hmu hcov hlog (by
    constructor
    · intro i j; fin_cases i <;> fin_cases j <;> simp
    · intro x
      simp [Fin.sum_univ_two]
      nlinarith [sq_nonneg (x 0), sq_nonneg (x 1)]) none _ hin default_bounded
    (some ⟨List.ofFn ![0, 1], some (List.ofFn ![1, 2]), none⟩) ![0, 1] ![1, 2] none (Or.inl ⟨_, _, rfl, rfl, rfl⟩)
    (by intro i; fin_cases i <;> simp) 0
    ((satisfies_default _).2 ⟨by intro i; fin_cases i <;> simp, by simp⟩) (by simp [ret, Fin.sum_univ_two])
  refine ⟨w, solver, r, h1, h2, g1, g2.trans ?_⟩
  simp [quad, Fin.sum_univ_two]

/-- The hypotheses of the CVaR half are met: two scenarios, current holdings in the second asset, cost 1% per unit. -/
example : ∃ (w : Wrapper 2) (solver : Opt.Solver), Sound solver ∧ Complete solver ∧ ∀ argsort sim, (∀ T, IsArgsort (argsort T)) →
    ∃ r, w.minCvarAtReturn solver argsort sim 0 (1 / 2) none none
      (some ⟨List.ofFn ![0, 1], none, some (List.ofFn fun _ : Fin 2 => 1 / 100)⟩) = .ok r := by
  obtain ⟨solver, h1, h2⟩ := exists_solver
  obtain ⟨w, -, -, hsc, hlog, -, hin, -⟩ := exists_wrapper (N := 2) (by norm_num) none none (some exScen) false
  refine ⟨w, solver, h1, h2, fun argsort sim hs => ?_⟩
  have hv : Satisfies (PyV.Con.defaultSpec : PyV.Con.Spec ℝ) ![(0 : ℝ), 1] :=
    (satisfies_default _).2 ⟨by intro i; fin_cases i <;> simp, by simp⟩
  obtain ⟨r, _, g1, -⟩ := C209_min_cvar h1 h2 argsort hs sim w exScen hsc exScen_prob hlog none _ hin default_bounded
    (some ⟨List.ofFn ![0, 1], none, some (List.ofFn fun _ : Fin 2 => 1 / 100)⟩) ![0, 1] (fun _ => 1 / 100) none
    (Or.inl ⟨_, _, rfl, rfl, rfl⟩) (by intro i; norm_num) 0 (1 / 2) (by norm_num) (by norm_num) none hv
    (by rw [exScen_ret]; simp) _ (cvar_two _)
  exact ⟨r, g1⟩

end PyV.Props
