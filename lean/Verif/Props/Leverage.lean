import Verif.Props.TwoFunds
import Verif.Props.TradingCosts
import Verif.Props.Performance

/-! # Property C291: doubling the size of everything doubles the portfolio -/

namespace PyV.Props

open PyV PyV.Api PyV.Spec.Api PyV.Opt PyV.Spec.Opt PyV.Spec.Con PyV.Risk PyV.Spec Matrix

variable {N : ℕ}

/-! ## The same limits at another size (specification) -/

/-- A finite number multiplied by `k`. -/
def scaleF (k : ℝ) : PyFloat ℝ → PyFloat ℝ
  | .fin x => .fin (k * x)
  | y => y

/-- Per-asset bounds with both ends multiplied by `k`. -/
def scaledBounds (k : ℝ) : PyV.Con.Bounds ℝ → PyV.Con.Bounds ℝ
  | .pair lo hi => .pair (lo.map (scaleF k)) (hi.map (scaleF k))
  | .dict l => .dict (l.map fun e => (e.1, e.2.1.map (scaleF k), e.2.2.map (scaleF k)))
  | .seq l => .seq (l.map fun e => (e.1.map (scaleF k), e.2.map (scaleF k)))

/-- The same constraints for a portfolio `k` times the size: total weight, bounds, relative limits, group limits and the right-hand sides
of the rows are all multiplied by `k`. -/
def scaledSpec (k : ℝ) (c : PyV.Con.Spec ℝ) : PyV.Con.Spec ℝ where
  longOnly := c.longOnly
  totalWeight := c.totalWeight.map (scaleF k)
  bounds := c.bounds.map (scaledBounds k)
  relative := c.relative.map fun e => (e.1, e.2.1, scaleF k e.2.2)
  groups := c.groups.map fun e => (e.1, e.2.1, scaleF k e.2.2.1, scaleF k e.2.2.2)
  ineqRows := c.ineqRows.map fun e => (e.1, scaleF k e.2)
  eqRows := c.eqRows.map fun e => (e.1, scaleF k e.2)

theorem scaleF_fin {k : ℝ} {y : PyFloat ℝ} {v : ℝ} (h : scaleF k y = .fin v) : ∃ x, y = .fin x ∧ v = k * x := by
  cases y with
  | fin x => exact ⟨x, rfl, by simpa [scaleF] using h.symm⟩
  | nan => simp [scaleF] at h
  | posInf => simp [scaleF] at h
  | negInf => simp [scaleF] at h

theorem scaleF_inv {k : ℝ} (hk : k ≠ 0) (y : PyFloat ℝ) : scaleF k⁻¹ (scaleF k y) = y := by
  cases y <;> simp [scaleF, hk]

private theorem map_inv {k : ℝ} (hk : k ≠ 0) (y : Option (PyFloat ℝ)) : (y.map (scaleF k)).map (scaleF k⁻¹) = y := by
  cases y <;> simp [scaleF_inv hk]

theorem scaledSpec_inv {k : ℝ} (hk : k ≠ 0) (c : PyV.Con.Spec ℝ) : scaledSpec k⁻¹ (scaledSpec k c) = c := by
  obtain ⟨a, b, d, e, f, g, h⟩ := c
  have hb : (d.map (scaledBounds k)).map (scaledBounds k⁻¹) = d := by
    cases d with
    | none => rfl
    | some d =>
      cases d with
      | pair lo hi => simp [scaledBounds, map_inv hk]
      | dict l => simp [scaledBounds, map_inv hk, Function.comp_def]
      | seq l => simp [scaledBounds, map_inv hk, Function.comp_def]
  unfold scaledSpec
  simp only [List.map_map, Function.comp_def, scaleF_inv hk, map_inv hk, hb, Prod.mk.eta, List.map_id']

private theorem atLeast_scale {k : ℝ} (hk : 0 < k) {lo : Option (PyFloat ℝ)} {x : ℝ} (h : AtLeast lo x) : AtLeast (lo.map (scaleF k)) (k * x) := by
  intro a ha
  cases lo with
  | none => simp at ha
  | some y =>
    obtain ⟨b, rfl, rfl⟩ := scaleF_fin (by simpa using ha)
    exact mul_le_mul_of_nonneg_left (h b rfl) hk.le

private theorem atMost_scale {k : ℝ} (hk : 0 < k) {hi : Option (PyFloat ℝ)} {x : ℝ} (h : AtMost hi x) : AtMost (hi.map (scaleF k)) (k * x) := by
  intro a ha
  cases hi with
  | none => simp at ha
  | some y =>
    obtain ⟨b, rfl, rfl⟩ := scaleF_fin (by simpa using ha)
    exact mul_le_mul_of_nonneg_left (h b rfl) hk.le

/-- Multiplying the portfolio and the limits by the same positive number changes nothing. -/
theorem satisfies_scaled {k : ℝ} (hk : 0 < k) {c : PyV.Con.Spec ℝ} {x : Fin N → ℝ} (h : Satisfies c x) :
    Satisfies (scaledSpec k c) fun i => k * x i := by
  have hrow : ∀ g : Fin N → ℝ, ∑ i, g i * (k * x i) = k * ∑ i, g i * x i := by
    intro g
    rw [Finset.mul_sum]
    exact Finset.sum_congr rfl fun i _ => by ring
  refine ⟨fun hl i => mul_nonneg hk.le (h.long hl i), fun t ht => ?_, ?_, fun e he v hv i j hi hj => ?_, fun e he lo hi hlo hhi => ?_,
    fun e he r hr => ?_, fun e he r hr => ?_⟩
  · cases hc : c.totalWeight with
    | none => simp [scaledSpec, hc] at ht
    | some y =>
      obtain ⟨b, rfl, rfl⟩ := scaleF_fin (k := k) (y := y) (by simpa [scaledSpec, hc] using ht)
      rw [← Finset.mul_sum, h.total b hc]
  · have hb := h.bounds
    show InBounds _ (c.bounds.map (scaledBounds k))
    cases hc : c.bounds with
    | none => trivial
    | some d =>
      rw [hc] at hb
      cases d with
      | pair lo hi => exact fun i => ⟨atLeast_scale hk (hb i).1, atMost_scale hk (hb i).2⟩
      | dict l =>
        intro e he i hi
        obtain ⟨e', he', rfl⟩ := List.mem_map.1 he
        exact ⟨atLeast_scale hk (hb e' he' i hi).1, atMost_scale hk (hb e' he' i hi).2⟩
      | seq l =>
        intro i e he
        rw [List.getElem?_map, Option.map_eq_some_iff] at he
        obtain ⟨e', he', rfl⟩ := he
        exact ⟨atLeast_scale hk (hb i e' he').1, atMost_scale hk (hb i e' he').2⟩
  · obtain ⟨e', he', rfl⟩ := List.mem_map.1 he
    obtain ⟨b, hb, rfl⟩ := scaleF_fin hv
    have := mul_le_mul_of_nonneg_left (h.relative e' he' b hb i j hi hj) hk.le
    linarith
  · obtain ⟨e', he', rfl⟩ := List.mem_map.1 he
    obtain ⟨b, hb, rfl⟩ := scaleF_fin hlo
    obtain ⟨d, hd, rfl⟩ := scaleF_fin hhi
    have hg : groupWeight e'.2.1 (fun i => k * x i) = k * groupWeight e'.2.1 x := by
      unfold groupWeight
      rw [Finset.mul_sum]
      exact Finset.sum_congr rfl fun i _ => by split_ifs <;> simp
    obtain ⟨h1, h2⟩ := h.groups e' he' b d hb hd
    rw [show groupWeight (e'.1, e'.2.1, scaleF k e'.2.2.1, scaleF k e'.2.2.2).2.1 (fun i => k * x i) = _ from hg]
    exact ⟨mul_le_mul_of_nonneg_left h1 hk.le, mul_le_mul_of_nonneg_left h2 hk.le⟩
  · obtain ⟨e', he', rfl⟩ := List.mem_map.1 he
    obtain ⟨b, hb, rfl⟩ := scaleF_fin hr
    rw [hrow]
    exact mul_le_mul_of_nonneg_left (h.ineq e' he' b hb) hk.le
  · obtain ⟨e', he', rfl⟩ := List.mem_map.1 he
    obtain ⟨b, hb, rfl⟩ := scaleF_fin hr
    rw [hrow, h.eq e' he' b hb]

theorem satisfies_unscaled {k : ℝ} (hk : 0 < k) {c : PyV.Con.Spec ℝ} {x : Fin N → ℝ} (h : Satisfies (scaledSpec k c) x) :
    Satisfies c fun i => k⁻¹ * x i := by
  have := satisfies_scaled (inv_pos.2 hk) h
  rwa [scaledSpec_inv hk.ne'] at this

private theorem ret_scale (m : Fin N → ℝ) (k : ℝ) (x : Fin N → ℝ) : ret m (fun i => k * x i) = k * ret m x := by
  unfold ret
  rw [Finset.mul_sum]
  exact Finset.sum_congr rfl fun i _ => by ring

private theorem quad_scale (C : Fin N → Fin N → ℝ) (k : ℝ) (x : Fin N → ℝ) : quad C (fun i => k * x i) = k ^ 2 * quad C x := by
  unfold quad
  simp only [Finset.mul_sum]
  exact Finset.sum_congr rfl fun i _ => Finset.sum_congr rfl fun j _ => by ring

private theorem varianceCost_scale (C : Fin N → Fin N → ℝ) (w0 imp : Option (Fin N → ℝ)) (k : ℝ) (x : Fin N → ℝ) :
    varianceCost C (w0.map fun v i => k * v i) imp (fun i => k * x i) = k ^ 2 * varianceCost C w0 imp x := by
  unfold varianceCost
  rw [quad_scale, mul_add, Finset.mul_sum]
  congr 1
  refine Finset.sum_congr rfl fun i _ => ?_
  cases w0 <;> simp <;> ring

private theorem unscale (k : ℝ) (hk : k ≠ 0) (x : Fin N → ℝ) : (fun i => k * (k⁻¹ * x i)) = x := by
  funext i
  rw [mul_inv_cancel_left₀ hk]

/-- **C291** `min_variance_at_return` on two portfolios that differ only in size: the second has `k > 0` times the target, the total weight,
every bound, limit and right-hand side, and the current holdings; the costs are the same.  With a positive definite covariance the second
result is the first with weights, return and volatility multiplied by `k`, and the second raises exactly when the first does. -/
theorem C291_min_variance {solver : Opt.Solver} (hsnd : Sound solver) (hcmp : Complete solver)
    (w : Wrapper N) (mu : Fin N → ℝ) (cov : Matrix (Fin N) (Fin N) ℝ) (hmu : w.mu = some mu) (hcov : w.cov = some cov)
    (hlog : w.isLog = false) (hpsd : IsCov (fun i j => cov i j)) (hpd : ∀ x : Fin N → ℝ, x ≠ 0 → 0 < quad (fun i j => cov i j) x)
    {k : ℝ} (hk : 0 < k) (con con' : Option (PyV.Con.Spec ℝ)) (c : PyV.Con.Spec ℝ) (hin : InForce w con c)
    (hin' : InForce w con' (scaledSpec k c)) (costs costs' : Option Costs) (w0 imp prop : Option (Fin N → ℝ))
    (htr : Trading w costs w0 imp prop) (htr' : Trading w costs' (w0.map fun v i => k * v i) imp prop)
    (himp : ∀ l, imp = some l → ∀ i, 0 ≤ l i) (target : ℝ) :
    (∃ r r', w.minVarianceAtReturn solver target con costs = .ok r ∧ w.minVarianceAtReturn solver (k * target) con' costs' = .ok r' ∧
      (∀ i, r'.w i = k * r.w i) ∧ r'.ret = k * r.ret ∧ r'.risk = k * r.risk) ∨
    (w.minVarianceAtReturn solver target con costs = .error .infeasible ∧
      w.minVarianceAtReturn solver (k * target) con' costs' = .error .infeasible) := by
  obtain ⟨a1, a2⟩ := C260_unlimited hsnd hcmp w mu cov hmu hcov hlog hpsd hpd con c hin costs w0 imp prop htr himp target
  obtain ⟨b1, b2⟩ := C260_unlimited hsnd hcmp w mu cov hmu hcov hlog hpsd hpd con' _ hin' costs' _ imp prop htr' himp (k * target)
  by_cases hex : ∃ x : Fin N → ℝ, Satisfies c x ∧ target ≤ ret mu x
  · left
    obtain ⟨x, hx, hxt⟩ := hex
    obtain ⟨r, h1, h2, h3, h4, h5, h6⟩ := a1 ⟨x, hx, hxt⟩
    obtain ⟨r', g1, g2, g3, g4, g5, g6⟩ := b1 ⟨_, satisfies_scaled hk hx, by rw [ret_scale]; exact mul_le_mul_of_nonneg_left hxt hk.le⟩
    have hw : r'.w = fun i => k * r.w i := by
      by_contra hne
      have e1 := g6 (fun i => k * r.w i) (satisfies_scaled hk h2)
        (by rw [ret_scale, ← h4]; exact mul_le_mul_of_nonneg_left h3 hk.le) (Ne.symm hne)
      have hu := unscale k hk.ne' r'.w
      have hret : target ≤ ret mu fun i => k⁻¹ * r'.w i := by
        rw [ret_scale, ← g4]
        have := mul_le_mul_of_nonneg_left g3 (inv_pos.2 hk).le
        rwa [inv_mul_cancel_left₀ hk.ne'] at this
      have e2 := h6 (fun i => k⁻¹ * r'.w i) (satisfies_unscaled hk g2) hret fun he => hne (by rw [← hu, ← he])
      have e3 := varianceCost_scale (fun i j => cov i j) w0 imp k fun i => k⁻¹ * r'.w i
      rw [hu] at e3
      rw [e3, varianceCost_scale] at e1
      exact absurd (lt_of_mul_lt_mul_left e1 (sq_nonneg k)) (not_lt.2 e2.le)
    refine ⟨r, r', h1, g1, fun i => by rw [hw], ?_, ?_⟩
    · rw [g4, hw, ret_scale, ← h4]
    · rw [g5, h5, hw, quad_scale, Real.sqrt_mul (sq_nonneg k), Real.sqrt_sq hk.le]
  · right
    push Not at hex
    refine ⟨a2 hex, b2 fun x hx => ?_⟩
    have := hex _ (satisfies_unscaled hk hx)
    rw [ret_scale] at this
    have := mul_lt_mul_of_pos_left this hk
    rwa [mul_inv_cancel_left₀ hk.ne'] at this

/-! ## CVaR -/

private theorem cvar_scale_pos {T : ℕ} {p x : Fin T → ℝ} {conf v : ℝ} {k : ℝ} (hk : 0 < k) (h : IsCvar p x conf v) :
    IsCvar p (fun t => k * x t) conf (k * v) := by
  have key : ∀ c, ru p (fun t => k * x t) conf (k * c) = k * ru p x conf c := by
    intro c
    have := ru_affine (p := p) (x := x) (conf := conf) (c := c) (s := k) (b := 0) hk.le
    simpa using this
  obtain ⟨⟨c, hc⟩, hmin⟩ := h
  refine ⟨⟨k * c, by rw [key, hc]⟩, ?_⟩
  rintro _ ⟨d, rfl⟩
  have e : d = k * (k⁻¹ * d) := by rw [mul_inv_cancel_left₀ hk.ne']
  show k * v ≤ ru p (fun t => k * x t) conf d
  rw [e, key]
  exact mul_le_mul_of_nonneg_left (hmin ⟨_, rfl⟩) hk.le

private theorem pnl_scale (s : Scen N) (k : ℝ) (x : Fin N → ℝ) : pnl s (fun i => k * x i) = fun t => k * pnl s x t := by
  funext t
  show ∑ i, _ = k * ∑ i, _
  rw [Finset.mul_sum]
  exact Finset.sum_congr rfl fun i _ => by ring

private theorem turnoverCost_scale {k : ℝ} (hk : 0 < k) (v : ℝ) (w0 prop : Option (Fin N → ℝ)) (x : Fin N → ℝ) :
    turnoverCost (fun _ => k * v) (w0.map fun v i => k * v i) prop (fun i => k * x i) = k * turnoverCost (fun _ => v) w0 prop x := by
  unfold turnoverCost
  rw [mul_add, Finset.mul_sum]
  congr 1
  refine Finset.sum_congr rfl fun i _ => ?_
  cases w0 with
  | none => simp
  | some u =>
    simp only [Option.map_some, Option.getD_some]
    rw [← mul_sub, abs_mul, abs_of_pos hk]
    ring

/-- **C291** The same for `min_cvar_at_return`, whose optimum need not be unique: the optimum CVaR plus trading cost of the portfolio `k` times
the size is `k` times the optimum of the first, and multiplying the first result by `k` gives one of the optimal portfolios. -/
theorem C291_min_cvar {solver : Opt.Solver} (hsnd : Sound solver) (hcmp : Complete solver) (argsort : Argsort)
    (hs : ∀ T, IsArgsort (argsort T)) (sim : Sim) (w : Wrapper N) (s : Scen N) (hscen : w.scen = some s) (hp : IsProb s.p)
    (hlog : w.isLog = false) {k : ℝ} (hk : 0 < k) (con con' : Option (PyV.Con.Spec ℝ)) (c : PyV.Con.Spec ℝ)
    (hin : InForce w con c) (hin' : InForce w con' (scaledSpec k c)) (hb : ∃ M, ∀ x : Fin N → ℝ, Satisfies c x → ∀ i, |x i| ≤ M)
    (costs costs' : Option Costs) (w0 imp prop : Option (Fin N → ℝ)) (htr : Trading w costs w0 imp prop)
    (htr' : Trading w costs' (w0.map fun v i => k * v i) imp prop) (hprop : ∀ l, prop = some l → ∀ i, 0 ≤ l i)
    (target alpha : ℝ) (h0 : 0 < alpha) (h1 : alpha < 1) (seed : Option ℤ) :
    (∃ r r' v v', w.minCvarAtReturn solver argsort sim target alpha seed con costs = .ok r ∧
      w.minCvarAtReturn solver argsort sim (k * target) alpha seed con' costs' = .ok r' ∧
      IsCvar s.p (pnl s r.w) (1 - alpha) v ∧ r.risk = |v| ∧ IsCvar s.p (pnl s r'.w) (1 - alpha) v' ∧ r'.risk = |v'| ∧
      turnoverCost (fun _ => v') (w0.map fun v i => k * v i) prop r'.w = k * turnoverCost (fun _ => v) w0 prop r.w ∧
      Satisfies (scaledSpec k c) (fun i => k * r.w i) ∧ k * target ≤ ret (scenMean s) (fun i => k * r.w i) ∧
      IsCvar s.p (pnl s fun i => k * r.w i) (1 - alpha) (k * v)) ∨
    (w.minCvarAtReturn solver argsort sim target alpha seed con costs = .error .infeasible ∧
      w.minCvarAtReturn solver argsort sim (k * target) alpha seed con' costs' = .error .infeasible) := by
  have hb' : ∃ M, ∀ x : Fin N → ℝ, Satisfies (scaledSpec k c) x → ∀ i, |x i| ≤ M := by
    obtain ⟨M, hM⟩ := hb
    refine ⟨k * M, fun x hx i => ?_⟩
    have := hM _ (satisfies_unscaled hk hx) i
    rw [abs_mul, abs_of_pos (inv_pos.2 hk)] at this
    have := mul_le_mul_of_nonneg_left this hk.le
    rwa [mul_inv_cancel_left₀ hk.ne'] at this
  obtain ⟨a1, a2⟩ := C109_min_cvar_at_return_partial hsnd hcmp argsort hs sim w s hscen hp hlog con c hin hb costs w0 imp prop htr hprop
    target alpha h0 h1 seed
  obtain ⟨b1, b2⟩ := C109_min_cvar_at_return_partial hsnd hcmp argsort hs sim w s hscen hp hlog con' _ hin' hb' costs' _ imp prop htr' hprop
    (k * target) alpha h0 h1 seed
  by_cases hex : ∃ x : Fin N → ℝ, Satisfies c x ∧ target ≤ ret (scenMean s) x
  · left
    obtain ⟨x, hx, hxt⟩ := hex
    obtain ⟨r, e1, e2, e3, -, -, v, e4, e5, e6⟩ := a1 ⟨x, hx, hxt⟩
    obtain ⟨r', g1, g2, g3, -, -, v', g4, g5, g6⟩ := b1 ⟨_, satisfies_scaled hk hx, by
      rw [ret_scale]; exact mul_le_mul_of_nonneg_left hxt hk.le⟩
    have hsc : IsCvar s.p (pnl s fun i => k * r.w i) (1 - alpha) (k * v) := by
      rw [pnl_scale]; exact cvar_scale_pos hk e4
    have hup : k * target ≤ ret (scenMean s) fun i => k * r.w i := by
      rw [ret_scale]; exact mul_le_mul_of_nonneg_left e3 hk.le
    refine ⟨r, r', v, v', e1, g1, e4, e5, g4, g5, le_antisymm ?_ ?_, satisfies_scaled hk e2, hup, hsc⟩
    · have := g6 _ _ (satisfies_scaled hk e2) hup hsc
      rwa [turnoverCost_scale hk] at this
    · have hret : target ≤ ret (scenMean s) fun i => k⁻¹ * r'.w i := by
        rw [ret_scale]
        have := mul_le_mul_of_nonneg_left g3 (inv_pos.2 hk).le
        rwa [inv_mul_cancel_left₀ hk.ne'] at this
      have hc : IsCvar s.p (pnl s fun i => k⁻¹ * r'.w i) (1 - alpha) (k⁻¹ * v') := by
        rw [pnl_scale]; exact cvar_scale_pos (inv_pos.2 hk) g4
      have := mul_le_mul_of_nonneg_left (e6 _ _ (satisfies_unscaled hk g2) hret hc) hk.le
      rw [← turnoverCost_scale hk (k⁻¹ * v'), mul_inv_cancel_left₀ hk.ne', unscale k hk.ne'] at this
      exact this
  · right
    push Not at hex
    refine ⟨a2 hex, b2 fun x hx => ?_⟩
    have := hex _ (satisfies_unscaled hk hx)
    rw [ret_scale] at this
    have := mul_lt_mul_of_pos_left this hk
    rwa [mul_inv_cancel_left₀ hk.ne'] at this

/-- **C291** without trading costs: the reported risk (the CVaR in absolute value) is multiplied by `k`. -/
theorem C291_min_cvar_risk {solver : Opt.Solver} (hsnd : Sound solver) (hcmp : Complete solver) (argsort : Argsort)
    (hs : ∀ T, IsArgsort (argsort T)) (sim : Sim) (w : Wrapper N) (s : Scen N) (hscen : w.scen = some s) (hp : IsProb s.p)
    (hlog : w.isLog = false) {k : ℝ} (hk : 0 < k) (con con' : Option (PyV.Con.Spec ℝ)) (c : PyV.Con.Spec ℝ)
    (hin : InForce w con c) (hin' : InForce w con' (scaledSpec k c)) (hb : ∃ M, ∀ x : Fin N → ℝ, Satisfies c x → ∀ i, |x i| ≤ M)
    (htr : Trading w none none none none) (target alpha : ℝ) (h0 : 0 < alpha) (h1 : alpha < 1) (seed : Option ℤ)
    {r r' : Opt.Result N} (hr : w.minCvarAtReturn solver argsort sim target alpha seed con none = .ok r)
    (hr' : w.minCvarAtReturn solver argsort sim (k * target) alpha seed con' none = .ok r') : r'.risk = k * r.risk := by
  rcases C291_min_cvar hsnd hcmp argsort hs sim w s hscen hp hlog hk con con' c hin hin' hb none none none none none htr htr (by simp)
    target alpha h0 h1 seed with ⟨a, a', v, v', e1, e2, -, e3, -, e4, e5, -⟩ | ⟨e, -⟩
  · rw [hr] at e1
    rw [hr'] at e2
    injection e1 with e1
    injection e2 with e2
    subst e1 e2
    simp only [turnoverCost, Option.map_none, Option.getD_none, sub_self, abs_zero, mul_zero, Finset.sum_const_zero, add_zero] at e5
    rw [e4, e3, e5, abs_mul, abs_of_pos hk]
  · rw [hr] at e; cases e

/-- The whole set of admissible portfolios scales: `x` satisfies the constraints exactly when `k x` satisfies the scaled ones. -/
theorem C291_admissible {k : ℝ} (hk : 0 < k) (c : PyV.Con.Spec ℝ) (x : Fin N → ℝ) :
    Satisfies c x ↔ Satisfies (scaledSpec k c) fun i => k * x i := by
  refine ⟨satisfies_scaled hk, fun h => ?_⟩
  have := satisfies_unscaled hk h
  simpa only [inv_mul_cancel_left₀ hk.ne'] using this

/-- Three uncorrelated assets, a dollar-neutral book (weights adding to zero, unlimited otherwise) with target return 1: asking for three
times the return gives three times the positions and three times the volatility. -/
example : ∃ (w : Wrapper 3) (solver : Opt.Solver) (c : PyV.Con.Spec ℝ) (r r' : Opt.Result 3), Sound solver ∧ Complete solver ∧
    (∀ x : Fin 3 → ℝ, Satisfies c x ↔ x 0 + x 1 + x 2 = 0) ∧ w.minVarianceAtReturn solver 1 (some c) none = .ok r ∧
      w.minVarianceAtReturn solver 3 (some c) none = .ok r' ∧ (∀ i, r'.w i = 3 * r.w i) ∧ r'.risk = 3 * r.risk ∧ 1 ≤ r.ret := by
  obtain ⟨solver, h1, h2⟩ := exists_solver
  obtain ⟨w, hmu, hcov, -, hlog, -, -, htr⟩ := exists_wrapper (N := 3) (by norm_num) (some ![0, 1, 3]) (some 1) none false
  set c : PyV.Con.Spec ℝ := ⟨false, some (.fin 0), none, [], [], [], []⟩ with hc
  have hin : InForce w (some c) c := Or.inl ⟨rfl, ⟨by norm_num, by simp [hc, FinOpt, Fin'], by simp [hc, BoundsOK], by simp [hc], by simp [hc],
    by simp [hc], by simp [hc]⟩⟩
  have hsc : scaledSpec 3 c = c := by simp [hc, scaledSpec, scaleF]
  have hq : ∀ x : Fin 3 → ℝ, quad (fun i j => (1 : Matrix (Fin 3) (Fin 3) ℝ) i j) x = ∑ i, x i ^ 2 := by
    intro x
    simp [quad, Matrix.one_apply, sq]
  have hpsd : IsCov (fun i j => (1 : Matrix (Fin 3) (Fin 3) ℝ) i j) := by
    refine ⟨fun i j => by simp [Matrix.one_apply, eq_comm], fun x => ?_⟩
    show 0 ≤ quad _ x
    rw [hq]
    exact Finset.sum_nonneg fun i _ => sq_nonneg _
  have hpd : ∀ x : Fin 3 → ℝ, x ≠ 0 → 0 < quad (fun i j => (1 : Matrix (Fin 3) (Fin 3) ℝ) i j) x := by
    intro x hx
    rw [hq]
    obtain ⟨i, hi⟩ := Function.ne_iff.1 hx
    exact Finset.sum_pos' (fun i _ => sq_nonneg _) ⟨i, Finset.mem_univ _, by have : x i ≠ 0 := hi; positivity⟩
  have hsat : ∀ x : Fin 3 → ℝ, Satisfies c x ↔ x 0 + x 1 + x 2 = 0 := by
    intro x
    constructor
    · intro h
      have := h.total 0 rfl
      rwa [Fin.sum_univ_three] at this
    · intro hx
      refine ⟨by simp [hc], fun t ht => ?_, by simp [hc, InBounds], by simp [hc], by simp [hc], by simp [hc], by simp [hc]⟩
      simp only [hc, Option.some.injEq, PyFloat.fin.injEq] at ht
      rw [Fin.sum_univ_three, hx, ht]
  have e3 : (3 : ℝ) * 1 = 3 := by norm_num
  rcases C291_min_variance h1 h2 w _ _ hmu hcov hlog hpsd hpd (k := 3) (by norm_num) (some c) (some c) c hin (hsc.symm ▸ hin) none none
    none none none htr htr (by simp) 1 with ⟨r, r', a1, a2, a3, -, a5⟩ | ⟨a1, -⟩
  · rw [e3] at a2
    obtain ⟨r2, b1, -, b2, -⟩ := (C260_unlimited h1 h2 w _ _ hmu hcov hlog hpsd hpd (some c) c hin none none none none htr (by simp) 1).1
      ⟨![-1, 0, 1], (hsat _).2 (by simp), by simp [ret, Fin.sum_univ_three]⟩
    rw [a1] at b1
    injection b1 with b1
    subst b1
    exact ⟨w, solver, c, r, r', h1, h2, hsat, a1, a2, a3, a5, b2⟩
  · obtain ⟨r, b1, -⟩ := (C260_unlimited h1 h2 w _ _ hmu hcov hlog hpsd hpd (some c) c hin none none none none htr (by simp) 1).1
      ⟨![-1, 0, 1], (hsat _).2 (by simp), by simp [ret, Fin.sum_univ_three]⟩
    rw [a1] at b1
    cases b1

end PyV.Props
