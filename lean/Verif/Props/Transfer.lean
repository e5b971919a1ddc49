import Verif.Props.FrontierSpacing
import Verif.Props.FrontierRelax
import Mathlib.Tactic

/-! # Properties C213, C215, C216 and C217: what the answers of an optimiser may depend on -/

namespace PyV.Props

open PyV PyV.Api PyV.Spec.Api PyV.Opt PyV.Spec.Opt PyV.Spec.Con PyV.Risk PyV.Spec

variable {N M : ℕ}

private theorem cost_none (C : Fin N → Fin N → ℝ) (x : Fin N → ℝ) : varianceCost C none none x = quad C x := by simp [varianceCost]

/-- Two minimum-variance problems whose portfolios correspond, returns being `k` times and variances `k²` times as large. -/
theorem transfer_variance {s1 s2 : Opt.Solver} (hs1 : Sound s1) (hc1 : Complete s1) (hs2 : Sound s2) (hc2 : Complete s2)
    (w : Wrapper N) (w' : Wrapper M) (mu : Fin N → ℝ) (cov : Matrix (Fin N) (Fin N) ℝ) (mu' : Fin M → ℝ) (cov' : Matrix (Fin M) (Fin M) ℝ)
    (hmu : w.mu = some mu) (hcov : w.cov = some cov) (hlog : w.isLog = false)
    (hmu' : w'.mu = some mu') (hcov' : w'.cov = some cov') (hlog' : w'.isLog = false)
    (hpsd : IsCov (fun i j => cov i j)) (hpsd' : IsCov (fun i j => cov' i j))
    (con con' : Option (PyV.Con.Spec ℝ)) (c c' : PyV.Con.Spec ℝ) (hin : InForce w con c) (hin' : InForce w' con' c')
    (hb : ∃ B, ∀ x : Fin N → ℝ, Satisfies c x → ∀ i, |x i| ≤ B) (hb' : ∃ B, ∀ x : Fin M → ℝ, Satisfies c' x → ∀ i, |x i| ≤ B)
    (htr : Trading w none none none none) (htr' : Trading w' none none none none)
    {k : ℝ} (hk : 0 < k) (φ : (Fin N → ℝ) → Fin M → ℝ) (ψ : (Fin M → ℝ) → Fin N → ℝ)
    (hφ : ∀ x, Satisfies c x → Satisfies c' (φ x)) (hψ : ∀ y, Satisfies c' y → Satisfies c (ψ y))
    (rφ : ∀ x, ret mu' (φ x) = k * ret mu x) (rψ : ∀ y, Satisfies c' y → ret mu' y = k * ret mu (ψ y))
    (qφ : ∀ x, quad (fun i j => cov' i j) (φ x) = k ^ 2 * quad (fun i j => cov i j) x)
    (qψ : ∀ y, Satisfies c' y → quad (fun i j => cov' i j) y = k ^ 2 * quad (fun i j => cov i j) (ψ y)) (target : ℝ) :
    (∃ r r', w.minVarianceAtReturn s1 target con none = .ok r ∧ w'.minVarianceAtReturn s2 (k * target) con' none = .ok r' ∧
      r'.risk = k * r.risk ∧ ((∀ x : Fin N → ℝ, x ≠ 0 → 0 < quad (fun i j => cov i j) x) → ψ r'.w = r.w ∧ r'.ret = k * r.ret)) ∨
    (w.minVarianceAtReturn s1 target con none = .error .infeasible ∧ w'.minVarianceAtReturn s2 (k * target) con' none = .error .infeasible) := by
  have hk2 : 0 < k ^ 2 := by positivity
  obtain ⟨h1, h1'⟩ := C107_min_variance_at_return hs1 hc1 w mu cov hmu hcov hlog hpsd con c hin hb none none none none htr (by simp) target
  obtain ⟨h2, h2'⟩ := C107_min_variance_at_return hs2 hc2 w' mu' cov' hmu' hcov' hlog' hpsd' con' c' hin' hb' none none none none htr' (by simp) (k * target)
  simp only [cost_none] at h1 h2
  by_cases hex : ∃ x : Fin N → ℝ, Satisfies c x ∧ target ≤ ret mu x
  · left
    obtain ⟨x, hx1, hx2⟩ := hex
    obtain ⟨r, e, a1, a2, a3, a4, a5⟩ := h1 ⟨x, hx1, hx2⟩
    obtain ⟨r', e', b1, b2, b3, b4, b5⟩ := h2 ⟨φ x, hφ x hx1, by rw [rφ]; exact mul_le_mul_of_nonneg_left hx2 hk.le⟩
    have hψr : target ≤ ret mu (ψ r'.w) := by
      rw [b3, rψ _ b1] at b2
      exact le_of_mul_le_mul_left b2 hk
    have hle : ∀ x, Satisfies c x → target ≤ ret mu x → quad (fun i j => cov i j) (ψ r'.w) ≤ quad (fun i j => cov i j) x := by
      intro x hx ht
      have := b5 (φ x) (hφ x hx) (by rw [rφ]; exact mul_le_mul_of_nonneg_left ht hk.le)
      rw [qψ _ b1, qφ] at this
      exact le_of_mul_le_mul_left this hk2
    have heq : quad (fun i j => cov i j) (ψ r'.w) = quad (fun i j => cov i j) r.w :=
      le_antisymm (hle _ a1 (a3 ▸ a2)) (a5 _ (hψ _ b1) hψr)
    refine ⟨r, r', e, e', ?_, fun hpd => ?_⟩
    · rw [a4, b4, qψ _ b1, heq, Real.sqrt_mul hk2.le, Real.sqrt_sq hk.le]
    · obtain ⟨u, -, hall⟩ := user_spec hin
      have huq := unique_min hpd none none (by simp) u mu
      have hset : {x | Allowed u x} = {x : Fin N → ℝ | Satisfies c x} := Set.ext hall
      rw [hset] at huq
      have hw : ψ r'.w = r.w := by
        refine huq target _ (hψ _ b1) _ a1 hψr (a3 ▸ a2) ?_ ?_
        · simpa only [Set.mem_setOf_eq, cost_none] using hle
        · simpa only [Set.mem_setOf_eq, cost_none] using a5
      exact ⟨hw, by rw [b3, a3, rψ _ b1, hw]⟩
  · right
    push Not at hex
    exact ⟨h1' hex, h2' fun y hy => by rw [rψ y hy]; exact mul_lt_mul_of_pos_left (hex _ (hψ y hy)) hk⟩

/-- Losses `k` times as large have `k` times the CVaR. -/
theorem isCvar_times {T : ℕ} {p X : Fin T → ℝ} {conf v k : ℝ} (hk : 0 < k) (h : IsCvar p X conf v) : IsCvar p (fun t => k * X t) conf (k * v) := by
  have hru : ∀ a, ru p (fun t => k * X t) conf (k * a) = k * ru p X conf a := by
    intro a
    unfold ru expect
    have : ∑ t, p t * max (-(k * X t) - k * a) 0 = k * ∑ t, p t * max (-(X t) - a) 0 := by
      rw [Finset.mul_sum]
      refine Finset.sum_congr rfl fun t _ => ?_
      rw [mul_left_comm]
      congr 1
      rw [mul_max_of_nonneg _ _ hk.le, mul_zero]
      congr 1
      ring
    rw [this]
    ring
  obtain ⟨⟨a, ha⟩, hl⟩ := h
  refine ⟨⟨k * a, by beta_reduce at ha ⊢; rw [hru, ha]⟩, ?_⟩
  rintro _ ⟨b, rfl⟩
  have := hl ⟨b / k, rfl⟩
  beta_reduce at this ⊢
  have e : b = k * (b / k) := by field_simp
  rw [e, hru]
  exact mul_le_mul_of_nonneg_left this hk.le

/-- Two minimum-CVaR problems whose portfolios correspond, outcomes being `k` times as large. -/
theorem transfer_cvar {s1 s2 : Opt.Solver} (hs1 : Sound s1) (hc1 : Complete s1) (hs2 : Sound s2) (hc2 : Complete s2) (a1 a2 : Argsort)
    (ha1 : ∀ T, IsArgsort (a1 T)) (ha2 : ∀ T, IsArgsort (a2 T)) (sim : Sim) (w : Wrapper N) (w' : Wrapper M)
    {T : ℕ} (R : Fin T → Fin N → ℝ) (R' : Fin T → Fin M → ℝ) (p : Fin T → ℝ) (hp : IsProb p)
    (hsc : w.scen = some ⟨T, R, p⟩) (hsc' : w'.scen = some ⟨T, R', p⟩) (hlog : w.isLog = false) (hlog' : w'.isLog = false)
    (con con' : Option (PyV.Con.Spec ℝ)) (c c' : PyV.Con.Spec ℝ) (hin : InForce w con c) (hin' : InForce w' con' c')
    (hb : ∃ B, ∀ x : Fin N → ℝ, Satisfies c x → ∀ i, |x i| ≤ B) (hb' : ∃ B, ∀ x : Fin M → ℝ, Satisfies c' x → ∀ i, |x i| ≤ B)
    (htr : Trading w none none none none) (htr' : Trading w' none none none none)
    {k : ℝ} (hk : 0 < k) (φ : (Fin N → ℝ) → Fin M → ℝ) (ψ : (Fin M → ℝ) → Fin N → ℝ)
    (hφ : ∀ x, Satisfies c x → Satisfies c' (φ x)) (hψ : ∀ y, Satisfies c' y → Satisfies c (ψ y))
    (rφ : ∀ x t, ∑ i, R' t i * φ x i = k * ∑ i, R t i * x i) (rψ : ∀ y, Satisfies c' y → ∀ t, ∑ i, R' t i * y i = k * ∑ i, R t i * ψ y i)
    (target alpha : ℝ) (h0 : 0 < alpha) (h1 : alpha < 1) (seed seed' : Option ℤ) :
    (∃ r r', w.minCvarAtReturn s1 a1 sim target alpha seed con none = .ok r ∧
      w'.minCvarAtReturn s2 a2 sim (k * target) alpha seed' con' none = .ok r' ∧ r'.risk = k * r.risk) ∨
    (w.minCvarAtReturn s1 a1 sim target alpha seed con none = .error .infeasible ∧
      w'.minCvarAtReturn s2 a2 sim (k * target) alpha seed' con' none = .error .infeasible) := by
  obtain ⟨k1, k1'⟩ := C109_min_cvar_at_return_partial hs1 hc1 a1 ha1 sim w ⟨T, R, p⟩ hsc hp hlog con c hin hb none none none none htr (by simp)
    target alpha h0 h1 seed
  obtain ⟨k2, k2'⟩ := C109_min_cvar_at_return_partial hs2 hc2 a2 ha2 sim w' ⟨T, R', p⟩ hsc' hp hlog' con' c' hin' hb' none none none none htr' (by simp)
    (k * target) alpha h0 h1 seed'
  have hswap : ∀ {n : ℕ} (Q : Fin T → Fin n → ℝ) (x : Fin n → ℝ), ret (scenMean ⟨T, Q, p⟩) x = ∑ t, p t * ∑ i, Q t i * x i := by
    intro n Q x
    unfold ret scenMean
    simp only [Finset.mul_sum, Finset.sum_mul]
    rw [Finset.sum_comm]
    exact Finset.sum_congr rfl fun t _ => Finset.sum_congr rfl fun i _ => by ring
  have mφ : ∀ x, ret (scenMean ⟨T, R', p⟩) (φ x) = k * ret (scenMean ⟨T, R, p⟩) x := by
    intro x
    rw [hswap, hswap, Finset.mul_sum]
    exact Finset.sum_congr rfl fun t _ => by rw [rφ]; ring
  have mψ : ∀ y, Satisfies c' y → ret (scenMean ⟨T, R', p⟩) y = k * ret (scenMean ⟨T, R, p⟩) (ψ y) := by
    intro y hy
    rw [hswap, hswap, Finset.mul_sum]
    exact Finset.sum_congr rfl fun t _ => by rw [rψ y hy]; ring
  by_cases hex : ∃ x : Fin N → ℝ, Satisfies c x ∧ target ≤ ret (scenMean ⟨T, R, p⟩) x
  · left
    obtain ⟨x, hx1, hx2⟩ := hex
    obtain ⟨r, e, b1, b2, -, -, v, hv, hrv, hmin⟩ := k1 ⟨x, hx1, hx2⟩
    obtain ⟨r', e', d1, d2, -, -, v', hv', hrv', hmin'⟩ := k2 ⟨φ x, hφ x hx1, by rw [mφ]; exact mul_le_mul_of_nonneg_left hx2 hk.le⟩
    simp only [turnoverCost, Option.getD_none, Pi.zero_apply, zero_mul, Finset.sum_const_zero, add_zero] at hmin hmin'
    refine ⟨r, r', e, e', ?_⟩
    have hφv : IsCvar p (pnl ⟨T, R', p⟩ (φ r.w)) (1 - alpha) (k * v) := by
      have := isCvar_times hk hv
      have he : pnl ⟨T, R', p⟩ (φ r.w) = fun t => k * pnl ⟨T, R, p⟩ r.w t := funext fun t => rφ r.w t
      rw [he]; exact this
    have hψv : IsCvar p (pnl ⟨T, R, p⟩ (ψ r'.w)) (1 - alpha) (k⁻¹ * v') := by
      have := isCvar_times (inv_pos.2 hk) hv'
      have he : pnl ⟨T, R, p⟩ (ψ r'.w) = fun t => k⁻¹ * pnl ⟨T, R', p⟩ r'.w t := by
        funext t
        have h : pnl ⟨T, R', p⟩ r'.w t = k * pnl ⟨T, R, p⟩ (ψ r'.w) t := rψ r'.w d1 t
        rw [h]
        field_simp
      rw [he]; exact this
    have i1 : v' ≤ k * v := hmin' _ _ (hφ _ b1) (by rw [mφ]; exact mul_le_mul_of_nonneg_left b2 hk.le) hφv
    have i2 : v ≤ k⁻¹ * v' := hmin _ _ (hψ _ d1) (by rw [mψ _ d1] at d2; exact le_of_mul_le_mul_left d2 hk) hψv
    have i3 : k * v ≤ v' := by
      have := mul_le_mul_of_nonneg_left i2 hk.le
      rwa [← mul_assoc, mul_inv_cancel₀ hk.ne', one_mul] at this
    rw [hrv, hrv', le_antisymm i1 i3, abs_mul, abs_of_pos hk]
  · right
    push Not at hex
    exact ⟨k1' hex, k2' fun y hy => by rw [mψ y hy]; exact mul_lt_mul_of_pos_left (hex _ (hψ y hy)) hk⟩

/-- **C215** (one portfolio) Two ways of writing the same constraints give the same answer: the same volatility, or both refuse; with a positive definite
covariance the same portfolio. -/
theorem C215_min_variance {s1 s2 : Opt.Solver} (hs1 : Sound s1) (hc1 : Complete s1) (hs2 : Sound s2) (hc2 : Complete s2)
    (w w' : Wrapper N) (mu : Fin N → ℝ) (cov : Matrix (Fin N) (Fin N) ℝ)
    (hmu : w.mu = some mu) (hcov : w.cov = some cov) (hlog : w.isLog = false)
    (hmu' : w'.mu = some mu) (hcov' : w'.cov = some cov) (hlog' : w'.isLog = false) (hpsd : IsCov (fun i j => cov i j))
    (con con' : Option (PyV.Con.Spec ℝ)) (c c' : PyV.Con.Spec ℝ) (hin : InForce w con c) (hin' : InForce w' con' c')
    (hcc : ∀ x : Fin N → ℝ, Satisfies c' x ↔ Satisfies c x) (hb : ∃ B, ∀ x : Fin N → ℝ, Satisfies c x → ∀ i, |x i| ≤ B)
    (htr : Trading w none none none none) (htr' : Trading w' none none none none) (target : ℝ) :
    (∃ r r', w.minVarianceAtReturn s1 target con none = .ok r ∧ w'.minVarianceAtReturn s2 target con' none = .ok r' ∧ r'.risk = r.risk ∧
      ((∀ x : Fin N → ℝ, x ≠ 0 → 0 < quad (fun i j => cov i j) x) → r'.w = r.w ∧ r'.ret = r.ret)) ∨
    (w.minVarianceAtReturn s1 target con none = .error .infeasible ∧ w'.minVarianceAtReturn s2 target con' none = .error .infeasible) := by
  have hb' : ∃ B, ∀ x : Fin N → ℝ, Satisfies c' x → ∀ i, |x i| ≤ B := by
    obtain ⟨B, hB⟩ := hb; exact ⟨B, fun x hx => hB x ((hcc x).1 hx)⟩
  have h := transfer_variance hs1 hc1 hs2 hc2 w w' mu cov mu cov hmu hcov hlog hmu' hcov' hlog' hpsd hpsd con con' c c' hin hin' hb hb' htr htr'
    (k := 1) one_pos id id (fun x hx => (hcc x).2 hx) (fun x hx => (hcc x).1 hx) (by simp) (by simp) (by simp) (by simp) target
  simpa using h

/-- **C215** (CVaR) The same for `min_cvar_at_return` on scenarios. -/
theorem C215_min_cvar {s1 s2 : Opt.Solver} (hs1 : Sound s1) (hc1 : Complete s1) (hs2 : Sound s2) (hc2 : Complete s2) (a1 a2 : Argsort)
    (ha1 : ∀ T, IsArgsort (a1 T)) (ha2 : ∀ T, IsArgsort (a2 T)) (sim : Sim) (w w' : Wrapper N)
    {T : ℕ} (R : Fin T → Fin N → ℝ) (p : Fin T → ℝ) (hp : IsProb p)
    (hsc : w.scen = some ⟨T, R, p⟩) (hsc' : w'.scen = some ⟨T, R, p⟩) (hlog : w.isLog = false) (hlog' : w'.isLog = false)
    (con con' : Option (PyV.Con.Spec ℝ)) (c c' : PyV.Con.Spec ℝ) (hin : InForce w con c) (hin' : InForce w' con' c')
    (hcc : ∀ x : Fin N → ℝ, Satisfies c' x ↔ Satisfies c x) (hb : ∃ B, ∀ x : Fin N → ℝ, Satisfies c x → ∀ i, |x i| ≤ B)
    (htr : Trading w none none none none) (htr' : Trading w' none none none none)
    (target alpha : ℝ) (h0 : 0 < alpha) (h1 : alpha < 1) (seed seed' : Option ℤ) :
    (∃ r r', w.minCvarAtReturn s1 a1 sim target alpha seed con none = .ok r ∧
      w'.minCvarAtReturn s2 a2 sim target alpha seed' con' none = .ok r' ∧ r'.risk = r.risk) ∨
    (w.minCvarAtReturn s1 a1 sim target alpha seed con none = .error .infeasible ∧
      w'.minCvarAtReturn s2 a2 sim target alpha seed' con' none = .error .infeasible) := by
  have hb' : ∃ B, ∀ x : Fin N → ℝ, Satisfies c' x → ∀ i, |x i| ≤ B := by
    obtain ⟨B, hB⟩ := hb; exact ⟨B, fun x hx => hB x ((hcc x).1 hx)⟩
  have h := transfer_cvar hs1 hc1 hs2 hc2 a1 a2 ha1 ha2 sim w w' R R p hp hsc hsc' hlog hlog' con con' c c' hin hin' hb hb' htr htr'
    (k := 1) one_pos id id (fun x hx => (hcc x).2 hx) (fun x hx => (hcc x).1 hx) (by simp) (by simp) target alpha h0 h1 seed seed'
  simpa using h

/-- **C215** (frontier) Two ways of writing the same constraints give the same variance frontier, when the covariance is positive definite. -/
theorem C215_frontier_partial {s1 s2 : Opt.Solver} (hs1 : Sound s1) (hc1 : Complete s1) (hs2 : Sound s2) (hc2 : Complete s2) (a1 a2 : Argsort)
    (w w' : Wrapper N) (mu : Fin N → ℝ) (cov : Matrix (Fin N) (Fin N) ℝ)
    (hmu : w.mu = some mu) (hcov : w.cov = some cov) (hlog : w.isLog = false)
    (hmu' : w'.mu = some mu) (hcov' : w'.cov = some cov) (hlog' : w'.isLog = false)
    (hpsd : IsCov (fun i j => cov i j)) (hpd : ∀ x : Fin N → ℝ, x ≠ 0 → 0 < quad (fun i j => cov i j) x)
    (con con' : Option (PyV.Con.Spec ℝ)) (c c' : PyV.Con.Spec ℝ) (hin : InForce w con c) (hin' : InForce w' con' c')
    (hcc : ∀ x : Fin N → ℝ, Satisfies c' x ↔ Satisfies c x)
    (hb : ∃ M, ∀ x : Fin N → ℝ, Satisfies c x → ∀ i, |x i| ≤ M) (hne : ∃ x : Fin N → ℝ, Satisfies c x) (hlim : Limited N c) (hlim' : Limited N c')
    (costs costs' : Option Costs) (w0 imp prop prop' : Option (Fin N → ℝ)) (htr : Trading w costs w0 imp prop) (htr' : Trading w' costs' w0 imp prop')
    (himp : ∀ l, imp = some l → ∀ i, 0 ≤ l i) (num : ℕ) :
    ∃ F F', w.varianceFrontier s1 a1 num con costs = .ok F ∧ w'.varianceFrontier s2 a2 num con' costs' = .ok F' ∧ listing F' = listing F := by
  have h := C169_asset_order hs1 hc1 hs2 hc2 a1 a2 (Equiv.refl _) w w' mu cov hmu hcov hlog hmu' hcov' hlog' hpsd hpd con con' c c' hin hin'
    (fun x => hcc x) hb hne hlim hlim' costs costs' w0 imp prop prop' htr (by simpa using htr') himp num
  simpa using h

/-- **C215** (negation of the unrestricted claim for the frontier) One asset, fully invested, with a positive variance.  "Total weight one" and "total
weight one, no short positions" allow the same portfolio; the second has a variance frontier with every sound and complete solver, the first with none. -/
theorem C215_counterexample : ∃ (w : Wrapper 1) (c c' : PyV.Con.Spec ℝ), InForce w (some c) c ∧ InForce w (some c') c' ∧ w.isLog = false ∧
    w.mu = some (fun _ => 1 / 10) ∧ w.cov = some 1 ∧ (∀ x : Fin 1 → ℝ, Satisfies c' x ↔ Satisfies c x) ∧
    ∀ (solver : Opt.Solver), Sound solver → Complete solver → ∀ (argsort : Argsort) (num : ℕ),
      (∃ F, w.varianceFrontier solver argsort num (some c') none = .ok F) ∧ ∀ F, w.varianceFrontier solver argsort num (some c) none ≠ .ok F := by
  obtain ⟨w, hmu, hcov, -, hlog, -, -, htr⟩ := exists_wrapper (N := 1) (by norm_num) (some fun _ => 1 / 10) (some 1) none false
  have hv : Valid 1 (⟨false, some (.fin 1), none, [], [], [], []⟩ : PyV.Con.Spec ℝ) :=
    ⟨by norm_num, fun y hy => by injection hy with hy; exact ⟨1, hy.symm⟩, trivial, by simp, by simp, by simp, by simp⟩
  have hv' : Valid 1 (PyV.Con.defaultSpec : PyV.Con.Spec ℝ) :=
    ⟨by norm_num, fun y hy => by injection hy with hy; exact ⟨1, hy.symm⟩, trivial, by simp [PyV.Con.defaultSpec], by simp [PyV.Con.defaultSpec],
      by simp [PyV.Con.defaultSpec], by simp [PyV.Con.defaultSpec]⟩
  refine ⟨w, ⟨false, some (.fin 1), none, [], [], [], []⟩, PyV.Con.defaultSpec, Or.inl ⟨rfl, hv⟩, Or.inl ⟨rfl, hv'⟩, hlog, hmu, hcov, fun x => ?_,
    fun solver hs hc sort num => ⟨?_, C105_counterexample solver sort w _ _ (Or.inl ⟨rfl, hv⟩) rfl rfl rfl rfl rfl none num⟩⟩
  · rw [satisfies_default]
    constructor
    · rintro ⟨-, h⟩
      exact ⟨by simp, fun t ht => by simp at ht; rw [← ht]; exact h, trivial, by simp, by simp, by simp, by simp⟩
    · intro h
      have := h.total 1 rfl
      refine ⟨fun i => ?_, this⟩
      have h1 : x 0 = 1 := by simpa using this
      fin_cases i
      show 0 ≤ x 0
      rw [h1]; norm_num
  · obtain ⟨cols, f, h, -⟩ := C105_variance_frontier_partial hs hc sort w _ _ hmu hcov hlog ⟨fun i j => by
        rw [Subsingleton.elim i j], fun x => by
        simp only [Fin.sum_univ_one, Matrix.one_apply_eq]
        nlinarith [sq_nonneg (x 0)]⟩ (some PyV.Con.defaultSpec) _ (Or.inl ⟨rfl, hv'⟩) default_bounded
      ⟨fun _ => 1, (satisfies_default _).2 ⟨fun _ => by norm_num, by simp⟩⟩ (limited_default (by norm_num)) none none none none htr (by simp) num
    exact ⟨_, h⟩

/-- `k` times an amount; infinities and nan stay as they are. -/
def amount (k : ℝ) : PyFloat ℝ → PyFloat ℝ
  | .fin v => .fin (k * v)
  | x => x

/-- The constraints of `c` for a budget `k` times as large: every amount in them is multiplied by `k`. -/
def budget (k : ℝ) (c : PyV.Con.Spec ℝ) : PyV.Con.Spec ℝ :=
  { longOnly := c.longOnly
    totalWeight := c.totalWeight.map (amount k)
    bounds := c.bounds.map fun
      | .pair lo hi => .pair (lo.map (amount k)) (hi.map (amount k))
      | .dict l => .dict (l.map fun e => (e.1, e.2.1.map (amount k), e.2.2.map (amount k)))
      | .seq l => .seq (l.map fun e => (e.1.map (amount k), e.2.map (amount k)))
    relative := c.relative.map fun e => (e.1, e.2.1, amount k e.2.2)
    groups := c.groups.map fun e => (e.1, e.2.1, amount k e.2.2.1, amount k e.2.2.2)
    ineqRows := c.ineqRows.map fun e => (e.1, amount k e.2)
    eqRows := c.eqRows.map fun e => (e.1, amount k e.2) }

private theorem amount_fin {k : ℝ} {x : PyFloat ℝ} {r : ℝ} (h : amount k x = .fin r) : ∃ v, x = .fin v ∧ r = k * v := by
  cases x with
  | fin v => injection h with h; exact ⟨v, rfl, h.symm⟩
  | nan => cases h
  | posInf => cases h
  | negInf => cases h

private theorem amount_opt {k : ℝ} {x : Option (PyFloat ℝ)} {r : ℝ} (h : x.map (amount k) = some (.fin r)) : ∃ v, x = some (.fin v) ∧ r = k * v := by
  cases x with
  | none => cases h
  | some x =>
    obtain ⟨v, rfl, e⟩ := amount_fin (Option.some.inj h)
    exact ⟨v, rfl, e⟩

private theorem atLeast_amount {k : ℝ} (hk : 0 < k) {lo : Option (PyFloat ℝ)} {x : ℝ} (h : AtLeast lo x) : AtLeast (lo.map (amount k)) (k * x) := by
  intro a ha
  obtain ⟨v, e, rfl⟩ := amount_opt ha
  exact mul_le_mul_of_nonneg_left (h v e) hk.le

private theorem atMost_amount {k : ℝ} (hk : 0 < k) {lo : Option (PyFloat ℝ)} {x : ℝ} (h : AtMost lo x) : AtMost (lo.map (amount k)) (k * x) := by
  intro a ha
  obtain ⟨v, e, rfl⟩ := amount_opt ha
  exact mul_le_mul_of_nonneg_left (h v e) hk.le

private theorem sum_times (k : ℝ) (r x : Fin N → ℝ) : ∑ i, r i * (k * x i) = k * ∑ i, r i * x i := by
  rw [Finset.mul_sum]; exact Finset.sum_congr rfl fun i _ => by ring

theorem satisfies_budget_of {k : ℝ} (hk : 0 < k) {c : PyV.Con.Spec ℝ} {x : Fin N → ℝ} (h : Satisfies c x) :
    Satisfies (budget k c) (fun i => k * x i) := by
  constructor
  · intro hl i
    exact mul_nonneg hk.le (h.long hl i)
  · intro t ht
    obtain ⟨v, e, rfl⟩ := amount_opt ht
    rw [← Finset.mul_sum, h.total v e]
  · have hb := h.bounds
    unfold budget
    dsimp only
    cases hc : c.bounds with
    | none => exact trivial
    | some b =>
      rw [hc] at hb
      cases b with
      | pair lo hi => exact fun i => ⟨atLeast_amount hk (hb i).1, atMost_amount hk (hb i).2⟩
      | dict l =>
        intro e he i hi
        obtain ⟨e', he', rfl⟩ := List.mem_map.1 he
        exact ⟨atLeast_amount hk (hb e' he' i hi).1, atMost_amount hk (hb e' he' i hi).2⟩
      | seq l =>
        intro i e he
        rw [List.getElem?_map, Option.map_eq_some_iff] at he
        obtain ⟨e', he', rfl⟩ := he
        exact ⟨atLeast_amount hk (hb i e' he').1, atMost_amount hk (hb i e' he').2⟩
  · intro e he r hr i j hi hj
    obtain ⟨e', he', rfl⟩ := List.mem_map.1 he
    obtain ⟨v, ev, rfl⟩ := amount_fin hr
    rw [← mul_sub]
    exact mul_le_mul_of_nonneg_left (h.relative e' he' v ev i j hi hj) hk.le
  · intro e he lo hi hlo hhi
    obtain ⟨e', he', rfl⟩ := List.mem_map.1 he
    obtain ⟨a, ea, rfl⟩ := amount_fin hlo
    obtain ⟨b, eb, rfl⟩ := amount_fin hhi
    have hg : groupWeight e'.2.1 (fun i => k * x i) = k * groupWeight e'.2.1 x := by
      unfold groupWeight
      rw [Finset.mul_sum]
      exact Finset.sum_congr rfl fun i _ => by split <;> simp
    obtain ⟨g1, g2⟩ := h.groups e' he' a b ea eb
    show k * a ≤ groupWeight e'.2.1 (fun i => k * x i) ∧ groupWeight e'.2.1 (fun i => k * x i) ≤ k * b
    rw [hg]
    exact ⟨mul_le_mul_of_nonneg_left g1 hk.le, mul_le_mul_of_nonneg_left g2 hk.le⟩
  · intro e he r hr
    obtain ⟨e', he', rfl⟩ := List.mem_map.1 he
    obtain ⟨v, ev, rfl⟩ := amount_fin hr
    rw [sum_times]
    exact mul_le_mul_of_nonneg_left (h.ineq e' he' v ev) hk.le
  · intro e he r hr
    obtain ⟨e', he', rfl⟩ := List.mem_map.1 he
    obtain ⟨v, ev, rfl⟩ := amount_fin hr
    rw [sum_times, h.eq e' he' v ev]

private theorem amount_amount {k : ℝ} (hk : 0 < k) (x : PyFloat ℝ) : amount k⁻¹ (amount k x) = x := by
  cases x with
  | fin v => exact congrArg PyFloat.fin (by field_simp)
  | nan => rfl
  | posInf => rfl
  | negInf => rfl

private theorem amount_comp {k : ℝ} (hk : 0 < k) : amount k⁻¹ ∘ amount k = id := funext (amount_amount hk)

theorem budget_budget {k : ℝ} (hk : 0 < k) (c : PyV.Con.Spec ℝ) : budget k⁻¹ (budget k c) = c := by
  obtain ⟨lo, tw, b, rel, gr, iq, eq⟩ := c
  unfold budget
  simp only [Option.map_map, List.map_map, amount_comp hk, Option.map_id, id_eq]
  congr 1
  · cases b with
    | none => rfl
    | some b =>
      cases b <;> simp [Option.map_map, amount_comp hk, List.map_map, Function.comp_def]
  all_goals
    refine (List.map_congr_left (g := id) fun e _ => ?_).trans (List.map_id _)
    simp [amount_amount hk]

theorem satisfies_budget {k : ℝ} (hk : 0 < k) (c : PyV.Con.Spec ℝ) (y : Fin N → ℝ) : Satisfies (budget k c) y ↔ Satisfies c (fun i => k⁻¹ * y i) := by
  constructor
  · intro h
    have := satisfies_budget_of (inv_pos.2 hk) h
    rwa [budget_budget hk] at this
  · intro h
    have := satisfies_budget_of hk h
    have e : (fun i => k * (k⁻¹ * y i)) = y := funext fun i => by field_simp
    rwa [e] at this

/-- **C216** With every amount in the constraints multiplied by `k` (total weight, bounds, relative and group limits, right-hand sides) and the target return
multiplied by `k`, the volatility of the minimum-variance portfolio is multiplied by `k`; with a positive definite covariance so are the portfolio and its return. -/
theorem C216_min_variance {s1 s2 : Opt.Solver} (hs1 : Sound s1) (hc1 : Complete s1) (hs2 : Sound s2) (hc2 : Complete s2)
    (w w' : Wrapper N) (mu : Fin N → ℝ) (cov : Matrix (Fin N) (Fin N) ℝ)
    (hmu : w.mu = some mu) (hcov : w.cov = some cov) (hlog : w.isLog = false)
    (hmu' : w'.mu = some mu) (hcov' : w'.cov = some cov) (hlog' : w'.isLog = false) (hpsd : IsCov (fun i j => cov i j))
    (con con' : Option (PyV.Con.Spec ℝ)) (c : PyV.Con.Spec ℝ) {k : ℝ} (hk : 0 < k) (hin : InForce w con c) (hin' : InForce w' con' (budget k c))
    (hb : ∃ B, ∀ x : Fin N → ℝ, Satisfies c x → ∀ i, |x i| ≤ B)
    (htr : Trading w none none none none) (htr' : Trading w' none none none none) (target : ℝ) :
    (∃ r r', w.minVarianceAtReturn s1 target con none = .ok r ∧ w'.minVarianceAtReturn s2 (k * target) con' none = .ok r' ∧ r'.risk = k * r.risk ∧
      ((∀ x : Fin N → ℝ, x ≠ 0 → 0 < quad (fun i j => cov i j) x) → (∀ i, r'.w i = k * r.w i) ∧ r'.ret = k * r.ret)) ∨
    (w.minVarianceAtReturn s1 target con none = .error .infeasible ∧ w'.minVarianceAtReturn s2 (k * target) con' none = .error .infeasible) := by
  have hret : ∀ (a : ℝ) (x : Fin N → ℝ), ret mu (fun i => a * x i) = a * ret mu x := fun a x => sum_times a mu x
  have hq : ∀ (a : ℝ) (x : Fin N → ℝ), quad (fun i j => cov i j) (fun i => a * x i) = a ^ 2 * quad (fun i j => cov i j) x := by
    intro a x
    unfold quad
    simp only [Finset.mul_sum]
    exact Finset.sum_congr rfl fun i _ => Finset.sum_congr rfl fun j _ => by ring
  have hb' : ∃ B, ∀ x : Fin N → ℝ, Satisfies (budget k c) x → ∀ i, |x i| ≤ B := by
    obtain ⟨B, hB⟩ := hb
    refine ⟨k * B, fun x hx i => ?_⟩
    have := hB _ ((satisfies_budget hk c x).1 hx) i
    rw [abs_mul, abs_of_pos (inv_pos.2 hk)] at this
    have := mul_le_mul_of_nonneg_left this hk.le
    rwa [← mul_assoc, mul_inv_cancel₀ hk.ne', one_mul] at this
  have h := transfer_variance hs1 hc1 hs2 hc2 w w' mu cov mu cov hmu hcov hlog hmu' hcov' hlog' hpsd hpsd con con' c (budget k c) hin hin' hb hb' htr htr'
    hk (fun x i => k * x i) (fun y i => k⁻¹ * y i) (fun x hx => satisfies_budget_of hk hx) (fun y hy => (satisfies_budget hk c y).1 hy)
    (hret k) (fun y _ => by rw [hret]; field_simp) (hq k) (fun y _ => by rw [hq]; field_simp) target
  rcases h with ⟨r, r', e, e', h1, h2⟩ | h
  · refine .inl ⟨r, r', e, e', h1, fun hpd => ⟨fun i => ?_, (h2 hpd).2⟩⟩
    have := congrFun (h2 hpd).1 i
    beta_reduce at this
    rw [← this]
    field_simp
  · exact .inr h

/-- **C216** (CVaR) The same for `min_cvar_at_return` on scenarios: the CVaR is multiplied by `k`. -/
theorem C216_min_cvar {s1 s2 : Opt.Solver} (hs1 : Sound s1) (hc1 : Complete s1) (hs2 : Sound s2) (hc2 : Complete s2) (a1 a2 : Argsort)
    (ha1 : ∀ T, IsArgsort (a1 T)) (ha2 : ∀ T, IsArgsort (a2 T)) (sim : Sim) (w w' : Wrapper N)
    {T : ℕ} (R : Fin T → Fin N → ℝ) (p : Fin T → ℝ) (hp : IsProb p)
    (hsc : w.scen = some ⟨T, R, p⟩) (hsc' : w'.scen = some ⟨T, R, p⟩) (hlog : w.isLog = false) (hlog' : w'.isLog = false)
    (con con' : Option (PyV.Con.Spec ℝ)) (c : PyV.Con.Spec ℝ) {k : ℝ} (hk : 0 < k) (hin : InForce w con c) (hin' : InForce w' con' (budget k c))
    (hb : ∃ B, ∀ x : Fin N → ℝ, Satisfies c x → ∀ i, |x i| ≤ B)
    (htr : Trading w none none none none) (htr' : Trading w' none none none none)
    (target alpha : ℝ) (h0 : 0 < alpha) (h1 : alpha < 1) (seed seed' : Option ℤ) :
    (∃ r r', w.minCvarAtReturn s1 a1 sim target alpha seed con none = .ok r ∧
      w'.minCvarAtReturn s2 a2 sim (k * target) alpha seed' con' none = .ok r' ∧ r'.risk = k * r.risk) ∨
    (w.minCvarAtReturn s1 a1 sim target alpha seed con none = .error .infeasible ∧
      w'.minCvarAtReturn s2 a2 sim (k * target) alpha seed' con' none = .error .infeasible) := by
  have hb' : ∃ B, ∀ x : Fin N → ℝ, Satisfies (budget k c) x → ∀ i, |x i| ≤ B := by
    obtain ⟨B, hB⟩ := hb
    refine ⟨k * B, fun x hx i => ?_⟩
    have := hB _ ((satisfies_budget hk c x).1 hx) i
    rw [abs_mul, abs_of_pos (inv_pos.2 hk)] at this
    have := mul_le_mul_of_nonneg_left this hk.le
    rwa [← mul_assoc, mul_inv_cancel₀ hk.ne', one_mul] at this
  exact transfer_cvar hs1 hc1 hs2 hc2 a1 a2 ha1 ha2 sim w w' R R p hp hsc hsc' hlog hlog' con con' c (budget k c) hin hin' hb hb' htr htr'
    hk (fun x i => k * x i) (fun y i => k⁻¹ * y i) (fun x hx => satisfies_budget_of hk hx) (fun y hy => (satisfies_budget hk c y).1 hy)
    (fun x t => sum_times k (R t) x) (fun y _ t => by rw [sum_times]; field_simp) target alpha h0 h1 seed seed'

/-- Adding up the holdings of the listings of each asset: `of` tells which asset a listing is. -/
def collapse (of : Fin M → Fin N) (y : Fin M → ℝ) : Fin N → ℝ := fun i => ∑ l, if of l = i then y l else 0

theorem sum_collapse (of : Fin M → Fin N) (a : Fin N → ℝ) (y : Fin M → ℝ) : ∑ i, a i * collapse of y i = ∑ l, a (of l) * y l := by
  unfold collapse
  simp only [Finset.mul_sum]
  rw [Finset.sum_comm]
  refine Finset.sum_congr rfl fun l _ => ?_
  simp

/-- **C217** Listing an asset more than once changes nothing: with means and covariances read off the underlying assets (`of`), and constraints that only look
at total holdings per asset, the minimum volatility is the same and — with a positive definite covariance of the underlying assets — so are the total holdings. -/
theorem C217_min_variance {s1 s2 : Opt.Solver} (hs1 : Sound s1) (hc1 : Complete s1) (hs2 : Sound s2) (hc2 : Complete s2)
    (w : Wrapper N) (w' : Wrapper M) (of : Fin M → Fin N) (first : Fin N ↪ Fin M) (hof : ∀ i, of (first i) = i)
    (mu : Fin N → ℝ) (cov : Matrix (Fin N) (Fin N) ℝ)
    (hmu : w.mu = some mu) (hcov : w.cov = some cov) (hlog : w.isLog = false)
    (hmu' : w'.mu = some (fun l => mu (of l))) (hcov' : w'.cov = some (cov.submatrix of of)) (hlog' : w'.isLog = false) (hpsd : IsCov (fun i j => cov i j))
    (con con' : Option (PyV.Con.Spec ℝ)) (c c' : PyV.Con.Spec ℝ) (hin : InForce w con c) (hin' : InForce w' con' c')
    (hcc : ∀ y : Fin M → ℝ, Satisfies c' y → Satisfies c (collapse of y)) (hcc' : ∀ x : Fin N → ℝ, Satisfies c x → Satisfies c' (embed first x))
    (hb : ∃ B, ∀ x : Fin N → ℝ, Satisfies c x → ∀ i, |x i| ≤ B) (hb' : ∃ B, ∀ x : Fin M → ℝ, Satisfies c' x → ∀ i, |x i| ≤ B)
    (htr : Trading w none none none none) (htr' : Trading w' none none none none) (target : ℝ) :
    (∃ r r', w.minVarianceAtReturn s1 target con none = .ok r ∧ w'.minVarianceAtReturn s2 target con' none = .ok r' ∧ r'.risk = r.risk ∧
      ((∀ x : Fin N → ℝ, x ≠ 0 → 0 < quad (fun i j => cov i j) x) → collapse of r'.w = r.w ∧ r'.ret = r.ret)) ∨
    (w.minVarianceAtReturn s1 target con none = .error .infeasible ∧ w'.minVarianceAtReturn s2 target con' none = .error .infeasible) := by
  have qψ : ∀ y, quad (fun i j => (cov.submatrix of of) i j) y = quad (fun i j => cov i j) (collapse of y) := by
    intro y
    unfold quad
    have e : ∀ i, ∑ j, collapse of y i * cov i j * collapse of y j = (∑ l, cov i (of l) * y l) * collapse of y i := by
      intro i
      rw [← sum_collapse of (fun j => cov i j) y, Finset.sum_mul]
      exact Finset.sum_congr rfl fun j _ => by ring
    simp only [e]
    rw [sum_collapse of (fun i => ∑ l, cov i (of l) * y l) y]
    refine Finset.sum_congr rfl fun i _ => ?_
    rw [Finset.sum_mul]
    refine Finset.sum_congr rfl fun j _ => ?_
    show y i * cov (of i) (of j) * y j = _
    ring
  have hpsd' : IsCov (fun i j => (cov.submatrix of of) i j) :=
    ⟨fun i j => hpsd.1 _ _, fun y => by
      show 0 ≤ quad _ y
      rw [qψ]; exact hpsd.2 _⟩
  have h := transfer_variance hs1 hc1 hs2 hc2 w w' mu cov _ _ hmu hcov hlog hmu' hcov' hlog' hpsd hpsd' con con' c c' hin hin' hb hb' htr htr'
    (k := 1) one_pos (embed first) (collapse of) hcc' hcc
    (fun x => by rw [one_mul]; exact ret_embed first (fun i => by rw [hof]) x) (fun y _ => by rw [one_mul]; exact (sum_collapse of mu y).symm)
    (fun x => by rw [one_pow, one_mul]; exact quad_embed first (fun i j => by simp [hof]) x) (fun y _ => by rw [one_pow, one_mul]; exact qψ y) target
  simpa using h

/-- **C217** (CVaR) The same for `min_cvar_at_return` on scenarios. -/
theorem C217_min_cvar {s1 s2 : Opt.Solver} (hs1 : Sound s1) (hc1 : Complete s1) (hs2 : Sound s2) (hc2 : Complete s2) (a1 a2 : Argsort)
    (ha1 : ∀ T, IsArgsort (a1 T)) (ha2 : ∀ T, IsArgsort (a2 T)) (sim : Sim) (w : Wrapper N) (w' : Wrapper M)
    (of : Fin M → Fin N) (first : Fin N ↪ Fin M) (hof : ∀ i, of (first i) = i)
    {T : ℕ} (R : Fin T → Fin N → ℝ) (p : Fin T → ℝ) (hp : IsProb p)
    (hsc : w.scen = some ⟨T, R, p⟩) (hsc' : w'.scen = some ⟨T, fun t l => R t (of l), p⟩) (hlog : w.isLog = false) (hlog' : w'.isLog = false)
    (con con' : Option (PyV.Con.Spec ℝ)) (c c' : PyV.Con.Spec ℝ) (hin : InForce w con c) (hin' : InForce w' con' c')
    (hcc : ∀ y : Fin M → ℝ, Satisfies c' y → Satisfies c (collapse of y)) (hcc' : ∀ x : Fin N → ℝ, Satisfies c x → Satisfies c' (embed first x))
    (hb : ∃ B, ∀ x : Fin N → ℝ, Satisfies c x → ∀ i, |x i| ≤ B) (hb' : ∃ B, ∀ x : Fin M → ℝ, Satisfies c' x → ∀ i, |x i| ≤ B)
    (htr : Trading w none none none none) (htr' : Trading w' none none none none)
    (target alpha : ℝ) (h0 : 0 < alpha) (h1 : alpha < 1) (seed seed' : Option ℤ) :
    (∃ r r', w.minCvarAtReturn s1 a1 sim target alpha seed con none = .ok r ∧
      w'.minCvarAtReturn s2 a2 sim target alpha seed' con' none = .ok r' ∧ r'.risk = r.risk) ∨
    (w.minCvarAtReturn s1 a1 sim target alpha seed con none = .error .infeasible ∧
      w'.minCvarAtReturn s2 a2 sim target alpha seed' con' none = .error .infeasible) := by
  have h := transfer_cvar hs1 hc1 hs2 hc2 a1 a2 ha1 ha2 sim w w' R _ p hp hsc hsc' hlog hlog' con con' c c' hin hin' hb hb' htr htr'
    (k := 1) one_pos (embed first) (collapse of) hcc' hcc
    (fun x t => by rw [one_mul]; exact ret_embed first (mu := R t) (fun i => by rw [hof]) x)
    (fun y _ t => by rw [one_mul]; exact (sum_collapse of (R t) y).symm) target alpha h0 h1 seed seed'
  simpa using h

/-- With the default constraints (long-only, fully invested) the conditions of C217 on the constraints hold. -/
theorem C217_default (of : Fin M → Fin N) (first : Fin N ↪ Fin M) :
    (∀ y : Fin M → ℝ, Satisfies (PyV.Con.defaultSpec : PyV.Con.Spec ℝ) y → Satisfies (PyV.Con.defaultSpec : PyV.Con.Spec ℝ) (collapse of y)) ∧
    (∀ x : Fin N → ℝ, Satisfies (PyV.Con.defaultSpec : PyV.Con.Spec ℝ) x → Satisfies (PyV.Con.defaultSpec : PyV.Con.Spec ℝ) (embed first x)) := by
  constructor
  · intro y hy
    obtain ⟨h1, h2⟩ := (satisfies_default y).1 hy
    refine (satisfies_default _).2 ⟨fun i => Finset.sum_nonneg fun l _ => by split; exacts [h1 l, le_rfl], ?_⟩
    have := sum_collapse of (fun _ => 1) y
    simp only [one_mul] at this
    rw [this, h2]
  · intro x hx
    obtain ⟨h1, h2⟩ := (satisfies_default x).1 hx
    refine (satisfies_default _).2 ⟨fun l => ?_, ?_⟩
    · by_cases hl : l ∈ Set.range first
      · obtain ⟨i, rfl⟩ := hl
        rw [embed_apply]; exact h1 i
      · rw [embed_off first x hl]
    · have := ret_embed first (mu := fun _ => 1) (mu' := fun _ => 1) (fun _ => rfl) x
      unfold ret at this
      simp only [one_mul] at this
      rw [this, h2]

private theorem fin_amount {k : ℝ} {x : PyFloat ℝ} (h : Fin' x) : Fin' (amount k x) := by
  obtain ⟨v, rfl⟩ := h
  exact ⟨k * v, rfl⟩

private theorem finOpt_amount {k : ℝ} {x : Option (PyFloat ℝ)} (h : FinOpt x) : FinOpt (x.map (amount k)) := by
  intro y hy
  obtain ⟨z, hz, rfl⟩ := Option.map_eq_some_iff.1 hy
  exact fin_amount (h z hz)

private theorem pairOK_amount {k : ℝ} (hk : 0 < k) {lo hi : Option (PyFloat ℝ)} (h : PairOK lo hi) : PairOK (lo.map (amount k)) (hi.map (amount k)) := by
  refine ⟨finOpt_amount h.1, finOpt_amount h.2.1, fun a b ha hb => ?_⟩
  obtain ⟨v, e, rfl⟩ := amount_opt ha
  obtain ⟨v', e', rfl⟩ := amount_opt hb
  exact mul_le_mul_of_nonneg_left (h.2.2 v v' e e') hk.le

/-- The scaled constraints are accepted whenever the original ones are. -/
theorem C216_accepted {k : ℝ} (hk : 0 < k) {n : ℤ} {c : PyV.Con.Spec ℝ} (h : Valid n c) : Valid n (budget k c) := by
  refine ⟨h.pos, finOpt_amount h.total, ?_, ?_, ?_, ?_, ?_⟩
  · have hb := h.bounds
    unfold budget
    dsimp only
    cases hc : c.bounds with
    | none => exact trivial
    | some b =>
      rw [hc] at hb
      cases b with
      | pair lo hi => exact pairOK_amount hk hb
      | dict l =>
        intro e he
        obtain ⟨e', he', rfl⟩ := List.mem_map.1 he
        exact ⟨(hb e' he').1, pairOK_amount hk (hb e' he').2⟩
      | seq l =>
        refine ⟨by rw [List.length_map]; exact hb.1, fun e he => ?_⟩
        obtain ⟨e', he', rfl⟩ := List.mem_map.1 he
        exact pairOK_amount hk (hb.2 e' he')
  · intro e he
    obtain ⟨e', he', rfl⟩ := List.mem_map.1 he
    obtain ⟨a, b, c, d⟩ := h.relative e' he'
    exact ⟨a, b, c, fin_amount d⟩
  · intro e he
    obtain ⟨e', he', rfl⟩ := List.mem_map.1 he
    obtain ⟨a, lo, hi, b, c, d⟩ := h.groups e' he'
    exact ⟨a, k * lo, k * hi, by dsimp only; rw [b]; rfl, by dsimp only; rw [c]; rfl, mul_le_mul_of_nonneg_left d hk.le⟩
  · intro e he
    obtain ⟨e', he', rfl⟩ := List.mem_map.1 he
    exact ⟨(h.ineq e' he').1, fin_amount (h.ineq e' he').2⟩
  · intro e he
    obtain ⟨e', he', rfl⟩ := List.mem_map.1 he
    exact ⟨(h.eq e' he').1, fin_amount (h.eq e' he').2⟩

private theorem eye_cov : IsCov (fun i j => (1 : Matrix (Fin 2) (Fin 2) ℝ) i j) := by
  refine ⟨fun i j => by fin_cases i <;> fin_cases j <;> simp, fun x => ?_⟩
  have : ∑ i, ∑ j, x i * (1 : Matrix (Fin 2) (Fin 2) ℝ) i j * x j = x 0 ^ 2 + x 1 ^ 2 := by
    simp [Fin.sum_univ_two]
    ring
  rw [this]; positivity

/-- The hypotheses of C215 hold: full investment and no short positions, written as such or as bounds from below with an equality row. -/
example : ∃ (w : Wrapper 2) (solver : Opt.Solver) (c' : PyV.Con.Spec ℝ), Sound solver ∧ Complete solver ∧ c' ≠ PyV.Con.defaultSpec ∧ ∃ r r',
    w.minVarianceAtReturn solver (1 / 20) none none = .ok r ∧ w.minVarianceAtReturn solver (1 / 20) (some c') none = .ok r' ∧ r'.risk = r.risk := by
  obtain ⟨solver, h1, h2⟩ := exists_solver
  obtain ⟨w, hmu, hcov, -, hlog, -, hin, htr⟩ := exists_wrapper (N := 2) (by norm_num) (some ![1 / 10, 1 / 50]) (some 1) none false
  let c' : PyV.Con.Spec ℝ := ⟨false, none, some (.pair (some (.fin 0)) none), [], [], [], [([1, 1], .fin 1)]⟩
  have hv : Valid (2 : ℤ) c' := by
    refine ⟨by norm_num, fun y hy => by (cases hy), ⟨fun y hy => ⟨0, by (cases hy; rfl)⟩, fun y hy => by (cases hy), fun a b _ hb => by (cases hb)⟩,
      by simp [c'], by simp [c'], by simp [c'], ?_⟩
    intro e he
    simp only [c', List.mem_singleton] at he
    subst he
    exact ⟨rfl, 1, rfl⟩
  have hcc : ∀ x : Fin 2 → ℝ, Satisfies c' x ↔ Satisfies (PyV.Con.defaultSpec : PyV.Con.Spec ℝ) x := by
    intro x
    rw [satisfies_default]
    constructor
    · intro h
      refine ⟨fun i => (h.bounds i).1 0 rfl, ?_⟩
      have := h.eq ([1, 1], .fin 1) (by simp [c']) 1 rfl
      simpa [Fin.sum_univ_two] using this
    · rintro ⟨p, q⟩
      refine ⟨fun h => by (cases h), fun t h => by (cases h), fun i => ⟨fun a ha => ?_, fun b hb => by (cases hb)⟩, by simp [c'], by simp [c'], by simp [c'], ?_⟩
      · cases ha; exact p i
      · intro e he r hr
        simp only [c', List.mem_singleton] at he
        subst he
        cases hr
        simpa [Fin.sum_univ_two] using q
  have h := C215_min_variance h1 h2 h1 h2 w w _ _ hmu hcov hlog hmu hcov hlog eye_cov none (some c') _ c' hin (.inl ⟨rfl, hv⟩) hcc default_bounded htr htr (1 / 20)
  have hex := (C107_min_variance_at_return h1 h2 w _ _ hmu hcov hlog eye_cov none _ hin default_bounded none none none none htr (by simp) (1 / 20)).1
    ⟨![1, 0], (satisfies_default _).2 ⟨by intro i; fin_cases i <;> simp, by simp⟩, by simp [ret, Fin.sum_univ_two]; norm_num⟩
  obtain ⟨r0, e0, -⟩ := hex
  rcases h with ⟨r, r', e, e', g, -⟩ | ⟨e, -⟩
  · exact ⟨w, solver, c', h1, h2, fun h => by (cases congrArg PyV.Con.Spec.longOnly h), r, r', e, e', g⟩
  · rw [e0] at e; cases e

/-- The hypotheses of C216 and C217 hold: twice the default budget; the first of two assets listed twice. -/
example : ∃ (w : Wrapper 2) (w' : Wrapper 3) (solver : Opt.Solver), Sound solver ∧ Complete solver ∧
    (∃ r r', w.minVarianceAtReturn solver (1 / 20) none none = .ok r ∧
      w.minVarianceAtReturn solver (2 * (1 / 20)) (some (budget 2 PyV.Con.defaultSpec)) none = .ok r' ∧ r'.risk = 2 * r.risk) ∧
    ∃ r r', w.minVarianceAtReturn solver (1 / 20) none none = .ok r ∧ w'.minVarianceAtReturn solver (1 / 20) none none = .ok r' ∧ r'.risk = r.risk := by
  obtain ⟨solver, h1, h2⟩ := exists_solver
  obtain ⟨w, hmu, hcov, -, hlog, -, hin, htr⟩ := exists_wrapper (N := 2) (by norm_num) (some ![1 / 10, 1 / 50]) (some 1) none false
  let of : Fin 3 → Fin 2 := ![0, 1, 0]
  obtain ⟨w', hmu', hcov', -, hlog', -, hin', htr'⟩ := exists_wrapper (N := 3) (by norm_num) (some fun l => (![1 / 10, 1 / 50] : Fin 2 → ℝ) (of l))
    (some ((1 : Matrix (Fin 2) (Fin 2) ℝ).submatrix of of)) none false
  obtain ⟨r0, e0, -⟩ := (C107_min_variance_at_return h1 h2 w _ _ hmu hcov hlog eye_cov none _ hin default_bounded none none none none htr (by simp) (1 / 20)).1
    ⟨![1, 0], (satisfies_default _).2 ⟨by intro i; fin_cases i <;> simp, by simp⟩, by simp [ret, Fin.sum_univ_two]; norm_num⟩
  refine ⟨w, w', solver, h1, h2, ?_, ?_⟩
  · have hd : Valid (2 : ℤ) (PyV.Con.defaultSpec : PyV.Con.Spec ℝ) :=
      ⟨by norm_num, fun y hy => ⟨1, by (cases hy; rfl)⟩, trivial, by simp [PyV.Con.defaultSpec], by simp [PyV.Con.defaultSpec], by simp [PyV.Con.defaultSpec],
        by simp [PyV.Con.defaultSpec]⟩
    rcases C216_min_variance h1 h2 h1 h2 w w _ _ hmu hcov hlog hmu hcov hlog eye_cov none (some (budget 2 PyV.Con.defaultSpec)) _ (k := 2) (by norm_num) hin
      (.inl ⟨rfl, C216_accepted (by norm_num) hd⟩) default_bounded htr htr (1 / 20) with ⟨r, r', e, e', g, -⟩ | ⟨e, -⟩
    · exact ⟨r, r', e, e', g⟩
    · rw [e0] at e; cases e
  · have hof : ∀ i, of (Fin.castSuccEmb i) = i := by intro i; fin_cases i <;> rfl
    obtain ⟨d1, d2⟩ := C217_default of Fin.castSuccEmb
    rcases C217_min_variance h1 h2 h1 h2 w w' of Fin.castSuccEmb hof _ _ hmu hcov hlog hmu' hcov' hlog' eye_cov none none _ _ hin hin' d1 d2
      default_bounded default_bounded htr htr' (1 / 20) with ⟨r, r', e, e', g, -⟩ | ⟨e, -⟩
    · exact ⟨r, r', e, e', g⟩
    · rw [e0] at e; cases e

end PyV.Props
