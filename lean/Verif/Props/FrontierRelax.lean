import Verif.Props.FrontierShape
import Mathlib.Tactic

/-! # Properties C179, C181 and C182: what the optimal risk depends on -/

namespace PyV.Props

open PyV PyV.Api PyV.Spec.Api PyV.Opt PyV.Spec.Opt PyV.Spec.Con PyV.Risk PyV.Spec

variable {N M : ℕ}

/-- The portfolio `x` seen in a larger universe: the assets not listed by `e` are not held. -/
noncomputable def embed (e : Fin N ↪ Fin M) (x : Fin N → ℝ) : Fin M → ℝ := Function.extend e x 0

theorem embed_apply (e : Fin N ↪ Fin M) (x : Fin N → ℝ) (i : Fin N) : embed e x (e i) = x i := e.injective.extend_apply _ _ _

theorem embed_off (e : Fin N ↪ Fin M) (x : Fin N → ℝ) {k : Fin M} (hk : k ∉ Set.range e) : embed e x k = 0 :=
  Function.extend_apply' _ _ _ (fun ⟨i, hi⟩ => hk ⟨i, hi⟩)

theorem embed_refl (x : Fin N → ℝ) : embed (Function.Embedding.refl _) x = x := funext fun i => embed_apply (Function.Embedding.refl _) x i

theorem ret_embed (e : Fin N ↪ Fin M) {mu : Fin N → ℝ} {mu' : Fin M → ℝ} (h : ∀ i, mu' (e i) = mu i) (x : Fin N → ℝ) :
    ret mu' (embed e x) = ret mu x := by
  unfold ret
  exact (Fintype.sum_of_injective e e.injective _ _ (fun k hk => by rw [embed_off e x hk, mul_zero]) (fun i => by rw [embed_apply, h])).symm

theorem quad_embed (e : Fin N ↪ Fin M) {C : Fin N → Fin N → ℝ} {C' : Fin M → Fin M → ℝ} (h : ∀ i j, C' (e i) (e j) = C i j) (x : Fin N → ℝ) :
    quad C' (embed e x) = quad C x := by
  unfold quad
  refine (Fintype.sum_of_injective e e.injective _ _ (fun k hk => ?_) (fun i => ?_)).symm
  · simp [embed_off e x hk]
  · rw [embed_apply]
    exact Fintype.sum_of_injective e e.injective _ _ (fun k hk => by rw [embed_off e x hk, mul_zero]) (fun j => by rw [embed_apply, h])

/-- **C181** (variance) Let the second call admit every portfolio of the first — over the same assets or more of them, under weaker constraints, with a
lower or equal target return.  If the first finds a portfolio so does the second, and its volatility is not larger. -/
theorem C181_variance {s1 s2 : Opt.Solver} (hs1 : Sound s1) (hc1 : Complete s1) (hs2 : Sound s2) (hc2 : Complete s2)
    (w : Wrapper N) (w' : Wrapper M) (e : Fin N ↪ Fin M) (mu : Fin N → ℝ) (cov : Matrix (Fin N) (Fin N) ℝ) (mu' : Fin M → ℝ)
    (cov' : Matrix (Fin M) (Fin M) ℝ) (hmu : w.mu = some mu) (hcov : w.cov = some cov) (hlog : w.isLog = false)
    (hmu' : w'.mu = some mu') (hcov' : w'.cov = some cov') (hlog' : w'.isLog = false)
    (hpsd : IsCov (fun i j => cov i j)) (hpsd' : IsCov (fun i j => cov' i j))
    (hm : ∀ i, mu' (e i) = mu i) (hc : ∀ i j, cov' (e i) (e j) = cov i j)
    (con con' : Option (PyV.Con.Spec ℝ)) (c c' : PyV.Con.Spec ℝ) (hin : InForce w con c) (hin' : InForce w' con' c')
    (hcc : ∀ x : Fin N → ℝ, Satisfies c x → Satisfies c' (embed e x))
    (hb : ∃ B, ∀ x : Fin N → ℝ, Satisfies c x → ∀ i, |x i| ≤ B) (hb' : ∃ B, ∀ x : Fin M → ℝ, Satisfies c' x → ∀ i, |x i| ≤ B)
    (htr : Trading w none none none none) (htr' : Trading w' none none none none) {target target' : ℝ} (ht : target' ≤ target)
    {r : Result N} (hr : w.minVarianceAtReturn s1 target con none = .ok r) :
    ∃ r', w'.minVarianceAtReturn s2 target' con' none = .ok r' ∧ r'.risk ≤ r.risk := by
  obtain ⟨h1, h1'⟩ := C107_min_variance_at_return hs1 hc1 w mu cov hmu hcov hlog hpsd con c hin hb none none none none htr (by simp) target
  obtain ⟨h2, -⟩ := C107_min_variance_at_return hs2 hc2 w' mu' cov' hmu' hcov' hlog' hpsd' con' c' hin' hb' none none none none htr' (by simp) target'
  by_cases hex : ∃ x : Fin N → ℝ, Satisfies c x ∧ target ≤ ret mu x
  · obtain ⟨r0, e0, a1, a2, a3, a4, -⟩ := h1 hex
    rw [hr] at e0
    injection e0 with e0
    subst e0
    obtain ⟨r', e', b1, b2, b3, b4, b5⟩ := h2 ⟨embed e r.w, hcc _ a1, by rw [ret_embed e hm]; linarith [a3 ▸ a2]⟩
    refine ⟨r', e', ?_⟩
    rw [a4, b4]
    refine Real.sqrt_le_sqrt ?_
    have := b5 (embed e r.w) (hcc _ a1) (by rw [ret_embed e hm]; linarith [a3 ▸ a2])
    simp only [varianceCost, Option.getD_none, Pi.zero_apply, zero_mul, Finset.sum_const_zero, add_zero] at this
    rwa [quad_embed e hc] at this
  · push Not at hex
    rw [h1' hex] at hr
    cases hr

/-- **C181** (CVaR) The same for `min_cvar_at_return` on scenarios: the CVaR of the second portfolio is not larger. -/
theorem C181_cvar {s1 s2 : Opt.Solver} (hs1 : Sound s1) (hc1 : Complete s1) (hs2 : Sound s2) (hc2 : Complete s2) (a1 a2 : Argsort)
    (ha1 : ∀ T, IsArgsort (a1 T)) (ha2 : ∀ T, IsArgsort (a2 T)) (sim : Sim)
    (w : Wrapper N) (w' : Wrapper M) (e : Fin N ↪ Fin M) {T : ℕ} (R : Fin T → Fin N → ℝ) (R' : Fin T → Fin M → ℝ) (p : Fin T → ℝ) (hp : IsProb p)
    (hsc : w.scen = some ⟨T, R, p⟩) (hsc' : w'.scen = some ⟨T, R', p⟩) (hlog : w.isLog = false) (hlog' : w'.isLog = false)
    (hR : ∀ t i, R' t (e i) = R t i)
    (con con' : Option (PyV.Con.Spec ℝ)) (c c' : PyV.Con.Spec ℝ) (hin : InForce w con c) (hin' : InForce w' con' c')
    (hcc : ∀ x : Fin N → ℝ, Satisfies c x → Satisfies c' (embed e x))
    (hb : ∃ B, ∀ x : Fin N → ℝ, Satisfies c x → ∀ i, |x i| ≤ B) (hb' : ∃ B, ∀ x : Fin M → ℝ, Satisfies c' x → ∀ i, |x i| ≤ B)
    (htr : Trading w none none none none) (htr' : Trading w' none none none none) {target target' alpha : ℝ} (ht : target' ≤ target)
    (h0 : 0 < alpha) (h1 : alpha < 1) (seed seed' : Option ℤ)
    {r : Result N} (hr : w.minCvarAtReturn s1 a1 sim target alpha seed con none = .ok r) :
    ∃ r' v v', w'.minCvarAtReturn s2 a2 sim target' alpha seed' con' none = .ok r' ∧ IsCvar p (fun t => ∑ i, R t i * r.w i) (1 - alpha) v ∧
      IsCvar p (fun t => ∑ i, R' t i * r'.w i) (1 - alpha) v' ∧ v' ≤ v ∧ r.risk = |v| ∧ r'.risk = |v'| := by
  obtain ⟨k1, k1'⟩ := C109_min_cvar_at_return_partial hs1 hc1 a1 ha1 sim w ⟨T, R, p⟩ hsc hp hlog con c hin hb none none none none htr (by simp)
    target alpha h0 h1 seed
  obtain ⟨k2, -⟩ := C109_min_cvar_at_return_partial hs2 hc2 a2 ha2 sim w' ⟨T, R', p⟩ hsc' hp hlog' con' c' hin' hb' none none none none htr' (by simp)
    target' alpha h0 h1 seed'
  have hmean : ∀ i, scenMean ⟨T, R', p⟩ (e i) = scenMean ⟨T, R, p⟩ i := by
    intro i
    unfold scenMean
    exact Finset.sum_congr rfl fun t _ => congrArg (p t * ·) (hR t i)
  have hpn : ∀ x : Fin N → ℝ, pnl ⟨T, R', p⟩ (embed e x) = pnl ⟨T, R, p⟩ x := by
    intro x
    funext t
    exact ret_embed e (mu := R t) (mu' := R' t) (hR t) x
  by_cases hex : ∃ x : Fin N → ℝ, Satisfies c x ∧ target ≤ ret (scenMean ⟨T, R, p⟩) x
  · obtain ⟨r0, e0, b1, b2, -, -, v, hv, hrv, -⟩ := k1 hex
    rw [hr] at e0
    injection e0 with e0
    subst e0
    have hre : target' ≤ ret (scenMean ⟨T, R', p⟩) (embed e r.w) := by rw [ret_embed e hmean]; linarith
    obtain ⟨r', e', -, -, -, -, v', hv', hrv', hmin⟩ := k2 ⟨embed e r.w, hcc _ b1, hre⟩
    have := hmin (embed e r.w) v (hcc _ b1) hre (by rw [hpn]; exact hv)
    simp only [turnoverCost, Option.getD_none, Pi.zero_apply, zero_mul, Finset.sum_const_zero, add_zero] at this
    exact ⟨r', v, v', e', hv, hv', this, hrv, hrv'⟩
  · push Not at hex
    rw [k1' hex] at hr
    cases hr

theorem ret_scale (mu : Fin N → ℝ) (k : ℝ) (x : Fin N → ℝ) : ret (fun i => k * mu i) x = k * ret mu x := by
  unfold ret; rw [Finset.mul_sum]; exact Finset.sum_congr rfl fun i _ => by ring

theorem quad_scale (cov : Matrix (Fin N) (Fin N) ℝ) (k : ℝ) (x : Fin N → ℝ) :
    quad (fun i j => (k ^ 2 • cov) i j) x = k ^ 2 * quad (fun i j => cov i j) x := by
  unfold quad
  rw [Finset.mul_sum]
  refine Finset.sum_congr rfl fun i _ => ?_
  rw [Finset.mul_sum]
  refine Finset.sum_congr rfl fun j _ => ?_
  show x i * (k ^ 2 • cov) i j * x j = k ^ 2 * (x i * cov i j * x j)
  rw [Matrix.smul_apply, smul_eq_mul]; ring

theorem isCov_scale {cov : Matrix (Fin N) (Fin N) ℝ} (h : IsCov (fun i j => cov i j)) (k : ℝ) : IsCov (fun i j => (k ^ 2 • cov) i j) := by
  refine ⟨fun i j => ?_, fun x => ?_⟩
  · show (k ^ 2 • cov) i j = (k ^ 2 • cov) j i
    rw [Matrix.smul_apply, Matrix.smul_apply]
    exact congrArg (k ^ 2 • ·) (h.1 i j)
  · show 0 ≤ quad _ x
    rw [quad_scale]
    exact mul_nonneg (sq_nonneg k) (h.2 x)

/-- **C182** (one portfolio) Expressing returns in other units — means times `k`, covariances times `k²`, the target times `k` — multiplies the
volatility of the minimum-variance portfolio by `k`; with a positive definite covariance the portfolio itself is unchanged. -/
theorem C182_min_variance {s1 s2 : Opt.Solver} (hs1 : Sound s1) (hc1 : Complete s1) (hs2 : Sound s2) (hc2 : Complete s2)
    (w w' : Wrapper N) (mu : Fin N → ℝ) (cov : Matrix (Fin N) (Fin N) ℝ) {k : ℝ} (hk : 0 < k)
    (hmu : w.mu = some mu) (hcov : w.cov = some cov) (hlog : w.isLog = false)
    (hmu' : w'.mu = some (fun i => k * mu i)) (hcov' : w'.cov = some (k ^ 2 • cov)) (hlog' : w'.isLog = false)
    (hpsd : IsCov (fun i j => cov i j))
    (con con' : Option (PyV.Con.Spec ℝ)) (c c' : PyV.Con.Spec ℝ) (hin : InForce w con c) (hin' : InForce w' con' c')
    (hcc : ∀ x : Fin N → ℝ, Satisfies c' x ↔ Satisfies c x)
    (hb : ∃ B, ∀ x : Fin N → ℝ, Satisfies c x → ∀ i, |x i| ≤ B)
    (htr : Trading w none none none none) (htr' : Trading w' none none none none) (target : ℝ) :
    (∃ r r', w.minVarianceAtReturn s1 target con none = .ok r ∧ w'.minVarianceAtReturn s2 (k * target) con' none = .ok r' ∧
      r'.risk = k * r.risk ∧
      ((∀ x : Fin N → ℝ, x ≠ 0 → 0 < quad (fun i j => cov i j) x) → r'.w = r.w ∧ r'.ret = k * r.ret)) ∨
    (w.minVarianceAtReturn s1 target con none = .error .infeasible ∧ w'.minVarianceAtReturn s2 (k * target) con' none = .error .infeasible) := by
  have hret := ret_scale mu k
  have hquad := quad_scale cov k
  have hk2 : 0 < k ^ 2 := by positivity
  have hpsd' := isCov_scale hpsd k
  obtain ⟨h1, h1'⟩ := C107_min_variance_at_return hs1 hc1 w mu cov hmu hcov hlog hpsd con c hin hb none none none none htr (by simp) target
  obtain ⟨h2, h2'⟩ := C107_min_variance_at_return hs2 hc2 w' _ _ hmu' hcov' hlog' hpsd' con' c' hin'
    (by obtain ⟨B, hB⟩ := hb; exact ⟨B, fun x hx => hB x ((hcc x).1 hx)⟩) none none none none htr' (by simp) (k * target)
  simp only [varianceCost, Option.getD_none, Pi.zero_apply, zero_mul, Finset.sum_const_zero, add_zero] at h1 h2
  have htar : ∀ x, k * target ≤ ret (fun i => k * mu i) x ↔ target ≤ ret mu x := by
    intro x; rw [hret]; exact mul_le_mul_iff_right₀ hk
  by_cases hex : ∃ x : Fin N → ℝ, Satisfies c x ∧ target ≤ ret mu x
  · left
    obtain ⟨x, hx1, hx2⟩ := hex
    obtain ⟨r, e, a1, a2, a3, a4, a5⟩ := h1 ⟨x, hx1, hx2⟩
    obtain ⟨r', e', b1, b2, b3, b4, b5⟩ := h2 ⟨x, (hcc x).2 hx1, (htar x).2 hx2⟩
    have hb1 := (hcc _).1 b1
    have hb2 : target ≤ ret mu r'.w := (htar _).1 (b3 ▸ b2)
    have hle : ∀ x, Satisfies c x → target ≤ ret mu x → quad (fun i j => cov i j) r'.w ≤ quad (fun i j => cov i j) x := by
      intro x hx hxt
      have := b5 x ((hcc x).2 hx) ((htar x).2 hxt)
      rw [hquad, hquad] at this
      exact le_of_mul_le_mul_left this hk2
    have heq : quad (fun i j => cov i j) r'.w = quad (fun i j => cov i j) r.w :=
      le_antisymm (hle _ a1 (a3 ▸ a2)) (a5 _ hb1 hb2)
    refine ⟨r, r', e, e', ?_, fun hpd => ?_⟩
    · rw [a4, b4, hquad, heq, Real.sqrt_mul hk2.le, Real.sqrt_sq hk.le]
    · obtain ⟨u, -, hall⟩ := user_spec hin
      have huq := unique_min hpd none none (by simp) u mu
      have hset : {x | Allowed u x} = {x : Fin N → ℝ | Satisfies c x} := Set.ext hall
      rw [hset] at huq
      have hw : r'.w = r.w := by
        refine huq target _ hb1 _ a1 hb2 (a3 ▸ a2) ?_ ?_
        · simpa only [Set.mem_setOf_eq, varianceCost, Option.getD_none, Pi.zero_apply, zero_mul, Finset.sum_const_zero, add_zero] using hle
        · simpa only [Set.mem_setOf_eq, varianceCost, Option.getD_none, Pi.zero_apply, zero_mul, Finset.sum_const_zero, add_zero] using a5
      exact ⟨hw, by rw [b3, a3, hret, hw]⟩
  · right
    push Not at hex
    exact ⟨h1' hex, h2' fun x hx => by rw [hret]; exact mul_lt_mul_of_pos_left (hex x ((hcc x).1 hx)) hk⟩

private theorem cols_scale {allowed : Set (Fin N → ℝ)} {rt risk rt' risk' : (Fin N → ℝ) → ℝ} {num : ℕ} {c d : List (Fin N → ℝ)} {k : ℝ} (hk : 0 < k)
    (hrt : ∀ x, rt' x = k * rt x) (hrk : ∀ x, risk' x = k ^ 2 * risk x)
    (h1 : IsFrontier allowed rt risk num c) (h2 : IsFrontier allowed rt' risk' num d) {r : ℝ} (hr : IsGreatest (rt '' allowed) r)
    (hu : UniqueMin allowed rt risk) (l1 : 1 < c.length) (l2 : 1 < d.length) : c = d := by
  have hk2 : 0 < k ^ 2 := by positivity
  have hr' : IsGreatest (rt' '' allowed) (k * r) := by
    obtain ⟨⟨x, hx, rfl⟩, hmax⟩ := hr
    refine ⟨⟨x, hx, hrt x⟩, ?_⟩
    rintro _ ⟨y, hy, rfl⟩
    rw [hrt]
    exact mul_le_mul_of_nonneg_left (hmax ⟨y, hy, rfl⟩) hk.le
  obtain ⟨v, c', rfl⟩ := List.exists_cons_of_ne_nil h1.nonempty
  obtain ⟨v', d', rfl⟩ := List.exists_cons_of_ne_nil h2.nonempty
  have hrisk : ∀ x y, risk' x ≤ risk' y → risk x ≤ risk y := by
    intro x y h
    rw [hrk, hrk] at h
    exact le_of_mul_le_mul_left h hk2
  have hv : v = v' := by
    have a1 := h1.first v rfl
    have a2 := h2.first v' rfl
    exact hu (min (rt v) (rt v')) v (h1.inside _ (by simp)) v' (h2.inside _ (by simp)) (min_le_left _ _) (min_le_right _ _)
      (fun x hx _ => a1 x hx) (fun x hx _ => hrisk _ _ (a2 x hx))
  subst hv
  have hlen : (v :: c').length = (v :: d').length := by
    rcases h1.len with h | h
    · rcases h2.len with h' | h'
      · omega
      · omega
    · omega
  apply List.ext_getElem hlen
  intro j hj1 hj2
  have e1 := List.getElem?_eq_getElem hj1
  have e2 := List.getElem?_eq_getElem hj2
  have hg : ∀ x, rt' v + j * ((k * r - rt' v) / (num - 1)) ≤ rt' x ↔ rt v + j * ((r - rt v) / (num - 1)) ≤ rt x := by
    intro x
    rw [hrt, hrt]
    have : k * rt v + j * ((k * r - k * rt v) / (num - 1)) = k * (rt v + j * ((r - rt v) / (num - 1))) := by ring
    rw [this]
    exact mul_le_mul_iff_right₀ hk
  exact hu _ _ (h1.inside _ (List.getElem_mem hj1)) _ (h2.inside _ (List.getElem_mem hj2)) (h1.grid j _ e1 v rfl r hr l1)
    ((hg _).1 (h2.grid j _ e2 v rfl _ hr' l2)) (h1.least j _ e1 v rfl r hr l1)
    (fun x hx hxt => hrisk _ _ (h2.least j _ e2 v rfl _ hr' l2 x hx ((hg x).2 hxt)))

/-- **C182** (frontier; partial: when neither frontier collapses to a single portfolio — whether it does depends on the units,
`C182_counterexample`) In other units the variance frontier lists the same portfolios, with returns and volatilities multiplied by `k`. -/
theorem C182_frontier_partial {s1 s2 : Opt.Solver} (hs1 : Sound s1) (hc1 : Complete s1) (hs2 : Sound s2) (hc2 : Complete s2) (a1 a2 : Argsort)
    (w w' : Wrapper N) (mu : Fin N → ℝ) (cov : Matrix (Fin N) (Fin N) ℝ) {k : ℝ} (hk : 0 < k)
    (hmu : w.mu = some mu) (hcov : w.cov = some cov) (hlog : w.isLog = false)
    (hmu' : w'.mu = some (fun i => k * mu i)) (hcov' : w'.cov = some (k ^ 2 • cov)) (hlog' : w'.isLog = false)
    (hpsd : IsCov (fun i j => cov i j)) (hpd : ∀ x : Fin N → ℝ, x ≠ 0 → 0 < quad (fun i j => cov i j) x)
    (con con' : Option (PyV.Con.Spec ℝ)) (c c' : PyV.Con.Spec ℝ) (hin : InForce w con c) (hin' : InForce w' con' c')
    (hcc : ∀ x : Fin N → ℝ, Satisfies c' x ↔ Satisfies c x)
    (hb : ∃ B, ∀ x : Fin N → ℝ, Satisfies c x → ∀ i, |x i| ≤ B) (hne : ∃ x : Fin N → ℝ, Satisfies c x) (hlim : Limited N c) (hlim' : Limited N c')
    (htr : Trading w none none none none) (htr' : Trading w' none none none none) (num : ℕ) :
    ∃ F F', w.varianceFrontier s1 a1 num con none = .ok F ∧ w'.varianceFrontier s2 a2 num con' none = .ok F' ∧
      (1 < F.M → 1 < F'.M → listing F' = (listing F).map (fun p => (p.1, k * p.2.1, k * p.2.2))) := by
  have hret := ret_scale mu k
  have hquad := quad_scale cov k
  have hk2 : 0 < k ^ 2 := by positivity
  have hz : ∀ C : Fin N → Fin N → ℝ, varianceCost C none none = quad C := by intro C; funext x; simp [varianceCost]
  have hset' : {x : Fin N → ℝ | Satisfies c' x} = {x | Satisfies c x} := Set.ext hcc
  obtain ⟨cols, f, e1, h1, h3⟩ := C105_variance_frontier_partial hs1 hc1 a1 w mu cov hmu hcov hlog hpsd con c hin hb hne hlim none none none none htr (by simp) num
  obtain ⟨cols', f', e1', h1', h3'⟩ := C105_variance_frontier_partial hs2 hc2 a2 w' _ _ hmu' hcov' hlog' (isCov_scale hpsd k) con' c' hin'
    (by obtain ⟨B, hB⟩ := hb; exact ⟨B, fun x hx => hB x ((hcc x).1 hx)⟩) (by obtain ⟨x, hx⟩ := hne; exact ⟨x, (hcc x).2 hx⟩) hlim'
    none none none none htr' (by simp) num
  rw [hz] at h1 h1'
  rw [hset'] at h1'
  refine ⟨_, _, e1, e1', fun l1 l2 => ?_⟩
  obtain ⟨u, -, hall⟩ := user_spec hin
  have hset : {x | Allowed u x} = {x : Fin N → ℝ | Satisfies c x} := Set.ext hall
  obtain ⟨r, hr⟩ := greatest_return (u := u) (by obtain ⟨M, hM⟩ := hb; exact ⟨M, fun x hx => hM x ((hall x).1 hx)⟩)
    (by obtain ⟨x, hx⟩ := hne; exact ⟨x, (hall x).2 hx⟩) mu
  have huq := unique_min hpd none none (by simp) u mu
  rw [hset, hz] at huq
  rw [hset] at hr
  have heq : cols = cols' := cols_scale hk hret hquad h1 h1' hr huq l1 l2
  rw [listing_eq h3, listing_eq h3', heq, List.map_map]
  refine List.map_congr_left fun x _ => ?_
  show (x, ret (fun i => k * mu i) x, Real.sqrt (quad _ x)) = (x, k * ret mu x, k * Real.sqrt (quad _ x))
  rw [hret, hquad, Real.sqrt_mul hk2.le, Real.sqrt_sq hk.le]

/-- **C182** is false of the code for frontiers: two uncorrelated assets of equal variance with means 0 and 1e-9; in units a billion times smaller the
means are 0 and 1.  The first frontier of two portfolios collapses to one portfolio, the second does not. -/
theorem C182_counterexample : ∃ w w' : Wrapper 2, w.mu = some ![0, 1 / 10 ^ 9] ∧ w'.mu = some (fun i => 10 ^ 9 * (![0, 1 / 10 ^ 9] : Fin 2 → ℝ) i) ∧
    w.cov = some 1 ∧ w'.cov = some ((10 ^ 9 : ℝ) ^ 2 • (1 : Matrix (Fin 2) (Fin 2) ℝ)) ∧
    InForce w none PyV.Con.defaultSpec ∧ InForce w' none PyV.Con.defaultSpec ∧
    ∀ (solver : Opt.Solver) (argsort : Argsort), Sound solver → Complete solver →
      ∃ F F', w.varianceFrontier solver argsort 2 none none = .ok F ∧ w'.varianceFrontier solver argsort 2 none none = .ok F' ∧ F.M = 1 ∧ F'.M = 2 := by
  obtain ⟨w, hmu, hcov, -, hlog, -, hin, htr⟩ := exists_wrapper (N := 2) (by norm_num) (some ![0, 1 / 10 ^ 9]) (some 1) none false
  obtain ⟨w', hmu', hcov', -, hlog', -, hin', htr'⟩ := exists_wrapper (N := 2) (by norm_num)
    (some (fun i => 10 ^ 9 * (![0, 1 / 10 ^ 9] : Fin 2 → ℝ) i)) (some ((10 ^ 9 : ℝ) ^ 2 • (1 : Matrix (Fin 2) (Fin 2) ℝ))) none false
  refine ⟨w, w', hmu, hmu', hcov, hcov', hin, hin', fun solver argsort hs hc => ?_⟩
  have hq : ∀ x : Fin 2 → ℝ, quad (fun i j => (1 : Matrix (Fin 2) (Fin 2) ℝ) i j) x = x 0 ^ 2 + x 1 ^ 2 := by
    intro x
    simp [quad, Fin.sum_univ_two]
    ring
  have hI : IsCov (fun i j => (1 : Matrix (Fin 2) (Fin 2) ℝ) i j) := by
    refine ⟨fun i j => by fin_cases i <;> fin_cases j <;> simp, fun x => ?_⟩
    show 0 ≤ quad _ x
    rw [hq]; positivity
  have hex : ∃ x : Fin 2 → ℝ, Satisfies (PyV.Con.defaultSpec : PyV.Con.Spec ℝ) x :=
    ⟨![1, 0], (satisfies_default _).2 ⟨by intro i; fin_cases i <;> simp, by simp⟩⟩
  obtain ⟨cols, f, e1, h1, -⟩ := C105_variance_frontier_partial hs hc argsort w _ _ hmu hcov hlog hI none _ hin default_bounded hex (limited_default (by norm_num)) none none none none htr
    (by simp) 2
  obtain ⟨cols', f', e1', h1', -⟩ := C105_variance_frontier_partial hs hc argsort w' _ _ hmu' hcov' hlog' (isCov_scale hI (10 ^ 9)) none _ hin' default_bounded hex (limited_default (by norm_num))
    none none none none htr' (by simp) 2
  have hret : ∀ x : Fin 2 → ℝ, ret ![0, 1 / 10 ^ 9] x = x 1 / 10 ^ 9 := by
    intro x; simp [ret, Fin.sum_univ_two]; ring
  have hret' : ∀ x : Fin 2 → ℝ, ret (fun i => 10 ^ 9 * (![0, 1 / 10 ^ 9] : Fin 2 → ℝ) i) x = x 1 := by
    intro x; rw [ret_scale, hret]; ring
  have hle : ∀ x : Fin 2 → ℝ, Satisfies (PyV.Con.defaultSpec : PyV.Con.Spec ℝ) x → 0 ≤ x 0 ∧ 0 ≤ x 1 ∧ x 0 + x 1 = 1 := by
    intro x hx
    obtain ⟨h1, h2⟩ := (satisfies_default _).1 hx
    rw [Fin.sum_univ_two] at h2
    exact ⟨h1 0, h1 1, h2⟩
  have hx1 : Satisfies (PyV.Con.defaultSpec : PyV.Con.Spec ℝ) (![0, 1] : Fin 2 → ℝ) :=
    (satisfies_default _).2 ⟨by intro i; fin_cases i <;> simp, by simp⟩
  have hg : IsGreatest (ret ![0, 1 / 10 ^ 9] '' {x : Fin 2 → ℝ | Satisfies PyV.Con.defaultSpec x}) (1 / 10 ^ 9) := by
    refine ⟨⟨![0, 1], hx1, by rw [hret]; simp⟩, ?_⟩
    rintro _ ⟨y, hy, rfl⟩
    have := hle y hy
    rw [hret]
    linarith
  have hg' : IsGreatest (ret (fun i => 10 ^ 9 * (![0, 1 / 10 ^ 9] : Fin 2 → ℝ) i) '' {x : Fin 2 → ℝ | Satisfies PyV.Con.defaultSpec x}) 1 := by
    refine ⟨⟨![0, 1], hx1, by rw [hret']; simp⟩, ?_⟩
    rintro _ ⟨y, hy, rfl⟩
    have := hle y hy
    rw [hret']
    linarith
  refine ⟨_, _, e1, e1', ?_, ?_⟩
  · obtain ⟨v, c', hv⟩ := List.exists_cons_of_ne_nil h1.nonempty
    have hv' : cols.head? = some v := by rw [hv]; rfl
    refine h1.flat v hv' _ hg ?_
    have := hle v (h1.inside v (by rw [hv]; simp))
    rw [hret, abs_le]
    have h0 : (0 : ℝ) ≤ |(1 : ℝ) / 10 ^ 9| := abs_nonneg _
    constructor <;> linarith
  · rcases h1'.len with h | ⟨-, h | h⟩
    · exact h
    · simp at h
    · exfalso
      obtain ⟨v, c', hv⟩ := List.exists_cons_of_ne_nil h1'.nonempty
      have hv' : cols'.head? = some v := by rw [hv]; rfl
      have h2 := h v hv' _ hg'
      have h3 := h1'.first v hv' (![1 / 2, 1 / 2] : Fin 2 → ℝ)
        ((satisfies_default _).2 ⟨by intro i; fin_cases i <;> norm_num, by simp [Fin.sum_univ_two]; norm_num⟩)
      simp only [varianceCost, Option.getD_none, Pi.zero_apply, zero_mul, Finset.sum_const_zero, add_zero] at h3
      rw [quad_scale, quad_scale] at h3
      have h4 := le_of_mul_le_mul_left h3 (by norm_num)
      rw [hq, hq] at h4
      have h5 := hle v (h1'.inside v (by rw [hv]; simp))
      have h6 : v 1 = 1 / 2 := by
        have : v 0 = 1 - v 1 := by linarith
        rw [this] at h4
        norm_num at h4
        nlinarith [sq_nonneg (v 1 - 1 / 2)]
      rw [hret', h6] at h2
      norm_num [abs_le] at h2

/-- The hypotheses of `C181_variance` hold when a third asset is added to two: any portfolio found for the two is matched by one of the three. -/
example : ∃ (w : Wrapper 2) (w' : Wrapper 3) (solver : Opt.Solver) (r : Result 2) (r' : Result 3), Sound solver ∧ Complete solver ∧
    w.minVarianceAtReturn solver (1 / 20) none none = .ok r ∧ w'.minVarianceAtReturn solver (1 / 20) none none = .ok r' ∧ r'.risk ≤ r.risk := by
  obtain ⟨solver, h1, h2⟩ := exists_solver
  obtain ⟨w, hmu, hcov, -, hlog, -, hin, htr⟩ := exists_wrapper (N := 2) (by norm_num) (some ![1 / 10, 1 / 50]) (some 1) none false
  obtain ⟨w', hmu', hcov', -, hlog', -, hin', htr'⟩ := exists_wrapper (N := 3) (by norm_num) (some ![1 / 10, 1 / 50, 3 / 100]) (some 1) none false
  have hpsd : ∀ n, IsCov (fun i j => (1 : Matrix (Fin n) (Fin n) ℝ) i j) := by
    intro n
    refine ⟨fun i j => ?_, fun x => ?_⟩
    · simp [Matrix.one_apply, eq_comm]
    · refine Finset.sum_nonneg fun i _ => ?_
      simp [Matrix.one_apply, mul_self_nonneg]
  obtain ⟨r, hr, -⟩ := (C107_min_variance_at_return h1 h2 w _ _ hmu hcov hlog (hpsd 2) none _ hin default_bounded none none none none htr (by simp) (1 / 20)).1
    ⟨![1, 0], by rw [satisfies_default]; simp [Fin.sum_univ_two, Fin.forall_fin_two], by simp [ret, Fin.sum_univ_two]; norm_num⟩
  obtain ⟨r', hr', hle⟩ := C181_variance h1 h2 h1 h2 w w' Fin.castSuccEmb _ _ _ _ hmu hcov hlog hmu' hcov' hlog' (hpsd 2) (hpsd 3)
    (by intro i; fin_cases i <;> simp) (by intro i j; simp [Matrix.one_apply, Fin.castSuccEmb]) none none _ _ hin hin'
    (by
      intro x hx
      have hemb : embed Fin.castSuccEmb x = ![x 0, x 1, 0] := by
        funext i
        fin_cases i
        · exact embed_apply _ x 0
        · exact embed_apply _ x 1
        · exact embed_off _ x (by rintro ⟨j, hj⟩; fin_cases j <;> simp at hj)
      rw [satisfies_default] at hx ⊢
      rw [hemb]
      obtain ⟨p, q⟩ := hx
      refine ⟨fun i => by fin_cases i <;> simp [p 0, p 1], ?_⟩
      rw [Fin.sum_univ_two] at q
      simpa [Fin.sum_univ_three] using q)
    default_bounded default_bounded htr htr' (le_refl (1 / 20)) hr
  exact ⟨w, w', solver, r, r', h1, h2, hr, hr', hle⟩

/-- The hypotheses of `C182_frontier_partial` hold for percentages instead of fractions. -/
example : ∃ (w w' : Wrapper 2) (solver : Opt.Solver), Sound solver ∧ Complete solver ∧ ∃ F F',
    w.varianceFrontier solver (fun _ _ => Equiv.refl _) 5 none none = .ok F ∧ w'.varianceFrontier solver (fun _ _ => Equiv.refl _) 5 none none = .ok F' ∧
      (1 < F.M → 1 < F'.M → listing F' = (listing F).map (fun p => (p.1, 100 * p.2.1, 100 * p.2.2))) := by
  obtain ⟨solver, h1, h2⟩ := exists_solver
  obtain ⟨w, hmu, hcov, -, hlog, -, hin, htr⟩ := exists_wrapper (N := 2) (by norm_num) (some ![1 / 10, 1 / 50]) (some !![1, 0; 0, 2]) none false
  obtain ⟨w', hmu', hcov', -, hlog', -, hin', htr'⟩ := exists_wrapper (N := 2) (by norm_num) (some fun i => 100 * (![1 / 10, 1 / 50] : Fin 2 → ℝ) i)
    (some ((100 : ℝ) ^ 2 • !![1, 0; 0, 2])) none false
  have hq : ∀ x : Fin 2 → ℝ, quad (fun i j => (!![1, 0; 0, 2] : Matrix (Fin 2) (Fin 2) ℝ) i j) x = x 0 ^ 2 + 2 * x 1 ^ 2 := by
    intro x
    simp [quad, Fin.sum_univ_two]
    ring
  obtain ⟨F, F', a, b, c⟩ := C182_frontier_partial h1 h2 h1 h2 (fun _ _ => Equiv.refl _) (fun _ _ => Equiv.refl _) w w' _ _ (by norm_num : (0 : ℝ) < 100)
    hmu hcov hlog hmu' hcov' hlog'
    ⟨by intro i j; fin_cases i <;> fin_cases j <;> simp, fun x => by
      show 0 ≤ quad _ x
      rw [hq]; positivity⟩
    (fun x hx => by
      rw [hq]
      by_contra hle
      have h0 : x 0 = 0 := by nlinarith [sq_nonneg (x 0), sq_nonneg (x 1)]
      have h1 : x 1 = 0 := by nlinarith [sq_nonneg (x 0), sq_nonneg (x 1)]
      exact hx (funext fun i => by fin_cases i <;> simp [h0, h1]))
    none none _ _ hin hin' (fun x => Iff.rfl) default_bounded
    ⟨![1, 0], by rw [satisfies_default]; simp [Fin.sum_univ_two, Fin.forall_fin_two]⟩
    (limited_default (by norm_num)) (limited_default (by norm_num)) htr htr' 5
  exact ⟨w, w', solver, h1, h2, F, F', a, b, c⟩

end PyV.Props
