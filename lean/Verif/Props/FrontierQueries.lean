import Verif.Props.Transfer
import Mathlib.Tactic

/-! # Properties C213, C214 and C218: frontiers agree with single queries, with deeper tails and with finer frontiers -/

namespace PyV.Props

open PyV PyV.Api PyV.Spec.Api PyV.Opt PyV.Spec.Opt PyV.Spec.Con PyV.Risk PyV.Spec

variable {N : ℕ}

/-- **C213** (variance) Asking `min_variance_at_return` for the return of a portfolio on the variance frontier gives back a portfolio of the same volatility when
there are no trading costs; with a positive definite covariance it gives back that very portfolio, trading costs or not. -/
theorem C213_variance {s1 s2 : Opt.Solver} (hs1 : Sound s1) (hc1 : Complete s1) (hs2 : Sound s2) (hc2 : Complete s2) (argsort : Argsort)
    (w : Wrapper N) (mu : Fin N → ℝ) (cov : Matrix (Fin N) (Fin N) ℝ) (hmu : w.mu = some mu) (hcov : w.cov = some cov)
    (hlog : w.isLog = false) (hpsd : IsCov (fun i j => cov i j)) (con : Option (PyV.Con.Spec ℝ)) (c : PyV.Con.Spec ℝ)
    (hin : InForce w con c) (hb : ∃ M, ∀ x : Fin N → ℝ, Satisfies c x → ∀ i, |x i| ≤ M) (hne : ∃ x : Fin N → ℝ, Satisfies c x) (hlim : Limited N c)
    (costs : Option Costs) (w0 imp prop : Option (Fin N → ℝ)) (htr : Trading w costs w0 imp prop)
    (himp : ∀ l, imp = some l → ∀ i, 0 ≤ l i) (num : ℕ) :
    ∃ F : AnyFrontier N, w.varianceFrontier s1 argsort num con costs = .ok F ∧ 0 < F.M ∧ ∀ j : Fin F.M,
      ∃ r, w.minVarianceAtReturn s2 (F.f.returns j) con costs = .ok r ∧ F.f.returns j ≤ r.ret ∧
        (w0 = none ∨ imp = none → r.risk = F.f.risks j) ∧
        ((∀ x : Fin N → ℝ, x ≠ 0 → 0 < quad (fun i j => cov i j) x) →
          (∀ i, r.w i = F.f.weights i j) ∧ r.ret = F.f.returns j ∧ r.risk = F.f.risks j) := by
  obtain ⟨cols, f, h1, h2, h3⟩ := C105_variance_frontier_partial hs1 hc1 argsort w mu cov hmu hcov hlog hpsd con c hin hb hne hlim costs w0 imp prop htr himp num
  refine ⟨_, h1, List.length_pos_of_ne_nil h2.nonempty, fun j => ?_⟩
  obtain ⟨g1, g2, g3⟩ := h3 j
  have hmem : cols.get j ∈ cols := List.get_mem _ _
  have hsat : Satisfies c (cols.get j) := h2.inside _ hmem
  obtain ⟨r, e, b1, b2, b3, b4, b5⟩ := (C107_min_variance_at_return hs2 hc2 w mu cov hmu hcov hlog hpsd con c hin hb costs w0 imp prop htr himp
    (f.returns j)).1 ⟨cols.get j, hsat, g2.le⟩
  have hre : ret mu (cols.get j) ≤ ret mu r.w := by rw [← g2, ← b3]; exact b2
  have heff := h2.efficient _ hmem r.w b1 hre
  have hopt := b5 _ hsat g2.le
  refine ⟨r, e, b2, fun hno => ?_, fun hpd => ?_⟩
  · have hz : ∀ x, varianceCost (fun i j => cov i j) w0 imp x = quad (fun i j => cov i j) x := by
      intro x
      rcases hno with h | h <;> subst h <;> simp [varianceCost]
    rw [hz, hz] at heff hopt
    rw [b4]
    show _ = f.risks j
    rw [g3, le_antisymm heff hopt]
  · obtain ⟨u, -, hall⟩ := user_spec hin
    have huq := unique_min hpd w0 imp himp u mu
    have hset : {x | Allowed u x} = {x : Fin N → ℝ | Satisfies c x} := Set.ext hall
    rw [hset] at huq
    have hw : r.w = cols.get j := huq (ret mu (cols.get j)) _ b1 _ hsat hre le_rfl (fun x hx ht => b5 x hx (by rw [g2]; exact ht))
      (fun x hx ht => h2.efficient _ hmem x hx ht)
    refine ⟨fun i => by rw [hw]; exact (g1 i).symm, ?_, ?_⟩
    · rw [b3, hw]; exact g2.symm
    · rw [b4, hw]; exact g3.symm

/-- **C213** (CVaR) The same for CVaR frontiers on scenarios without trading costs: `min_cvar_at_return` at the return of a portfolio of the frontier reports
its CVaR. -/
theorem C213_cvar {s1 s2 : Opt.Solver} (hs1 : Sound s1) (hc1 : Complete s1) (hs2 : Sound s2) (hc2 : Complete s2) (a1 a2 : Argsort)
    (ha1 : ∀ T, IsArgsort (a1 T)) (ha2 : ∀ T, IsArgsort (a2 T)) (sim : Sim)
    (w : Wrapper N) (s : Scen N) (hscen : w.scen = some s) (hp : IsProb s.p) (hmu : w.mu = none ∨ w.mu = some (scenMean s)) (hlog : w.isLog = false)
    (con : Option (PyV.Con.Spec ℝ)) (c : PyV.Con.Spec ℝ) (hin : InForce w con c) (hb : ∃ B, ∀ x : Fin N → ℝ, Satisfies c x → ∀ i, |x i| ≤ B)
    (hne : ∃ x : Fin N → ℝ, Satisfies c x)
    (htr : Trading w none none none none) (alpha : ℝ) (h0 : 0 < alpha) (h1 : alpha < 1) (seed seed' : Option ℤ) (num : ℕ) :
    ∃ F : AnyFrontier N, w.cvarFrontier s1 a1 sim num alpha seed con none false = .ok F ∧ 0 < F.M ∧ ∀ j : Fin F.M,
      ∃ r, w.minCvarAtReturn s2 a2 sim (F.f.returns j) alpha seed' con none = .ok r ∧ F.f.returns j ≤ r.ret ∧ r.risk = F.f.risks j := by
  have hm' : w.mu.getD (scenMean s) = scenMean s := by rcases hmu with h | h <;> rw [h] <;> rfl
  obtain ⟨cvar, cols, f, σ, hcv, hok, hfr, hw, hret, hmono, -, hrisk, -⟩ := C114_cvar_frontier hs1 hc1 a1 ha1 sim w s hscen hp
    hlog con c hin hb hne none none none none htr (by simp) alpha h0 h1 seed num false
  have hz : turnoverCost cvar none none = cvar := by funext x; simp [turnoverCost]
  rw [hz] at hfr
  rw [hm'] at hret
  refine ⟨_, hok, List.length_pos_of_ne_nil hfr.nonempty, fun j => ?_⟩
  have hmem : cols.get (σ j) ∈ cols := List.get_mem _ _
  have hsat : Satisfies c (cols.get (σ j)) := hfr.inside _ hmem
  obtain ⟨r, e, b1, b2, b3, b4, v, hv, hrv, b5⟩ := (C109_min_cvar_at_return_partial hs2 hc2 a2 ha2 sim w s hscen hp hlog con c hin hb none none none none htr
    (by simp) (f.returns j) alpha h0 h1 seed').1 ⟨cols.get (σ j), hsat, (hret j).le⟩
  simp only [turnoverCost, Option.getD_none, Pi.zero_apply, zero_mul, Finset.sum_const_zero, add_zero] at b5
  refine ⟨r, e, b4 hmu, ?_⟩
  have i1 := b5 _ _ hsat (hret j).le (hcv _)
  have i2 := hfr.efficient _ hmem r.w b1 (by rw [← hret]; exact b2)
  rw [← cvar_unique hv (hcv _)] at i2
  rw [hrv]
  show |v| = f.risks j
  rw [hrisk rfl, le_antisymm i1 i2]

/-- CVaR at a deeper tail is not smaller. -/
theorem cvar_deeper {T : ℕ} {p X : Fin T → ℝ} (hp : IsProb p) {a a' v v' : ℝ} (h0 : 0 < a') (h : a' ≤ a) (hv : IsCvar p X (1 - a) v)
    (hv' : IsCvar p X (1 - a') v') : v ≤ v' := by
  obtain ⟨⟨z, hz⟩, -⟩ := hv'
  have := hv.2 ⟨z, rfl⟩
  refine this.trans (le_trans ?_ hz.le)
  unfold ru expect
  have hE : 0 ≤ ∑ t, p t * max (-(X t) - z) 0 := Finset.sum_nonneg fun t _ => mul_nonneg (hp.1 t) (le_max_right _ _)
  beta_reduce
  revert hE
  generalize ∑ t, p t * max (-(X t) - z) 0 = E
  intro hE
  have e1 : (1 : ℝ) - (1 - a) = a := by ring
  have e2 : (1 : ℝ) - (1 - a') = a' := by ring
  rw [e1, e2]
  have := div_le_div_of_nonneg_left hE h0 h
  linarith

/-- CVaR is at least the expected loss. -/
theorem cvar_expected_loss {T : ℕ} {p X : Fin T → ℝ} (hp : IsProb p) {a v : ℝ} (h0 : 0 < a) (h1 : a ≤ 1) (hv : IsCvar p X (1 - a) v) :
    -(∑ t, p t * X t) ≤ v := by
  obtain ⟨⟨z, hz⟩, -⟩ := hv
  rw [← hz]
  unfold ru expect
  beta_reduce
  have h3 : -(∑ t, p t * X t) - z ≤ ∑ t, p t * max (-(X t) - z) 0 := by
    have : -(∑ t, p t * X t) - z = ∑ t, p t * (-(X t) - z) := by
      simp only [mul_sub, mul_neg, Finset.sum_sub_distrib, Finset.sum_neg_distrib, ← Finset.sum_mul, hp.2, one_mul]
    rw [this]
    exact Finset.sum_le_sum fun t _ => mul_le_mul_of_nonneg_left (le_max_left _ _) (hp.1 t)
  have hE : 0 ≤ ∑ t, p t * max (-(X t) - z) 0 := Finset.sum_nonneg fun t _ => mul_nonneg (hp.1 t) (le_max_right _ _)
  revert hE h3
  generalize ∑ t, p t * max (-(X t) - z) 0 = E
  intro h3 hE
  have e1 : (1 : ℝ) - (1 - a) = a := by ring
  rw [e1]
  have : E ≤ E / a := by
    rw [le_div_iff₀ h0]
    nlinarith
  linarith

/-- **C214** A smaller tail probability never lowers the best attainable CVaR at a target return, and no tail's CVaR is below the expected loss of its portfolio;
whether a portfolio exists does not depend on the tail. -/
theorem C214_deeper_tails {s1 s2 : Opt.Solver} (hs1 : Sound s1) (hc1 : Complete s1) (hs2 : Sound s2) (hc2 : Complete s2) (a1 a2 : Argsort)
    (ha1 : ∀ T, IsArgsort (a1 T)) (ha2 : ∀ T, IsArgsort (a2 T)) (sim : Sim)
    (w : Wrapper N) (s : Scen N) (hscen : w.scen = some s) (hp : IsProb s.p) (hlog : w.isLog = false)
    (con : Option (PyV.Con.Spec ℝ)) (c : PyV.Con.Spec ℝ) (hin : InForce w con c) (hb : ∃ B, ∀ x : Fin N → ℝ, Satisfies c x → ∀ i, |x i| ≤ B)
    (htr : Trading w none none none none) (target alpha alpha' : ℝ) (h0 : 0 < alpha') (hle : alpha' ≤ alpha) (h1 : alpha < 1) (seed seed' : Option ℤ) :
    (∃ r r' v v', w.minCvarAtReturn s1 a1 sim target alpha seed con none = .ok r ∧ w.minCvarAtReturn s2 a2 sim target alpha' seed' con none = .ok r' ∧
      IsCvar s.p (pnl s r.w) (1 - alpha) v ∧ IsCvar s.p (pnl s r'.w) (1 - alpha') v' ∧ r.risk = |v| ∧ r'.risk = |v'| ∧ v ≤ v' ∧
      -(ret (scenMean s) r.w) ≤ v) ∨
    (w.minCvarAtReturn s1 a1 sim target alpha seed con none = .error .infeasible ∧
      w.minCvarAtReturn s2 a2 sim target alpha' seed' con none = .error .infeasible) := by
  have ha : 0 < alpha := h0.trans_le hle
  obtain ⟨k1, k1'⟩ := C109_min_cvar_at_return_partial hs1 hc1 a1 ha1 sim w s hscen hp hlog con c hin hb none none none none htr (by simp)
    target alpha ha h1 seed
  obtain ⟨k2, k2'⟩ := C109_min_cvar_at_return_partial hs2 hc2 a2 ha2 sim w s hscen hp hlog con c hin hb none none none none htr (by simp)
    target alpha' h0 (hle.trans_lt h1) seed'
  by_cases hex : ∃ x : Fin N → ℝ, Satisfies c x ∧ target ≤ ret (scenMean s) x
  · left
    obtain ⟨r, e, b1, b2, -, -, v, hv, hrv, hmin⟩ := k1 hex
    obtain ⟨r', e', d1, d2, -, -, v', hv', hrv', -⟩ := k2 hex
    simp only [turnoverCost, Option.getD_none, Pi.zero_apply, zero_mul, Finset.sum_const_zero, add_zero] at hmin
    obtain ⟨cvar, -, -, -, hcv, -⟩ := C114_cvar_frontier hs1 hc1 a1 ha1 sim w s hscen hp hlog con c hin hb (by obtain ⟨x, hx, -⟩ := hex; exact ⟨x, hx⟩)
      none none none none htr (by simp) alpha ha h1 seed 1 false
    refine ⟨r, r', v, v', e, e', hv, hv', hrv, hrv', (hmin _ _ d1 d2 (hcv r'.w)).trans (cvar_deeper hp h0 hle (hcv r'.w) hv'), ?_⟩
    have := cvar_expected_loss hp ha h1.le hv
    have hs : ∑ t, s.p t * pnl s r.w t = ret (scenMean s) r.w := by
      unfold ret scenMean pnl
      simp only [Finset.mul_sum, Finset.sum_mul]
      rw [Finset.sum_comm]
      exact Finset.sum_congr rfl fun i _ => Finset.sum_congr rfl fun t _ => by ring
    rwa [hs] at this
  · right
    push Not at hex
    exact ⟨k1' hex, k2' hex⟩

private theorem grid_refine (a r : ℝ) {n m : ℕ} (hn : 0 < n) (hm : 0 < m) (k : ℕ) :
    a + ((m * k : ℕ) : ℝ) * ((r - a) / (((m * n + 1 : ℕ) : ℝ) - 1)) = a + (k : ℝ) * ((r - a) / (((n + 1 : ℕ) : ℝ) - 1)) := by
  have hn' : (n : ℝ) ≠ 0 := by exact_mod_cast hn.ne'
  have hm' : (m : ℝ) ≠ 0 := by exact_mod_cast hm.ne'
  push_cast
  rw [add_sub_cancel_right, add_sub_cancel_right, show (m : ℝ) * k * ((r - a) / (m * n)) = k * ((r - a) / n) by field_simp]

/-- Every `m`-th column of the finer of two frontiers has the risk of the corresponding column of the coarser, if they start at the same return. -/
theorem frontier_refine_risk {allowed : Set (Fin N → ℝ)} {rt risk : (Fin N → ℝ) → ℝ} {n m : ℕ} (hm : 0 < m) {c d : List (Fin N → ℝ)}
    (h1 : IsFrontier allowed rt risk (n + 1) c) (h2 : IsFrontier allowed rt risk (m * n + 1) d) {r : ℝ} (hr : IsGreatest (rt '' allowed) r)
    (hhead : ∀ u v, c.head? = some u → d.head? = some v → rt u = rt v) (k : ℕ) (hk : k < c.length) :
    ∃ hk' : m * k < d.length, risk (c.get ⟨k, hk⟩) = risk (d.get ⟨m * k, hk'⟩) ∧ ∃ t, t ≤ rt (c.get ⟨k, hk⟩) ∧ t ≤ rt (d.get ⟨m * k, hk'⟩) ∧
      (∀ x ∈ allowed, t ≤ rt x → risk (c.get ⟨k, hk⟩) ≤ risk x) ∧ (∀ x ∈ allowed, t ≤ rt x → risk (d.get ⟨m * k, hk'⟩) ≤ risk x) := by
  obtain ⟨v, c', rfl⟩ := List.exists_cons_of_ne_nil h1.nonempty
  obtain ⟨v', d', rfl⟩ := List.exists_cons_of_ne_nil h2.nonempty
  have hv := hhead v v' rfl rfl
  rcases Nat.eq_zero_or_pos k with rfl | hk0
  · refine ⟨by simp, ?_⟩
    have f1 := h1.first v rfl
    have f2 := h2.first v' rfl
    have hi := h1.inside v (by simp)
    have hi' := h2.inside v' (by simp)
    simp only [mul_zero, List.get_eq_getElem, List.getElem_cons_zero]
    exact ⟨le_antisymm (f1 _ hi') (f2 _ hi), rt v, le_rfl, hv.le, fun x hx _ => f1 x hx, fun x hx _ => f2 x hx⟩
  · have hl : 1 < (v :: c').length := by omega
    have hcl : (v :: c').length = n + 1 := by
      rcases h1.len with h | h
      · exact h
      · omega
    have hn : 0 < n := by omega
    have hdl : (v' :: d').length = m * n + 1 := by
      rcases h2.len with h | ⟨-, h | h⟩
      · exact h
      · omega
      · have := h1.flat v rfl r hr (by rw [hv]; exact h v' rfl r hr)
        omega
    have hmn : 0 < m * n := Nat.mul_pos hm hn
    have hkn : k ≤ n := by omega
    have hk' : m * k < (v' :: d').length := by
      rw [hdl]
      exact Nat.lt_succ_of_le (Nat.mul_le_mul_left m hkn)
    have hl' : 1 < (v' :: d').length := by omega
    refine ⟨hk', ?_⟩
    have e1 := List.getElem?_eq_getElem hk
    have e2 := List.getElem?_eq_getElem hk'
    have hgrid : rt v' + ((m * k : ℕ) : ℝ) * ((r - rt v') / (((m * n + 1 : ℕ) : ℝ) - 1)) = rt v + (k : ℝ) * ((r - rt v) / (((n + 1 : ℕ) : ℝ) - 1)) := by
      rw [hv]
      exact grid_refine _ r hn hm k
    have g1 := h1.grid k _ e1 v rfl r hr hl
    have g2 := h2.grid (m * k) _ e2 v' rfl r hr hl'
    have l1 := h1.least k _ e1 v rfl r hr hl
    have l2 := h2.least (m * k) _ e2 v' rfl r hr hl'
    rw [hgrid] at g2 l2
    have i1 := h1.inside _ (List.getElem_mem hk)
    have i2 := h2.inside _ (List.getElem_mem hk')
    exact ⟨le_antisymm (l1 _ i2 g2) (l2 _ i1 g1), _, g1, g2, l1, l2⟩

/-- **C218** (variance) A finer variance frontier passes through the portfolios of the coarser one: with `n + 1` and `m * n + 1` portfolios asked for, every
`m`-th portfolio of the finer frontier is the corresponding one of the coarser (covariance positive definite). -/
theorem C218_variance {s1 s2 : Opt.Solver} (hs1 : Sound s1) (hc1 : Complete s1) (hs2 : Sound s2) (hc2 : Complete s2) (a1 a2 : Argsort)
    (w : Wrapper N) (mu : Fin N → ℝ) (cov : Matrix (Fin N) (Fin N) ℝ) (hmu : w.mu = some mu) (hcov : w.cov = some cov)
    (hlog : w.isLog = false) (hpsd : IsCov (fun i j => cov i j)) (hpd : ∀ x : Fin N → ℝ, x ≠ 0 → 0 < quad (fun i j => cov i j) x)
    (con : Option (PyV.Con.Spec ℝ)) (c : PyV.Con.Spec ℝ)
    (hin : InForce w con c) (hb : ∃ M, ∀ x : Fin N → ℝ, Satisfies c x → ∀ i, |x i| ≤ M) (hne : ∃ x : Fin N → ℝ, Satisfies c x) (hlim : Limited N c)
    (costs : Option Costs) (w0 imp prop : Option (Fin N → ℝ)) (htr : Trading w costs w0 imp prop)
    (himp : ∀ l, imp = some l → ∀ i, 0 ≤ l i) (n m : ℕ) (hm : 0 < m) :
    ∃ F F', w.varianceFrontier s1 a1 (n + 1) con costs = .ok F ∧ w.varianceFrontier s2 a2 (m * n + 1) con costs = .ok F' ∧ 0 < F.M ∧
      ∀ k : Fin F.M, (listing F')[m * k]? = (listing F)[(k : ℕ)]? := by
  obtain ⟨cols, f, h1, h2, h3⟩ := C105_variance_frontier_partial hs1 hc1 a1 w mu cov hmu hcov hlog hpsd con c hin hb hne hlim costs w0 imp prop htr himp (n + 1)
  obtain ⟨cols', f', h1', h2', h3'⟩ := C105_variance_frontier_partial hs2 hc2 a2 w mu cov hmu hcov hlog hpsd con c hin hb hne hlim costs w0 imp prop htr himp (m * n + 1)
  refine ⟨_, _, h1, h1', List.length_pos_of_ne_nil h2.nonempty, fun k => ?_⟩
  obtain ⟨u, -, hall⟩ := user_spec hin
  have hset : {x | Allowed u x} = {x : Fin N → ℝ | Satisfies c x} := Set.ext hall
  obtain ⟨r, hr⟩ := greatest_return (u := u) (by obtain ⟨M, hM⟩ := hb; exact ⟨M, fun x hx => hM x ((hall x).1 hx)⟩)
    (by obtain ⟨x, hx⟩ := hne; exact ⟨x, (hall x).2 hx⟩) mu
  have huq := unique_min hpd w0 imp himp u mu
  rw [hset] at huq hr
  have hk : (k : ℕ) < cols.length := k.2
  obtain ⟨hk', -, t, t1, t2, l1, l2⟩ := frontier_refine_risk hm h2 h2' hr (fun a b hu hv => by
    have i1 := h2.inside a (List.mem_of_mem_head? hu)
    have i2 := h2'.inside b (List.mem_of_mem_head? hv)
    rw [huq (min (ret mu a) (ret mu b)) a i1 b i2 (min_le_left _ _) (min_le_right _ _) (fun x hx _ => h2.first a hu x hx) (fun x hx _ => h2'.first b hv x hx)])
    k hk
  have heq := huq t _ (h2.inside _ (List.get_mem _ _)) _ (h2'.inside _ (List.get_mem _ _)) t1 t2 l1 l2
  rw [listing_eq h3, listing_eq h3', List.getElem?_map, List.getElem?_map, List.getElem?_eq_getElem hk, List.getElem?_eq_getElem hk']
  simp only [List.get_eq_getElem] at heq
  rw [heq]

/-- **C218** (CVaR) The same for the returns and CVaRs of CVaR frontiers on scenarios without trading costs, whenever the portfolios of least CVaR agree on their
return. -/
theorem C218_cvar {s1 s2 : Opt.Solver} (hs1 : Sound s1) (hc1 : Complete s1) (hs2 : Sound s2) (hc2 : Complete s2) (a1 a2 : Argsort)
    (ha1 : ∀ T, IsArgsort (a1 T)) (ha2 : ∀ T, IsArgsort (a2 T)) (sim : Sim)
    (w : Wrapper N) (s : Scen N) (hscen : w.scen = some s) (hp : IsProb s.p) (hmu : w.mu = none ∨ w.mu = some (scenMean s)) (hlog : w.isLog = false)
    (con : Option (PyV.Con.Spec ℝ)) (c : PyV.Con.Spec ℝ) (hin : InForce w con c) (hb : ∃ B, ∀ x : Fin N → ℝ, Satisfies c x → ∀ i, |x i| ≤ B)
    (hne : ∃ x : Fin N → ℝ, Satisfies c x)
    (htr : Trading w none none none none) (alpha : ℝ) (h0 : 0 < alpha) (h1 : alpha < 1) (seed seed' : Option ℤ) (n m : ℕ) (hm : 0 < m)
    (huniq : ∀ x y v, Satisfies c x → Satisfies c y → IsCvar s.p (pnl s x) (1 - alpha) v → IsCvar s.p (pnl s y) (1 - alpha) v →
      (∀ z vz, Satisfies c z → IsCvar s.p (pnl s z) (1 - alpha) vz → v ≤ vz) → ret (scenMean s) x = ret (scenMean s) y) :
    ∃ F F', w.cvarFrontier s1 a1 sim (n + 1) alpha seed con none false = .ok F ∧ w.cvarFrontier s2 a2 sim (m * n + 1) alpha seed' con none false = .ok F' ∧
      0 < F.M ∧ ∀ k : Fin F.M, ∃ k' : Fin F'.M, (k' : ℕ) = m * k ∧ F'.f.risks k' = F.f.risks k ∧ F'.f.returns k' = F.f.returns k := by
  have hm' : w.mu.getD (scenMean s) = scenMean s := by rcases hmu with h | h <;> rw [h] <;> rfl
  obtain ⟨cvar, cols, f, σ, hcv, hok, hfr, -, hret, hmono, -, hrisk, -⟩ := C114_cvar_frontier hs1 hc1 a1 ha1 sim w s hscen hp
    hlog con c hin hb hne none none none none htr (by simp) alpha h0 h1 seed (n + 1) false
  obtain ⟨cvar', cols', f', σ', hcv', hok', hfr', -, hret', hmono', -, hrisk', -⟩ := C114_cvar_frontier hs2 hc2 a2 ha2 sim w s hscen hp
    hlog con c hin hb hne none none none none htr (by simp) alpha h0 h1 seed' (m * n + 1) false
  have hcc : cvar' = cvar := funext fun x => cvar_unique (hcv' x) (hcv x)
  subst hcc
  have hz : turnoverCost cvar' none none = cvar' := by funext x; simp [turnoverCost]
  rw [hz] at hfr hfr'
  rw [hm'] at hret hret'
  have hmin : ∀ u ∈ {x : Fin N → ℝ | Satisfies c x}, ∀ v ∈ {x : Fin N → ℝ | Satisfies c x}, (∀ x ∈ {x : Fin N → ℝ | Satisfies c x}, cvar' u ≤ cvar' x) →
      (∀ x ∈ {x : Fin N → ℝ | Satisfies c x}, cvar' v ≤ cvar' x) → ret (scenMean s) u = ret (scenMean s) v := by
    intro u hu v hv hu' hv'
    have he : cvar' u = cvar' v := le_antisymm (hu' v hv) (hv' u hu)
    exact huniq u v (cvar' u) hu hv (hcv u) (he ▸ hcv v) (fun z vz hz' hvz => by rw [cvar_unique hvz (hcv z)]; exact hu' z hz')
  obtain ⟨u, -, hall⟩ := user_spec hin
  have hset : {x | Allowed u x} = {x : Fin N → ℝ | Satisfies c x} := Set.ext hall
  obtain ⟨r, hr⟩ := greatest_return (u := u) (by obtain ⟨M, hM⟩ := hb; exact ⟨M, fun x hx => hM x ((hall x).1 hx)⟩)
    (by obtain ⟨x, hx⟩ := hne; exact ⟨x, (hall x).2 hx⟩) (scenMean s)
  rw [hset] at hr
  have hc0 : 0 < cols.length := List.length_pos_of_ne_nil hfr.nonempty
  have hd0 : 0 < cols'.length := List.length_pos_of_ne_nil hfr'.nonempty
  have hhead : ∀ a b, cols.head? = some a → cols'.head? = some b → ret (scenMean s) a = ret (scenMean s) b := fun a b hu hv =>
    hmin a (hfr.inside a (List.mem_of_mem_head? hu)) b (hfr'.inside b (List.mem_of_mem_head? hv)) (hfr.first a hu) (hfr'.first b hv)
  have h00 : ret (scenMean s) (cols.get ⟨0, hc0⟩) = ret (scenMean s) (cols'.get ⟨0, hd0⟩) :=
    hhead _ _ (by rw [List.head?_eq_getElem?, List.getElem?_eq_getElem hc0]; rfl) (by rw [List.head?_eq_getElem?, List.getElem?_eq_getElem hd0]; rfl)
  have hsp : ∀ {num : ℕ} {e : List (Fin N → ℝ)}, IsFrontier {x : Fin N → ℝ | Satisfies c x} (ret (scenMean s)) cvar' num e →
      ∀ (hl : 1 < e.length) (j : Fin e.length), ret (scenMean s) (e.get j) =
        ret (scenMean s) (e.get ⟨0, by omega⟩) + j * ((r - ret (scenMean s) (e.get ⟨0, by omega⟩)) / (e.length - 1)) :=
    fun he hl j => frontier_spacing he hr (fun θ h0 h1 u hu v hv => satisfies_mix hin h0 h1 hu hv)
      (fun θ t0 t1 u v => cvar_mix hp h0 t0 t1 (hcv u) (hcv v) (hcv _)) hmin hl j
  have hmonoc : ∀ {num : ℕ} {e : List (Fin N → ℝ)}, IsFrontier {x : Fin N → ℝ | Satisfies c x} (ret (scenMean s)) cvar' num e →
      Monotone fun j => ret (scenMean s) (e.get j) := by
    intro num e he
    have hpos : 0 < e.length := List.length_pos_of_ne_nil he.nonempty
    rcases Nat.lt_or_ge 1 e.length with hl | hl
    · intro a b hab
      simp only
      rw [hsp he hl a, hsp he hl b]
      have hle : ret (scenMean s) (e.get ⟨0, hpos⟩) ≤ r := hr.2 ⟨_, he.inside _ (List.get_mem _ _), rfl⟩
      have hM : (1 : ℝ) < (e.length : ℝ) := by exact_mod_cast hl
      have hab' : (a : ℝ) ≤ (b : ℝ) := by exact_mod_cast hab
      have := mul_le_mul_of_nonneg_right hab' (div_nonneg (sub_nonneg.2 hle) (by linarith : (0 : ℝ) ≤ e.length - 1))
      linarith
    · intro a b _
      have : a = b := Fin.ext (by omega)
      rw [this]
  refine ⟨_, _, hok, hok', hc0, fun k => ?_⟩
  have hk : (k : ℕ) < cols.length := k.2
  obtain ⟨hk', hrk, -⟩ := frontier_refine_risk hm hfr hfr' hr hhead k hk
  refine ⟨⟨m * k, hk'⟩, rfl, ?_, ?_⟩
  · show f'.risks ⟨m * k, hk'⟩ = f.risks ⟨k, hk⟩
    rw [hrisk' rfl, hrisk rfl, frontier_sorted hfr (fun a b hab => by have := hmono hab; rwa [hret, hret] at this),
      frontier_sorted hfr' (fun a b hab => by have := hmono' hab; rwa [hret', hret'] at this), hrk]
  · show f'.returns ⟨m * k, hk'⟩ = f.returns ⟨k, hk⟩
    rw [returns_sorted hret hmono (hmonoc hfr), returns_sorted hret' hmono' (hmonoc hfr')]
    rcases Nat.eq_zero_or_pos (k : ℕ) with h | h
    · have e1 : (⟨m * k, hk'⟩ : Fin cols'.length) = ⟨0, hd0⟩ := Fin.ext (by simp [h])
      have e2 : (⟨k, hk⟩ : Fin cols.length) = ⟨0, hc0⟩ := Fin.ext h
      rw [e1, e2, h00]
    · have hl : 1 < cols.length := by omega
      have hmk : 0 < m * k := Nat.mul_pos hm h
      have hl' : 1 < cols'.length := by omega
      rw [hsp hfr hl, hsp hfr' hl', h00]
      have c1 : cols.length = n + 1 := by rcases hfr.len with h | h <;> omega
      have c2 : cols'.length = m * n + 1 := by rcases hfr'.len with h | h <;> omega
      have hn : 0 < n := by omega
      have d1 : (cols.length : ℝ) = ((n + 1 : ℕ) : ℝ) := congrArg Nat.cast c1
      have d2 : (cols'.length : ℝ) = ((m * n + 1 : ℕ) : ℝ) := congrArg Nat.cast c2
      simp only [d1, d2]
      exact grid_refine _ r hn hm k

private theorem diag_quad (x : Fin 2 → ℝ) : quad (fun i j => (!![1, 0; 0, 2] : Matrix (Fin 2) (Fin 2) ℝ) i j) x = x 0 ^ 2 + 2 * x 1 ^ 2 := by
  simp [quad, Fin.sum_univ_two]
  ring

private theorem diag_cov : IsCov (fun i j => (!![1, 0; 0, 2] : Matrix (Fin 2) (Fin 2) ℝ) i j) :=
  ⟨by intro i j; fin_cases i <;> fin_cases j <;> simp, fun x => by
    show 0 ≤ quad _ x
    rw [diag_quad]; positivity⟩

private theorem diag_pd (x : Fin 2 → ℝ) (hx : x ≠ 0) : 0 < quad (fun i j => (!![1, 0; 0, 2] : Matrix (Fin 2) (Fin 2) ℝ) i j) x := by
  rw [diag_quad]
  by_contra hle
  have h0 : x 0 = 0 := by nlinarith [sq_nonneg (x 0), sq_nonneg (x 1)]
  have h1 : x 1 = 0 := by nlinarith [sq_nonneg (x 0), sq_nonneg (x 1)]
  exact hx (funext fun i => by fin_cases i <;> simp [h0, h1])

private theorem some_holding : ∃ x : Fin 2 → ℝ, Satisfies (PyV.Con.defaultSpec : PyV.Con.Spec ℝ) x :=
  ⟨![1, 0], by rw [satisfies_default]; simp [Fin.sum_univ_two, Fin.forall_fin_two]⟩

/-- The hypotheses of C213 and C218 (variance) hold: two assets, positive definite covariance, default constraints. -/
example : ∃ (w : Wrapper 2) (solver : Opt.Solver), Sound solver ∧ Complete solver ∧ ∃ F F',
    w.varianceFrontier solver (fun _ _ => Equiv.refl _) 3 none none = .ok F ∧ w.varianceFrontier solver (fun _ _ => Equiv.refl _) 5 none none = .ok F' ∧
      (∀ k : Fin F.M, (listing F')[2 * (k : ℕ)]? = (listing F)[(k : ℕ)]?) ∧
      ∀ j : Fin F.M, ∃ r, w.minVarianceAtReturn solver (F.f.returns j) none none = .ok r ∧ ∀ i, r.w i = F.f.weights i j := by
  obtain ⟨solver, h1, h2⟩ := exists_solver
  obtain ⟨w, hmu, hcov, -, hlog, -, hin, htr⟩ := exists_wrapper (N := 2) (by norm_num) (some ![1 / 10, 1 / 50]) (some !![1, 0; 0, 2]) none false
  obtain ⟨F, F', a, b, -, c⟩ := C218_variance h1 h2 h1 h2 (fun _ _ => Equiv.refl _) (fun _ _ => Equiv.refl _) w _ _ hmu hcov hlog diag_cov diag_pd none _ hin
    default_bounded some_holding (limited_default (by norm_num)) none none none none htr (by simp) 2 2 (by norm_num)
  obtain ⟨G, a', -, d⟩ := C213_variance h1 h2 h1 h2 (fun _ _ => Equiv.refl _) w _ _ hmu hcov hlog diag_cov none _ hin
    default_bounded some_holding (limited_default (by norm_num)) none none none none htr (by simp) 3
  rw [a] at a'
  injection a' with a'
  subst a'
  refine ⟨w, solver, h1, h2, F, F', a, b, c, fun j => ?_⟩
  obtain ⟨r, e, -, -, h⟩ := d j
  exact ⟨r, e, (h diag_pd).1⟩

/-- The hypotheses of C213, C214 and C218 (CVaR) hold: the two scenarios of `exScen`. -/
example : ∃ (w : Wrapper 2) (solver : Opt.Solver) (argsort : Argsort) (sim : Sim), Sound solver ∧ Complete solver ∧ (∀ T, IsArgsort (argsort T)) ∧ ∃ F F',
    w.cvarFrontier solver argsort sim 3 (1 / 2) none none none false = .ok F ∧ w.cvarFrontier solver argsort sim 5 (1 / 2) none none none false = .ok F' ∧
      (∀ k : Fin F.M, ∃ k' : Fin F'.M, (k' : ℕ) = 2 * k ∧ F'.f.risks k' = F.f.risks k ∧ F'.f.returns k' = F.f.returns k) := by
  obtain ⟨solver, h1, h2⟩ := exists_solver
  obtain ⟨w, hmu, -, hsc, hlog, -, hin, htr⟩ := exists_wrapper (N := 2) (by norm_num) none none (some exScen) false
  have ha : ∀ T, IsArgsort (fun v : Fin T → ℝ => Tuple.sort v) := fun T v => Tuple.monotone_sort v
  obtain ⟨F, F', a, b, -, c⟩ := C218_cvar h1 h2 h1 h2 (fun T v => Tuple.sort v) (fun T v => Tuple.sort v) ha ha (fun _ _ _ _ _ _ _ => 0) w _ hsc exScen_prob (.inl hmu) hlog none _ hin
    default_bounded some_holding htr (1 / 2) (by norm_num) (by norm_num) none none 2 2 (by norm_num) (by
      intro x y v hx hy hvx hvy _
      have e1 := exScen_cvar x hx v hvx
      have e2 := exScen_cvar y hy v hvy
      have s1 := ((satisfies_default x).1 hx).2
      have s2 := ((satisfies_default y).1 hy).2
      rw [Fin.sum_univ_two] at s1 s2
      rw [exScen_ret, exScen_ret]
      linarith)
  exact ⟨w, solver, _, _, h1, h2, ha, F, F', a, b, c⟩

end PyV.Props
