import Verif.Props.FrontierRelax
import Verif.Props.Transfer
import Mathlib.Tactic

/-! # Properties C250–C251: what expected returns matter to -/

namespace PyV.Props

open PyV PyV.Api PyV.Spec.Api PyV.Opt PyV.Spec.Opt PyV.Spec.Con PyV.Risk PyV.Spec

variable {N : ℕ}

private theorem ret_shift (mu : Fin N → ℝ) (k : ℝ) {x : Fin N → ℝ} {t : ℝ} (hx : ∑ i, x i = t) : ret (fun i => mu i + k) x = ret mu x + k * t := by
  unfold ret
  rw [← hx, Finset.mul_sum, ← Finset.sum_add_distrib]
  exact Finset.sum_congr rfl fun i _ => by ring

/-- **C250** (one portfolio) When the constraints fix the total weight `t`, adding `k` to every expected return and `k * t` to the target leaves the
portfolio of `min_variance_at_return` unchanged, whatever the trading costs (positive definite covariance), and its volatility (any covariance). -/
theorem C250_min_variance {s1 s2 : Opt.Solver} (hs1 : Sound s1) (hc1 : Complete s1) (hs2 : Sound s2) (hc2 : Complete s2)
    (w w' : Wrapper N) (mu : Fin N → ℝ) (cov : Matrix (Fin N) (Fin N) ℝ) (k : ℝ)
    (hmu : w.mu = some mu) (hcov : w.cov = some cov) (hlog : w.isLog = false)
    (hmu' : w'.mu = some (fun i => mu i + k)) (hcov' : w'.cov = some cov) (hlog' : w'.isLog = false)
    (hpsd : IsCov (fun i j => cov i j))
    (con con' : Option (PyV.Con.Spec ℝ)) (c : PyV.Con.Spec ℝ) (hin : InForce w con c) (hin' : InForce w' con' c)
    {t : ℝ} (ht : c.totalWeight = some (.fin t))
    (hb : ∃ B, ∀ x : Fin N → ℝ, Satisfies c x → ∀ i, |x i| ≤ B) (costs costs' : Option Costs) (w0 imp prop : Option (Fin N → ℝ))
    (htr : Trading w costs w0 imp prop) (htr' : Trading w' costs' w0 imp prop) (himp : ∀ l, imp = some l → ∀ i, 0 ≤ l i) (target : ℝ) :
    (∃ r r', w.minVarianceAtReturn s1 target con costs = .ok r ∧ w'.minVarianceAtReturn s2 (target + k * t) con' costs' = .ok r' ∧
      varianceCost (fun i j => cov i j) w0 imp r'.w = varianceCost (fun i j => cov i j) w0 imp r.w ∧ (w0 = none → r'.risk = r.risk) ∧
      ((∀ x : Fin N → ℝ, x ≠ 0 → 0 < quad (fun i j => cov i j) x) → r'.w = r.w ∧ r'.ret = r.ret + k * t ∧ r'.risk = r.risk)) ∨
    (w.minVarianceAtReturn s1 target con costs = .error .infeasible ∧ w'.minVarianceAtReturn s2 (target + k * t) con' costs' = .error .infeasible) := by
  obtain ⟨h1, h1'⟩ := C107_min_variance_at_return hs1 hc1 w mu cov hmu hcov hlog hpsd con c hin hb costs w0 imp prop htr himp target
  obtain ⟨h2, h2'⟩ := C107_min_variance_at_return hs2 hc2 w' _ cov hmu' hcov' hlog' hpsd con' c hin' hb costs' w0 imp prop htr' himp (target + k * t)
  have htar : ∀ x, Satisfies c x → (target + k * t ≤ ret (fun i => mu i + k) x ↔ target ≤ ret mu x) := by
    intro x hx; rw [ret_shift mu k (hx.total t ht)]; exact add_le_add_iff_right _
  by_cases hex : ∃ x : Fin N → ℝ, Satisfies c x ∧ target ≤ ret mu x
  · left
    obtain ⟨x, hx1, hx2⟩ := hex
    obtain ⟨r, e, a1, a2, a3, a4, a5⟩ := h1 ⟨x, hx1, hx2⟩
    obtain ⟨r', e', b1, b2, b3, b4, b5⟩ := h2 ⟨x, hx1, (htar x hx1).2 hx2⟩
    have hb2 : target ≤ ret mu r'.w := (htar _ b1).1 (b3 ▸ b2)
    have ha2 : target ≤ ret mu r.w := a3 ▸ a2
    have heq : varianceCost (fun i j => cov i j) w0 imp r'.w = varianceCost (fun i j => cov i j) w0 imp r.w :=
      le_antisymm (b5 _ a1 ((htar _ a1).2 ha2)) (a5 _ b1 hb2)
    refine ⟨r, r', e, e', heq, ?_, ?_⟩
    · rintro rfl
      rw [a4, b4]
      congr 1
      simpa [varianceCost] using heq
    · intro hpd
      obtain ⟨u, -, hall⟩ := user_spec hin
      have huq := unique_min hpd w0 imp himp u mu
      have hset : {x | Allowed u x} = {x : Fin N → ℝ | Satisfies c x} := Set.ext hall
      rw [hset] at huq
      have hw : r'.w = r.w := huq target _ b1 _ a1 hb2 ha2 (fun x hx hxt => b5 x hx ((htar x hx).2 hxt)) a5
      exact ⟨hw, by rw [b3, a3, ret_shift mu k (b1.total t ht), hw], by rw [a4, b4, hw]⟩
  · right
    push Not at hex
    exact ⟨h1' hex, h2' fun x hx => not_le.1 fun h => not_lt.2 ((htar x hx).1 h) (hex x hx)⟩

/-- A constant added to all outcomes is subtracted from the CVaR. -/
theorem isCvar_plus {T : ℕ} {p X : Fin T → ℝ} {conf v : ℝ} (h : IsCvar p X conf v) (k : ℝ) : IsCvar p (fun t => X t + k) conf (v - k) := by
  have hru : ∀ a, ru p (fun t => X t + k) conf (a - k) = ru p X conf a - k := by
    intro a
    unfold ru
    have : (fun t => max (-(X t + k) - (a - k)) 0) = fun t => max (-(X t) - a) 0 := by
      funext t; congr 1; ring
    simp only [this]
    ring
  obtain ⟨⟨a, ha⟩, hl⟩ := h
  refine ⟨⟨a - k, by beta_reduce at ha ⊢; rw [hru, ha]⟩, ?_⟩
  rintro _ ⟨b, rfl⟩
  have := hl ⟨b + k, rfl⟩
  beta_reduce at this ⊢
  have e : b = (b + k) - k := by ring
  rw [e, hru]
  linarith

/-- **C250** (CVaR) When the constraints fix the total weight `t`, adding `k` to every outcome of every scenario and `k * t` to the target lowers the CVaR
of `min_cvar_at_return` by `k * t` (what is reported is its absolute value), and every portfolio that is best for one problem is best for the other. -/
theorem C250_min_cvar {s1 s2 : Opt.Solver} (hs1 : Sound s1) (hc1 : Complete s1) (hs2 : Sound s2) (hc2 : Complete s2) (a1 a2 : Argsort)
    (ha1 : ∀ T, IsArgsort (a1 T)) (ha2 : ∀ T, IsArgsort (a2 T)) (sim sim' : Sim) (w w' : Wrapper N) (s : Scen N) (hp : IsProb s.p) (k : ℝ)
    (hsc : w.scen = some s) (hsc' : w'.scen = some ⟨s.T, fun j i => s.R j i + k, s.p⟩) (hlog : w.isLog = false) (hlog' : w'.isLog = false)
    (con con' : Option (PyV.Con.Spec ℝ)) (c : PyV.Con.Spec ℝ) (hin : InForce w con c) (hin' : InForce w' con' c)
    {t : ℝ} (ht : c.totalWeight = some (.fin t)) (hb : ∃ B, ∀ x : Fin N → ℝ, Satisfies c x → ∀ i, |x i| ≤ B)
    (costs costs' : Option Costs) (w0 imp prop : Option (Fin N → ℝ)) (htr : Trading w costs w0 imp prop) (htr' : Trading w' costs' w0 imp prop)
    (hprop : ∀ l, prop = some l → ∀ i, 0 ≤ l i) (target alpha : ℝ) (h0 : 0 < alpha) (h1 : alpha < 1) (seed seed' : Option ℤ) :
    (∃ r r' v v', w.minCvarAtReturn s1 a1 sim target alpha seed con costs = .ok r ∧
      w'.minCvarAtReturn s2 a2 sim' (target + k * t) alpha seed' con' costs' = .ok r' ∧
      IsCvar s.p (pnl s r.w) (1 - alpha) v ∧ r.risk = |v| ∧ IsCvar s.p (pnl s r'.w) (1 - alpha) v' ∧ r'.risk = |v' - k * t| ∧
      turnoverCost (fun _ => v') w0 prop r'.w = turnoverCost (fun _ => v) w0 prop r.w) ∨
    (w.minCvarAtReturn s1 a1 sim target alpha seed con costs = .error .infeasible ∧
      w'.minCvarAtReturn s2 a2 sim' (target + k * t) alpha seed' con' costs' = .error .infeasible) := by
  set s' : Scen N := ⟨s.T, fun j i => s.R j i + k, s.p⟩ with hs'
  obtain ⟨k1, k1'⟩ := C109_min_cvar_at_return_partial hs1 hc1 a1 ha1 sim w s hsc hp hlog con c hin hb costs w0 imp prop htr hprop target alpha h0 h1 seed
  obtain ⟨k2, k2'⟩ := C109_min_cvar_at_return_partial hs2 hc2 a2 ha2 sim' w' s' hsc' hp hlog' con' c hin' hb costs' w0 imp prop htr' hprop
    (target + k * t) alpha h0 h1 seed'
  have hmean : scenMean s' = fun i => scenMean s i + k := by
    funext i
    show ∑ j, s.p j * (s.R j i + k) = ∑ j, s.p j * s.R j i + k
    simp only [mul_add, Finset.sum_add_distrib, ← Finset.sum_mul, hp.2, one_mul]
  have htar : ∀ x, Satisfies c x → (target + k * t ≤ ret (scenMean s') x ↔ target ≤ ret (scenMean s) x) := by
    intro x hx; rw [hmean, ret_shift _ k (hx.total t ht)]; exact add_le_add_iff_right _
  have hpnl : ∀ x, Satisfies c x → pnl s' x = fun j => pnl s x j + k * t := by
    intro x hx
    funext j
    exact ret_shift (s.R j) k (hx.total t ht)
  have hto : ∀ x, Satisfies c x → ∀ v, IsCvar s.p (pnl s x) (1 - alpha) v → IsCvar s'.p (pnl s' x) (1 - alpha) (v - k * t) := by
    intro x hx v hv
    rw [hpnl x hx]
    exact isCvar_plus hv _
  have hfrom : ∀ x, Satisfies c x → ∀ v, IsCvar s'.p (pnl s' x) (1 - alpha) v → IsCvar s.p (pnl s x) (1 - alpha) (v + k * t) := by
    intro x hx v hv
    rw [hpnl x hx] at hv
    have := isCvar_plus hv (-(k * t))
    simpa using this
  by_cases hex : ∃ x : Fin N → ℝ, Satisfies c x ∧ target ≤ ret (scenMean s) x
  · left
    obtain ⟨x, hx1, hx2⟩ := hex
    obtain ⟨r, e, b1, b2, -, -, v, hv, hrv, hmin⟩ := k1 ⟨x, hx1, hx2⟩
    obtain ⟨r', e', d1, d2, -, -, v', hv', hrv', hmin'⟩ := k2 ⟨x, hx1, (htar x hx1).2 hx2⟩
    have i1 := hmin' _ _ b1 ((htar _ b1).2 b2) (hto _ b1 _ hv)
    have i2 := hmin _ _ d1 ((htar _ d1).1 d2) (hfrom _ d1 _ hv')
    refine ⟨r, r', v, v' + k * t, e, e', hv, hrv, hfrom _ d1 _ hv', by rw [add_sub_cancel_right, hrv'], ?_⟩
    unfold turnoverCost at i1 i2 ⊢
    dsimp only at i1 i2 ⊢
    linarith
  · right
    push Not at hex
    exact ⟨k1' hex, k2' fun x hx => not_le.1 fun h => not_lt.2 ((htar x hx).1 h) (hex x hx)⟩

private theorem cols_shift {allowed : Set (Fin N → ℝ)} {rt rt' risk : (Fin N → ℝ) → ℝ} {num : ℕ} {c d : List (Fin N → ℝ)} {k : ℝ}
    (hrt : ∀ x ∈ allowed, rt' x = rt x + k)
    (h1 : IsFrontier allowed rt risk num c) (h2 : IsFrontier allowed rt' risk num d) {r : ℝ} (hr : IsGreatest (rt '' allowed) r)
    (hu : UniqueMin allowed rt risk) (l1 : 1 < c.length) (l2 : 1 < d.length) : c = d := by
  have hr' : IsGreatest (rt' '' allowed) (r + k) := by
    obtain ⟨⟨x, hx, rfl⟩, hmax⟩ := hr
    refine ⟨⟨x, hx, hrt x hx⟩, ?_⟩
    rintro _ ⟨y, hy, rfl⟩
    rw [hrt y hy]
    have := hmax ⟨y, hy, rfl⟩
    linarith
  obtain ⟨v, c', rfl⟩ := List.exists_cons_of_ne_nil h1.nonempty
  obtain ⟨v', d', rfl⟩ := List.exists_cons_of_ne_nil h2.nonempty
  have hv : v = v' := by
    have a1 := h1.first v rfl
    have a2 := h2.first v' rfl
    exact hu (min (rt v) (rt v')) v (h1.inside _ (by simp)) v' (h2.inside _ (by simp)) (min_le_left _ _) (min_le_right _ _)
      (fun x hx _ => a1 x hx) (fun x hx _ => a2 x hx)
  subst hv
  have hlen : (v :: c').length = (v :: d').length := by
    rcases h1.len with h | h
    · rcases h2.len with h' | h'
      · omega
      · omega
    · omega
  apply List.ext_getElem hlen
  intro j hj1 hj2
  have e1 := List.getElem?_eq_getElem hj1
  have e2 := List.getElem?_eq_getElem hj2
  have hg : ∀ x ∈ allowed, (rt' v + j * (((r + k) - rt' v) / (num - 1)) ≤ rt' x ↔ rt v + j * ((r - rt v) / (num - 1)) ≤ rt x) := by
    intro x hx
    rw [hrt v (h1.inside _ (by simp)), hrt x hx]
    have : (r + k) - (rt v + k) = r - rt v := by ring
    rw [this]
    constructor <;> intro h <;> linarith
  exact hu _ _ (h1.inside _ (List.getElem_mem hj1)) _ (h2.inside _ (List.getElem_mem hj2)) (h1.grid j _ e1 v rfl r hr l1)
    ((hg _ (h2.inside _ (List.getElem_mem hj2))).1 (h2.grid j _ e2 v rfl _ hr' l2)) (h1.least j _ e1 v rfl r hr l1)
    (fun x hx hxt => h2.least j _ e2 v rfl _ hr' l2 x hx ((hg x hx).2 hxt))

/-- **C250** (frontier; partial: when neither frontier collapses to a single portfolio — whether it does depends on the level of the returns,
`C250_counterexample`) When the constraints fix the total weight `t`, adding `k` to every expected return leaves the portfolios and volatilities of
`variance_frontier` unchanged and adds `k * t` to the returns. -/
theorem C250_frontier_partial {s1 s2 : Opt.Solver} (hs1 : Sound s1) (hc1 : Complete s1) (hs2 : Sound s2) (hc2 : Complete s2) (a1 a2 : Argsort)
    (w w' : Wrapper N) (mu : Fin N → ℝ) (cov : Matrix (Fin N) (Fin N) ℝ) (k : ℝ)
    (hmu : w.mu = some mu) (hcov : w.cov = some cov) (hlog : w.isLog = false)
    (hmu' : w'.mu = some (fun i => mu i + k)) (hcov' : w'.cov = some cov) (hlog' : w'.isLog = false)
    (hpsd : IsCov (fun i j => cov i j)) (hpd : ∀ x : Fin N → ℝ, x ≠ 0 → 0 < quad (fun i j => cov i j) x)
    (con con' : Option (PyV.Con.Spec ℝ)) (c : PyV.Con.Spec ℝ) (hin : InForce w con c) (hin' : InForce w' con' c)
    {t : ℝ} (ht : c.totalWeight = some (.fin t))
    (hb : ∃ B, ∀ x : Fin N → ℝ, Satisfies c x → ∀ i, |x i| ≤ B) (hne : ∃ x : Fin N → ℝ, Satisfies c x) (hlim : Limited N c)
    (costs costs' : Option Costs) (w0 imp prop : Option (Fin N → ℝ)) (htr : Trading w costs w0 imp prop) (htr' : Trading w' costs' w0 imp prop)
    (himp : ∀ l, imp = some l → ∀ i, 0 ≤ l i) (num : ℕ) :
    ∃ F F', w.varianceFrontier s1 a1 num con costs = .ok F ∧ w'.varianceFrontier s2 a2 num con' costs' = .ok F' ∧
      (1 < F.M → 1 < F'.M → listing F' = (listing F).map (fun p => (p.1, p.2.1 + k * t, p.2.2))) := by
  obtain ⟨cols, f, e1, h1, h3⟩ := C105_variance_frontier_partial hs1 hc1 a1 w mu cov hmu hcov hlog hpsd con c hin hb hne hlim costs w0 imp prop htr himp num
  obtain ⟨cols', f', e1', h1', h3'⟩ := C105_variance_frontier_partial hs2 hc2 a2 w' _ _ hmu' hcov' hlog' hpsd con' c hin' hb hne hlim
    costs' w0 imp prop htr' himp num
  refine ⟨_, _, e1, e1', fun l1 l2 => ?_⟩
  obtain ⟨u, -, hall⟩ := user_spec hin
  have hset : {x | Allowed u x} = {x : Fin N → ℝ | Satisfies c x} := Set.ext hall
  obtain ⟨r, hr⟩ := greatest_return (u := u) (by obtain ⟨M, hM⟩ := hb; exact ⟨M, fun x hx => hM x ((hall x).1 hx)⟩)
    (by obtain ⟨x, hx⟩ := hne; exact ⟨x, (hall x).2 hx⟩) mu
  have huq := unique_min hpd w0 imp himp u mu
  rw [hset] at huq hr
  have heq : cols = cols' := cols_shift (fun x hx => ret_shift mu k (Satisfies.total hx t ht)) h1 h1' hr huq l1 l2
  rw [listing_eq h3, listing_eq h3', ← heq, List.map_map]
  refine List.map_congr_left fun x hx => ?_
  show (x, ret (fun i => mu i + k) x, Real.sqrt (quad _ x)) = (x, ret mu x + k * t, Real.sqrt (quad _ x))
  rw [ret_shift mu k (Satisfies.total (h1.inside x hx) t ht)]

/-- **C250** is false of the code for frontiers: two uncorrelated assets of equal variance with means 0 and 1; adding a million to both means makes the
frontier of two portfolios collapse to one, because `np.isclose` compares the returns relative to their level. -/
theorem C250_counterexample : ∃ w w' : Wrapper 2, w.mu = some ![0, 1] ∧ w'.mu = some (fun i => (![0, 1] : Fin 2 → ℝ) i + 10 ^ 6) ∧
    w.cov = some 1 ∧ w'.cov = some 1 ∧ InForce w none PyV.Con.defaultSpec ∧ InForce w' none PyV.Con.defaultSpec ∧
    ∀ (solver : Opt.Solver) (argsort : Argsort), Sound solver → Complete solver →
      ∃ F F', w.varianceFrontier solver argsort 2 none none = .ok F ∧ w'.varianceFrontier solver argsort 2 none none = .ok F' ∧ F.M = 2 ∧ F'.M = 1 := by
  obtain ⟨w, hmu, hcov, -, hlog, -, hin, htr⟩ := exists_wrapper (N := 2) (by norm_num) (some ![0, 1]) (some 1) none false
  obtain ⟨w', hmu', hcov', -, hlog', -, hin', htr'⟩ := exists_wrapper (N := 2) (by norm_num)
    (some (fun i => (![0, 1] : Fin 2 → ℝ) i + 10 ^ 6)) (some 1) none false
  refine ⟨w, w', hmu, hmu', hcov, hcov', hin, hin', fun solver argsort hs hc => ?_⟩
  have hq : ∀ x : Fin 2 → ℝ, quad (fun i j => (1 : Matrix (Fin 2) (Fin 2) ℝ) i j) x = x 0 ^ 2 + x 1 ^ 2 := by
    intro x
    simp [quad, Fin.sum_univ_two]
    ring
  have hI : IsCov (fun i j => (1 : Matrix (Fin 2) (Fin 2) ℝ) i j) := by
    refine ⟨fun i j => by fin_cases i <;> fin_cases j <;> simp, fun x => ?_⟩
    show 0 ≤ quad _ x
    rw [hq]; positivity
  have hex : ∃ x : Fin 2 → ℝ, Satisfies (PyV.Con.defaultSpec : PyV.Con.Spec ℝ) x :=
    ⟨![1, 0], (satisfies_default _).2 ⟨by intro i; fin_cases i <;> simp, by simp⟩⟩
  obtain ⟨cols, f, e1, h1, -⟩ := C105_variance_frontier_partial hs hc argsort w _ _ hmu hcov hlog hI none _ hin default_bounded hex (limited_default (by norm_num)) none none none none htr
    (by simp) 2
  obtain ⟨cols', f', e1', h1', -⟩ := C105_variance_frontier_partial hs hc argsort w' _ _ hmu' hcov' hlog' hI none _ hin' default_bounded hex (limited_default (by norm_num))
    none none none none htr' (by simp) 2
  have hle : ∀ x : Fin 2 → ℝ, Satisfies (PyV.Con.defaultSpec : PyV.Con.Spec ℝ) x → 0 ≤ x 0 ∧ 0 ≤ x 1 ∧ x 0 + x 1 = 1 := by
    intro x hx
    obtain ⟨h1, h2⟩ := (satisfies_default _).1 hx
    rw [Fin.sum_univ_two] at h2
    exact ⟨h1 0, h1 1, h2⟩
  have hret : ∀ x : Fin 2 → ℝ, ret ![0, 1] x = x 1 := by
    intro x; simp [ret, Fin.sum_univ_two]
  have hret' : ∀ x : Fin 2 → ℝ, Satisfies (PyV.Con.defaultSpec : PyV.Con.Spec ℝ) x → ret (fun i => (![0, 1] : Fin 2 → ℝ) i + 10 ^ 6) x = x 1 + 10 ^ 6 := by
    intro x hx
    rw [ret_shift _ _ (t := 1) (by rw [Fin.sum_univ_two]; exact (hle x hx).2.2), hret, mul_one]
  have hx1 : Satisfies (PyV.Con.defaultSpec : PyV.Con.Spec ℝ) (![0, 1] : Fin 2 → ℝ) :=
    (satisfies_default _).2 ⟨by intro i; fin_cases i <;> simp, by simp⟩
  have hg : IsGreatest (ret ![0, 1] '' {x : Fin 2 → ℝ | Satisfies PyV.Con.defaultSpec x}) 1 := by
    refine ⟨⟨![0, 1], hx1, by rw [hret]; simp⟩, ?_⟩
    rintro _ ⟨y, hy, rfl⟩
    have := hle y hy
    rw [hret]
    linarith
  have hg' : IsGreatest (ret (fun i => (![0, 1] : Fin 2 → ℝ) i + 10 ^ 6) '' {x : Fin 2 → ℝ | Satisfies PyV.Con.defaultSpec x}) (1 + 10 ^ 6) := by
    refine ⟨⟨![0, 1], hx1, by rw [hret' _ hx1]; simp⟩, ?_⟩
    rintro _ ⟨y, hy, rfl⟩
    have := hle y hy
    rw [hret' y hy]
    linarith
  refine ⟨_, _, e1, e1', ?_, ?_⟩
  · rcases h1.len with h | ⟨-, h | h⟩
    · exact h
    · simp at h
    · exfalso
      obtain ⟨v, c', hv⟩ := List.exists_cons_of_ne_nil h1.nonempty
      have hv' : cols.head? = some v := by rw [hv]; rfl
      have h2 := h v hv' _ hg
      have h3 := h1.first v hv' (![1 / 2, 1 / 2] : Fin 2 → ℝ)
        ((satisfies_default _).2 ⟨by intro i; fin_cases i <;> norm_num, by simp [Fin.sum_univ_two]; norm_num⟩)
      simp only [varianceCost, Option.getD_none, Pi.zero_apply, zero_mul, Finset.sum_const_zero, add_zero] at h3
      rw [hq, hq] at h3
      have h5 := hle v (h1.inside v (by rw [hv]; simp))
      have h6 : v 1 = 1 / 2 := by
        have : v 0 = 1 - v 1 := by linarith
        rw [this] at h3
        norm_num at h3
        nlinarith [sq_nonneg (v 1 - 1 / 2)]
      rw [hret, h6] at h2
      norm_num [abs_le] at h2
  · obtain ⟨v, c', hv⟩ := List.exists_cons_of_ne_nil h1'.nonempty
    have hv' : cols'.head? = some v := by rw [hv]; rfl
    refine h1'.flat v hv' _ hg' ?_
    have hin1 := h1'.inside v (by rw [hv]; simp)
    have := hle v hin1
    rw [hret' v hin1, abs_le, abs_of_pos (by norm_num)]
    constructor <;> linarith

/-- **C251** `min_risk` on the variance frontier does not depend on the expected returns: two wrappers with the same positive definite covariance and
constraints (no trading costs) give the same portfolio and volatility, whatever the means and the numbers of portfolios asked for. -/
theorem C251_min_risk {s1 s2 : Opt.Solver} (hs1 : Sound s1) (hc1 : Complete s1) (hs2 : Sound s2) (hc2 : Complete s2) (a1 a2 : Argsort)
    (w w' : Wrapper N) (mu mu' : Fin N → ℝ) (cov : Matrix (Fin N) (Fin N) ℝ)
    (hmu : w.mu = some mu) (hcov : w.cov = some cov) (hlog : w.isLog = false)
    (hmu' : w'.mu = some mu') (hcov' : w'.cov = some cov) (hlog' : w'.isLog = false)
    (hpsd : IsCov (fun i j => cov i j)) (hpd : ∀ x : Fin N → ℝ, x ≠ 0 → 0 < quad (fun i j => cov i j) x)
    (con con' : Option (PyV.Con.Spec ℝ)) (c : PyV.Con.Spec ℝ) (hin : InForce w con c) (hin' : InForce w' con' c)
    (hb : ∃ B, ∀ x : Fin N → ℝ, Satisfies c x → ∀ i, |x i| ≤ B) (hne : ∃ x : Fin N → ℝ, Satisfies c x) (hlim : Limited N c)
    (htr : Trading w none none none none) (htr' : Trading w' none none none none) (num num' : ℕ) :
    ∃ F F' p p', w.varianceFrontier s1 a1 num con none = .ok F ∧ w'.varianceFrontier s2 a2 num' con' none = .ok F' ∧
      F.f.minRisk none = .ok p ∧ F'.f.minRisk none = .ok p' ∧ p'.w = p.w ∧ p'.risk = p.risk ∧
      Satisfies c p.w ∧ p.risk = Real.sqrt (quad (fun i j => cov i j) p.w) ∧ ∀ x, Satisfies c x → quad (fun i j => cov i j) p.w ≤ quad (fun i j => cov i j) x := by
  have hz : ∀ C : Fin N → Fin N → ℝ, varianceCost C none none = quad C := by intro C; funext x; simp [varianceCost]
  have one : ∀ {s : Opt.Solver} (_ : Sound s) (_ : Complete s) (a : Argsort) (w : Wrapper N) (mu : Fin N → ℝ) (_ : w.mu = some mu) (_ : w.cov = some cov)
      (_ : w.isLog = false) (con : Option (PyV.Con.Spec ℝ)) (_ : InForce w con c) (_ : Trading w none none none none) (num : ℕ),
      ∃ F p, w.varianceFrontier s a num con none = .ok F ∧ F.f.minRisk none = .ok p ∧ Satisfies c p.w ∧
        p.risk = Real.sqrt (quad (fun i j => cov i j) p.w) ∧ ∀ x, Satisfies c x → quad (fun i j => cov i j) p.w ≤ quad (fun i j => cov i j) x := by
    intro s hs hc a w mu hmu hcov hlog con hin htr num
    obtain ⟨cols, f, e, h, h3⟩ := C105_variance_frontier_partial hs hc a w mu cov hmu hcov hlog hpsd con c hin hb hne hlim none none none none htr (by simp) num
    rw [hz] at h
    obtain ⟨v, c', hv⟩ := List.exists_cons_of_ne_nil h.nonempty
    have hlen : 0 < cols.length := by rw [hv]; simp
    obtain ⟨p, hp⟩ := (C52_min_risk_errors f none).2 hlen ⟨f.risks, .inl ⟨.inl rfl, rfl⟩⟩
    refine ⟨_, p, e, hp, ?_⟩
    obtain ⟨r, i, hr, hmin, hrep⟩ := (C52_min_risk f none p).1 hp
    have hr' : r = f.risks := by
      rcases hr with ⟨-, rfl⟩ | ⟨l, hl, -⟩
      · rfl
      · cases hl
    subst hr'
    obtain ⟨-, hmin, -⟩ := hmin
    obtain ⟨r1, r2, r3⟩ := hrep
    have hw : p.w = cols.get i := by funext k; rw [r1]; exact (h3 i).1 k
    have hm0 := hmin ⟨0, hlen⟩ trivial
    rw [(h3 i).2.2, (h3 _).2.2] at hm0
    have hm0 := (Real.sqrt_le_sqrt_iff (show 0 ≤ quad (fun i j => cov i j) (cols.get ⟨0, hlen⟩) from hpsd.2 _)).1 hm0
    have hget0 : cols.get ⟨0, hlen⟩ = v := by simp [hv]
    rw [hget0] at hm0
    refine ⟨?_, ?_, ?_⟩
    · rw [hw]; exact h.inside _ (List.get_mem _ _)
    · rw [r3, (h3 i).2.2, hw]
    · intro x hx
      rw [hw]
      exact hm0.trans (h.first v (by rw [hv]; rfl) x hx)
  obtain ⟨F, p, e, hp, b1, b2, b3⟩ := one hs1 hc1 a1 w mu hmu hcov hlog con hin htr num
  obtain ⟨F', p', e', hp', d1, d2, d3⟩ := one hs2 hc2 a2 w' mu' hmu' hcov' hlog' con' hin' htr' num'
  obtain ⟨u, -, hall⟩ := user_spec hin
  have huq := unique_min hpd none none (by simp) u (fun _ => (0 : ℝ))
  have hset : {x | Allowed u x} = {x : Fin N → ℝ | Satisfies c x} := Set.ext hall
  rw [hset, hz] at huq
  have hr0 : ∀ x : Fin N → ℝ, (0 : ℝ) ≤ ret (fun _ => (0 : ℝ)) x := fun x => by simp [ret]
  have hw : p'.w = p.w := huq 0 _ d1 _ b1 (hr0 _) (hr0 _) (fun x hx _ => d3 x hx) (fun x hx _ => b3 x hx)
  exact ⟨F, F', p, p', e, e', hp, hp', hw, by rw [b2, d2, hw], b1, b2, b3⟩

/-- Non-vacuity: two uncorrelated assets with means 0 and 1 and the default constraints (total weight one); asking for 3/4, and for 3/4 + 2 when both
means are two higher, succeeds; and the hypotheses of C251 are met by the same wrappers. -/
example : ∃ (w w' : Wrapper 2) (solver : Opt.Solver) (r r' : Result 2), Sound solver ∧ Complete solver ∧
    w.mu = some ![0, 1] ∧ w'.mu = some (fun i => (![0, 1] : Fin 2 → ℝ) i + 2) ∧ w.cov = some 1 ∧ w'.cov = some 1 ∧ InForce w none PyV.Con.defaultSpec ∧
    InForce w' none PyV.Con.defaultSpec ∧ (PyV.Con.defaultSpec : PyV.Con.Spec ℝ).totalWeight = some (.fin 1) ∧ Limited 2 (PyV.Con.defaultSpec : PyV.Con.Spec ℝ) ∧
    w.minVarianceAtReturn solver (3 / 4) none none = .ok r ∧ w'.minVarianceAtReturn solver (3 / 4 + 2 * 1) none none = .ok r' ∧ r'.w = r.w := by
  obtain ⟨solver, hs, hc⟩ := exists_solver
  obtain ⟨w, hmu, hcov, -, hlog, -, hin, htr⟩ := exists_wrapper (N := 2) (by norm_num) (some ![0, 1]) (some 1) none false
  obtain ⟨w', hmu', hcov', -, hlog', -, hin', htr'⟩ := exists_wrapper (N := 2) (by norm_num)
    (some (fun i => (![0, 1] : Fin 2 → ℝ) i + 2)) (some 1) none false
  have hq : ∀ x : Fin 2 → ℝ, quad (fun i j => (1 : Matrix (Fin 2) (Fin 2) ℝ) i j) x = x 0 ^ 2 + x 1 ^ 2 := by
    intro x
    simp [quad, Fin.sum_univ_two]
    ring
  have hI : IsCov (fun i j => (1 : Matrix (Fin 2) (Fin 2) ℝ) i j) := by
    refine ⟨fun i j => by fin_cases i <;> fin_cases j <;> simp, fun x => ?_⟩
    show 0 ≤ quad _ x
    rw [hq]; positivity
  have hpd : ∀ x : Fin 2 → ℝ, x ≠ 0 → 0 < quad (fun i j => (1 : Matrix (Fin 2) (Fin 2) ℝ) i j) x := by
    intro x hx
    rw [hq]
    by_contra hno
    refine hx (funext fun i => ?_)
    have h0 : x 0 = 0 := by nlinarith [sq_nonneg (x 0), sq_nonneg (x 1)]
    have h1 : x 1 = 0 := by nlinarith [sq_nonneg (x 0), sq_nonneg (x 1)]
    fin_cases i
    · exact h0
    · exact h1
  have htot : (PyV.Con.defaultSpec : PyV.Con.Spec ℝ).totalWeight = some (.fin 1) := by simp [PyV.Con.defaultSpec]
  rcases C250_min_variance hs hc hs hc w w' ![0, 1] 1 2 hmu hcov hlog hmu' hcov' hlog' hI none none _ hin hin' htot default_bounded none none none none none
    htr htr' (by simp) (3 / 4) with ⟨r, r', e, e', -, -, h⟩ | ⟨h, -⟩
  · exact ⟨w, w', solver, r, r', hs, hc, hmu, hmu', hcov, hcov', hin, hin', htot, limited_default (by norm_num), e, e', (h hpd).1⟩
  · obtain ⟨r, e, -⟩ := (C107_min_variance_at_return hs hc w _ _ hmu hcov hlog hI none _ hin default_bounded none none none none htr (by simp) (3 / 4)).1
      ⟨![0, 1], (satisfies_default _).2 ⟨by intro i; fin_cases i <;> simp, by simp⟩, by simp [ret, Fin.sum_univ_two]; norm_num⟩
    rw [h] at e; cases e

end PyV.Props
