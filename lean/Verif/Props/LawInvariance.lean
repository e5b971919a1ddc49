import Verif.Props.FrontierSpacing
import Verif.Props.Risk
import Verif.Props.MomentsApi
import Mathlib.Tactic

/-! # Property C199: only the distribution of the scenarios matters, not how it is listed -/

namespace PyV.Props

open PyV PyV.Risk PyV.Spec

section

variable {K : Type*} [Field K] [LinearOrder K] [IsStrictOrderedRing K] {T T' N : ℕ}

/-- Two lists of scenarios with probabilities describe the same distribution: every joint outcome has the same probability under both. -/
def SameLaw (p : Fin T → K) (R : Fin T → Fin N → K) (p' : Fin T' → K) (R' : Fin T' → Fin N → K) : Prop :=
  ∀ x : Fin N → K, prob p (fun t => R t = x) = prob p' (fun t => R' t = x)

private theorem expect_expand (p : Fin T → K) (R : Fin T → Fin N → K) (f : (Fin N → K) → K) {S : Finset (Fin N → K)} (hS : ∀ t, R t ∈ S) :
    expect p (fun t => f (R t)) = ∑ x ∈ S, prob p (fun t => R t = x) * f x := by
  unfold expect prob
  simp only [Finset.sum_mul]
  rw [Finset.sum_comm]
  refine Finset.sum_congr rfl fun t _ => ?_
  simp only [ite_mul, zero_mul]
  rw [Finset.sum_ite_eq, if_pos (hS t)]

/-- Expectations of functions of the outcome depend only on the distribution. -/
theorem expect_law {p : Fin T → K} {R : Fin T → Fin N → K} {p' : Fin T' → K} {R' : Fin T' → Fin N → K} (h : SameLaw p R p' R')
    (f : (Fin N → K) → K) : expect p (fun t => f (R t)) = expect p' (fun t => f (R' t)) := by
  classical
  have h1 := expect_expand p R f (S := Finset.univ.image R ∪ Finset.univ.image R') (fun t => by simp)
  have h2 := expect_expand p' R' f (S := Finset.univ.image R ∪ Finset.univ.image R') (fun t => by simp)
  rw [h1, h2]
  exact Finset.sum_congr rfl fun x _ => by rw [h x]

/-- So do probabilities of events about the outcome. -/
theorem prob_law {p : Fin T → K} {R : Fin T → Fin N → K} {p' : Fin T' → K} {R' : Fin T' → Fin N → K} (h : SameLaw p R p' R')
    (E : (Fin N → K) → Prop) [DecidablePred E] : prob p (fun t => E (R t)) = prob p' (fun t => E (R' t)) := by
  have := expect_law h (fun x => if E x then 1 else 0)
  unfold expect at this
  unfold prob
  simpa using this

private theorem eff_law {p : Fin T → K} {R : Fin T → Fin N → K} {p' : Fin T' → K} {R' : Fin T' → Fin N → K} (h : SameLaw p R p' R')
    (w : Fin N → K) (demean : Bool) : ∃ g : (Fin N → K) → K, effPnl w R (some p) demean = (fun t => g (R t)) ∧
      effPnl w R' (some p') demean = (fun t => g (R' t)) := by
  cases demean
  · exact ⟨fun x => ∑ i, x i * w i, rfl, rfl⟩
  · refine ⟨fun x => ∑ i, (x i - ∑ s, p s * R s i) * w i, rfl, ?_⟩
    funext t
    show ∑ i, (R' t i - ∑ s, p' s * R' s i) * w i = _
    refine Finset.sum_congr rfl fun i _ => ?_
    have := expect_law h (fun x => x i)
    unfold expect at this
    rw [this]

/-- **C199** (VaR and CVaR) Scenario lists with the same distribution give every portfolio the same VaR and the same CVaR, demeaned or not. -/
theorem C199_risk {argsort : (Fin T → K) → Equiv.Perm (Fin T)} (hs : IsArgsort argsort) {argsort' : (Fin T' → K) → Equiv.Perm (Fin T')}
    (hs' : IsArgsort argsort') {p : Fin T → K} {R : Fin T → Fin N → K} {p' : Fin T' → K} {R' : Fin T' → Fin N → K} (hp : IsProb p) (hp' : IsProb p')
    (h : SameLaw p R p' R') (w : Fin N → K) (confidence : Option K) (hc : ∀ conf, confidence = some conf → 0 < conf ∧ conf < 1) (demean : Bool) :
    (∃ v, portfolioVar argsort w R (some p) confidence demean = .ok v ∧ portfolioVar argsort' w R' (some p') confidence demean = .ok v) ∧
    ∃ v, portfolioCvar argsort w R (some p) confidence demean = .ok v ∧ portfolioCvar argsort' w R' (some p') confidence demean = .ok v := by
  have key : ∀ conf : K, 0 < conf → conf < 1 →
      (∃ v, portfolioVar argsort w R (some p) (some conf) demean = .ok v ∧ portfolioVar argsort' w R' (some p') (some conf) demean = .ok v) ∧
      ∃ v, portfolioCvar argsort w R (some p) (some conf) demean = .ok v ∧ portfolioCvar argsort' w R' (some p') (some conf) demean = .ok v := by
    intro conf h0 h1
    obtain ⟨g, hg, hg'⟩ := eff_law h w demean
    obtain ⟨r, hr, hl⟩ := portfolioCvar_ok (w := w) (R := R) (p := some p) (demean := demean) hs hp h0 h1
    obtain ⟨r', hr', hl'⟩ := portfolioCvar_ok (w := w) (R := R') (p := some p') (demean := demean) hs' hp' h0 h1
    obtain ⟨v, hv, hq⟩ := portfolioVar_ok (w := w) (R := R) (p := some p) (demean := demean) hs hp h0 h1
    obtain ⟨v', hv', hq'⟩ := portfolioVar_ok (w := w) (R := R') (p := some p') (demean := demean) hs' hp' h0 h1
    rw [hg] at hl hq
    rw [hg'] at hl' hq'
    refine ⟨⟨v, hv, ?_⟩, ⟨r, hr, ?_⟩⟩
    · rw [hv']
      refine congrArg Except.ok (isVar_unique hp'.nonneg hq' ⟨?_, ?_⟩)
      · have := hq.1
        rwa [show scenarioProbs (some p) = p from rfl, prob_law h (fun x => g x < -v)] at this
      · have := hq.2
        rwa [show scenarioProbs (some p) = p from rfl, prob_law h (fun x => g x ≤ -v)] at this
    · rw [hr']
      refine congrArg Except.ok (cvar_unique hl' ?_)
      have e : ru (scenarioProbs (some p)) (fun t => g (R t)) conf = ru (scenarioProbs (some p')) (fun t => g (R' t)) conf := by
        funext c
        unfold ru
        rw [show scenarioProbs (some p) = p from rfl, show scenarioProbs (some p') = p' from rfl, expect_law h (fun x => max (-(g x) - c) 0)]
      unfold IsCvar at hl ⊢
      rwa [e] at hl
  cases confidence with
  | some conf => exact key conf (hc conf rfl).1 (hc conf rfl).2
  | none => exact key (95 / 100) (by norm_num) (by norm_num)

end

open PyV.Api PyV.Spec.Api PyV.Opt PyV.Spec.Opt PyV.Spec.Con Matrix

variable {T T' N : ℕ}

/-- **C199** (moments) Scenario lists with the same distribution have the same mean and covariance. -/
theorem C199_moments {p : Fin T → ℝ} {R : Fin T → Fin N → ℝ} {p' : Fin T' → ℝ} {R' : Fin T' → Fin N → ℝ} (hp : IsProb p) (hp' : IsProb p')
    (h : SameLaw p R p' R') :
    ∃ m, Mom.estimateSampleMoments R p = .ok m ∧ Mom.estimateSampleMoments R' p' = .ok m := by
  refine ⟨_, sample_ok hp, ?_⟩
  rw [sample_ok hp']
  have hm : Mom.wMean R' p' = Mom.wMean R p := by
    funext i
    have := expect_law h (fun x => x i)
    unfold expect at this
    unfold Mom.wMean
    simp only [mul_comm _ (p _), mul_comm _ (p' _)]
    exact this.symm
  have hc : Mom.wCov R' p' = Mom.wCov R p := by
    unfold Mom.wCov
    rw [hm]
    have e : ∀ i j, ∑ t, (R' t i - Mom.wMean R p i) * (R' t j - Mom.wMean R p j) * p' t =
        ∑ t, (R t i - Mom.wMean R p i) * (R t j - Mom.wMean R p j) * p t := by
      intro i j
      have := expect_law h (fun x => (x i - Mom.wMean R p i) * (x j - Mom.wMean R p j))
      unfold expect at this
      simp only [mul_comm _ (p _), mul_comm _ (p' _)]
      exact this.symm
    simp only [e]
  rw [hm, hc]

private theorem mean_law {s s' : Scen N} (h : SameLaw s.p s.R s'.p s'.R) : scenMean s' = scenMean s := by
  funext i
  exact (expect_law h (fun x => x i)).symm

private theorem cvar_law {s s' : Scen N} (h : SameLaw s.p s.R s'.p s'.R) (x : Fin N → ℝ) (conf v : ℝ) :
    IsCvar s'.p (pnl s' x) conf v ↔ IsCvar s.p (pnl s x) conf v := by
  have e : ru s'.p (pnl s' x) conf = ru s.p (pnl s x) conf := by
    funext c
    unfold ru
    rw [expect_law h (fun y => max (-(∑ i, y i * x i) - c) 0)]
  unfold IsCvar
  rw [e]

/-- **C199** (least CVaR) On scenario lists with the same distribution, `min_cvar_at_return` reaches the same CVaR under the same constraints, or fails as
infeasible on both, whatever correct solvers are used. -/
theorem C199_min_cvar {s1 s2 : Opt.Solver} (hs1 : Sound s1) (hc1 : Complete s1) (hs2 : Sound s2) (hc2 : Complete s2) (a1 a2 : Argsort)
    (ha1 : ∀ T, IsArgsort (a1 T)) (ha2 : ∀ T, IsArgsort (a2 T)) (sim sim' : Sim)
    (w w' : Wrapper N) (s s' : Scen N) (hscen : w.scen = some s) (hscen' : w'.scen = some s') (hp : IsProb s.p) (hp' : IsProb s'.p)
    (hlaw : SameLaw s.p s.R s'.p s'.R) (hlog : w.isLog = false) (hlog' : w'.isLog = false)
    (con con' : Option (PyV.Con.Spec ℝ)) (c : PyV.Con.Spec ℝ) (hin : InForce w con c) (hin' : InForce w' con' c)
    (hb : ∃ B, ∀ x : Fin N → ℝ, Satisfies c x → ∀ i, |x i| ≤ B)
    (htr : Trading w none none none none) (htr' : Trading w' none none none none) (target alpha : ℝ) (h0 : 0 < alpha) (h1 : alpha < 1) (seed seed' : Option ℤ) :
    (∃ r r', w.minCvarAtReturn s1 a1 sim target alpha seed con none = .ok r ∧ w'.minCvarAtReturn s2 a2 sim' target alpha seed' con' none = .ok r' ∧
      r'.risk = r.risk) ∨
    (w.minCvarAtReturn s1 a1 sim target alpha seed con none = .error .infeasible ∧
      w'.minCvarAtReturn s2 a2 sim' target alpha seed' con' none = .error .infeasible) := by
  obtain ⟨k1, k1'⟩ := C109_min_cvar_at_return_partial hs1 hc1 a1 ha1 sim w s hscen hp hlog con c hin hb none none none none htr (by simp)
    target alpha h0 h1 seed
  obtain ⟨k2, k2'⟩ := C109_min_cvar_at_return_partial hs2 hc2 a2 ha2 sim' w' s' hscen' hp' hlog' con' c hin' hb none none none none htr' (by simp)
    target alpha h0 h1 seed'
  rw [mean_law hlaw] at k2 k2'
  simp only [cvar_law hlaw] at k2
  by_cases hex : ∃ x : Fin N → ℝ, Satisfies c x ∧ target ≤ ret (scenMean s) x
  · left
    obtain ⟨r, e, b1, b2, -, -, v, hv, hrv, hmin⟩ := k1 hex
    obtain ⟨r', e', b1', b2', -, -, v', hv', hrv', hmin'⟩ := k2 hex
    have l1 := hmin r'.w v' b1' b2' hv'
    have l2 := hmin' r.w v b1 b2 hv
    simp only [turnoverCost, Option.getD_none, Pi.zero_apply, zero_mul, Finset.sum_const_zero, add_zero] at l1 l2
    exact ⟨r, r', e, e', by rw [hrv, hrv', le_antisymm l1 l2]⟩
  · right
    push Not at hex
    exact ⟨k1' hex, k2' hex⟩

/-- **C199** (frontier) On scenario lists with the same distribution, `cvar_frontier` under the same constraints has the same number of portfolios, the same
expected returns and the same CVaRs, whenever the portfolios of least CVaR agree on their return (without that even two solvers on one list may
disagree: `C179_counterexample`). -/
theorem C199_frontier {s1 s2 : Opt.Solver} (hs1 : Sound s1) (hc1 : Complete s1) (hs2 : Sound s2) (hc2 : Complete s2) (a1 a2 : Argsort)
    (ha1 : ∀ T, IsArgsort (a1 T)) (ha2 : ∀ T, IsArgsort (a2 T)) (sim sim' : Sim)
    (w w' : Wrapper N) (s s' : Scen N) (hscen : w.scen = some s) (hscen' : w'.scen = some s') (hp : IsProb s.p) (hp' : IsProb s'.p)
    (hlaw : SameLaw s.p s.R s'.p s'.R) (hmu : w.mu = none ∨ w.mu = some (scenMean s)) (hmu' : w'.mu = none ∨ w'.mu = some (scenMean s'))
    (hlog : w.isLog = false) (hlog' : w'.isLog = false)
    (con con' : Option (PyV.Con.Spec ℝ)) (c : PyV.Con.Spec ℝ) (hin : InForce w con c) (hin' : InForce w' con' c)
    (hb : ∃ B, ∀ x : Fin N → ℝ, Satisfies c x → ∀ i, |x i| ≤ B) (hne : ∃ x : Fin N → ℝ, Satisfies c x)
    (htr : Trading w none none none none) (htr' : Trading w' none none none none) (alpha : ℝ) (h0 : 0 < alpha) (h1 : alpha < 1) (seed seed' : Option ℤ)
    (num : ℕ) (huniq : ∀ x y v, Satisfies c x → Satisfies c y → IsCvar s.p (pnl s x) (1 - alpha) v → IsCvar s.p (pnl s y) (1 - alpha) v →
      (∀ z vz, Satisfies c z → IsCvar s.p (pnl s z) (1 - alpha) vz → v ≤ vz) → ret (scenMean s) x = ret (scenMean s) y) :
    ∃ F F', w.cvarFrontier s1 a1 sim num alpha seed con none false = .ok F ∧ w'.cvarFrontier s2 a2 sim' num alpha seed' con' none false = .ok F' ∧
      List.ofFn F'.f.risks = List.ofFn F.f.risks ∧ List.ofFn F'.f.returns = List.ofFn F.f.returns := by
  have hm := mean_law hlaw
  have hm' : w.mu.getD (scenMean s) = scenMean s := by rcases hmu with h | h <;> rw [h] <;> rfl
  have hm'' : w'.mu.getD (scenMean s) = scenMean s := by rcases hmu' with h | h <;> rw [h] <;> [rfl; exact hm]
  obtain ⟨cvar, cols, f, σ, hcv, hok, hfr, hw, hret, hmono, -, hrisk, -⟩ := C114_cvar_frontier hs1 hc1 a1 ha1 sim w s hscen hp
    hlog con c hin hb hne none none none none htr (by simp) alpha h0 h1 seed num false
  obtain ⟨cvar', cols', f', σ', hcv', hok', hfr', hw', hret', hmono', -, hrisk', -⟩ := C114_cvar_frontier hs2 hc2 a2 ha2 sim' w' s' hscen' hp'
    hlog' con' c hin' hb hne none none none none htr' (by simp) alpha h0 h1 seed' num false
  simp only [cvar_law hlaw] at hcv'
  rw [hm] at hfr' hret'
  have hcc : cvar' = cvar := funext fun x => cvar_unique (hcv' x) (hcv x)
  subst hcc
  have hz : turnoverCost cvar' none none = cvar' := by funext x; simp [turnoverCost]
  rw [hz] at hfr hfr'
  rw [hm'] at hret
  rw [hm''] at hret'
  obtain ⟨u, -, hall⟩ := user_spec hin
  have hset : {x | Allowed u x} = {x : Fin N → ℝ | Satisfies c x} := Set.ext hall
  obtain ⟨r, hgr⟩ := greatest_return (u := u) (by obtain ⟨M, hM⟩ := hb; exact ⟨M, fun x hx => hM x ((hall x).1 hx)⟩)
    (by obtain ⟨x, hx⟩ := hne; exact ⟨x, (hall x).2 hx⟩) (scenMean s)
  rw [hset] at hgr
  have hmin : ∀ u ∈ {x : Fin N → ℝ | Satisfies c x}, ∀ v ∈ {x : Fin N → ℝ | Satisfies c x}, (∀ x ∈ {x : Fin N → ℝ | Satisfies c x}, cvar' u ≤ cvar' x) →
      (∀ x ∈ {x : Fin N → ℝ | Satisfies c x}, cvar' v ≤ cvar' x) → ret (scenMean s) u = ret (scenMean s) v := by
    intro u hu v hv hu' hv'
    have he : cvar' u = cvar' v := le_antisymm (hu' v hv) (hv' u hu)
    exact huniq u v (cvar' u) hu hv (hcv u) (he ▸ hcv v) (fun z vz hz' hvz => by rw [cvar_unique hvz (hcv z)]; exact hu' z hz')
  refine ⟨_, _, hok, hok', ?_, ?_⟩
  · show List.ofFn f'.risks = List.ofFn f.risks
    rw [sorted_risks hfr hret hmono (hrisk rfl), sorted_risks hfr' hret' hmono' (hrisk' rfl)]
    rw [frontier_risks hfr hfr' hgr ?_]
    intro x y hx hy
    exact hmin x (hfr.inside x (List.mem_of_mem_head? hx)) y (hfr'.inside y (List.mem_of_mem_head? hy)) (hfr.first x hx) (hfr'.first y hy)
  · show List.ofFn f'.returns = List.ofFn f.returns
    exact frontier_returns (fun θ h0 h1 u hu v hv => satisfies_mix hin h0 h1 hu hv)
      (fun θ t0 t1 u v => cvar_mix hp h0 t0 t1 (hcv u) (hcv v) (hcv _)) hmin hgr hfr' hfr hret' hret hmono' hmono

/-- The scenario list `s` written twice, with halved probabilities. -/
noncomputable def twice (s : Scen N) : Scen N :=
  ⟨s.T + s.T, Fin.append s.R s.R, Fin.append (fun t => s.p t / 2) (fun t => s.p t / 2)⟩

theorem twice_law (s : Scen N) : SameLaw s.p s.R (twice s).p (twice s).R := by
  intro x
  show _ = ∑ t : Fin (s.T + s.T), _
  rw [Fin.sum_univ_add]
  simp only [twice, Fin.append_left, Fin.append_right]
  unfold prob
  rw [← Finset.sum_add_distrib]
  refine Finset.sum_congr rfl fun t _ => ?_
  split_ifs <;> ring

theorem twice_prob {s : Scen N} (hp : IsProb s.p) : IsProb (twice s).p := by
  constructor
  · intro t
    change Fin (s.T + s.T) at t
    have : ∀ t, 0 ≤ s.p t / 2 := fun t => div_nonneg (hp.nonneg t) (by norm_num)
    refine Fin.addCases (fun t => ?_) (fun t => ?_) t <;> simp only [twice, Fin.append_left, Fin.append_right] <;> exact this _
  · show ∑ t : Fin (s.T + s.T), Fin.append (fun t => s.p t / 2) (fun t => s.p t / 2) t = _
    rw [Fin.sum_univ_add]
    simp only [Fin.append_left, Fin.append_right]
    rw [← Finset.sum_add_distrib]
    simpa using hp.sum

/-- The hypotheses of `C199_frontier` hold for the scenarios (10 %, 10 %) and (5 %, 35 %) and the same scenarios written twice. -/
example : ∃ (w w' : Wrapper 2) (solver : Opt.Solver), Sound solver ∧ Complete solver ∧ w.scen = some exScen ∧ w'.scen = some (twice exScen) ∧ ∃ F F',
    w.cvarFrontier solver (fun _ x => Tuple.sort x) (fun _ _ _ _ _ _ _ => 0) 3 (1 / 2) none none none false = .ok F ∧
    w'.cvarFrontier (preferring ![1, 0]) (fun _ x => Tuple.sort x) (fun _ _ _ _ _ _ _ => 0) 3 (1 / 2) none none none false = .ok F' ∧
    List.ofFn F'.f.risks = List.ofFn F.f.risks ∧ List.ofFn F'.f.returns = List.ofFn F.f.returns := by
  obtain ⟨solver, hs, hc⟩ := exists_solver
  obtain ⟨w, hmu, -, hsc, hlog, -, hin, htr⟩ := exists_wrapper (N := 2) (by norm_num) none none (some exScen) false
  obtain ⟨w', hmu', -, hsc', hlog', -, hin', htr'⟩ := exists_wrapper (N := 2) (by norm_num) none none (some (twice exScen)) false
  have hone : ∀ x v, Satisfies (PyV.Con.defaultSpec : PyV.Con.Spec ℝ) x → IsCvar exScen.p (pnl exScen x) (1 - 1 / 2) v →
      (∀ z vz, Satisfies (PyV.Con.defaultSpec : PyV.Con.Spec ℝ) z → IsCvar exScen.p (pnl exScen z) (1 - 1 / 2) vz → v ≤ vz) → x = ![1, 0] := by
    intro x v hx hv hmin
    have hA := (satisfies_default ![(1 : ℝ), 0]).2 ⟨by intro i; fin_cases i <;> simp, by simp⟩
    obtain ⟨vz, hvz⟩ : ∃ vz, IsCvar exScen.p (pnl exScen ![1, 0]) (1 - 1 / 2) vz := ⟨_, cvar_two _⟩
    have h2 := hmin ![1, 0] vz hA hvz
    rw [exScen_cvar x hx v hv, exScen_cvar _ hA vz hvz] at h2
    simp only [Matrix.cons_val_zero] at h2
    obtain ⟨h3, h4⟩ := (satisfies_default _).1 hx
    rw [Fin.sum_univ_two] at h4
    have := h3 1
    have h5 : x 1 = 0 := by linarith
    have h6 : x 0 = 1 := by linarith
    funext i
    fin_cases i <;> simp [h5, h6]
  obtain ⟨F, F', h⟩ := C199_frontier hs hc (preferring_sound ![1, 0]) (preferring_complete _) (fun _ x => Tuple.sort x) (fun _ x => Tuple.sort x)
    (fun T x => Tuple.monotone_sort x) (fun T x => Tuple.monotone_sort x) (fun _ _ _ _ _ _ _ => 0) (fun _ _ _ _ _ _ _ => 0) w w' exScen (twice exScen) hsc hsc'
    exScen_prob (twice_prob exScen_prob) (twice_law _) (Or.inl hmu) (Or.inl hmu') hlog hlog' none none _ hin hin'
    default_bounded ⟨![1, 0], (satisfies_default _).2 ⟨by intro i; fin_cases i <;> simp, by simp⟩⟩ htr htr' (1 / 2) (by norm_num) (by norm_num) none none 3
    (fun x y v hx hy hvx hvy hmin => by rw [hone x v hx hvx hmin, hone y v hy hvy hmin])
  exact ⟨w, w', solver, hs, hc, hsc, hsc', F, F', h⟩

/-- The value of an asset split over two scenarios: a scenario of probability 1/2 may be listed twice with probability 1/4, and a scenario of
probability 0 may be added. -/
example : SameLaw ![1 / 2, 1 / 2] ![![1], ![(-1 : ℚ)]] ![1 / 4, 0, 1 / 2, 1 / 4] ![![1], ![7], ![-1], ![1]] := by
  intro x
  have e : ∀ a b : ℚ, (![a] = (![b] : Fin 1 → ℚ)) ↔ a = b := by simp
  obtain ⟨y, rfl⟩ : ∃ y, x = ![y] := ⟨x 0, by funext i; fin_cases i; rfl⟩
  simp only [prob, Fin.sum_univ_succ]
  simp
  by_cases h : (1 : ℚ) = y
  · subst h; norm_num
  · simp [h]

end PyV.Props
