import Verif.Props.Wrapper
import Verif.Lemmas.Ensembles

/-! # C109, C71: the CVaR methods of `PortfolioWrapper`, end to end -/

namespace PyV.Props

open PyV PyV.Api PyV.Spec.Api PyV.Opt PyV.Spec.Opt PyV.Spec.Con PyV.Risk PyV.Spec Matrix

variable {N : ℕ}

/-- Scenario profit and loss of a portfolio. -/
abbrev pnl (s : Scen N) (x : Fin N → ℝ) : Fin s.T → ℝ := fun t => ∑ i, s.R t i * x i

/-- Probability-weighted mean of the scenarios. -/
abbrev scenMean (s : Scen N) : Fin N → ℝ := fun i => ∑ t, s.p t * s.R t i

theorem scenarioInputs_scen (sim : Sim) {w : Wrapper N} {s : Scen N} (hs : w.scen = some s) (hp : IsProb s.p) (hlog : w.isLog = false)
    (seed : Option ℤ) : w.scenarioInputs sim seed = .ok (s, w.mu.getD (scenMean s)) := by
  have hsum := hp.sum
  have hno : ¬ ((∃ t, s.p t < 0) ∨ ∑ t, s.p t ≤ 0) := by
    rintro (⟨t, ht⟩ | h)
    · exact absurd (hp.nonneg t) (not_le.2 ht)
    · rw [hsum] at h; norm_num at h
  have hcl : Opt.isclose (∑ t, s.p t) 1 := by rw [hsum]; unfold Opt.isclose; norm_num
  unfold Wrapper.scenarioInputs
  rw [hs]
  simp only [if_neg hno, if_pos hcl, hlog]
  cases w.mu with
  | none =>
    have e : (fun i => ∑ t, s.R t i * s.p t) = scenMean s := by
      funext i; exact Finset.sum_congr rfl fun t _ => mul_comm _ _
    simp only [e]; rfl
  | some m => cases w.cov <;> rfl

theorem cvOf_trading {T : ℕ} {w : Wrapper N} {costs : Option Costs} {w0 imp prop : Option (Fin N → ℝ)}
    (h : Trading w costs w0 imp prop) (R : Fin T → Fin N → ℝ) (p : Fin T → ℝ) (alpha : ℝ) (u : User N) :
    ∃ w0' prop', cvOf R p alpha u (w.resolveCosts costs) = .ok ⟨R, p, alpha, u, w0', prop'⟩ ∧
      (∀ l, prop' = some l → prop = some l) ∧
      ∀ cvar, cvCost ⟨R, p, alpha, u, w0', prop'⟩ cvar = turnoverCost cvar w0 prop := by
  rw [resolve_trading h]
  cases w0 with
  | none =>
    refine ⟨none, none, by cases prop <;> simp [cvOf], by simp, fun cvar => ?_⟩
    funext x; simp [cvCost, turnoverCost]
  | some v =>
    cases prop with
    | none =>
      refine ⟨none, none, by simp [cvOf], by simp, fun cvar => ?_⟩
      funext x; simp [cvCost, turnoverCost]
    | some l =>
      refine ⟨some v, some l, by simp [cvOf, vecOf_ofFn], by simp, fun cvar => ?_⟩
      funext x; simp [cvCost, turnoverCost, turnover]

theorem cvSolve_error {T : ℕ} {solver : Opt.Solver} (a : CvArgs N T) (target : Option ℝ) (e : PyErr)
    (h : cvSolve solver a target = .error e) : e = .runtimeError := by
  unfold cvSolve at h
  split at h <;> split at h
  · cases h
  · injection h with h; exact h.symm
  · cases h
  · injection h with h; exact h.symm

/-- **C109** (partial: the target bounds the return under the scenario mean, which is the reported one unless the wrapper carries
another mean: `C109_counterexample`) `min_cvar_at_return` returns a portfolio satisfying the constraints in force with at least the
requested mean scenario return, of least CVaR plus proportional cost among all of these; it reports the absolute value of its CVaR;
when no allowed portfolio reaches the return it raises `InfeasibleOptimizationError`. -/
theorem C109_min_cvar_at_return_partial {solver : Opt.Solver} (hsnd : Sound solver) (hcmp : Complete solver) (argsort : Argsort)
    (hs : ∀ T, IsArgsort (argsort T)) (sim : Sim) (w : Wrapper N) (s : Scen N) (hscen : w.scen = some s) (hp : IsProb s.p)
    (hlog : w.isLog = false) (con : Option (PyV.Con.Spec ℝ)) (c : PyV.Con.Spec ℝ)
    (hin : InForce w con c) (hb : ∃ M, ∀ x : Fin N → ℝ, Satisfies c x → ∀ i, |x i| ≤ M)
    (costs : Option Costs) (w0 imp prop : Option (Fin N → ℝ)) (htr : Trading w costs w0 imp prop)
    (hprop : ∀ l, prop = some l → ∀ i, 0 ≤ l i) (target alpha : ℝ) (h0 : 0 < alpha) (h1 : alpha < 1) (seed : Option ℤ) :
    ((∃ x : Fin N → ℝ, Satisfies c x ∧ target ≤ ret (scenMean s) x) →
      ∃ r, w.minCvarAtReturn solver argsort sim target alpha seed con costs = .ok r ∧ Satisfies c r.w ∧
        target ≤ ret (scenMean s) r.w ∧ r.ret = ret (w.mu.getD (scenMean s)) r.w ∧
        ((w.mu = none ∨ w.mu = some (scenMean s)) → target ≤ r.ret) ∧
        ∃ v, IsCvar s.p (pnl s r.w) (1 - alpha) v ∧ r.risk = |v| ∧
          ∀ x vx, Satisfies c x → target ≤ ret (scenMean s) x → IsCvar s.p (pnl s x) (1 - alpha) vx →
            turnoverCost (fun _ => v) w0 prop r.w ≤ turnoverCost (fun _ => vx) w0 prop x) ∧
    ((∀ x : Fin N → ℝ, Satisfies c x → ret (scenMean s) x < target) →
      w.minCvarAtReturn solver argsort sim target alpha seed con costs = .error .infeasible) := by
  obtain ⟨u, hu, hall⟩ := user_spec hin
  have hb' : ∃ M, ∀ x, Allowed u x → ∀ i, |x i| ≤ M := by
    obtain ⟨M, hM⟩ := hb; exact ⟨M, fun x hx => hM x ((hall x).1 hx)⟩
  obtain ⟨w0', prop', ha, hpr, hcost⟩ := cvOf_trading htr s.R s.p alpha u
  set a : CvArgs N s.T := ⟨s.R, s.p, alpha, u, w0', prop'⟩ with hadef
  have hcs : ∀ l, a.costs = some l → ∀ i, 0 ≤ l i := fun l hl => hprop l (hpr l hl)
  have hre : ∀ x, Reaches u (cvMean a) (some target) x ↔ Satisfies c x ∧ target ≤ ret (scenMean s) x := by
    intro x
    constructor
    · rintro ⟨h1, h2⟩; exact ⟨(hall x).1 h1, h2 _ rfl⟩
    · rintro ⟨h1, h2⟩; exact ⟨(hall x).2 h1, fun t ht => by injection ht with ht; subst ht; exact h2⟩
  have hex : ∀ x, ∃ r, portfolioCvar (argsort s.T) x s.R (some s.p) (some (1 - alpha)) false = .ok r ∧
      IsCvar s.p (pnl s x) (1 - alpha) r := fun x => cvar_spec (hs s.T) a hp h0 h1 x
  choose cvar hcv hiscv using hex
  have hsp := cvSolve_spec (hs s.T) hsnd a hp h0 h1 hcs cvar hcv (some target)
  constructor
  · rintro ⟨x, hx⟩
    obtain ⟨y, hy⟩ := C66_total hcmp a hp h0 h1 hcs (some target) hb' ⟨x, (hre x).2 hx⟩
    obtain ⟨g1, g2⟩ := hsp y hy
    refine ⟨⟨y, retOf (w.mu.getD (scenMean s)) y, |cvar y|⟩, ?_, ((hre y).1 g1).1, ((hre y).1 g1).2, rfl, ?_, cvar y, hiscv y, rfl, ?_⟩
    · unfold Wrapper.minCvarAtReturn
      simp only [scenarioInputs_scen sim hscen hp hlog, hu, ha, hy, asInfeasible, hcv y]
    · intro hm
      have hm' : w.mu.getD (scenMean s) = scenMean s := by rcases hm with h | h <;> rw [h] <;> rfl
      rw [hm']; exact ((hre y).1 g1).2
    · intro x vx hx ht hvx
      have := g2 x ((hre x).2 ⟨hx, ht⟩)
      rw [hcost] at this
      have e : vx = cvar x := cvar_unique hvx (hiscv x)
      rw [e]
      exact this
  · intro hno
    unfold Wrapper.minCvarAtReturn
    simp only [scenarioInputs_scen sim hscen hp hlog, hu, ha]
    cases hy : cvSolve solver a (some target) with
    | error e => rw [cvSolve_error _ _ _ hy]; rfl
    | ok y =>
      exfalso
      obtain ⟨g1, -⟩ := hsp y hy
      obtain ⟨h1, h2⟩ := (hre y).1 g1
      exact absurd h2 (not_le.2 (hno y h1))

/-- **C109** is false when the wrapper carries a mean that is not the scenario mean: asked for 10%, the call reports 0%. -/
theorem C109_counterexample : ∃ w : Wrapper 2, InForce w none PyV.Con.defaultSpec ∧
    ∀ solver argsort sim, Sound solver → Complete solver → (∀ T, IsArgsort (argsort T)) →
      ∃ r, w.minCvarAtReturn solver argsort sim (1 / 10) (1 / 2) none none none = .ok r ∧ r.ret = 0 := by
  obtain ⟨w, hmu, -, hsc, hlog, -, hin, htr⟩ := exists_wrapper (N := 2) (by norm_num) (some ![0, 0]) none
    (some ⟨1, fun _ => ![1 / 10, 0], fun _ => 1⟩) false
  refine ⟨w, hin, fun solver argsort sim h1 h2 hs => ?_⟩
  obtain ⟨r, hr, -, -, h3, -⟩ := (C109_min_cvar_at_return_partial h1 h2 argsort hs sim w _ hsc ⟨by simp, by simp⟩ hlog none _ hin
    default_bounded none _ _ _ htr (by simp) (1 / 10) (1 / 2) (by norm_num) (by norm_num) none).1
    ⟨![1, 0], (satisfies_default _).2 ⟨by intro i; fin_cases i <;> simp, by simp⟩, by simp [ret, scenMean, Fin.sum_univ_two]⟩
  refine ⟨r, hr, ?_⟩
  rw [h3, hmu]
  simp [ret, Fin.sum_univ_two]

/-- **C114** `cvar_frontier` on scenarios: on a non-empty bounded set of allowed portfolios the call succeeds; its columns are, up to
order, an efficient frontier of CVaR plus proportional cost over the portfolios satisfying the specification; they are ordered by the
reported return; and the raw risks are the absolute values of their CVaR. -/
theorem C114_cvar_frontier {solver : Opt.Solver} (hsnd : Sound solver) (hcmp : Complete solver) (argsort : Argsort)
    (hs : ∀ T, IsArgsort (argsort T)) (sim : Sim) (w : Wrapper N) (s : Scen N) (hscen : w.scen = some s) (hp : IsProb s.p)
    (hlog : w.isLog = false) (con : Option (PyV.Con.Spec ℝ)) (c : PyV.Con.Spec ℝ)
    (hin : InForce w con c) (hb : ∃ M, ∀ x : Fin N → ℝ, Satisfies c x → ∀ i, |x i| ≤ M) (hne : ∃ x : Fin N → ℝ, Satisfies c x)
    (costs : Option Costs) (w0 imp prop : Option (Fin N → ℝ)) (htr : Trading w costs w0 imp prop)
    (hprop : ∀ l, prop = some l → ∀ i, 0 ≤ l i) (alpha : ℝ) (h0 : 0 < alpha) (h1 : alpha < 1) (seed : Option ℤ) (num : ℕ)
    (enforce : Bool) :
    ∃ (cvar : (Fin N → ℝ) → ℝ) (cols : List (Fin N → ℝ)) (f : Fr.Frontier String ℝ N cols.length) (σ : Equiv.Perm (Fin cols.length)),
      (∀ x, IsCvar s.p (pnl s x) (1 - alpha) (cvar x)) ∧
      w.cvarFrontier solver argsort sim num alpha seed con costs enforce = .ok ⟨cols.length, f⟩ ∧
      IsFrontier {x | Satisfies c x} (ret (scenMean s)) (turnoverCost cvar w0 prop) num cols ∧
      (∀ j i, f.weights i j = cols.get (σ j) i) ∧
      (∀ j, f.returns j = ret (w.mu.getD (scenMean s)) (cols.get (σ j))) ∧ Monotone f.returns ∧
      ("CVaR (raw)", fun j => |cvar (cols.get (σ j))|) ∈ f.alternates ∧
      (enforce = false → ∀ j, f.risks j = |cvar (cols.get (σ j))|) ∧ (enforce = true → Monotone f.risks) := by
  obtain ⟨u, hu, hall⟩ := user_spec hin
  have hset : {x | Allowed u x} = {x : Fin N → ℝ | Satisfies c x} := Set.ext hall
  obtain ⟨w0', prop', ha, hpr, hcost⟩ := cvOf_trading htr s.R s.p alpha u
  set a : CvArgs N s.T := ⟨s.R, s.p, alpha, u, w0', prop'⟩ with hadef
  have hcs : ∀ l, a.costs = some l → ∀ i, 0 ≤ l i := fun l hl => hprop l (hpr l hl)
  obtain ⟨cols, hcols⟩ := C91_mean_cvar_total hsnd hcmp a hp h0 h1 hcs
    (by obtain ⟨M, hM⟩ := hb; exact ⟨M, fun x hx => hM x ((hall x).1 hx)⟩)
    (by obtain ⟨x, hx⟩ := hne; exact ⟨x, (hall x).2 hx⟩) num
  obtain ⟨cvar, hcv, hfr⟩ := C91_mean_cvar_frontier (hs s.T) hsnd a hp h0 h1 hcs num cols hcols
  rw [hcost] at hfr
  have hfr' : IsFrontier {x : Fin N → ℝ | Satisfies c x} (ret (scenMean s)) (turnoverCost cvar w0 prop) num cols := by
    rw [← hset]; exact hfr
  have hiscv : ∀ x, IsCvar s.p (pnl s x) (1 - alpha) (cvar x) := fun x => by
    obtain ⟨r, hr, h⟩ := cvar_spec (hs s.T) a hp h0 h1 x
    rw [hcv] at hr; injection hr with hr; subst hr; exact h
  have hmap : mapE (fun x => portfolioCvar (argsort s.T) x s.R (some s.p) (some (1 - alpha)) false) cols = .ok (cols.map cvar) := by
    rw [Ens.mapE_iff, List.forall₂_map_right_iff, List.forall₂_same]
    exact fun x _ => hcv x
  set m := w.mu.getD (scenMean s) with hmdef
  set f0 := Fr.cvarFrontier (argsort cols.length) m (fun i j => cols.get j i) (fun j => (cols.map cvar).getD j 0)
    (fun j => vol (scenCov s.R s.p) (cols.get j)) enforce with hf0
  have hget : ∀ j : Fin cols.length, (cols.map cvar).getD (j : ℕ) 0 = cvar (cols.get j) := fun j => by simp
  set σ := argsort cols.length (fun j => ∑ i, m i * cols.get j i) with hσ
  have hmono : Monotone (fun j => ret m (cols.get (σ j))) := hs cols.length (fun j => ∑ i, m i * cols.get j i)
  refine ⟨cvar, cols, if N = 1 then { f0 with alternates := f0.alternates.tail } else f0, σ, hiscv, ?_, hfr', ?_, ?_, ?_, ?_, ?_, ?_⟩
  · unfold Wrapper.cvarFrontier
    simp only [scenarioInputs_scen sim hscen hp hlog, hu, ha, hcols, hmap]
    rfl
  · intro j i; split <;> rfl
  · intro j; split <;> rfl
  · split <;> exact hmono
  · have : (fun j => |cvar (cols.get (σ j))|) = fun j => |(cols.map cvar).getD (σ j : ℕ) 0| := by
      funext j; rw [hget]
    rw [this]
    split <;> simp [hf0, Fr.cvarFrontier, hσ]
  · rintro rfl j
    rw [← hget]
    split <;> rfl
  · rintro rfl
    have := (C55_envelope (argsort cols.length) (hs _) m (fun i j => cols.get j i) (fun j => (cols.map cvar).getD j 0)
      (fun j => vol (scenCov s.R s.p) (cols.get j)) f0 hf0).2.2.2.1
    split <;> exact this

/-- **C71** (partial: convexity enforced, as is the default, the scenario mean in use, no trading costs; otherwise false:
`C71_counterexample_raw`, `C71_counterexample_mean`) `min_risk` on a CVaR frontier has the least CVaR of all portfolios satisfying the
constraints. -/
theorem C71_min_risk_partial {solver : Opt.Solver} (hsnd : Sound solver) (hcmp : Complete solver) (argsort : Argsort)
    (hs : ∀ T, IsArgsort (argsort T)) (sim : Sim) (w : Wrapper N) (s : Scen N) (hscen : w.scen = some s) (hp : IsProb s.p)
    (hmu : w.mu = none ∨ w.mu = some (scenMean s)) (hlog : w.isLog = false) (con : Option (PyV.Con.Spec ℝ)) (c : PyV.Con.Spec ℝ)
    (hin : InForce w con c) (hb : ∃ M, ∀ x : Fin N → ℝ, Satisfies c x → ∀ i, |x i| ≤ M) (hne : ∃ x : Fin N → ℝ, Satisfies c x)
    (htr : Trading w none none none none) (alpha : ℝ) (h0 : 0 < alpha) (h1 : alpha < 1) (seed : Option ℤ) (num : ℕ)
    (hnum : 1 ≤ num) :
    ∃ F : AnyFrontier N, w.cvarFrontier solver argsort sim num alpha seed con none true = .ok F ∧ (∃ p, F.f.minRisk none = .ok p) ∧
      ∀ p, F.f.minRisk none = .ok p → Satisfies c p.w ∧ ∃ v, IsCvar s.p (pnl s p.w) (1 - alpha) v ∧
        ∀ x vx, Satisfies c x → IsCvar s.p (pnl s x) (1 - alpha) vx → v ≤ vx := by
  obtain ⟨cvar, cols, f, σ, hcv, hok, hfr, hw, hret, hmono, -, -, hrisk⟩ := C114_cvar_frontier hsnd hcmp argsort hs sim w s hscen hp
    hlog con c hin hb hne none none none none htr (by simp) alpha h0 h1 seed num true
  have hm' : w.mu.getD (scenMean s) = scenMean s := by rcases hmu with h | h <;> rw [h] <;> rfl
  have hz : turnoverCost cvar none none = cvar := by funext x; simp [turnoverCost]
  rw [hz] at hfr
  rw [hm'] at hret
  have hlen : 0 < cols.length := by
    rcases hfr.len with h | h <;> omega
  refine ⟨⟨cols.length, f⟩, hok, (C52_min_risk_errors f none).2 hlen ⟨f.risks, Or.inl ⟨Or.inl rfl, rfl⟩⟩, fun p hpk => ?_⟩
  obtain ⟨r, i, hr, hi, hp1, -, -⟩ := (C52_min_risk f none p).1 hpk
  have hr' : r = f.risks := by
    rcases hr with ⟨-, h⟩ | ⟨l, h, -⟩
    · exact h
    · cases h
  subst hr'
  have hi0 : i = ⟨0, hlen⟩ := by
    by_contra hne'
    have hlt : (⟨0, hlen⟩ : Fin cols.length) < i := by
      rw [Fin.lt_def]
      rcases Nat.eq_zero_or_pos (i : ℕ) with h | h
      · exact absurd (Fin.ext h) hne'
      · exact h
    exact absurd (hi.2.2 _ hlt trivial) (not_lt.2 (hrisk rfl hlt.le))
  subst hi0
  have hpw : p.w = cols.get (σ ⟨0, hlen⟩) := by funext a; rw [hp1, hw]
  have hmem : p.w ∈ cols := by rw [hpw]; exact List.get_mem _ _
  refine ⟨hfr.inside _ hmem, cvar p.w, hcv _, fun x vx hx hvx => ?_⟩
  rw [cvar_unique hvx (hcv x)]
  have hfirst := hfr.first (cols.get ⟨0, hlen⟩) (by rw [List.head?_eq_getElem?]; simp [hlen])
  refine le_trans (hfr.efficient _ hmem _ (hfr.inside _ (List.get_mem _ ⟨0, hlen⟩)) ?_) (hfirst x hx)
  have h2 := hmono (show (⟨0, hlen⟩ : Fin cols.length) ≤ σ.symm ⟨0, hlen⟩ from Fin.mk_le_of_le_val (Nat.zero_le _))
  rw [hret, hret, Equiv.apply_symm_apply, ← hpw] at h2
  exact h2

/-! ### Counterexamples: two equally likely scenarios, assets A (10%, 10%) and B (5%, 35%) -/

/-- The two scenarios. -/
noncomputable def exScen : Scen 2 := ⟨2, ![![1 / 10, 1 / 20], ![1 / 10, 7 / 20]], fun _ => 1 / 2⟩

theorem exScen_prob : IsProb exScen.p := by
  refine ⟨fun t => ?_, ?_⟩
  · show (0 : ℝ) ≤ 1 / 2; norm_num
  · show ∑ t : Fin 2, (1 / 2 : ℝ) = 1; simp

/-- With two equally likely scenarios, the CVaR at 50% is the worst loss. -/
theorem cvar_two (x : Fin 2 → ℝ) : IsCvar (fun _ => 1 / 2) x (1 - 1 / 2) (max (-(x 0)) (-(x 1))) := by
  have e : ∀ c, ru (fun _ => 1 / 2) x (1 - 1 / 2) c = c + (max (-(x 0) - c) 0 + max (-(x 1) - c) 0) := by
    intro c
    simp only [ru, expect, Fin.sum_univ_two]
    norm_num
    ring
  constructor
  · refine ⟨max (-(x 0)) (-(x 1)), ?_⟩
    have a := sub_nonpos.2 (le_max_left (-(x 0)) (-(x 1)))
    have b := sub_nonpos.2 (le_max_right (-(x 0)) (-(x 1)))
    rw [e, max_eq_right a, max_eq_right b]
    simp
  · rintro _ ⟨c, rfl⟩
    rw [e]
    apply max_le
    · linarith [le_max_left (-(x 0) - c) 0, le_max_right (-(x 1) - c) 0]
    · linarith [le_max_right (-(x 0) - c) 0, le_max_left (-(x 1) - c) 0]

theorem exScen_cvar (x : Fin 2 → ℝ) (hx : Satisfies (PyV.Con.defaultSpec : PyV.Con.Spec ℝ) x) (v : ℝ)
    (hv : IsCvar exScen.p (pnl exScen x) (1 - 1 / 2) v) : v = -(1 / 20) - 1 / 20 * x 0 := by
  obtain ⟨h1, h2⟩ := (satisfies_default x).1 hx
  rw [Fin.sum_univ_two] at h2
  have := h1 0; have := h1 1
  rw [cvar_unique hv (cvar_two (pnl exScen x))]
  have e0 : pnl exScen x (0 : Fin 2) = 1 / 10 * x 0 + 1 / 20 * x 1 := by
    show ∑ i : Fin 2, _ = _
    rw [Fin.sum_univ_two]; rfl
  have e1 : pnl exScen x (1 : Fin 2) = 1 / 10 * x 0 + 7 / 20 * x 1 := by
    show ∑ i : Fin 2, _ = _
    rw [Fin.sum_univ_two]; rfl
  rw [e0, e1, max_eq_left (by linarith)]
  linarith

theorem exScen_ret (x : Fin 2 → ℝ) : ret (scenMean exScen) x = 1 / 10 * x 0 + 1 / 5 * x 1 := by
  have e0 : scenMean exScen 0 = 1 / 10 := by
    show ∑ t : Fin 2, (1 / 2 : ℝ) * _ = _
    rw [Fin.sum_univ_two]; simp [exScen]; norm_num
  have e1 : scenMean exScen 1 = 1 / 5 := by
    show ∑ t : Fin 2, (1 / 2 : ℝ) * _ = _
    rw [Fin.sum_univ_two]; simp [exScen]; norm_num
  simp only [ret, Fin.sum_univ_two, e0, e1]

/-- The frontier with two columns: first A alone, then B alone. -/
theorem exScen_cols (cvar : (Fin 2 → ℝ) → ℝ) (cols : List (Fin 2 → ℝ))
    (hcv : ∀ x, IsCvar exScen.p (pnl exScen x) (1 - 1 / 2) (cvar x))
    (h : IsFrontier {x : Fin 2 → ℝ | Satisfies (PyV.Con.defaultSpec : PyV.Con.Spec ℝ) x} (ret (scenMean exScen)) cvar 2 cols) :
    cols = [![1, 0], ![0, 1]] := by
  have hA : Satisfies (PyV.Con.defaultSpec : PyV.Con.Spec ℝ) (![1, 0] : Fin 2 → ℝ) :=
    (satisfies_default _).2 ⟨by intro i; fin_cases i <;> simp, by simp⟩
  have hB : Satisfies (PyV.Con.defaultSpec : PyV.Con.Spec ℝ) (![0, 1] : Fin 2 → ℝ) :=
    (satisfies_default _).2 ⟨by intro i; fin_cases i <;> simp, by simp⟩
  have hgr : IsGreatest (ret (scenMean exScen) '' {x : Fin 2 → ℝ | Satisfies (PyV.Con.defaultSpec : PyV.Con.Spec ℝ) x}) (1 / 5) := by
    refine ⟨⟨![0, 1], hB, by rw [exScen_ret]; simp⟩, ?_⟩
    rintro _ ⟨x, hx, rfl⟩
    obtain ⟨h1, h2⟩ := (satisfies_default x).1 hx
    rw [Fin.sum_univ_two] at h2
    rw [exScen_ret]
    linarith [h1 0, h1 1]
  have two : ∀ x : Fin 2 → ℝ, Satisfies (PyV.Con.defaultSpec : PyV.Con.Spec ℝ) x → ∀ a, x 0 = a → x = ![a, 1 - a] := by
    intro x hx a ha
    obtain ⟨h1, h2⟩ := (satisfies_default x).1 hx
    rw [Fin.sum_univ_two] at h2
    funext i; fin_cases i
    · simpa using ha
    · simp; linarith
  have hhead : ∀ v, cols.head? = some v → v = ![1, 0] := by
    intro v hv
    have hmem : v ∈ cols := List.mem_of_mem_head? hv
    have h1 := h.first v hv _ hA
    rw [exScen_cvar _ (h.inside v hmem) _ (hcv v), exScen_cvar _ hA _ (hcv _)] at h1
    have h2 := (satisfies_default v).1 (h.inside v hmem)
    rw [Fin.sum_univ_two] at h2
    have hv0 : v 0 = 1 := by
      have := h2.1 1
      simp at h1
      linarith
    have := two v (h.inside v hmem) 1 hv0
    simpa using this
  have hlen : cols.length = 2 := by
    rcases h.len with h' | ⟨h', hx | hx⟩
    · exact h'
    · omega
    · exfalso
      obtain ⟨v, rfl⟩ := List.length_eq_one_iff.1 h'
      have e := hhead v rfl
      have := hx v rfl _ hgr
      rw [e, exScen_ret] at this
      norm_num [abs_le] at this
  obtain ⟨x, y, rfl⟩ := List.length_eq_two.1 hlen
  have hx := hhead x rfl
  have hg := h.grid 1 y rfl x rfl _ hgr (by simp)
  rw [hx, exScen_ret, exScen_ret] at hg
  have h2 := (satisfies_default y).1 (h.inside y (by simp))
  rw [Fin.sum_univ_two] at h2
  have hy0 : y 0 = 0 := by
    have := h2.1 0
    norm_num at hg
    linarith
  have hy := two y (h.inside y (by simp)) 0 hy0
  rw [hx, hy]; simp

/-- **C71** is false without the convexity correction: `min_risk` compares absolute values, so of two portfolios that never lose it
selects the one with the larger CVaR. -/
theorem C71_counterexample_raw : ∃ w : Wrapper 2, w.scen = some exScen ∧ InForce w none PyV.Con.defaultSpec ∧
    ∀ solver argsort sim, Sound solver → Complete solver → (∀ T, IsArgsort (argsort T)) →
      ∃ F : AnyFrontier 2, w.cvarFrontier solver argsort sim 2 (1 / 2) none none none false = .ok F ∧
        ∃ p j v v', F.f.minRisk none = .ok p ∧ IsCvar exScen.p (pnl exScen p.w) (1 - 1 / 2) v ∧
          IsCvar exScen.p (pnl exScen (fun i => F.f.weights i j)) (1 - 1 / 2) v' ∧ v' < v := by
  obtain ⟨w, hmu, -, hsc, hlog, -, hin, htr⟩ := exists_wrapper (N := 2) (by norm_num) none none (some exScen) false
  refine ⟨w, hsc, hin, fun solver argsort sim h1 h2 hs => ?_⟩
  have hA : Satisfies (PyV.Con.defaultSpec : PyV.Con.Spec ℝ) (![1, 0] : Fin 2 → ℝ) :=
    (satisfies_default _).2 ⟨by intro i; fin_cases i <;> simp, by simp⟩
  have hB : Satisfies (PyV.Con.defaultSpec : PyV.Con.Spec ℝ) (![0, 1] : Fin 2 → ℝ) :=
    (satisfies_default _).2 ⟨by intro i; fin_cases i <;> simp, by simp⟩
  obtain ⟨cvar, cols, f, σ, hcv, hok, hfr, hw, -, -, -, hrisk, -⟩ := C114_cvar_frontier h1 h2 argsort hs sim w _ hsc exScen_prob
    hlog none _ hin default_bounded ⟨_, hA⟩ none none none none htr (by simp) (1 / 2) (by norm_num) (by norm_num) none 2 false
  have hz : turnoverCost cvar none none = cvar := by funext x; simp [turnoverCost]
  rw [hz] at hfr
  have hcols := exScen_cols cvar cols hcv hfr
  subst hcols
  have cA : cvar ![1, 0] = -(1 / 10) := by rw [exScen_cvar _ hA _ (hcv _)]; norm_num
  have cB : cvar ![0, 1] = -(1 / 20) := by rw [exScen_cvar _ hB _ (hcv _)]; norm_num
  obtain ⟨p, hpk⟩ := (C52_min_risk_errors f none).2 (by simp) ⟨f.risks, Or.inl ⟨Or.inl rfl, rfl⟩⟩
  obtain ⟨r, i, hr, hi, hp1, -, -⟩ := (C52_min_risk f none p).1 hpk
  have hr' : r = f.risks := by
    rcases hr with ⟨-, h⟩ | ⟨l, h, -⟩
    · exact h
    · cases h
  subst hr'
  have hle := hi.2.1 (σ.symm 1) trivial
  rw [hrisk rfl, hrisk rfl, Equiv.apply_symm_apply] at hle
  have hσ : σ i = 1 := by
    have : ∀ k : Fin 2, k = 0 ∨ k = 1 := by decide
    rcases this (σ i) with h | h
    · exfalso
      rw [h] at hle
      simp [cA, cB] at hle
      norm_num [abs_of_pos] at hle
    · exact h
  have hpw : p.w = ![0, 1] := by funext a; rw [hp1, hw, hσ]; rfl
  have hj : (fun a => f.weights a (σ.symm 0)) = ![1, 0] := by funext a; rw [hw, Equiv.apply_symm_apply]; rfl
  refine ⟨⟨_, f⟩, hok, p, σ.symm 0, cvar p.w, cvar ![1, 0], hpk, hcv _, ?_, ?_⟩
  · show IsCvar _ (pnl exScen (fun a => f.weights a (σ.symm 0))) _ _
    rw [hj]; exact hcv _
  · rw [hpw, cA, cB]; norm_num

/-- **C71** is false when the wrapper carries a mean that is not the scenario mean: the frontier is ordered by that mean, and the
running maximum makes the first column the one of least risk whatever its CVaR. -/
theorem C71_counterexample_mean : ∃ w : Wrapper 2, w.scen = some exScen ∧ w.mu = some ![1 / 5, 1 / 10] ∧
    InForce w none PyV.Con.defaultSpec ∧
    ∀ solver argsort sim, Sound solver → Complete solver → (∀ T, IsArgsort (argsort T)) →
      ∃ F : AnyFrontier 2, w.cvarFrontier solver argsort sim 2 (1 / 2) none none none true = .ok F ∧
        ∃ p j v v', F.f.minRisk none = .ok p ∧ IsCvar exScen.p (pnl exScen p.w) (1 - 1 / 2) v ∧
          IsCvar exScen.p (pnl exScen (fun i => F.f.weights i j)) (1 - 1 / 2) v' ∧ v' < v := by
  obtain ⟨w, hmu, -, hsc, hlog, -, hin, htr⟩ := exists_wrapper (N := 2) (by norm_num) (some ![1 / 5, 1 / 10]) none (some exScen) false
  refine ⟨w, hsc, hmu, hin, fun solver argsort sim h1 h2 hs => ?_⟩
  have hA : Satisfies (PyV.Con.defaultSpec : PyV.Con.Spec ℝ) (![1, 0] : Fin 2 → ℝ) :=
    (satisfies_default _).2 ⟨by intro i; fin_cases i <;> simp, by simp⟩
  have hB : Satisfies (PyV.Con.defaultSpec : PyV.Con.Spec ℝ) (![0, 1] : Fin 2 → ℝ) :=
    (satisfies_default _).2 ⟨by intro i; fin_cases i <;> simp, by simp⟩
  obtain ⟨cvar, cols, f, σ, hcv, hok, hfr, hw, hret, hmono, -, -, hrisk⟩ := C114_cvar_frontier h1 h2 argsort hs sim w _ hsc exScen_prob
    hlog none _ hin default_bounded ⟨_, hA⟩ none none none none htr (by simp) (1 / 2) (by norm_num) (by norm_num) none 2 true
  have hz : turnoverCost cvar none none = cvar := by funext x; simp [turnoverCost]
  rw [hz] at hfr
  rw [hmu] at hret
  have hcols := exScen_cols cvar cols hcv hfr
  subst hcols
  have cA : cvar ![1, 0] = -(1 / 10) := by rw [exScen_cvar _ hA _ (hcv _)]; norm_num
  have cB : cvar ![0, 1] = -(1 / 20) := by rw [exScen_cvar _ hB _ (hcv _)]; norm_num
  obtain ⟨p, hpk⟩ := (C52_min_risk_errors f none).2 (by simp) ⟨f.risks, Or.inl ⟨Or.inl rfl, rfl⟩⟩
  obtain ⟨r, i, hr, hi, hp1, -, -⟩ := (C52_min_risk f none p).1 hpk
  have hr' : r = f.risks := by
    rcases hr with ⟨-, h⟩ | ⟨l, h, -⟩
    · exact h
    · cases h
  subst hr'
  have hcase : ∀ k : Fin 2, k = 0 ∨ k = 1 := by decide
  have hi0 : i = (0 : Fin 2) := by
    rcases hcase i with h | h
    · exact h
    · exfalso
      subst h
      exact absurd (hi.2.2 (0 : Fin 2) (by decide) trivial) (not_lt.2 (hrisk rfl (by decide)))
  have hle := hmono (show i ≤ σ.symm 1 by rw [hi0]; exact Fin.zero_le _)
  rw [hret, hret, Equiv.apply_symm_apply] at hle
  have hσ : σ i = 1 := by
    rcases hcase (σ i) with h | h
    · exfalso
      rw [h] at hle
      simp [ret, Fin.sum_univ_two] at hle
      norm_num at hle
    · exact h
  have hpw : p.w = ![0, 1] := by funext a; rw [hp1, hw, hσ]; rfl
  have hj : (fun a => f.weights a (σ.symm 0)) = ![1, 0] := by funext a; rw [hw, Equiv.apply_symm_apply]; rfl
  refine ⟨⟨_, f⟩, hok, p, σ.symm 0, cvar p.w, cvar ![1, 0], hpk, hcv _, ?_, ?_⟩
  · show IsCvar _ (pnl exScen (fun a => f.weights a (σ.symm 0))) _ _
    rw [hj]; exact hcv _
  · rw [hpw, cA, cB]; norm_num

/-- The hypotheses of C71, C109 and C114 hold for the example with the scenario mean. -/
example : ∃ (w : Wrapper 2) (solver : Opt.Solver), Sound solver ∧ Complete solver ∧
    ∃ (F : AnyFrontier 2) (p : Fr.Pick ℝ 2),
      w.cvarFrontier solver (fun _ x => Tuple.sort x) (fun _ _ _ _ _ _ _ => 0) 5 (1 / 2) none none none true = .ok F ∧
      F.f.minRisk none = .ok p ∧ p.w 0 = 1 := by
  obtain ⟨solver, h1, h2⟩ := exists_solver
  obtain ⟨w, hmu, -, hsc, hlog, -, hin, htr⟩ := exists_wrapper (N := 2) (by norm_num) none none (some exScen) false
  have hA : Satisfies (PyV.Con.defaultSpec : PyV.Con.Spec ℝ) (![1, 0] : Fin 2 → ℝ) :=
    (satisfies_default _).2 ⟨by intro i; fin_cases i <;> simp, by simp⟩
  obtain ⟨F, hF, ⟨p, hp⟩, hall⟩ := C71_min_risk_partial h1 h2 (fun _ x => Tuple.sort x) (fun T x => Tuple.monotone_sort x)
    (fun _ _ _ _ _ _ _ => 0) w _ hsc exScen_prob (Or.inl hmu) hlog none _ hin default_bounded ⟨_, hA⟩ htr (1 / 2) (by norm_num)
    (by norm_num) none 5 (by norm_num)
  obtain ⟨hsat, v, hv, hmin⟩ := hall p hp
  refine ⟨w, solver, h1, h2, F, p, hF, hp, ?_⟩
  obtain ⟨vA, hvA⟩ : ∃ vA, IsCvar exScen.p (pnl exScen ![1, 0]) (1 - 1 / 2) vA := ⟨_, cvar_two _⟩
  have := hmin _ vA hA hvA
  rw [exScen_cvar _ hA _ hvA, exScen_cvar _ hsat _ hv] at this
  have h3 := (satisfies_default p.w).1 hsat
  rw [Fin.sum_univ_two] at h3
  have := h3.1 1
  simp at *
  linarith

end PyV.Props
