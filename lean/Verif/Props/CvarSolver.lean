import Verif.Props.FrontierShape
import Mathlib.Tactic

/-! # Property C179: how far a CVaR frontier depends on the linear-programming solver -/

namespace PyV.Props

open PyV PyV.Api PyV.Spec.Api PyV.Opt PyV.Spec.Opt PyV.Spec.Con PyV.Risk PyV.Spec

variable {N : ℕ}

/-- **C179** (one portfolio) The CVaR found by `min_cvar_at_return` does not depend on the solver: any two correct solvers report the same risk, or
both refuse. -/
theorem C179_min_cvar {s1 s2 : Opt.Solver} (hs1 : Sound s1) (hc1 : Complete s1) (hs2 : Sound s2) (hc2 : Complete s2) (a1 a2 : Argsort)
    (ha1 : ∀ T, IsArgsort (a1 T)) (ha2 : ∀ T, IsArgsort (a2 T)) (sim : Sim)
    (w : Wrapper N) (s : Scen N) (hscen : w.scen = some s) (hp : IsProb s.p) (hlog : w.isLog = false)
    (con : Option (PyV.Con.Spec ℝ)) (c : PyV.Con.Spec ℝ) (hin : InForce w con c) (hb : ∃ B, ∀ x : Fin N → ℝ, Satisfies c x → ∀ i, |x i| ≤ B)
    (htr : Trading w none none none none) (target alpha : ℝ) (h0 : 0 < alpha) (h1 : alpha < 1) (seed seed' : Option ℤ) :
    (∃ r r', w.minCvarAtReturn s1 a1 sim target alpha seed con none = .ok r ∧ w.minCvarAtReturn s2 a2 sim target alpha seed' con none = .ok r' ∧
      r'.risk = r.risk) ∨
    (w.minCvarAtReturn s1 a1 sim target alpha seed con none = .error .infeasible ∧
      w.minCvarAtReturn s2 a2 sim target alpha seed' con none = .error .infeasible) := by
  obtain ⟨k1, k1'⟩ := C109_min_cvar_at_return_partial hs1 hc1 a1 ha1 sim w s hscen hp hlog con c hin hb none none none none htr (by simp)
    target alpha h0 h1 seed
  obtain ⟨k2, k2'⟩ := C109_min_cvar_at_return_partial hs2 hc2 a2 ha2 sim w s hscen hp hlog con c hin hb none none none none htr (by simp)
    target alpha h0 h1 seed'
  by_cases hex : ∃ x : Fin N → ℝ, Satisfies c x ∧ target ≤ ret (scenMean s) x
  · left
    obtain ⟨r, e, b1, b2, -, -, v, hv, hrv, hmin⟩ := k1 hex
    obtain ⟨r', e', b1', b2', -, -, v', hv', hrv', hmin'⟩ := k2 hex
    have l1 := hmin r'.w v' b1' b2' hv'
    have l2 := hmin' r.w v b1 b2 hv
    simp only [turnoverCost, Option.getD_none, Pi.zero_apply, zero_mul, Finset.sum_const_zero, add_zero] at l1 l2
    exact ⟨r, r', e, e', by rw [hrv, hrv', le_antisymm l1 l2]⟩
  · right
    push Not at hex
    exact ⟨k1' hex, k2' hex⟩

/-- The risks along two frontiers that start at the same return are the same. -/
theorem frontier_risks {allowed : Set (Fin N → ℝ)} {rt risk : (Fin N → ℝ) → ℝ} {num : ℕ} {c d : List (Fin N → ℝ)}
    (h1 : IsFrontier allowed rt risk num c) (h2 : IsFrontier allowed rt risk num d) {r : ℝ} (hr : IsGreatest (rt '' allowed) r)
    (hret : ∀ u v, c.head? = some u → d.head? = some v → rt u = rt v) : c.map risk = d.map risk := by
  obtain ⟨v, c', rfl⟩ := List.exists_cons_of_ne_nil h1.nonempty
  obtain ⟨v', d', rfl⟩ := List.exists_cons_of_ne_nil h2.nonempty
  have hv : rt v = rt v' := hret v v' rfl rfl
  have hv0 : risk v = risk v' := le_antisymm (h1.first v rfl _ (h2.inside _ (by simp))) (h2.first v' rfl _ (h1.inside _ (by simp)))
  have hflat1 : |rt v - r| ≤ 1 / 10 ^ 8 + 1 / 10 ^ 5 * |r| → (v :: c').length = 1 := h1.flat v rfl r hr
  have hflat2 : |rt v' - r| ≤ 1 / 10 ^ 8 + 1 / 10 ^ 5 * |r| → (v' :: d').length = 1 := h2.flat v' rfl r hr
  have hlen : (v :: c').length = (v' :: d').length := by
    rcases h1.len with h | ⟨h, h' | h'⟩ <;> rcases h2.len with k | ⟨k, k' | k'⟩
    · omega
    · subst k'; simp at h
    · have := hflat1 (by rw [hv]; exact k' v' rfl r hr); omega
    · subst h'; simp at k
    · omega
    · omega
    · have := hflat2 (by rw [← hv]; exact h' v rfl r hr); omega
    · omega
    · omega
  by_cases hone : (v :: c').length = 1
  · have h2' : (v' :: d').length = 1 := by omega
    simp at hone h2'
    rw [hone, h2']
    simp [hv0]
  have hgt1 : 1 < (v :: c').length := by simp at hone ⊢; exact List.length_pos_of_ne_nil hone
  have hgt2 : 1 < (v' :: d').length := by omega
  apply List.ext_getElem (by simpa using hlen)
  intro k hk1 hk2
  have hk1' : k < (v :: c').length := by simpa using hk1
  have hk2' : k < (v' :: d').length := by simpa using hk2
  have e1 := List.getElem?_eq_getElem hk1'
  have e2 := List.getElem?_eq_getElem hk2'
  rw [List.getElem_map, List.getElem_map]
  have g1 := h1.grid k _ e1 v rfl r hr hgt1
  have g2 := h2.grid k _ e2 v' rfl r hr hgt2
  refine le_antisymm (h1.least k _ e1 v rfl r hr hgt1 _ (h2.inside _ (List.getElem_mem hk2')) (by rw [hv]; exact g2))
    (h2.least k _ e2 v' rfl r hr hgt2 _ (h1.inside _ (List.getElem_mem hk1')) (by rw [← hv]; exact g1))

/-- **C179** (frontier; partial: when all portfolios of least CVaR have the same expected return, which a solver is otherwise free to choose:
`C179_counterexample`) Any two correct solvers give CVaR frontiers with the same number of portfolios and the same risks. -/
theorem C179_frontier_partial {s1 s2 : Opt.Solver} (hs1 : Sound s1) (hc1 : Complete s1) (hs2 : Sound s2) (hc2 : Complete s2) (a1 a2 : Argsort)
    (ha1 : ∀ T, IsArgsort (a1 T)) (ha2 : ∀ T, IsArgsort (a2 T)) (sim : Sim)
    (w : Wrapper N) (s : Scen N) (hscen : w.scen = some s) (hp : IsProb s.p) (hmu : w.mu = none ∨ w.mu = some (scenMean s)) (hlog : w.isLog = false)
    (con : Option (PyV.Con.Spec ℝ)) (c : PyV.Con.Spec ℝ) (hin : InForce w con c) (hb : ∃ B, ∀ x : Fin N → ℝ, Satisfies c x → ∀ i, |x i| ≤ B)
    (hne : ∃ x : Fin N → ℝ, Satisfies c x)
    (htr : Trading w none none none none) (alpha : ℝ) (h0 : 0 < alpha) (h1 : alpha < 1) (seed seed' : Option ℤ) (num : ℕ)
    (huniq : ∀ x y v, Satisfies c x → Satisfies c y → IsCvar s.p (pnl s x) (1 - alpha) v → IsCvar s.p (pnl s y) (1 - alpha) v →
      (∀ z vz, Satisfies c z → IsCvar s.p (pnl s z) (1 - alpha) vz → v ≤ vz) → ret (scenMean s) x = ret (scenMean s) y) :
    ∃ F F', w.cvarFrontier s1 a1 sim num alpha seed con none false = .ok F ∧ w.cvarFrontier s2 a2 sim num alpha seed' con none false = .ok F' ∧
      List.ofFn F'.f.risks = List.ofFn F.f.risks := by
  have hm' : w.mu.getD (scenMean s) = scenMean s := by rcases hmu with h | h <;> rw [h] <;> rfl
  obtain ⟨cvar, cols, f, σ, hcv, hok, hfr, hw, hret, hmono, -, hrisk, -⟩ := C114_cvar_frontier hs1 hc1 a1 ha1 sim w s hscen hp
    hlog con c hin hb hne none none none none htr (by simp) alpha h0 h1 seed num false
  obtain ⟨cvar', cols', f', σ', hcv', hok', hfr', hw', hret', hmono', -, hrisk', -⟩ := C114_cvar_frontier hs2 hc2 a2 ha2 sim w s hscen hp
    hlog con c hin hb hne none none none none htr (by simp) alpha h0 h1 seed' num false
  have hcc : cvar' = cvar := funext fun x => cvar_unique (hcv' x) (hcv x)
  subst hcc
  have hz : turnoverCost cvar' none none = cvar' := by funext x; simp [turnoverCost]
  rw [hz] at hfr hfr'
  rw [hm'] at hret hret'
  have hsort : ∀ {cols : List (Fin N → ℝ)} {f : Fr.Frontier String ℝ N cols.length} {σ : Equiv.Perm (Fin cols.length)},
      IsFrontier {x | Satisfies c x} (ret (scenMean s)) cvar' num cols → (∀ j, f.returns j = ret (scenMean s) (cols.get (σ j))) → Monotone f.returns →
      (false = false → ∀ j, f.risks j = |cvar' (cols.get (σ j))|) → List.ofFn f.risks = (cols.map cvar').map abs := by
    intro cols f σ hfr hret hmono hrisk
    apply List.ext_getElem
    · simp
    · intro k hk1 hk2
      rw [List.getElem_ofFn, hrisk rfl, frontier_sorted hfr (fun a b hab => by
        have := hmono hab
        rwa [hret, hret] at this)]
      simp
  obtain ⟨u, -, hall⟩ := user_spec hin
  have hset : {x | Allowed u x} = {x : Fin N → ℝ | Satisfies c x} := Set.ext hall
  obtain ⟨r, hgr⟩ := greatest_return (u := u) (by obtain ⟨M, hM⟩ := hb; exact ⟨M, fun x hx => hM x ((hall x).1 hx)⟩)
    (by obtain ⟨x, hx⟩ := hne; exact ⟨x, (hall x).2 hx⟩) (scenMean s)
  rw [hset] at hgr
  refine ⟨_, _, hok, hok', ?_⟩
  show List.ofFn f'.risks = List.ofFn f.risks
  rw [hsort hfr hret hmono hrisk, hsort hfr' hret' hmono' hrisk']
  rw [frontier_risks hfr hfr' hgr ?_]
  intro x y hx hy
  have hx1 := hfr.inside x (List.mem_of_mem_head? hx)
  have hy1 := hfr'.inside y (List.mem_of_mem_head? hy)
  have heq : cvar' x = cvar' y := le_antisymm (hfr.first x hx y hy1) (hfr'.first y hy x hx1)
  exact huniq x y (cvar' x) hx1 hy1 (hcv x) (heq ▸ hcv y) (fun z vz hz hvz => by
    rw [cvar_unique hvz (hcv z)]; exact hfr.first x hx z hz)

/-! ### The counterexample: asset A returns nothing, asset B nothing or 200 %, so that every mixture has the same worst loss -/

/-- A correct solver that, where it has the choice, holds the portfolio `e`. -/
noncomputable def preferring (e : Fin 2 → ℝ) : Opt.Solver := by
  classical
  exact fun V i pr =>
    if h : ∃ x, Optimal pr x ∧ ∃ hV : V = CV 2 2 Empty, ∀ j, x (cast hV.symm (Sum.inl j : CV 2 2 Empty)) = e j then some h.choose
    else if h : ∃ x, Optimal pr x then some h.choose else none

theorem preferring_sound (e : Fin 2 → ℝ) : Sound (preferring e) := by
  intro V i pr x _ h
  unfold preferring at h
  split at h
  · rename_i hx
    injection h with h; subst h; exact hx.choose_spec.1
  · split at h
    · rename_i hx
      injection h with h; subst h; exact hx.choose_spec
    · cases h

theorem preferring_complete (e : Fin 2 → ℝ) : Complete (preferring e) := by
  intro V i pr _ hx
  unfold preferring
  split
  · exact ⟨_, rfl⟩
  · exact ⟨_, rfl⟩

theorem preferring_takes (e : Fin 2 → ℝ) (pr : Prog (CV 2 2 Empty)) {x : CV 2 2 Empty → ℝ} (hx : Optimal pr x) (hw : ∀ j, x (Sum.inl j) = e j) :
    ∃ y, preferring e _ inferInstance pr = some y ∧ ∀ j, y (Sum.inl j) = e j := by
  have hex : ∃ x, Optimal pr x ∧ ∃ hV : CV 2 2 Empty = CV 2 2 Empty, ∀ j, x (cast hV.symm (Sum.inl j : CV 2 2 Empty)) = e j :=
    ⟨x, hx, rfl, hw⟩
  refine ⟨hex.choose, ?_, ?_⟩
  · unfold preferring
    exact dif_pos hex
  · obtain ⟨-, hV, h⟩ := hex.choose_spec
    exact h

theorem cvFrontier_head {T : ℕ} {solver : Opt.Solver} {a : CvArgs N T} {num : ℕ} {cols : List (Fin N → ℝ)} (h : cvFrontier solver a num = .ok cols)
    {first : Fin N → ℝ} (hf : cvSolve solver a none = .ok first) : cols.head? = some first := by
  unfold cvFrontier at h
  rw [hf] at h
  simp only at h
  split at h
  · cases h
  · unfold Opt.frontier at h
    simp only at h
    split at h
    · injection h with h; subst h; rfl
    · split at h
      · cases h
      · injection h with h; subst h; rfl

/-- The two scenarios. -/
noncomputable def freeScen : Scen 2 := ⟨2, ![![0, 0], ![0, 2]], fun _ => 1 / 2⟩

/-- **C179** is false of the code for frontiers: on the two scenarios above, with the default constraints and two portfolios requested at
`alpha = 1/2`, one correct solver gives a frontier of two portfolios and another a frontier of one. -/
theorem C179_counterexample : ∃ w : Wrapper 2, w.scen = some freeScen ∧ w.mu = none ∧ InForce w none PyV.Con.defaultSpec ∧
    ∃ s1 s2 : Opt.Solver, Sound s1 ∧ Complete s1 ∧ Sound s2 ∧ Complete s2 ∧ ∀ (argsort : Argsort) (sim : Sim), (∀ T, IsArgsort (argsort T)) →
      ∃ F F', w.cvarFrontier s1 argsort sim 2 (1 / 2) none none none true = .ok F ∧
        w.cvarFrontier s2 argsort sim 2 (1 / 2) none none none true = .ok F' ∧ F.M = 2 ∧ F'.M = 1 := by
  obtain ⟨w, hmu, -, hsc, hlog, -, hin, htr⟩ := exists_wrapper (N := 2) (by norm_num) none none (some freeScen) false
  have hp : IsProb freeScen.p := by
    refine ⟨fun t => ?_, ?_⟩
    · show (0 : ℝ) ≤ 1 / 2; norm_num
    · show ∑ t : Fin 2, (1 / 2 : ℝ) = 1; simp
  obtain ⟨u, hu, hall⟩ := user_spec hin
  have hcv : cvOf freeScen.R freeScen.p (1 / 2) u (w.resolveCosts none) = .ok ⟨freeScen.R, freeScen.p, 1 / 2, u, none, none⟩ := by
    rw [resolve_trading htr]; simp [cvOf]
  set a : CvArgs 2 2 := ⟨freeScen.R, freeScen.p, 1 / 2, u, none, none⟩ with ha
  have hle : ∀ x : Fin 2 → ℝ, Allowed u x → 0 ≤ x 0 ∧ 0 ≤ x 1 ∧ x 0 + x 1 = 1 := by
    intro x hx
    obtain ⟨h1, h2⟩ := (satisfies_default _).1 ((hall x).1 hx)
    rw [Fin.sum_univ_two] at h2
    exact ⟨h1 0, h1 1, h2⟩
  have hmem : ∀ e : Fin 2 → ℝ, (∀ i, 0 ≤ e i) → ∑ i, e i = 1 → Allowed u e := fun e h1 h2 => (hall e).2 ((satisfies_default _).2 ⟨h1, h2⟩)
  have hmean : ∀ x : Fin 2 → ℝ, ret (fun i => ∑ t, a.p t * a.R t i) x = x 1 := by
    intro x
    show ∑ i : Fin 2, (∑ t : Fin 2, (1 / 2 : ℝ) * (![![0, 0], ![0, 2]] : Fin 2 → Fin 2 → ℝ) t i) * x i = x 1
    simp [Fin.sum_univ_two]
  -- every portfolio of the simplex is optimal for the first programme
  have hsolve : ∀ e : Fin 2 → ℝ, (∀ i, 0 ≤ e i) → ∑ i, e i = 1 → cvSolve (preferring e) a none = .ok e := by
    intro e h1 h2
    have hopt : Optimal (addTarget (cvMean a) none (cvPlain a)) (blocks e 0 (fun _ => 0) (fun x => x.elim)) := by
      constructor
      · refine (feasible_cvBase a _ _ _ none _).2 ⟨fun t => ?_, fun t => le_rfl, by simp, ⟨hmem e h1 h2, by simp⟩, by simp⟩
        have : wOf (blocks e 0 (fun _ : Fin 2 => (0 : ℝ)) (fun x : Empty => x.elim)) = e := rfl
        rw [this]
        show -(∑ i : Fin 2, (![![0, 0], ![0, 2]] : Fin 2 → Fin 2 → ℝ) t i * e i) - 0 ≤ 0
        have := h1 1
        fin_cases t <;> simp [Fin.sum_univ_two]
        linarith
      · intro y hy
        obtain ⟨g1, g2, -, -, -⟩ := (feasible_cvBase a _ _ _ none y).1 hy
        unfold cvPlain
        rw [value_cvBase, value_cvBase]
        have e1 : ∀ t : Fin 2, a.p t / a.alpha = 1 := by
          intro t
          show (1 / 2 : ℝ) / (1 / 2) = 1
          norm_num
        simp only [e1, one_mul, Fin.sum_univ_two, Finset.univ_eq_empty, Finset.sum_empty, add_zero]
        have k0 := g1 0
        have k1 := g2 1
        have e2 : ∑ i : Fin 2, a.R 0 i * wOf y i = 0 := by
          show ∑ i : Fin 2, (![![0, 0], ![0, 2]] : Fin 2 → Fin 2 → ℝ) 0 i * wOf y i = 0
          simp [Fin.sum_univ_two]
        rw [e2] at k0
        show (0 : ℝ) + (0 + 0) ≤ _
        linarith
    obtain ⟨y, hy, hyw⟩ := preferring_takes e _ hopt (fun j => rfl)
    rw [cvSolve_plain (Or.inl rfl), hy]
    exact congrArg Except.ok (funext hyw)
  have hbd : ∃ M, ∀ x, Allowed u x → ∀ i, |x i| ≤ M := by
    obtain ⟨M, hM⟩ := default_bounded (N := 2); exact ⟨M, fun x hx => hM x ((hall x).1 hx)⟩
  have hg : IsGreatest (ret (fun i => ∑ t, a.p t * a.R t i) '' {x | Allowed a.user x}) 1 := by
    refine ⟨⟨![0, 1], hmem _ (by intro i; fin_cases i <;> simp) (by simp), by rw [hmean]; simp⟩, ?_⟩
    rintro _ ⟨y, hy, rfl⟩
    have := hle y hy
    rw [hmean]
    linarith
  have hrun : ∀ (e : Fin 2 → ℝ) (argsort : Argsort) (sim : Sim), (∀ T, IsArgsort (argsort T)) → (∀ i, 0 ≤ e i) → ∑ i, e i = 1 →
      ∃ (F : AnyFrontier 2) (cols : List (Fin 2 → ℝ)) (risk : (Fin 2 → ℝ) → ℝ),
        w.cvarFrontier (preferring e) argsort sim 2 (1 / 2) none none none true = .ok F ∧ F.M = cols.length ∧ cols.head? = some e ∧
        IsFrontier {x | Allowed a.user x} (ret (fun i => ∑ t, a.p t * a.R t i)) risk 2 cols := by
    intro e argsort sim hs h1 h2
    obtain ⟨cols, hcols⟩ := C91_mean_cvar_total (preferring_sound e) (preferring_complete e) a hp (by norm_num [a]) (by norm_num [a]) (by simp [a])
      hbd ⟨e, hmem e h1 h2⟩ 2
    obtain ⟨cvar, hc, hfr⟩ := C91_mean_cvar_frontier (hs 2) (preferring_sound e) a hp (by norm_num [a]) (by norm_num [a]) (by simp [a]) 2 cols hcols
    have hmap : mapE (fun x => portfolioCvar (argsort freeScen.T) x freeScen.R (some freeScen.p) (some (1 - 1 / 2)) false) cols =
        .ok (cols.map cvar) := by
      rw [Ens.mapE_iff, List.forall₂_map_right_iff, List.forall₂_same]
      exact fun x _ => hc x
    have hF : ∃ f, w.cvarFrontier (preferring e) argsort sim 2 (1 / 2) none none none true = .ok ⟨cols.length, f⟩ := by
      unfold Wrapper.cvarFrontier
      simp only [scenarioInputs_scen sim hsc hp hlog, hu]
      rw [hcv]
      simp only [show Opt.cvFrontier (preferring e) (⟨freeScen.R, freeScen.p, 1 / 2, u, none, none⟩ : CvArgs 2 freeScen.T) 2 = .ok cols from hcols, hmap]
      exact ⟨_, rfl⟩
    obtain ⟨f, hf⟩ := hF
    exact ⟨⟨cols.length, f⟩, cols, _, hf, rfl, cvFrontier_head hcols (hsolve e h1 h2), hfr⟩
  refine ⟨w, hsc, hmu, hin, preferring ![1, 0], preferring ![0, 1], preferring_sound _, preferring_complete _, preferring_sound _,
    preferring_complete _, fun argsort sim hs => ?_⟩
  obtain ⟨F, cols, risk, h1, h2, h3, h4⟩ := hrun ![1, 0] argsort sim hs (by intro i; fin_cases i <;> simp) (by simp)
  obtain ⟨F', cols', risk', h1', h2', h3', h4'⟩ := hrun ![0, 1] argsort sim hs (by intro i; fin_cases i <;> simp) (by simp)
  refine ⟨F, F', h1, h1', ?_, ?_⟩
  · rw [h2]
    rcases h4.len with h | ⟨-, h | h⟩
    · exact h
    · simp at h
    · have := h _ h3 _ hg
      rw [hmean] at this
      norm_num at this
  · rw [h2']
    refine h4'.flat _ h3' _ hg ?_
    rw [hmean]
    norm_num

/-- The condition of `C179_frontier_partial` holds in a case with a choice: for the scenarios (10 %, 10 %) and (5 %, 35 %) of two assets only the first
asset alone has least CVaR. -/
example : ∃ (w : Wrapper 2) (solver : Opt.Solver), Sound solver ∧ Complete solver ∧ ∃ F F',
    w.cvarFrontier solver (fun _ x => Tuple.sort x) (fun _ _ _ _ _ _ _ => 0) 3 (1 / 2) none none none false = .ok F ∧
    w.cvarFrontier (preferring ![1, 0]) (fun _ x => Tuple.sort x) (fun _ _ _ _ _ _ _ => 0) 3 (1 / 2) none none none false = .ok F' ∧
    List.ofFn F'.f.risks = List.ofFn F.f.risks := by
  obtain ⟨solver, hs, hc⟩ := exists_solver
  obtain ⟨w, hmu, -, hsc, hlog, -, hin, htr⟩ := exists_wrapper (N := 2) (by norm_num) none none (some exScen) false
  have hone : ∀ x v, Satisfies (PyV.Con.defaultSpec : PyV.Con.Spec ℝ) x → IsCvar exScen.p (pnl exScen x) (1 - 1 / 2) v →
      (∀ z vz, Satisfies (PyV.Con.defaultSpec : PyV.Con.Spec ℝ) z → IsCvar exScen.p (pnl exScen z) (1 - 1 / 2) vz → v ≤ vz) → x = ![1, 0] := by
    intro x v hx hv hmin
    have hA := (satisfies_default ![(1 : ℝ), 0]).2 ⟨by intro i; fin_cases i <;> simp, by simp⟩
    obtain ⟨vz, hvz⟩ : ∃ vz, IsCvar exScen.p (pnl exScen ![1, 0]) (1 - 1 / 2) vz := ⟨_, cvar_two _⟩
    have h2 := hmin ![1, 0] vz hA hvz
    rw [exScen_cvar x hx v hv, exScen_cvar _ hA vz hvz] at h2
    simp only [Matrix.cons_val_zero] at h2
    obtain ⟨h3, h4⟩ := (satisfies_default _).1 hx
    rw [Fin.sum_univ_two] at h4
    have := h3 1
    have h5 : x 1 = 0 := by linarith
    have h6 : x 0 = 1 := by linarith
    funext i
    fin_cases i <;> simp [h5, h6]
  obtain ⟨F, F', h⟩ := C179_frontier_partial hs hc (preferring_sound ![1, 0]) (preferring_complete _) (fun _ x => Tuple.sort x) (fun _ x => Tuple.sort x)
    (fun T x => Tuple.monotone_sort x) (fun T x => Tuple.monotone_sort x) (fun _ _ _ _ _ _ _ => 0) w exScen hsc exScen_prob (Or.inl hmu) hlog none _ hin
    default_bounded ⟨![1, 0], (satisfies_default _).2 ⟨by intro i; fin_cases i <;> simp, by simp⟩⟩ htr (1 / 2) (by norm_num) (by norm_num) none none 3
    (fun x y v hx hy hvx hvy hmin => by rw [hone x v hx hvx hmin, hone y v hy hvy hmin])
  exact ⟨w, solver, hs, hc, F, F', h⟩

end PyV.Props
