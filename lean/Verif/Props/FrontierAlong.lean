import Verif.Props.AssetOrder
import Verif.Props.Excluded
import Verif.Props.FrontierSpacing

/-! # CVaR frontiers of problems that correspond to each other (C233, C239) -/

namespace PyV.Props

open PyV PyV.Api PyV.Spec.Api PyV.Opt PyV.Spec.Opt PyV.Spec.Con PyV.Risk PyV.Spec

variable {N M : ℕ}

private theorem ret_scen {T : ℕ} (R : Fin T → Fin N → ℝ) (p : Fin T → ℝ) (x : Fin N → ℝ) :
    ret (scenMean ⟨T, R, p⟩) x = ∑ t, p t * ∑ i, R t i * x i := by
  unfold ret scenMean
  dsimp only
  simp only [Finset.sum_mul, Finset.mul_sum]
  rw [Finset.sum_comm]
  exact Finset.sum_congr rfl fun t _ => Finset.sum_congr rfl fun i _ => by ring

/-- Two scenario problems whose allowed portfolios correspond one to one, with the same outcome in every scenario, have CVaR frontiers with
the same returns and risks, whenever the portfolios of least CVaR agree on their expected return. -/
theorem cvar_frontier_along {s1 s2 : Opt.Solver} (hs1 : Sound s1) (hc1 : Complete s1) (hs2 : Sound s2) (hc2 : Complete s2) (a1 a2 : Argsort)
    (ha1 : ∀ T, IsArgsort (a1 T)) (ha2 : ∀ T, IsArgsort (a2 T)) (sim sim' : Sim) (w : Wrapper N) (w' : Wrapper M)
    {T : ℕ} (R : Fin T → Fin N → ℝ) (R' : Fin T → Fin M → ℝ) (p : Fin T → ℝ) (hp : IsProb p)
    (hsc : w.scen = some ⟨T, R, p⟩) (hsc' : w'.scen = some ⟨T, R', p⟩)
    (hmu : w.mu = none ∨ w.mu = some (scenMean ⟨T, R, p⟩)) (hmu' : w'.mu = none ∨ w'.mu = some (scenMean ⟨T, R', p⟩))
    (hlog : w.isLog = false) (hlog' : w'.isLog = false)
    (con con' : Option (PyV.Con.Spec ℝ)) (c c' : PyV.Con.Spec ℝ) (hin : InForce w con c) (hin' : InForce w' con' c')
    (hb : ∃ B, ∀ x : Fin N → ℝ, Satisfies c x → ∀ i, |x i| ≤ B) (hb' : ∃ B, ∀ x : Fin M → ℝ, Satisfies c' x → ∀ i, |x i| ≤ B)
    (hne : ∃ x : Fin N → ℝ, Satisfies c x)
    (htr : Trading w none none none none) (htr' : Trading w' none none none none)
    (e : (Fin N → ℝ) → Fin M → ℝ) (he : ∀ x, Satisfies c' (e x) ↔ Satisfies c x) (hon : ∀ y : Fin M → ℝ, Satisfies c' y → ∃ x, e x = y)
    (hR : ∀ x t, ∑ i, R' t i * e x i = ∑ i, R t i * x i)
    (alpha : ℝ) (h0 : 0 < alpha) (h1 : alpha < 1) (seed seed' : Option ℤ) (num : ℕ)
    (huniq : ∀ x y v, Satisfies c x → Satisfies c y → IsCvar p (fun t => ∑ i, R t i * x i) (1 - alpha) v → IsCvar p (fun t => ∑ i, R t i * y i) (1 - alpha) v →
      (∀ z vz, Satisfies c z → IsCvar p (fun t => ∑ i, R t i * z i) (1 - alpha) vz → v ≤ vz) → ret (scenMean ⟨T, R, p⟩) x = ret (scenMean ⟨T, R, p⟩) y) :
    ∃ F F', w.cvarFrontier s1 a1 sim num alpha seed con none false = .ok F ∧ w'.cvarFrontier s2 a2 sim' num alpha seed' con' none false = .ok F' ∧
      List.ofFn F'.f.risks = List.ofFn F.f.risks ∧ List.ofFn F'.f.returns = List.ofFn F.f.returns := by
  have hne' : ∃ y : Fin M → ℝ, Satisfies c' y := by obtain ⟨x, hx⟩ := hne; exact ⟨e x, (he x).2 hx⟩
  have hm' : w.mu.getD (scenMean ⟨T, R, p⟩) = scenMean ⟨T, R, p⟩ := by rcases hmu with h | h <;> rw [h] <;> rfl
  have hm'' : w'.mu.getD (scenMean ⟨T, R', p⟩) = scenMean ⟨T, R', p⟩ := by rcases hmu' with h | h <;> rw [h] <;> rfl
  obtain ⟨cvar, cols, f, σ, hcv, hok, hfr, -, hret, hmono, -, hrisk, -⟩ := C114_cvar_frontier hs1 hc1 a1 ha1 sim w _ hsc hp
    hlog con c hin hb hne none none none none htr (by simp) alpha h0 h1 seed num false
  obtain ⟨cvar', cols', f', σ', hcv', hok', hfr', -, hret', hmono', -, hrisk', -⟩ := C114_cvar_frontier hs2 hc2 a2 ha2 sim' w' _ hsc' hp
    hlog' con' c' hin' hb' hne' none none none none htr' (by simp) alpha h0 h1 seed' num false
  have hz : turnoverCost cvar none none = cvar := by funext x; simp [turnoverCost]
  have hz' : turnoverCost cvar' none none = cvar' := by funext x; simp [turnoverCost]
  rw [hz] at hfr
  rw [hz'] at hfr'
  rw [hm'] at hret
  rw [hm''] at hret'
  have hcvv : ∀ x, IsCvar p (fun t => ∑ i, R t i * x i) (1 - alpha) (cvar x) := hcv
  have hcc : ∀ x, cvar' (e x) = cvar x := by
    intro x
    have h := hcv' (e x)
    have hx : pnl ⟨T, R', p⟩ (e x) = fun t => ∑ i, R t i * x i := funext fun t => hR x t
    rw [hx] at h
    exact cvar_unique h (hcvv x)
  have hrr : ∀ x, ret (scenMean ⟨T, R', p⟩) (e x) = ret (scenMean ⟨T, R, p⟩) x := by
    intro x
    rw [ret_scen, ret_scen]
    exact Finset.sum_congr rfl fun t _ => by rw [hR]
  have hmap : IsFrontier {y | Satisfies c' y} (ret (scenMean ⟨T, R', p⟩)) cvar' num (cols.map e) :=
    frontier_image e he hon hrr hcc hfr
  have hmin : ∀ u ∈ {y : Fin M → ℝ | Satisfies c' y}, ∀ v ∈ {y : Fin M → ℝ | Satisfies c' y}, (∀ x ∈ {y : Fin M → ℝ | Satisfies c' y}, cvar' u ≤ cvar' x) →
      (∀ x ∈ {y : Fin M → ℝ | Satisfies c' y}, cvar' v ≤ cvar' x) → ret (scenMean ⟨T, R', p⟩) u = ret (scenMean ⟨T, R', p⟩) v := by
    intro u hu v hv hu' hv'
    obtain ⟨x, rfl⟩ := hon u hu
    obtain ⟨y, rfl⟩ := hon v hv
    have hxy : cvar x = cvar y := by rw [← hcc, ← hcc]; exact le_antisymm (hu' _ hv) (hv' _ hu)
    rw [hrr, hrr]
    exact huniq x y (cvar x) ((he x).1 hu) ((he y).1 hv) (hcvv x) (hxy ▸ hcvv y) (fun z vz hz' hvz => by
      rw [cvar_unique hvz (hcvv z), ← hcc, ← hcc]; exact hu' _ ((he z).2 hz'))
  obtain ⟨u, -, hall⟩ := user_spec hin'
  have hset : {x | Allowed u x} = {x : Fin M → ℝ | Satisfies c' x} := Set.ext hall
  obtain ⟨r, hgr⟩ := greatest_return (u := u) (by obtain ⟨B, hB⟩ := hb'; exact ⟨B, fun x hx => hB x ((hall x).1 hx)⟩)
    (by obtain ⟨x, hx⟩ := hne'; exact ⟨x, (hall x).2 hx⟩) (scenMean ⟨T, R', p⟩)
  rw [hset] at hgr
  have hl : (cols.map e).length = cols.length := List.length_map _
  have hre : ∀ j : Fin (cols.map e).length, f.returns (Fin.cast hl j) =
      ret (scenMean ⟨T, R', p⟩) ((cols.map e).get (((finCongr hl).trans (σ.trans (finCongr hl.symm))) j)) := by
    intro j
    rw [hret, ← hrr]
    simp
  have hrk : ∀ j : Fin (cols.map e).length, f.risks (Fin.cast hl j) =
      |cvar' ((cols.map e).get (((finCongr hl).trans (σ.trans (finCongr hl.symm))) j))| := by
    intro j
    rw [hrisk rfl, ← hcc]
    simp
  have hmo : Monotone fun j : Fin (cols.map e).length => f.returns (Fin.cast hl j) := fun a b hab => hmono hab
  refine ⟨_, _, hok, hok', ?_, ?_⟩
  · show List.ofFn f'.risks = List.ofFn f.risks
    rw [List.ofFn_congr hl.symm f.risks, sorted_risks hmap hre hmo hrk, sorted_risks hfr' hret' hmono' (hrisk' rfl)]
    rw [frontier_risks hfr' hmap hgr ?_]
    intro x y hx hy
    exact hmin x (hfr'.inside x (List.mem_of_mem_head? hx)) y (hmap.inside y (List.mem_of_mem_head? hy)) (hfr'.first x hx) (hmap.first y hy)
  · show List.ofFn f'.returns = List.ofFn f.returns
    rw [List.ofFn_congr hl.symm f.returns]
    exact frontier_returns (fun θ h0 h1 u hu v hv => satisfies_mix hin' h0 h1 hu hv)
      (fun θ t0 t1 u v => cvar_mix hp h0 t0 t1 (hcv' u) (hcv' v) (hcv' _)) hmin hgr hfr' hmap hret' hre hmono' hmo

/-- **C239** (CVaR frontier) Listing the assets in another order, with constraints rearranged alike, leaves the returns and the CVaRs of `cvar_frontier`
unchanged, whenever the portfolios of least CVaR agree on their expected return. -/
theorem C239_cvar_frontier {s1 s2 : Opt.Solver} (hs1 : Sound s1) (hc1 : Complete s1) (hs2 : Sound s2) (hc2 : Complete s2) (a1 a2 : Argsort)
    (ha1 : ∀ T, IsArgsort (a1 T)) (ha2 : ∀ T, IsArgsort (a2 T)) (sim sim' : Sim) (σ : Equiv.Perm (Fin N)) (w w' : Wrapper N) (s : Scen N) (hp : IsProb s.p)
    (hsc : w.scen = some s) (hsc' : w'.scen = some ⟨s.T, fun t i => s.R t (σ i), s.p⟩) (hmu : w.mu = none) (hmu' : w'.mu = none)
    (hlog : w.isLog = false) (hlog' : w'.isLog = false)
    (con con' : Option (PyV.Con.Spec ℝ)) (c : PyV.Con.Spec ℝ) (hin : InForce w con c) (hin' : InForce w' con' (rearranged σ c))
    (hb : ∃ B, ∀ x : Fin N → ℝ, Satisfies c x → ∀ i, |x i| ≤ B) (hne : ∃ x : Fin N → ℝ, Satisfies c x)
    (htr : Trading w none none none none) (htr' : Trading w' none none none none)
    (alpha : ℝ) (h0 : 0 < alpha) (h1 : alpha < 1) (seed seed' : Option ℤ) (num : ℕ)
    (huniq : ∀ x y v, Satisfies c x → Satisfies c y → IsCvar s.p (pnl s x) (1 - alpha) v → IsCvar s.p (pnl s y) (1 - alpha) v →
      (∀ z vz, Satisfies c z → IsCvar s.p (pnl s z) (1 - alpha) vz → v ≤ vz) → ret (scenMean s) x = ret (scenMean s) y) :
    ∃ F F', w.cvarFrontier s1 a1 sim num alpha seed con none false = .ok F ∧ w'.cvarFrontier s2 a2 sim' num alpha seed' con' none false = .ok F' ∧
      List.ofFn F'.f.risks = List.ofFn F.f.risks ∧ List.ofFn F'.f.returns = List.ofFn F.f.returns :=
  cvar_frontier_along hs1 hc1 hs2 hc2 a1 a2 ha1 ha2 sim sim' w w' s.R (fun t i => s.R t (σ i)) s.p hp hsc hsc' (.inl hmu) (.inl hmu') hlog hlog' con con' c _
    hin hin' hb (bounded_rearranged σ hb) hne htr htr' (fun x i => x (σ i)) (C239_constraints σ c).2
    (fun y _ => ⟨fun k => y (σ.symm k), by simp⟩) (fun x t => Equiv.sum_comp σ (fun i => s.R t i * x i)) alpha h0 h1 seed seed' num huniq

/-- **C233** (CVaR frontier) Excluding assets by the constraints leaves the returns and the CVaRs of `cvar_frontier` as if they were not listed, whenever
the portfolios of least CVaR agree on their expected return. -/
theorem C233_cvar_frontier {s1 s2 : Opt.Solver} (hs1 : Sound s1) (hc1 : Complete s1) (hs2 : Sound s2) (hc2 : Complete s2) (a1 a2 : Argsort)
    (ha1 : ∀ T, IsArgsort (a1 T)) (ha2 : ∀ T, IsArgsort (a2 T)) (sim sim' : Sim) (w : Wrapper N) (w' : Wrapper M) (keep : Fin N ↪ Fin M)
    (s : Scen M) (hp : IsProb s.p)
    (hsc : w.scen = some ⟨s.T, fun t i => s.R t (keep i), s.p⟩) (hsc' : w'.scen = some s) (hmu : w.mu = none) (hmu' : w'.mu = none)
    (hlog : w.isLog = false) (hlog' : w'.isLog = false)
    (con con' : Option (PyV.Con.Spec ℝ)) (c c' : PyV.Con.Spec ℝ) (hin : InForce w con c) (hin' : InForce w' con' c') (hex : Excludes keep c c')
    (hb : ∃ B, ∀ x : Fin N → ℝ, Satisfies c x → ∀ i, |x i| ≤ B) (hne : ∃ x : Fin N → ℝ, Satisfies c x)
    (htr : Trading w none none none none) (htr' : Trading w' none none none none)
    (alpha : ℝ) (h0 : 0 < alpha) (h1 : alpha < 1) (seed seed' : Option ℤ) (num : ℕ)
    (huniq : ∀ x y v, Satisfies c' x → Satisfies c' y → IsCvar s.p (pnl s x) (1 - alpha) v → IsCvar s.p (pnl s y) (1 - alpha) v →
      (∀ z vz, Satisfies c' z → IsCvar s.p (pnl s z) (1 - alpha) vz → v ≤ vz) → ret (scenMean s) x = ret (scenMean s) y) :
    ∃ F F', w.cvarFrontier s1 a1 sim num alpha seed con none false = .ok F ∧ w'.cvarFrontier s2 a2 sim' num alpha seed' con' none false = .ok F' ∧
      List.ofFn F'.f.risks = List.ofFn F.f.risks ∧ List.ofFn F'.f.returns = List.ofFn F.f.returns := by
  have hR : ∀ (x : Fin N → ℝ) t, ∑ i, s.R t i * embed keep x i = ∑ i, s.R t (keep i) * x i := fun x t =>
    ret_embed keep (mu := fun i => s.R t (keep i)) (mu' := s.R t) (fun _ => rfl) x
  have hpn : ∀ x : Fin N → ℝ, pnl s (embed keep x) = fun t => ∑ i, s.R t (keep i) * x i := fun x => funext fun t => hR x t
  have hrt : ∀ x : Fin N → ℝ, ret (scenMean s) (embed keep x) = ret (scenMean ⟨s.T, fun t i => s.R t (keep i), s.p⟩) x := fun x =>
    ret_embed keep (fun _ => rfl) x
  refine cvar_frontier_along hs1 hc1 hs2 hc2 a1 a2 ha1 ha2 sim sim' w w' (fun t i => s.R t (keep i)) s.R s.p hp hsc hsc' (.inl hmu) (.inl hmu') hlog hlog' con con' c c'
    hin hin' hb (bounded_excluding hex hb) hne htr htr' (embed keep) (excludes_embed hex)
    (fun y hy => ⟨_, embed_restrict ((hex y).1 hy).1⟩) hR alpha h0 h1 seed seed' num ?_
  intro x y v hx hy hvx hvy hall
  rw [← hrt, ← hrt]
  refine huniq (embed keep x) (embed keep y) v ((excludes_embed hex x).2 hx) ((excludes_embed hex y).2 hy) (by rw [hpn]; exact hvx) (by rw [hpn]; exact hvy) ?_
  intro z vz hz hvz
  have ez := embed_restrict ((hex z).1 hz).1
  refine hall (fun i => z (keep i)) vz ((hex z).1 hz).2 ?_
  rw [← ez, hpn] at hvz
  exact hvz

/-- The hypotheses of `C239_cvar_frontier` hold for the two scenarios of `exScen` and the default constraints, the two assets being swapped. -/
example : ∃ (w w' : Wrapper 2) (solver : Opt.Solver), Sound solver ∧ Complete solver ∧ w.scen = some exScen ∧
    w'.scen = some ⟨exScen.T, fun t i => exScen.R t (Equiv.swap 0 1 i), exScen.p⟩ ∧ ∃ F F',
    w.cvarFrontier solver (fun _ x => Tuple.sort x) (fun _ _ _ _ _ _ _ => 0) 3 (1 / 2) none none none false = .ok F ∧
    w'.cvarFrontier solver (fun _ x => Tuple.sort x) (fun _ _ _ _ _ _ _ => 0) 3 (1 / 2) none none none false = .ok F' ∧
    List.ofFn F'.f.risks = List.ofFn F.f.risks ∧ List.ofFn F'.f.returns = List.ofFn F.f.returns := by
  obtain ⟨solver, hs, hc⟩ := exists_solver
  obtain ⟨w, hmu, -, hsc, hlog, -, hin, htr⟩ := exists_wrapper (N := 2) (by norm_num) none none (some exScen) false
  obtain ⟨w', hmu', -, hsc', hlog', -, hin', htr'⟩ := exists_wrapper (N := 2) (by norm_num) none none
    (some ⟨exScen.T, fun t i => exScen.R t (Equiv.swap 0 1 i), exScen.p⟩) false
  obtain ⟨F, F', h⟩ := C239_cvar_frontier hs hc hs hc (fun _ x => Tuple.sort x) (fun _ x => Tuple.sort x)
    (fun T x => Tuple.monotone_sort x) (fun T x => Tuple.monotone_sort x) (fun _ _ _ _ _ _ _ => 0) (fun _ _ _ _ _ _ _ => 0) (Equiv.swap 0 1) w w' exScen
    exScen_prob hsc hsc' hmu hmu' hlog hlog' none none _ hin hin'
    default_bounded ⟨![1, 0], (satisfies_default _).2 ⟨by intro i; fin_cases i <;> simp, by simp⟩⟩ htr htr' (1 / 2) (by norm_num) (by norm_num) none none 3
    (fun x y v hx hy hvx hvy hmin => by
      have e1 := exScen_cvar x hx v hvx
      have e2 := exScen_cvar y hy v hvy
      have hxx := ((satisfies_default _).1 hx).2
      have hyy := ((satisfies_default _).1 hy).2
      rw [Fin.sum_univ_two] at hxx hyy
      have : x 0 = y 0 := by linarith
      have h1 : x 1 = y 1 := by linarith
      have : x = y := by funext i; fin_cases i <;> assumption
      rw [this])
  exact ⟨w, w', solver, hs, hc, hsc, hsc', F, F', h⟩

end PyV.Props
