import Verif.Props.FrontierQueries
import Verif.Props.SelectorsMonotone
import Mathlib.Tactic

/-! # Property C257: a finer frontier never selects worse -/

namespace PyV.Props

open PyV PyV.Api PyV.Spec.Api PyV.Opt PyV.Spec.Opt PyV.Spec.Con PyV.Risk PyV.Spec PyV.Fr PyV.Spec.Frontier Matrix

variable {N : ℕ}

private theorem firstMax_exists {M : ℕ} (S : Fin M → Prop) (v : Fin M → ℝ) {i0 : Fin M} (h0 : S i0) : ∃ i, FirstMax S v i := by
  classical
  obtain ⟨m, hm, hmax⟩ := Finset.exists_max_image (Finset.univ.filter S) v ⟨i0, by simp [h0]⟩
  have hB : (Finset.univ.filter fun j => S j ∧ v j = v m).Nonempty := ⟨m, by simp [(Finset.mem_filter.1 hm).2]⟩
  refine ⟨(Finset.univ.filter fun j => S j ∧ v j = v m).min' hB, ?_⟩
  have hi := Finset.min'_mem _ hB
  rw [Finset.mem_filter] at hi
  refine ⟨hi.2.1, fun j hj => ?_, fun j hlt hj => ?_⟩
  · rw [hi.2.2]; exact hmax j (by simp [hj])
  · rw [hi.2.2]
    refine lt_of_le_of_ne (hmax j (by simp [hj])) fun e => ?_
    exact absurd (Finset.min'_le _ j (by simp [hj, e])) (not_le.2 hlt)

private theorem firstMin_exists {M : ℕ} (S : Fin M → Prop) (v : Fin M → ℝ) {i0 : Fin M} (h0 : S i0) : ∃ i, FirstMin S v i := by
  obtain ⟨i, h1, h2, h3⟩ := firstMax_exists S (fun j => -v j) h0
  exact ⟨i, h1, fun j hj => by have := h2 j hj; simp only at this; linarith, fun j hlt hj => by have := h3 j hlt hj; simp only at this; linarith⟩

/-- The finer frontier serves every request the coarser one serves, at least as well: it attains at least the Sharpe ratio, the return under a risk cap, the
lowest risk above a return floor, the lowest risk and the highest return. -/
def ServesAsWell (F F' : AnyFrontier N) : Prop :=
  (∀ rf p, F.f.tangency rf = .ok p → ∃ p', F'.f.tangency rf = .ok p' ∧ (p.ret - rf) / p.risk ≤ (p'.ret - rf) / p'.risk) ∧
  (∀ cap p, F.f.atRisk cap none = .ok p → ∃ p', F'.f.atRisk cap none = .ok p' ∧ p.ret ≤ p'.ret ∧ p'.risk ≤ cap) ∧
  (∀ floor p, F.f.atReturn floor none = .ok p → ∃ p', F'.f.atReturn floor none = .ok p' ∧ p'.risk ≤ p.risk ∧ floor ≤ p'.ret) ∧
  (∀ p, F.f.minRisk none = .ok p → ∃ p', F'.f.minRisk none = .ok p' ∧ p'.risk ≤ p.risk) ∧
  ∀ p, F.f.maxReturn = .ok p → ∃ p', F'.f.maxReturn = .ok p' ∧ p.ret ≤ p'.ret

private theorem serves_of_contains {F F' : AnyFrontier N} (h : ∀ k : Fin F.M, ∃ k' : Fin F'.M, F'.f.risks k' = F.f.risks k ∧ F'.f.returns k' = F.f.returns k) :
    ServesAsWell F F' := by
  have primary : ∀ {M : ℕ} {f : Frontier String ℝ N M} {r : Fin M → ℝ}, RiskUnder f none r → r = f.risks := by
    rintro M f r (⟨-, rfl⟩ | ⟨l, hl, -⟩)
    · rfl
    · cases hl
  have pu : ∀ {M : ℕ} (f : Frontier String ℝ N M), RiskUnder f none f.risks := fun f => Or.inl ⟨Or.inl rfl, rfl⟩
  refine ⟨?_, ?_, ?_, ?_, ?_⟩
  · intro rf p hp
    obtain ⟨⟨j, hj⟩, i, ⟨hi, -, -⟩, -, e1, e2⟩ := (C52_tangency F.f rf p).1 hp
    obtain ⟨j', hj', -⟩ := h j
    obtain ⟨i', a, b⟩ := h i
    obtain ⟨k, hk⟩ := firstMax_exists (fun x => F'.f.risks x ≠ 0) (fun x => (F'.f.returns x - rf) / F'.f.risks x) (i0 := i') (by rw [a]; exact hi)
    refine ⟨⟨fun q => F'.f.weights q k, F'.f.returns k, F'.f.risks k⟩,
      (C52_tangency F'.f rf _).2 ⟨⟨j', by rw [hj']; exact hj⟩, k, hk, fun _ => rfl, rfl, rfl⟩, ?_⟩
    have := hk.2.1 i' (by dsimp only; rw [a]; exact hi)
    simp only [a, b] at this
    rw [e1, e2]
    exact this
  · intro cap p hp
    obtain ⟨r, i, hr, ⟨hi, -, -⟩, -, e1, e2⟩ := (C53_at_risk F.f cap none p).1 hp
    obtain rfl := primary hr
    obtain ⟨i', a, b⟩ := h i
    obtain ⟨k, hk⟩ := firstMax_exists (fun x => F'.f.risks x ≤ cap) F'.f.returns (i0 := i') (by rw [a]; exact hi)
    refine ⟨⟨fun q => F'.f.weights q k, F'.f.returns k, F'.f.risks k⟩,
      (C53_at_risk F'.f cap none _).2 ⟨_, k, pu _, hk, fun _ => rfl, rfl, rfl⟩, ?_, hk.1⟩
    have := hk.2.1 i' (by dsimp only; rw [a]; exact hi)
    rw [e1, ← b]; exact this
  · intro floor p hp
    obtain ⟨r, i, hr, ⟨hi, -, -⟩, -, e1, e2⟩ := (C53_at_return F.f floor none p).1 hp
    obtain rfl := primary hr
    obtain ⟨i', a, b⟩ := h i
    obtain ⟨k, hk⟩ := firstMin_exists (fun x => floor ≤ F'.f.returns x) F'.f.risks (i0 := i') (by rw [b]; exact hi)
    refine ⟨⟨fun q => F'.f.weights q k, F'.f.returns k, F'.f.risks k⟩,
      (C53_at_return F'.f floor none _).2 ⟨_, k, pu _, hk, fun _ => rfl, rfl, rfl⟩, ?_, hk.1⟩
    have := hk.2.1 i' (by dsimp only; rw [b]; exact hi)
    rw [e2, ← a]; exact this
  · intro p hp
    obtain ⟨r, i, hr, -, -, e1, e2⟩ := (C52_min_risk F.f none p).1 hp
    obtain rfl := primary hr
    obtain ⟨i', a, b⟩ := h i
    obtain ⟨k, hk⟩ := firstMin_exists (fun _ => True) F'.f.risks (i0 := i') trivial
    refine ⟨⟨fun q => F'.f.weights q k, F'.f.returns k, F'.f.risks k⟩,
      (C52_min_risk F'.f none _).2 ⟨_, k, pu _, hk, fun _ => rfl, rfl, rfl⟩, ?_⟩
    rw [e2, ← a]; exact hk.2.1 i' trivial
  · intro p hp
    obtain ⟨i, -, -, e1, e2⟩ := (C52_max_return F.f p).1 hp
    obtain ⟨i', a, b⟩ := h i
    obtain ⟨k, hk⟩ := firstMax_exists (fun _ => True) F'.f.returns (i0 := i') trivial
    refine ⟨⟨fun q => F'.f.weights q k, F'.f.returns k, F'.f.risks k⟩, (C52_max_return F'.f _).2 ⟨k, hk, fun _ => rfl, rfl, rfl⟩, ?_⟩
    rw [e1, ← b]; exact hk.2.1 i' trivial

/-- **C257** (variance) Asking `variance_frontier` for a finer frontier (`m n + 1` portfolios instead of `n + 1`) never selects worse. -/
theorem C257_variance {s1 s2 : Opt.Solver} (hs1 : Sound s1) (hc1 : Complete s1) (hs2 : Sound s2) (hc2 : Complete s2) (a1 a2 : Argsort)
    (w : Wrapper N) (mu : Fin N → ℝ) (cov : Matrix (Fin N) (Fin N) ℝ) (hmu : w.mu = some mu) (hcov : w.cov = some cov)
    (hlog : w.isLog = false) (hpsd : IsCov (fun i j => cov i j)) (hpd : ∀ x : Fin N → ℝ, x ≠ 0 → 0 < quad (fun i j => cov i j) x)
    (con : Option (PyV.Con.Spec ℝ)) (c : PyV.Con.Spec ℝ)
    (hin : InForce w con c) (hb : ∃ M, ∀ x : Fin N → ℝ, Satisfies c x → ∀ i, |x i| ≤ M) (hne : ∃ x : Fin N → ℝ, Satisfies c x) (hlim : Limited N c)
    (costs : Option Costs) (w0 imp prop : Option (Fin N → ℝ)) (htr : Trading w costs w0 imp prop)
    (himp : ∀ l, imp = some l → ∀ i, 0 ≤ l i) (n m : ℕ) (hm : 0 < m) :
    ∃ F F', w.varianceFrontier s1 a1 (n + 1) con costs = .ok F ∧ w.varianceFrontier s2 a2 (m * n + 1) con costs = .ok F' ∧ ServesAsWell F F' := by
  obtain ⟨F, F', h1, h2, -, h3⟩ := C218_variance hs1 hc1 hs2 hc2 a1 a2 w mu cov hmu hcov hlog hpsd hpd con c hin hb hne hlim costs w0 imp prop htr himp n m hm
  refine ⟨F, F', h1, h2, serves_of_contains fun k => ?_⟩
  have h := h3 k
  have hk : (listing F)[(k : ℕ)]? = some ((fun i => F.f.weights i k), F.f.returns k, F.f.risks k) := by
    unfold listing
    rw [List.getElem?_ofFn, dif_pos k.2]
  rw [hk] at h
  unfold listing at h
  rw [List.getElem?_ofFn] at h
  by_cases hlt : m * (k : ℕ) < F'.M
  · rw [dif_pos hlt] at h
    injection h with h
    exact ⟨⟨m * k, hlt⟩, congrArg (fun x => x.2.2) h, congrArg (fun x => x.2.1) h⟩
  · rw [dif_neg hlt] at h
    cases h

/-- **C257** (CVaR) The same for `cvar_frontier`, whenever the portfolios of least CVaR have one return. -/
theorem C257_cvar {s1 s2 : Opt.Solver} (hs1 : Sound s1) (hc1 : Complete s1) (hs2 : Sound s2) (hc2 : Complete s2) (a1 a2 : Argsort)
    (ha1 : ∀ T, IsArgsort (a1 T)) (ha2 : ∀ T, IsArgsort (a2 T)) (sim : Sim)
    (w : Wrapper N) (s : Scen N) (hscen : w.scen = some s) (hp : IsProb s.p) (hmu : w.mu = none ∨ w.mu = some (scenMean s)) (hlog : w.isLog = false)
    (con : Option (PyV.Con.Spec ℝ)) (c : PyV.Con.Spec ℝ) (hin : InForce w con c) (hb : ∃ B, ∀ x : Fin N → ℝ, Satisfies c x → ∀ i, |x i| ≤ B)
    (hne : ∃ x : Fin N → ℝ, Satisfies c x)
    (htr : Trading w none none none none) (alpha : ℝ) (h0 : 0 < alpha) (h1 : alpha < 1) (seed seed' : Option ℤ) (n m : ℕ) (hm : 0 < m)
    (huniq : ∀ x y v, Satisfies c x → Satisfies c y → IsCvar s.p (pnl s x) (1 - alpha) v → IsCvar s.p (pnl s y) (1 - alpha) v →
      (∀ z vz, Satisfies c z → IsCvar s.p (pnl s z) (1 - alpha) vz → v ≤ vz) → ret (scenMean s) x = ret (scenMean s) y) :
    ∃ F F', w.cvarFrontier s1 a1 sim (n + 1) alpha seed con none false = .ok F ∧ w.cvarFrontier s2 a2 sim (m * n + 1) alpha seed' con none false = .ok F' ∧
      ServesAsWell F F' := by
  obtain ⟨F, F', g1, g2, -, g3⟩ := C218_cvar hs1 hc1 hs2 hc2 a1 a2 ha1 ha2 sim w s hscen hp hmu hlog con c hin hb hne htr alpha h0 h1 seed seed' n m hm huniq
  exact ⟨F, F', g1, g2, serves_of_contains fun k => by obtain ⟨k', -, a, b⟩ := g3 k; exact ⟨k', a, b⟩⟩

/-- Non-vacuity: two uncorrelated assets under the default constraints, 3 and 5 portfolios. -/
example : ∃ (w : Wrapper 2) (solver : Opt.Solver) (argsort : Argsort), ∃ F F', w.varianceFrontier solver argsort 3 none none = .ok F ∧
    w.varianceFrontier solver argsort 5 none none = .ok F' ∧ ServesAsWell F F' := by
  obtain ⟨solver, hs, hc⟩ := exists_solver
  obtain ⟨w, h1, h2, -, h4, -, h6, h7⟩ := exists_wrapper (N := 2) (by norm_num) (some ![0, 1]) (some (1 : Matrix (Fin 2) (Fin 2) ℝ)) none false
  have hq : ∀ x : Fin 2 → ℝ, quad (fun i j => (1 : Matrix (Fin 2) (Fin 2) ℝ) i j) x = x 0 ^ 2 + x 1 ^ 2 := by
    intro x
    simp [quad, Fin.sum_univ_two]
    ring
  have hI : IsCov (fun i j => (1 : Matrix (Fin 2) (Fin 2) ℝ) i j) := by
    refine ⟨fun i j => by fin_cases i <;> fin_cases j <;> simp, fun x => ?_⟩
    show 0 ≤ quad _ x
    rw [hq]; positivity
  have hpd : ∀ x : Fin 2 → ℝ, x ≠ 0 → 0 < quad (fun i j => (1 : Matrix (Fin 2) (Fin 2) ℝ) i j) x := by
    intro x hx
    rw [hq]
    by_contra hno
    apply hx
    funext i
    fin_cases i
    · show x 0 = 0
      nlinarith [sq_nonneg (x 0), sq_nonneg (x 1)]
    · show x 1 = 0
      nlinarith [sq_nonneg (x 0), sq_nonneg (x 1)]
  exact ⟨w, solver, fun _ _ => Equiv.refl _, C257_variance hs hc hs hc _ _ w _ _ h1 h2 h4 hI hpd none _ h6 default_bounded
    ⟨![1, 0], (satisfies_default _).2 ⟨by intro i; fin_cases i <;> simp, by simp⟩⟩ (limited_default (by norm_num)) none none none none h7 (by simp) 2 2 (by norm_num)⟩

end PyV.Props
