import Verif.Props.Transfer

/-! # Property C239: answers at a target return do not depend on the order of the assets -/

namespace PyV.Props

open PyV PyV.Api PyV.Spec.Api PyV.Opt PyV.Spec.Opt PyV.Spec.Con PyV.Risk PyV.Spec

variable {N : ℕ}

/-- Where the asset at position `z` is found when position `i` now holds the former asset `σ i`. -/
def position (σ : Equiv.Perm (Fin N)) (z : ℤ) : ℤ :=
  if h : 0 ≤ z ∧ z < N then ((σ.symm ⟨z.toNat, by omega⟩ : Fin N) : ℤ) else z

/-- The constraints written for the assets in the other order: indices follow the assets, per-asset lists and rows are rearranged. -/
def rearranged (σ : Equiv.Perm (Fin N)) (c : PyV.Con.Spec ℝ) : PyV.Con.Spec ℝ :=
  { longOnly := c.longOnly
    totalWeight := c.totalWeight
    bounds := c.bounds.map fun
      | .pair lo hi => .pair lo hi
      | .dict l => .dict (l.map fun e => (position σ e.1, e.2))
      | .seq l => .seq (List.ofFn fun i => l.getD (σ i) (none, none))
    relative := c.relative.map fun e => (position σ e.1, position σ e.2.1, e.2.2)
    groups := c.groups.map fun e => (e.1, e.2.1.map (position σ), e.2.2)
    ineqRows := c.ineqRows.map fun e => (List.ofFn fun i => e.1.getD (σ i) 0, e.2)
    eqRows := c.eqRows.map fun e => (List.ofFn fun i => e.1.getD (σ i) 0, e.2) }

private theorem position_iff (σ : Equiv.Perm (Fin N)) (j : Fin N) (z : ℤ) : (j : ℤ) = position σ z ↔ ((σ j : Fin N) : ℤ) = z := by
  unfold position
  split
  · rename_i h
    constructor
    · intro e
      have e' : j = σ.symm ⟨z.toNat, by omega⟩ := Fin.ext (by exact_mod_cast e)
      rw [e', Equiv.apply_symm_apply]
      show ((z.toNat : ℕ) : ℤ) = z
      omega
    · intro e
      have : (⟨z.toNat, by omega⟩ : Fin N) = σ j := Fin.ext (by show z.toNat = _; omega)
      rw [this, Equiv.symm_apply_apply]
  · rename_i h
    constructor
    · intro e
      exact absurd ⟨by omega, by omega⟩ h
    · intro e
      exact absurd ⟨by omega, by omega⟩ h

private theorem position_range (σ : Equiv.Perm (Fin N)) {z : ℤ} (h : 0 ≤ z ∧ z < N) : 0 ≤ position σ z ∧ position σ z < N := by
  unfold position
  rw [dif_pos h]
  exact ⟨by positivity, by exact_mod_cast Fin.is_lt _⟩

private theorem position_inj (σ : Equiv.Perm (Fin N)) {y z : ℤ} (hy : 0 ≤ y ∧ y < N) (hz : 0 ≤ z ∧ z < N) (h : position σ y = position σ z) : y = z := by
  have h1 : (((⟨(position σ y).toNat, by have := position_range σ hy; omega⟩ : Fin N) : ℕ) : ℤ) = position σ y := by
    have := position_range σ hy
    show (((position σ y).toNat : ℕ) : ℤ) = _
    omega
  rw [← (position_iff σ _ y).1 h1, (position_iff σ _ z).1 (h1.trans h)]

private theorem group_rearranged (σ : Equiv.Perm (Fin N)) (idx : List ℤ) (x : Fin N → ℝ) :
    groupWeight (idx.map (position σ)) (fun i => x (σ i)) = groupWeight idx x := by
  unfold groupWeight
  rw [← Equiv.sum_comp σ (fun i => if (i : ℤ) ∈ idx then x i else 0)]
  refine Finset.sum_congr rfl fun i _ => ?_
  have : (i : ℤ) ∈ idx.map (position σ) ↔ ((σ i : Fin N) : ℤ) ∈ idx := by
    rw [List.mem_map]
    constructor
    · rintro ⟨z, hz, e⟩
      rw [(position_iff σ i z).1 e.symm]
      exact hz
    · intro h
      exact ⟨_, h, ((position_iff σ i _).2 rfl).symm⟩
  by_cases h : ((σ i : Fin N) : ℤ) ∈ idx
  · rw [if_pos h, if_pos (this.2 h)]
  · rw [if_neg h, if_neg (fun k => h (this.1 k))]

private theorem row_rearranged (σ : Equiv.Perm (Fin N)) (l : List ℝ) (x : Fin N → ℝ) :
    ∑ i : Fin N, (List.ofFn fun i => l.getD (σ i) 0).getD i 0 * x (σ i) = ∑ i : Fin N, l.getD i 0 * x i := by
  rw [← Equiv.sum_comp σ (fun i => l.getD i 0 * x i)]
  refine Finset.sum_congr rfl fun i _ => ?_
  rw [List.getD_eq_getElem?_getD, List.getElem?_ofFn]
  simp

/-- **C239** (constraints) Constraints rearranged with the assets are accepted if the original ones are, and a rearranged portfolio satisfies them
exactly if the original portfolio satisfies the original constraints. -/
theorem C239_constraints (σ : Equiv.Perm (Fin N)) (c : PyV.Con.Spec ℝ) :
    (Valid (N : ℤ) c → Valid (N : ℤ) (rearranged σ c)) ∧ ∀ x : Fin N → ℝ, Satisfies (rearranged σ c) (fun i => x (σ i)) ↔ Satisfies c x := by
  refine ⟨fun hv => ⟨hv.pos, hv.total, ?_, ?_, ?_, ?_, ?_⟩, fun x => ⟨fun h => ⟨?_, ?_, ?_, ?_, ?_, ?_, ?_⟩, fun h => ⟨?_, ?_, ?_, ?_, ?_, ?_, ?_⟩⟩⟩
  · have hb : BoundsOK N c.bounds := hv.bounds
    show BoundsOK N (rearranged σ c).bounds
    unfold rearranged
    dsimp only
    cases hc : c.bounds with
    | none => exact trivial
    | some b =>
      rw [hc] at hb
      cases b with
      | pair lo hi => exact hb
      | dict l =>
        intro e he
        obtain ⟨e', he', rfl⟩ := List.mem_map.1 he
        exact ⟨position_range σ (hb e' he').1, (hb e' he').2⟩
      | seq l =>
        refine ⟨List.length_ofFn, fun e he => ?_⟩
        obtain ⟨i, rfl⟩ := (List.mem_ofFn' _ _).1 he
        have hlt : ((σ i : Fin N) : ℕ) < l.length := by rw [hb.1]; exact Fin.is_lt _
        beta_reduce; rw [List.getD_eq_getElem?_getD, List.getElem?_eq_getElem hlt, Option.getD_some]
        exact hb.2 _ (List.getElem_mem hlt)
  · intro e he
    obtain ⟨e', he', rfl⟩ := List.mem_map.1 he
    obtain ⟨h1, h2, h3, h4⟩ := hv.relative e' he'
    exact ⟨position_range σ h1, position_range σ h2, fun k => h3 (position_inj σ h1 h2 k), h4⟩
  · intro e he
    obtain ⟨e', he', rfl⟩ := List.mem_map.1 he
    obtain ⟨h1, h2⟩ := hv.groups e' he'
    refine ⟨fun i hi => ?_, h2⟩
    obtain ⟨z, hz, rfl⟩ := List.mem_map.1 hi
    exact position_range σ (h1 z hz)
  · intro e he
    obtain ⟨e', he', rfl⟩ := List.mem_map.1 he
    exact ⟨by simp, (hv.ineq e' he').2⟩
  · intro e he
    obtain ⟨e', he', rfl⟩ := List.mem_map.1 he
    exact ⟨by simp, (hv.eq e' he').2⟩
  -- from the rearranged portfolio
  · intro hl i
    have := h.long hl (σ.symm i)
    simpa using this
  · intro t ht
    rw [← h.total t ht, Equiv.sum_comp σ x]
  · have hb := h.bounds
    unfold rearranged at hb
    dsimp only at hb
    cases hc : c.bounds with
    | none => exact trivial
    | some b =>
      rw [hc] at hb
      cases b with
      | pair lo hi =>
        intro i
        have := hb (σ.symm i)
        simpa using this
      | dict l =>
        intro e he i hi
        have := hb (position σ e.1, e.2) (List.mem_map.2 ⟨e, he, rfl⟩) (σ.symm i) ((position_iff σ _ _).2 (by rw [Equiv.apply_symm_apply]; exact hi))
        simpa using this
      | seq l =>
        intro i e he
        have hk : (List.ofFn fun i => l.getD (σ i) (none, none))[((σ.symm i : Fin N) : ℕ)]? = some e := by
          rw [List.getElem?_ofFn]
          simp [he]
        have := hb (σ.symm i) e hk
        simpa using this
  · intro e he k hk i j hi hj
    have := h.relative (position σ e.1, position σ e.2.1, e.2.2) (List.mem_map.2 ⟨e, he, rfl⟩) k hk (σ.symm i) (σ.symm j)
      ((position_iff σ _ _).2 (by rw [Equiv.apply_symm_apply]; exact hi)) ((position_iff σ _ _).2 (by rw [Equiv.apply_symm_apply]; exact hj))
    simpa using this
  · intro e he lo hi hlo hhi
    have := h.groups (e.1, e.2.1.map (position σ), e.2.2) (List.mem_map.2 ⟨e, he, rfl⟩) lo hi hlo hhi
    rwa [group_rearranged] at this
  · intro e he r hr
    have := h.ineq (List.ofFn fun i => e.1.getD (σ i) 0, e.2) (List.mem_map.2 ⟨e, he, rfl⟩) r hr
    rwa [row_rearranged] at this
  · intro e he r hr
    have := h.eq (List.ofFn fun i => e.1.getD (σ i) 0, e.2) (List.mem_map.2 ⟨e, he, rfl⟩) r hr
    rwa [row_rearranged] at this
  -- from the original portfolio
  · exact fun hl i => h.long hl _
  · intro t ht
    rw [← h.total t ht, Equiv.sum_comp σ x]
  · have hb := h.bounds
    unfold rearranged
    dsimp only
    cases hc : c.bounds with
    | none => exact trivial
    | some b =>
      rw [hc] at hb
      cases b with
      | pair lo hi => exact fun i => hb (σ i)
      | dict l =>
        intro e he i hi
        obtain ⟨e', he', rfl⟩ := List.mem_map.1 he
        exact hb e' he' (σ i) ((position_iff σ _ _).1 hi)
      | seq l =>
        intro i e he
        rw [List.getElem?_ofFn] at he
        simp only [Fin.is_lt, dif_pos, Option.some.injEq] at he
        rw [List.getD_eq_getElem?_getD] at he
        cases hl : l[((σ i : Fin N) : ℕ)]? with
        | none =>
          rw [hl] at he
          subst he
          exact ⟨fun a ha => (by cases ha), fun a ha => (by cases ha)⟩
        | some e' =>
          rw [hl] at he
          subst he
          exact hb (σ i) e' hl
  · intro e he k hk i j hi hj
    obtain ⟨e', he', rfl⟩ := List.mem_map.1 he
    exact h.relative e' he' k hk (σ i) (σ j) ((position_iff σ _ _).1 hi) ((position_iff σ _ _).1 hj)
  · intro e he lo hi hlo hhi
    obtain ⟨e', he', rfl⟩ := List.mem_map.1 he
    show lo ≤ groupWeight (e'.2.1.map (position σ)) _ ∧ groupWeight (e'.2.1.map (position σ)) _ ≤ hi
    rw [group_rearranged]
    exact h.groups e' he' lo hi hlo hhi
  · intro e he r hr
    obtain ⟨e', he', rfl⟩ := List.mem_map.1 he
    rw [row_rearranged]
    exact h.ineq e' he' r hr
  · intro e he r hr
    obtain ⟨e', he', rfl⟩ := List.mem_map.1 he
    rw [row_rearranged]
    exact h.eq e' he' r hr

private theorem satisfies_back (σ : Equiv.Perm (Fin N)) (c : PyV.Con.Spec ℝ) {y : Fin N → ℝ} (h : Satisfies (rearranged σ c) y) :
    Satisfies c (fun i => y (σ.symm i)) := by
  refine ((C239_constraints σ c).2 _).1 ?_
  simpa using h

theorem bounded_rearranged (σ : Equiv.Perm (Fin N)) {c : PyV.Con.Spec ℝ} (hb : ∃ B, ∀ x : Fin N → ℝ, Satisfies c x → ∀ i, |x i| ≤ B) :
    ∃ B, ∀ x : Fin N → ℝ, Satisfies (rearranged σ c) x → ∀ i, |x i| ≤ B := by
  obtain ⟨B, hB⟩ := hb
  refine ⟨B, fun y hy i => ?_⟩
  have := hB _ (satisfies_back σ c hy) (σ i)
  simpa using this

private theorem ret_rearranged (σ : Equiv.Perm (Fin N)) (mu x : Fin N → ℝ) : ret (fun i => mu (σ i)) (fun i => x (σ i)) = ret mu x := by
  unfold ret
  exact Equiv.sum_comp σ (fun i => mu i * x i)

private theorem quad_rearranged (σ : Equiv.Perm (Fin N)) (cov : Matrix (Fin N) (Fin N) ℝ) (x : Fin N → ℝ) :
    quad (fun i j => (cov.submatrix σ σ) i j) (fun i => x (σ i)) = quad (fun i j => cov i j) x := by
  unfold quad
  simp only [Matrix.submatrix_apply]
  rw [Equiv.sum_comp σ (fun i => ∑ j, x i * cov i (σ j) * x (σ j))]
  exact Finset.sum_congr rfl fun i _ => Equiv.sum_comp σ (fun j => x i * cov i j * x j)

/-- **C239** (variance) Listing the assets in another order, with constraints rearranged alike, leaves the least volatility at a target return
unchanged, or both calls report infeasibility; with a positive definite covariance the portfolio is the same one, in the other order. -/
theorem C239_min_variance {s1 s2 : Opt.Solver} (hs1 : Sound s1) (hc1 : Complete s1) (hs2 : Sound s2) (hc2 : Complete s2)
    (σ : Equiv.Perm (Fin N)) (w w' : Wrapper N) (mu : Fin N → ℝ) (cov : Matrix (Fin N) (Fin N) ℝ)
    (hmu : w.mu = some mu) (hcov : w.cov = some cov) (hlog : w.isLog = false)
    (hmu' : w'.mu = some (fun i => mu (σ i))) (hcov' : w'.cov = some (cov.submatrix σ σ)) (hlog' : w'.isLog = false) (hpsd : IsCov (fun i j => cov i j))
    (con con' : Option (PyV.Con.Spec ℝ)) (c : PyV.Con.Spec ℝ) (hin : InForce w con c) (hin' : InForce w' con' (rearranged σ c))
    (hb : ∃ B, ∀ x : Fin N → ℝ, Satisfies c x → ∀ i, |x i| ≤ B)
    (htr : Trading w none none none none) (htr' : Trading w' none none none none) (target : ℝ) :
    (∃ r r', w.minVarianceAtReturn s1 target con none = .ok r ∧ w'.minVarianceAtReturn s2 target con' none = .ok r' ∧ r'.risk = r.risk ∧
      ((∀ x : Fin N → ℝ, x ≠ 0 → 0 < quad (fun i j => cov i j) x) → (∀ i, r'.w i = r.w (σ i)) ∧ r'.ret = r.ret)) ∨
    (w.minVarianceAtReturn s1 target con none = .error .infeasible ∧ w'.minVarianceAtReturn s2 target con' none = .error .infeasible) := by
  have back : ∀ y : Fin N → ℝ, (fun i => (fun k => y (σ.symm k)) (σ i)) = y := fun y => by simp
  have hpsd' : IsCov (fun i j => (cov.submatrix σ σ) i j) := ⟨fun i j => hpsd.1 _ _, fun y => by
    have := quad_rearranged σ cov (fun k => y (σ.symm k))
    rw [back] at this
    show 0 ≤ quad _ y
    rw [this]
    exact hpsd.2 _⟩
  have h := transfer_variance hs1 hc1 hs2 hc2 w w' mu cov _ _ hmu hcov hlog hmu' hcov' hlog' hpsd hpsd' con con' c _ hin hin' hb (bounded_rearranged σ hb) htr htr'
    (k := 1) one_pos (fun x i => x (σ i)) (fun y i => y (σ.symm i)) (fun x hx => ((C239_constraints σ c).2 x).2 hx) (fun y hy => satisfies_back σ c hy)
    (fun x => by rw [one_mul]; exact ret_rearranged σ mu x)
    (fun y _ => by
      have := ret_rearranged σ mu (fun k => y (σ.symm k))
      rw [back] at this
      rw [one_mul, this])
    (fun x => by rw [one_pow, one_mul]; exact quad_rearranged σ cov x)
    (fun y _ => by
      have := quad_rearranged σ cov (fun k => y (σ.symm k))
      rw [back] at this
      rw [one_pow, one_mul, this]) target
  rcases h with ⟨r, r', e, e', h1, h2⟩ | h
  · rw [one_mul] at e' h1
    refine .inl ⟨r, r', e, e', h1, fun hpd => ⟨fun i => ?_, ?_⟩⟩
    · have := congrFun (h2 hpd).1 (σ i)
      beta_reduce at this
      rw [← this, Equiv.symm_apply_apply]
    · rw [(h2 hpd).2, one_mul]
  · rw [one_mul] at h
    exact .inr h

/-- **C239** (CVaR) The same for `min_cvar_at_return` on scenarios. -/
theorem C239_min_cvar {s1 s2 : Opt.Solver} (hs1 : Sound s1) (hc1 : Complete s1) (hs2 : Sound s2) (hc2 : Complete s2) (a1 a2 : Argsort)
    (ha1 : ∀ T, IsArgsort (a1 T)) (ha2 : ∀ T, IsArgsort (a2 T)) (sim : Sim) (σ : Equiv.Perm (Fin N)) (w w' : Wrapper N)
    {T : ℕ} (R : Fin T → Fin N → ℝ) (p : Fin T → ℝ) (hp : IsProb p)
    (hsc : w.scen = some ⟨T, R, p⟩) (hsc' : w'.scen = some ⟨T, fun t i => R t (σ i), p⟩) (hlog : w.isLog = false) (hlog' : w'.isLog = false)
    (con con' : Option (PyV.Con.Spec ℝ)) (c : PyV.Con.Spec ℝ) (hin : InForce w con c) (hin' : InForce w' con' (rearranged σ c))
    (hb : ∃ B, ∀ x : Fin N → ℝ, Satisfies c x → ∀ i, |x i| ≤ B)
    (htr : Trading w none none none none) (htr' : Trading w' none none none none)
    (target alpha : ℝ) (h0 : 0 < alpha) (h1 : alpha < 1) (seed seed' : Option ℤ) :
    (∃ r r', w.minCvarAtReturn s1 a1 sim target alpha seed con none = .ok r ∧
      w'.minCvarAtReturn s2 a2 sim target alpha seed' con' none = .ok r' ∧ r'.risk = r.risk) ∨
    (w.minCvarAtReturn s1 a1 sim target alpha seed con none = .error .infeasible ∧
      w'.minCvarAtReturn s2 a2 sim target alpha seed' con' none = .error .infeasible) := by
  have h := transfer_cvar hs1 hc1 hs2 hc2 a1 a2 ha1 ha2 sim w w' R _ p hp hsc hsc' hlog hlog' con con' c _ hin hin' hb (bounded_rearranged σ hb) htr htr'
    (k := 1) one_pos (fun x i => x (σ i)) (fun y i => y (σ.symm i)) (fun x hx => ((C239_constraints σ c).2 x).2 hx) (fun y hy => satisfies_back σ c hy)
    (fun x t => by rw [one_mul]; exact ret_rearranged σ (R t) x)
    (fun y _ t => by
      have := ret_rearranged σ (R t) (fun k => y (σ.symm k))
      unfold ret at this
      rw [one_mul, ← this]
      simp) target alpha h0 h1 seed seed'
  simpa using h

/-- Three assets rotated: a bound on asset 0, a relative limit between assets 0 and 1, a group {1, 2} and a row; the hypotheses hold and the indices follow. -/
def exRotated : PyV.Con.Spec ℝ :=
  ⟨true, some (.fin 1), some (.dict [(0, none, some (.fin 1))]), [(0, 1, .fin 1)], [("g", [1, 2], .fin 0, .fin 1)], [([1, 2, 3], .fin 5)], []⟩

example : Valid (3 : ℤ) exRotated ∧ Valid (3 : ℤ) (rearranged (finRotate 3) exRotated) ∧
    (rearranged (finRotate 3) exRotated).relative = [(2, 0, .fin 1)] ∧ (rearranged (finRotate 3) exRotated).ineqRows = [([2, 3, 1], .fin 5)] ∧
    (rearranged (finRotate 3) exRotated).groups = [("g", [0, 1], .fin 0, .fin 1)] := by
  have hv : Valid ((3 : ℕ) : ℤ) exRotated := by
    refine ⟨by norm_num, ?_, ?_, ?_, ?_, ?_, ?_⟩
    · rintro y hy; injection hy with hy; exact ⟨1, hy.symm⟩
    · intro e he
      simp only [List.mem_singleton] at he
      subst he
      exact ⟨by norm_num, fun y hy => (by cases hy), fun y hy => (by injection hy with hy; exact ⟨1, hy.symm⟩), fun a b ha => (by cases ha)⟩
    · intro e he
      simp only [exRotated, List.mem_singleton] at he
      subst he
      exact ⟨by norm_num, by norm_num, by norm_num, 1, rfl⟩
    · intro e he
      simp only [exRotated, List.mem_singleton] at he
      subst he
      exact ⟨by simp, 0, 1, rfl, rfl, zero_le_one⟩
    · intro e he
      simp only [exRotated, List.mem_singleton] at he
      subst he
      exact ⟨by simp, 5, rfl⟩
    · intro e he
      simp [exRotated] at he
  have hrot : ∀ z : ℤ, z = 0 ∨ z = 1 ∨ z = 2 → position (finRotate 3) z = (z + 2) % 3 := by
    rintro z (rfl | rfl | rfl) <;> decide
  refine ⟨hv, (C239_constraints (finRotate 3) exRotated).1 hv, ?_, ?_, ?_⟩
  · show [(position (finRotate 3) 0, position (finRotate 3) 1, PyFloat.fin (1 : ℝ))] = _
    rw [hrot 0 (by simp), hrot 1 (by simp)]
    rfl
  · show [(List.ofFn fun i : Fin 3 => [(1 : ℝ), 2, 3].getD (finRotate 3 i) 0, PyFloat.fin (5 : ℝ))] = _
    simp [List.ofFn_succ]
  · show [("g", [position (finRotate 3) 1, position (finRotate 3) 2], PyFloat.fin (0 : ℝ), PyFloat.fin (1 : ℝ))] = _
    rw [hrot 1 (by simp), hrot 2 (by simp)]
    rfl

end PyV.Props
