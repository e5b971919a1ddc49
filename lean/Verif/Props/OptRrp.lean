import Verif.Props.OptRobust

set_option linter.unusedSectionVars false

/-! # C70, C96–C98: relaxed risk parity -/

namespace PyV.Props

open PyV PyV.Opt PyV.Spec.Opt Matrix

variable {n : ℕ}

/-- The point `[x | zeta | psi, gamma, rho, q]`. -/
def rpoint (x z : Fin n → ℝ) (psi gamma rho q : ℝ) : RV n → ℝ :=
  rblocks x z (fun s => match s with | .psi => psi | .gamma => gamma | .rho => rho | .q => q)

theorem rpoint_eta (x : RV n → ℝ) : x = rpoint (fun i => x (.inl i)) (fun i => x (.inr (.inl i))) (x (.inr (.inr .psi)))
    (x (.inr (.inr .gamma))) (x (.inr (.inr .rho))) (x (.inr (.inr .q))) := by
  funext v
  rcases v with i | i | s
  · rfl
  · rfl
  · cases s <;> rfl

theorem sum_sc (f : Sc → ℝ) : ∑ s, f s = f .psi + f .gamma + f .rho + f .q := by
  have : (Finset.univ : Finset Sc) = {.psi, .gamma, .rho, .q} := rfl
  rw [this]
  rw [Finset.sum_insert (by simp), Finset.sum_insert (by simp), Finset.sum_insert (by simp), Finset.sum_singleton]
  ring

theorem slack_r (g h : Fin n → ℝ) (s : Sc → ℝ) (r : ℝ) (x z : Fin n → ℝ) (psi gamma rho q : ℝ) :
    slack (rpoint x z psi gamma rho q) (rblocks g h s, r) =
      r - (∑ i, g i * x i + ∑ i, h i * z i + (s .psi * psi + s .gamma * gamma + s .rho * rho + s .q * q)) := by
  simp only [slack, rblocks, rpoint, Fintype.sum_sum_type, Sum.elim_inl, Sum.elim_inr, sum_sc]
  ring

theorem sum_unit (i : Fin n) (c : ℝ) (x : Fin n → ℝ) : ∑ j, unit i c j * x j = c * x i := by
  simp [unit]

theorem sum_zero (x : Fin n → ℝ) : ∑ j, (0:ℝ) * x j = 0 := by simp

/-- The rotated cone: `|| (2 sqrt(b) g, x - z) || <= x + z` says `b g^2 <= x z` for a non-negative pair. -/
theorem rotated (x z g b : ℝ) (hb : 0 ≤ b) :
    Real.sqrt ((2 * Real.sqrt b * g) ^ 2 + (x - z) ^ 2) ≤ x + z ↔ b * g ^ 2 ≤ x * z ∧ 0 ≤ x ∧ 0 ≤ z := by
  have e : (2 * Real.sqrt b * g) ^ 2 = 4 * (b * g ^ 2) := by
    rw [mul_pow, mul_pow, Real.sq_sqrt hb]; ring
  rw [e, Real.sqrt_le_iff]
  constructor
  · rintro ⟨h1, h2⟩
    have h3 : b * g ^ 2 ≤ x * z := by nlinarith
    have h4 : 0 ≤ b * g ^ 2 := mul_nonneg hb (sq_nonneg g)
    refine ⟨h3, ?_, ?_⟩
    · by_contra hx; push Not at hx; nlinarith
    · by_contra hx; push Not at hx; nlinarith
  · rintro ⟨h1, h2, h3⟩
    exact ⟨by linarith, by nlinarith⟩

/-- The points that satisfy the constraints of the relaxed risk parity programme. -/
structure RrpOk (a : Rrp n) (lam : ℝ) (target : Option ℝ) (x z : Fin n → ℝ) (psi gamma rho q : ℝ) : Prop where
  holding : Holding a.user x
  marginal : ∀ i, z i = ∑ j, a.cov i j * x j
  nonneg : ∀ i, 0 ≤ z i
  psi0 : 0 ≤ psi
  gamma0 : 0 ≤ gamma
  rho0 : 0 ≤ rho
  ret : ∀ t, target = some t → t ≤ Spec.Opt.ret a.mean x
  risk : coneNorm a.chol x ≤ q
  average : Real.sqrt (q ^ 2 + n * rho ^ 2) ≤ Real.sqrt n * psi
  penalty : 0 < lam → Real.sqrt (lam * ∑ k, max (a.cov k k) 0 * x k ^ 2) ≤ rho
  floor : ∀ i, a.budgets i * gamma ^ 2 ≤ x i * z i

theorem budget_iff (A : List (Row (Fin n))) : hasBudgetRow A ↔ ∃ r ∈ A, ∀ i, |r.1 i - 1| ≤ 2 / 10 ^ 8 := by
  have e : (1:ℝ) / 10 ^ 8 + 1 / 10 ^ 8 = 2 / 10 ^ 8 := by norm_num
  unfold hasBudgetRow
  rw [e]

theorem soc1 (a : Rrp n) (x z : Fin n → ℝ) (psi gamma rho q : ℝ) :
    InCone (((rblocks (fun _ => 0) (fun _ => 0) (unit .q (-1)), (0:ℝ)) ::
          (List.finRange n).map (fun k => (rblocks (fun i => -(a.chol k i)) (fun _ => 0) (fun _ => 0), 0))).map
          (slack (rpoint x z psi gamma rho q))) ↔ coneNorm a.chol x ≤ q := by
  simp only [List.map_cons, InCone, List.map_map]
  have e : ((List.finRange n).map ((fun y => y ^ 2) ∘ slack (rpoint x z psi gamma rho q) ∘
      fun k => (rblocks (fun i => -(a.chol k i)) (fun _ => 0) (fun _ => 0), (0:ℝ)))).sum = ∑ k, (∑ i, a.chol k i * x i) ^ 2 := by
    rw [Fin.sum_univ_def]
    congr 1
    apply List.map_congr_left
    intro k _
    simp only [Function.comp, slack_r]
    simp
  rw [e, slack_r]
  simp [unit, coneNorm]

theorem soc3 (a : Rrp n) (lam : ℝ) (hl : 0 ≤ lam) (x z : Fin n → ℝ) (psi gamma rho q : ℝ) :
    InCone (((rblocks (fun _ => 0) (fun _ => 0) (unit .rho (-1)), (0:ℝ)) ::
            (List.finRange n).map (fun k =>
              (rblocks (unit k (-(Real.sqrt lam * Real.sqrt (max (a.cov k k) 0)))) (fun _ => 0) (fun _ => 0), 0))).map
          (slack (rpoint x z psi gamma rho q))) ↔ Real.sqrt (lam * ∑ k, max (a.cov k k) 0 * x k ^ 2) ≤ rho := by
  simp only [List.map_cons, InCone, List.map_map]
  have e : ((List.finRange n).map ((fun y => y ^ 2) ∘ slack (rpoint x z psi gamma rho q) ∘
      fun k => (rblocks (unit k (-(Real.sqrt lam * Real.sqrt (max (a.cov k k) 0)))) (fun _ => 0) (fun _ => 0), (0:ℝ)))).sum =
      lam * ∑ k, max (a.cov k k) 0 * x k ^ 2 := by
    rw [Fin.sum_univ_def, ← List.sum_map_mul_left]
    congr 1
    apply List.map_congr_left
    intro k _
    simp only [Function.comp, slack_r, sum_unit, sum_zero]
    have h1 := Real.sq_sqrt hl
    have h2 := Real.sq_sqrt (le_max_right (a.cov k k) 0)
    calc _ = (Real.sqrt lam) ^ 2 * (Real.sqrt (max (a.cov k k) 0)) ^ 2 * x k ^ 2 := by ring
      _ = _ := by rw [h1, h2]; ring
  rw [e, slack_r]
  simp [unit]

theorem soc2 (x z : Fin n → ℝ) (psi gamma rho q : ℝ) :
    InCone (([(rblocks (fun _ => 0) (fun _ => 0) (unit .psi (-(Real.sqrt n))), (0:ℝ)),
          (rblocks (fun _ => 0) (fun _ => 0) (unit .q (-1)), 0),
          (rblocks (fun _ => 0) (fun _ => 0) (unit .rho (-(Real.sqrt n))), 0)] : List (Row (RV n))).map
          (slack (rpoint x z psi gamma rho q))) ↔ Real.sqrt (q ^ 2 + n * rho ^ 2) ≤ Real.sqrt n * psi := by
  simp only [List.map_cons, List.map_nil, InCone, slack_r, sum_zero, unit, List.sum_cons, List.sum_nil]
  have h1 := Real.sq_sqrt (Nat.cast_nonneg (α := ℝ) n)
  have e : (Real.sqrt n * rho) ^ 2 = n * rho ^ 2 := by rw [mul_pow, h1]
  simp [e]

theorem soc4 (b : ℝ) (hb : 0 ≤ b) (i : Fin n) (x z : Fin n → ℝ) (psi gamma rho q : ℝ) :
    InCone (([(rblocks (unit i (-1)) (unit i (-1)) (fun _ => 0), (0:ℝ)),
           (rblocks (fun _ => 0) (fun _ => 0) (unit .gamma (-(2 * Real.sqrt b))), 0),
           (rblocks (unit i (-1)) (unit i 1) (fun _ => 0), 0)] : List (Row (RV n))).map
          (slack (rpoint x z psi gamma rho q))) ↔ b * gamma ^ 2 ≤ x i * z i ∧ 0 ≤ x i ∧ 0 ≤ z i := by
  rw [← rotated (x i) (z i) gamma b hb]
  simp only [List.map_cons, List.map_nil, InCone, slack_r, sum_zero, sum_unit, List.sum_cons, List.sum_nil]
  simp only [unit]
  have e1 : (0:ℝ) - (-1 * x i + -1 * z i + (0 * psi + 0 * gamma + 0 * rho + 0 * q)) = x i + z i := by ring
  have e2 : (0:ℝ) - (-1 * x i + 1 * z i + (0 * psi + 0 * gamma + 0 * rho + 0 * q)) = x i - z i := by ring
  rw [e1, e2]
  simp

/-- **C70** The programme handed to the solver: a point is feasible exactly when the weights are a long-only holding reaching
the target, the second block is the vector of marginal risks `S x`, these are non-negative, and the risk, penalty and
risk-contribution inequalities of the documentation hold (with `chol` for the square root of `S`). -/
theorem C70_feasible_iff (a : Rrp n) (hb : ∀ i, 0 ≤ a.budgets i) (lam : ℝ) (target : Option ℝ) (x z : Fin n → ℝ)
    (psi gamma rho q : ℝ) :
    Feasible (rrpProg a lam target) (rpoint x z psi gamma rho q) ↔ RrpOk a lam target x z psi gamma rho q := by
  constructor
  · rintro ⟨h1, h2, h3⟩
    have hlin : ∀ i, 0 ≤ x i := fun i => by
      have := h1 (rblocks (unit i (-1)) (fun _ => 0) (fun _ => 0), 0) (by simp [rrpProg])
      rw [slack_r, sum_unit, sum_zero] at this; linarith
    refine ⟨⟨⟨fun r hr => ?_, fun r hr => ?_⟩, hlin, fun hnb => ?_⟩, fun i => ?_, fun i => ?_, ?_, ?_, ?_, fun t ht => ?_, ?_, ?_, fun hl => ?_, fun i => ?_⟩
    · have := h1 (rblocks r.1 (fun _ => 0) (fun _ => 0), r.2) (by
        simp only [rrpProg, List.mem_append, List.mem_map]; exact Or.inl (Or.inr ⟨r, hr, rfl⟩))
      rw [slack_r, sum_zero] at this; linarith
    · have := h3 (rblocks r.1 (fun _ => 0) (fun _ => 0), r.2) (by
        simp only [rrpProg, List.mem_append, List.mem_map]; exact Or.inr ⟨r, hr, rfl⟩)
      rw [slack_r, sum_zero] at this; linarith
    · have := h3 (rblocks (fun _ => 1) (fun _ => 0) (fun _ => 0), 1) (by
        simp only [rrpProg, List.mem_append, List.mem_map]
        rw [← budget_iff] at hnb
        rw [if_neg hnb]
        exact Or.inl (Or.inr (List.mem_singleton.2 rfl)))
      rw [slack_r, sum_zero] at this
      simp only [one_mul] at this
      linarith
    · have := h3 (rblocks (fun j => -(a.cov i j)) (unit i 1) (fun _ => 0), 0) (by
        simp only [rrpProg, List.mem_append, List.mem_map]
        exact Or.inl (Or.inl ⟨i, List.mem_finRange i, rfl⟩))
      rw [slack_r, sum_unit] at this
      simp only [neg_mul, Finset.sum_neg_distrib] at this
      linarith
    · have := h1 (rblocks (fun _ => 0) (unit i (-1)) (fun _ => 0), 0) (by simp [rrpProg])
      rw [slack_r, sum_unit, sum_zero] at this; linarith
    · have := h1 (rblocks (fun _ => 0) (fun _ => 0) (unit .psi (-1)), 0) (by simp [rrpProg])
      rw [slack_r, sum_zero, sum_zero] at this; simp [unit] at this; exact this
    · have := h1 (rblocks (fun _ => 0) (fun _ => 0) (unit .gamma (-1)), 0) (by simp [rrpProg])
      rw [slack_r, sum_zero, sum_zero] at this; simp [unit] at this; exact this
    · have := h1 (rblocks (fun _ => 0) (fun _ => 0) (unit .rho (-1)), 0) (by simp [rrpProg])
      rw [slack_r, sum_zero, sum_zero] at this; simp [unit] at this; exact this
    · have := h1 (rblocks (fun i => -(a.mean i)) (fun _ => 0) (fun _ => 0), -t) (by
        simp only [rrpProg, List.mem_append, ht]; exact Or.inr (List.mem_singleton.2 rfl))
      rw [slack_r, sum_zero] at this
      simp only [neg_mul, Finset.sum_neg_distrib] at this
      unfold Spec.Opt.ret; linarith
    · exact (soc1 a x z psi gamma rho q).1 (h2 _ (by
        simp only [rrpProg, List.mem_append, List.mem_cons, true_or]))
    · exact (soc2 x z psi gamma rho q).1 (h2 _ (by
        simp only [rrpProg, List.mem_append, List.mem_cons, true_or, or_true]))
    · exact (soc3 a lam hl.le x z psi gamma rho q).1 (h2 _ (by
        simp only [rrpProg, List.mem_append, if_pos hl]; exact Or.inl (Or.inr (List.mem_singleton.2 rfl))))
    · exact ((soc4 (a.budgets i) (hb i) i x z psi gamma rho q).1 (h2 _ (by
        simp only [rrpProg, List.mem_append, List.mem_map]; exact Or.inr ⟨i, List.mem_finRange i, rfl⟩))).1
  · rintro ⟨⟨⟨g1, g2⟩, g3, g4⟩, g5, g6, g7, g8, g9, g10, g11, g12, g13, g14⟩
    refine ⟨fun r hr => ?_, fun b hbm => ?_, fun r hr => ?_⟩
    · simp only [rrpProg, List.mem_append, List.mem_map, List.mem_cons, List.not_mem_nil, or_false] at hr
      rcases hr with (((⟨i, -, rfl⟩ | ⟨i, -, rfl⟩) | rfl | rfl | rfl) | ⟨r, hr, rfl⟩) | hr
      · rw [slack_r, sum_unit, sum_zero]; linarith [g3 i]
      · rw [slack_r, sum_unit, sum_zero]; linarith [g6 i]
      · rw [slack_r, sum_zero, sum_zero]; simp [unit]; exact g7
      · rw [slack_r, sum_zero, sum_zero]; simp [unit]; exact g8
      · rw [slack_r, sum_zero, sum_zero]; simp [unit]; exact g9
      · rw [slack_r, sum_zero]; linarith [g1 r hr]
      · cases hc : target with
        | none => rw [hc] at hr; simp at hr
        | some t =>
          rw [hc] at hr
          simp only [List.mem_singleton] at hr
          subst hr
          rw [slack_r, sum_zero]
          have := g10 t hc
          simp only [neg_mul, Finset.sum_neg_distrib]
          unfold Spec.Opt.ret at this; linarith
    · simp only [rrpProg, List.mem_append, List.mem_cons, List.mem_map, List.not_mem_nil, or_false] at hbm
      rcases hbm with ((rfl | rfl) | hbm) | ⟨i, -, rfl⟩
      · exact (soc1 a x z psi gamma rho q).2 g11
      · exact (soc2 x z psi gamma rho q).2 g12
      · split at hbm
        · rename_i hl
          rw [List.mem_singleton] at hbm
          subst hbm
          exact (soc3 a lam hl.le x z psi gamma rho q).2 (g13 hl)
        · simp at hbm
      · exact (soc4 (a.budgets i) (hb i) i x z psi gamma rho q).2 ⟨g14 i, g3 i, g6 i⟩
    · simp only [rrpProg, List.mem_append, List.mem_map] at hr
      rcases hr with (⟨i, -, rfl⟩ | hr) | ⟨r, hr, rfl⟩
      · rw [slack_r, sum_unit, g5 i]
        simp only [neg_mul, Finset.sum_neg_distrib]
        ring
      · split at hr
        · simp at hr
        · rename_i hnb
          rw [budget_iff] at hnb
          rw [List.mem_singleton] at hr
          subst hr
          rw [slack_r, sum_zero]
          simp [g4 hnb]
      · rw [slack_r, sum_zero]; linarith [g2 r hr]

theorem value_rrp (a : Rrp n) (lam : ℝ) (target : Option ℝ) (x z : Fin n → ℝ) (psi gamma rho q : ℝ) :
    value (rrpProg a lam target) (rpoint x z psi gamma rho q) = psi - gamma := by
  have : ∑ v, (rrpProg a lam target).c v * rpoint x z psi gamma rho q v = psi - gamma := by
    simp only [rrpProg, rblocks, rpoint, Fintype.sum_sum_type, Sum.elim_inl, Sum.elim_inr, sum_sc]
    simp; ring
  rw [value, this]
  simp [rrpProg]

/-- `sqrt(||L x||^2 / n + lambda x' diag(S) x)`, the regulated average risk. -/
noncomputable def rrpRisk (a : Rrp n) (lam : ℝ) (x : Fin n → ℝ) : ℝ :=
  Real.sqrt (coneNorm a.chol x ^ 2 / n + lam * ∑ k, max (a.cov k k) 0 * x k ^ 2)

/-- A long-only holding with non-negative marginal risks that reaches the target. -/
def Candidate (a : Rrp n) (target : Option ℝ) (x : Fin n → ℝ) : Prop :=
  Holding a.user x ∧ (∀ i, 0 ≤ ∑ j, a.cov i j * x j) ∧ ∀ t, target = some t → t ≤ Spec.Opt.ret a.mean x

theorem pen_nonneg (a : Rrp n) {lam : ℝ} (hl : 0 ≤ lam) (x : Fin n → ℝ) : 0 ≤ lam * ∑ k, max (a.cov k k) 0 * x k ^ 2 :=
  mul_nonneg hl (Finset.sum_nonneg fun _ _ => mul_nonneg (le_max_right _ _) (sq_nonneg _))

theorem risk_le_psi (a : Rrp n) (hn : 0 < n) {lam : ℝ} (hl : 0 ≤ lam) {target : Option ℝ} {x z : Fin n → ℝ} {psi gamma rho q : ℝ}
    (h : RrpOk a lam target x z psi gamma rho q) : rrpRisk a lam x ≤ psi := by
  have hn' : (0:ℝ) < n := by exact_mod_cast hn
  have h0 : 0 ≤ coneNorm a.chol x := Real.sqrt_nonneg _
  have h1 : coneNorm a.chol x ^ 2 ≤ q ^ 2 := by have := h.risk; gcongr
  have h2 : lam * ∑ k, max (a.cov k k) 0 * x k ^ 2 ≤ rho ^ 2 := by
    rcases hl.eq_or_lt with hl | hl
    · rw [← hl, zero_mul]; exact sq_nonneg _
    · have := h.penalty hl
      rw [Real.sqrt_le_iff] at this
      exact this.2
  have h3 := h.average
  rw [Real.sqrt_le_iff, mul_pow, Real.sq_sqrt hn'.le] at h3
  unfold rrpRisk
  rw [Real.sqrt_le_iff]
  refine ⟨h.psi0, ?_⟩
  have h4 : q ^ 2 / n + rho ^ 2 ≤ psi ^ 2 := by
    rw [← mul_le_mul_iff_right₀ hn']
    have e : (n:ℝ) * (q ^ 2 / n + rho ^ 2) = q ^ 2 + n * rho ^ 2 := by field_simp
    rw [e]; exact h3.2
  have h5 : coneNorm a.chol x ^ 2 / n ≤ q ^ 2 / n := by gcongr
  linarith

theorem candidate_ok (a : Rrp n) (hn : 0 < n) {lam : ℝ} (hl : 0 ≤ lam) {target : Option ℝ} {v : Fin n → ℝ} {g : ℝ}
    (hv : Candidate a target v) (hg : 0 ≤ g) (hf : ∀ i, a.budgets i * g ^ 2 ≤ contribution a.cov v i) :
    RrpOk a lam target v (fun i => ∑ j, a.cov i j * v j) (rrpRisk a lam v) g
      (Real.sqrt (lam * ∑ k, max (a.cov k k) 0 * v k ^ 2)) (coneNorm a.chol v) := by
  have hn' : (0:ℝ) < n := by exact_mod_cast hn
  refine ⟨hv.1, fun _ => rfl, hv.2.1, Real.sqrt_nonneg _, hg, Real.sqrt_nonneg _, hv.2.2, le_rfl, ?_, fun _ => le_rfl, hf⟩
  rw [Real.sq_sqrt (pen_nonneg a hl v)]
  unfold rrpRisk
  rw [← Real.sqrt_mul hn'.le]
  apply Real.sqrt_le_sqrt
  apply le_of_eq
  field_simp

theorem rrpSolve_finish {solver : Opt.Solver} {a : Rrp n} {lam : ℝ} {target minT : Option ℝ} {res : RrpResult n}
    (h : rrpSolve solver a lam target minT = .ok res) : 0 ≤ lam ∧ ∃ tgt mr, rrpFinish solver a lam tgt mr = .ok res := by
  unfold rrpSolve at h
  split at h
  · cases h
  rename_i hl
  push Not at hl
  refine ⟨hl, ?_⟩
  split at h
  · exact ⟨_, _, h⟩
  · split at h
    · cases h
    · exact ⟨_, _, h⟩

theorem rrpFinish_ok {solver : Opt.Solver} {a : Rrp n} {lam : ℝ} {tgt mr : Option ℝ} {res : RrpResult n}
    (h : rrpFinish solver a lam tgt mr = .ok res) :
    ∃ x, solver _ inferInstance (rrpProg a lam tgt) = some x ∧ res =
      ⟨fun i => x (.inl i), fun i => x (.inr (.inl i)), x (.inr (.inr .psi)), x (.inr (.inr .gamma)), x (.inr (.inr .rho)),
        x (.inr (.inr .psi)) - x (.inr (.inr .gamma)), tgt, mr⟩ := by
  unfold rrpFinish at h
  split at h
  · cases h
  · rename_i x hx
    injection h with h
    exact ⟨x, hx, h.symm⟩

/-- Rows of the return LP. -/
theorem feasible_max (a : Rrp n) (c : Fin n → ℝ)
    (hA : a.user.A = none ∨ ∃ r ∈ a.user.A.getD [], ∀ i, |r.1 i - 1| ≤ 2 / 10 ^ 8) (w : Fin n → ℝ) :
    Feasible (⟨fun _ _ => 0, c, (a.user.G.getD []) ++ (List.finRange n).map (fun i => (unit i (-1), 0)), [],
      rrpLpEq a.user⟩ : Prog (Fin n)) w ↔ Holding a.user w := by
  have hs : ∀ r : Row (Fin n), slack w r = r.2 - ∑ i, r.1 i * w i := fun r => rfl
  unfold rrpLpEq
  constructor
  · rintro ⟨h1, -, h3⟩
    refine ⟨⟨fun r hr => ?_, fun r hr => ?_⟩, fun i => ?_, fun hnb => ?_⟩
    · have := h1 r (List.mem_append_left _ hr); rw [hs] at this; linarith
    · cases e : a.user.A with
      | none => rw [e] at hr; simp at hr
      | some A =>
        rw [e] at hr h3
        have := h3 r hr; rw [hs] at this; linarith
    · have := h1 (unit i (-1), 0) (List.mem_append_right _ (by simp))
      rw [hs, sum_unit] at this; simp at this; linarith
    · rcases hA with hA | hA
      · rw [hA] at h3
        have := h3 (fun _ => 1, 1) (by simp)
        rw [hs] at this; simp at this; linarith
      · exact absurd hA hnb
  · rintro ⟨⟨h1, h2⟩, h3, h4⟩
    refine ⟨fun r hr => ?_, fun b hb => (by simp at hb), fun r hr => ?_⟩
    · dsimp only at hr
      rw [List.mem_append, List.mem_map] at hr
      rcases hr with hr | ⟨i, -, rfl⟩
      · rw [hs]; linarith [h1 r hr]
      · rw [hs, sum_unit]; have := h3 i; simp; exact this
    · dsimp only at hr
      cases e : a.user.A with
      | none =>
        rw [e] at hr
        simp only [List.mem_singleton] at hr
        subst hr
        rw [hs]
        simp only [one_mul]
        rw [h4 (by simp [e])]; ring
      | some A =>
        rw [e] at hr h2
        rw [hs, h2 r hr]; ring

theorem maxReturn_greatest {solver : Opt.Solver} (hsnd : Sound solver) (a : Rrp n)
    (hA : a.user.A = none ∨ ∃ r ∈ a.user.A.getD [], ∀ i, |r.1 i - 1| ≤ 2 / 10 ^ 8) {r : ℝ}
    (h : rrpMaxReturn solver a = .ok r) : IsGreatest (Spec.Opt.ret a.mean '' {w | Holding a.user w}) r := by
  unfold rrpMaxReturn maxReturn at h
  split at h
  · rename_i x hx
    injection h with h
    obtain ⟨hf, ho⟩ := hsnd _ _ _ _ (convex_zero _ rfl) hx
    replace hf := (feasible_max a _ hA x).1 hf
    have hr : Spec.Opt.ret a.mean x = r := by rw [← h]; simp [dot, Spec.Opt.ret]
    refine ⟨⟨x, hf, hr⟩, ?_⟩
    rintro _ ⟨w, hw, rfl⟩
    have := ho w ((feasible_max a _ hA w).2 hw)
    simp only [value] at this
    simp at this
    rw [← hr]; unfold Spec.Opt.ret; exact this
  · cases h

/-- **C96** What a relaxed risk parity solve returns: a long-only holding reaching the target it reports, its marginal risks,
its regulated average risk, its largest admissible contribution level, and no other such holding has a smaller difference of
the two. -/
theorem C96_solution {solver : Opt.Solver} (hsnd : Sound solver) (a : Rrp n) (hn : 0 < n) (hb : ∀ i, 0 ≤ a.budgets i)
    (lam : ℝ) (target minT : Option ℝ) (res : RrpResult n) (h : rrpSolve solver a lam target minT = .ok res) :
    0 ≤ lam ∧ Candidate a res.target res.w ∧ (∀ i, res.marginal i = ∑ j, a.cov i j * res.w j) ∧
      res.psi = rrpRisk a lam res.w ∧ 0 ≤ res.gamma ∧ (∀ i, a.budgets i * res.gamma ^ 2 ≤ contribution a.cov res.w i) ∧
      (∀ g, 0 ≤ g → (∀ i, a.budgets i * g ^ 2 ≤ contribution a.cov res.w i) → g ≤ res.gamma) ∧
      res.objective = res.psi - res.gamma ∧
      ∀ v g, Candidate a res.target v → 0 ≤ g → (∀ i, a.budgets i * g ^ 2 ≤ contribution a.cov v i) →
        res.objective ≤ rrpRisk a lam v - g := by
  obtain ⟨hl, tgt, mr, h⟩ := rrpSolve_finish h
  obtain ⟨x, hx, rfl⟩ := rrpFinish_ok h
  obtain ⟨hf, ho⟩ := hsnd _ _ _ _ (convex_zero _ rfl) hx
  rw [rpoint_eta x, C70_feasible_iff a hb] at hf
  have ho' : ∀ v g, Candidate a tgt v → 0 ≤ g → (∀ i, a.budgets i * g ^ 2 ≤ contribution a.cov v i) →
      x (.inr (.inr .psi)) - x (.inr (.inr .gamma)) ≤ rrpRisk a lam v - g := fun v g hv hg hfl => by
    have := ho _ ((C70_feasible_iff a hb lam tgt _ _ _ _ _ _).2 (candidate_ok a hn hl hv hg hfl))
    rw [rpoint_eta x, value_rrp, value_rrp] at this
    exact this
  have hcand : Candidate a tgt (fun i => x (.inl i)) :=
    ⟨hf.holding, fun i => by rw [← hf.marginal i]; exact hf.nonneg i, hf.ret⟩
  have hfloor : ∀ i, a.budgets i * x (.inr (.inr .gamma)) ^ 2 ≤ contribution a.cov (fun i => x (.inl i)) i := fun i => by
    have := hf.floor i
    rw [hf.marginal i] at this
    exact this
  have hpsi := risk_le_psi a hn hl hf
  have hself := ho' _ _ hcand hf.gamma0 hfloor
  refine ⟨hl, hcand, hf.marginal, ?_, hf.gamma0, hfloor, fun g hg hgf => ?_, rfl, ho'⟩
  · dsimp only; linarith
  · have := ho' _ g hcand hg hgf
    dsimp only; linarith

theorem clip_core (t r : ℝ) : ∃ u, u ≤ r ∧ u ≤ t ∧ (t < r - max (1 / 10 ^ 8) (1 / 10 ^ 3 * |r|) → u = t) ∧
    rrpClip t r none = u ∧ ∀ m, rrpClip t r (some m) = max u m := by
  have htol : (0:ℝ) < max (1 / 10 ^ 8) (1 / 10 ^ 3 * |r|) := lt_max_of_lt_left (by norm_num)
  by_cases h : r - max (1 / 10 ^ 8) (1 / 10 ^ 3 * |r|) ≤ t
  · refine ⟨r - max (1 / 10 ^ 8) (1 / 10 ^ 3 * |r|), by linarith, h, fun h' => by linarith, ?_, fun m => ?_⟩ <;>
      unfold rrpClip <;> dsimp only <;> rw [if_pos h]
  · refine ⟨t, by linarith, le_rfl, fun _ => rfl, ?_, fun m => ?_⟩ <;>
      unfold rrpClip <;> dsimp only <;> rw [if_neg h]

/-- **C70** The clip of the return target: with `m` the requested minimum, the target used is at least `m`, never above the
maximal return unless `m` is, and equal to the requested target when that lies between the two. -/
theorem C70_clip {solver : Opt.Solver} (a : Rrp n) (lam t : ℝ) (minT : Option ℝ) (res : RrpResult n)
    (h : rrpSolve solver a lam (some t) minT = .ok res) :
    ∃ r u, res.maxReturn = some r ∧ res.target = some u ∧ (∀ m, minT = some m → m ≤ u) ∧
      ((∀ m, minT = some m → m ≤ r) → u ≤ r) ∧ ((∀ m, minT = some m → m ≤ t) → u ≤ t) ∧
      ((∀ m, minT = some m → m ≤ t) → t < r - max (1 / 10 ^ 8) (1 / 10 ^ 3 * |r|) → u = t) := by
  unfold rrpSolve at h
  split at h
  · cases h
  dsimp only at h
  cases hr : rrpMaxReturn solver a with
  | error e => rw [hr] at h; cases h
  | ok r =>
    rw [hr] at h
    obtain ⟨x, hx, rfl⟩ := rrpFinish_ok h
    obtain ⟨u, hu1, hu2, hu3, hu4, hu5⟩ := clip_core t r
    cases minT with
    | none =>
      refine ⟨r, u, rfl, congrArg some hu4, by simp, fun _ => hu1, fun _ => hu2, fun _ => hu3⟩
    | some m =>
      refine ⟨r, max u m, rfl, congrArg some (hu5 m), fun m' hm => ?_, fun hm => max_le hu1 (hm m rfl),
        fun hm => max_le hu2 (hm m rfl), fun hm hlt => ?_⟩
      · injection hm with hm; subst hm; exact le_max_right _ _
      · rw [hu3 hlt]; exact max_eq_left (hm m rfl)

/-- **C98 (partial).** The reported maximal return is the largest expected return of a long-only holding, when the user gives no
equalities or one of them fixes the sum of the weights.  Missing: other equalities, for which the budget is left out. -/
theorem C98_max_return_partial {solver : Opt.Solver} (hsnd : Sound solver) (a : Rrp n)
    (hA : a.user.A = none ∨ ∃ r ∈ a.user.A.getD [], ∀ i, |r.1 i - 1| ≤ 2 / 10 ^ 8) (lam t : ℝ) (minT : Option ℝ)
    (res : RrpResult n) (h : rrpSolve solver a lam (some t) minT = .ok res) :
    ∃ r, res.maxReturn = some r ∧ IsGreatest (Spec.Opt.ret a.mean '' {w | Holding a.user w}) r := by
  unfold rrpSolve at h
  split at h
  · cases h
  dsimp only at h
  cases hr : rrpMaxReturn solver a with
  | error e => rw [hr] at h; cases h
  | ok r =>
    rw [hr] at h
    obtain ⟨x, hx, rfl⟩ := rrpFinish_ok h
    exact ⟨r, rfl, maxReturn_greatest hsnd a hA hr⟩

/-- A long-only fully invested user set: no constraints beyond those the optimiser adds. -/
theorem holding_free (w : Fin n → ℝ) : Holding (⟨none, none⟩ : User n) w ↔ (∀ i, 0 ≤ w i) ∧ ∑ i, w i = 1 := by
  simp [Holding, Allowed]

theorem coneNorm_sq (L : Matrix (Fin n) (Fin n) ℝ) (x : Fin n → ℝ) : coneNorm L x ^ 2 = ∑ k, (∑ i, L k i * x i) ^ 2 :=
  Real.sq_sqrt (Finset.sum_nonneg fun _ _ => sq_nonneg _)

/-- The state after `__init__`. -/
theorem rrpInit_ok {factor : Bayes.Factor} (hf : CholOk factor) {mean : Fin n → ℝ} {S : Matrix (Fin n) (Fin n) ℝ} {u : User n}
    {rb : Option (Fin n → ℝ)} (hS : ∃ L, IsChol S L) {a : Rrp n} (h : rrpInit factor mean S u rb = .ok a) :
    a.mean = mean ∧ a.cov = S ∧ IsChol S a.chol ∧ a.user = u ∧ rrpBudgets rb = .ok a.budgets := by
  have hsym : Sᵀ = S := by obtain ⟨L, hL⟩ := hS; rw [← hL.1, transpose_mul, transpose_transpose]
  have hs : Bayes.symPart S = S := by
    unfold Bayes.symPart; rw [hsym, ← two_smul ℝ, smul_smul]; norm_num
  unfold rrpInit at h
  rw [hs] at h
  obtain ⟨L, hL, hc⟩ := cholSquare_ok hf S hS
  rw [hL] at h
  dsimp only at h
  split at h
  · cases h
  · rename_i b hb
    injection h with h
    subst h
    exact ⟨rfl, rfl, hc, rfl, hb⟩

theorem rrpBudgets_ok {rb : Option (Fin n → ℝ)} {b : Fin n → ℝ} (hn : 2 ≤ n) (h : rrpBudgets rb = .ok b) :
    (∀ i, 0 < b i) ∧ ∑ i, b i < 2 ∧ ∀ r, rb = some r → ∀ i j, b i * r j = b j * r i := by
  have hn' : (0:ℝ) < n := by exact_mod_cast (by omega : 0 < n)
  unfold rrpBudgets at h
  split at h
  · injection h with h
    subst h
    refine ⟨fun i => by positivity, ?_, by simp⟩
    simp
    rw [mul_inv_cancel₀ hn'.ne']; norm_num
  · rename_i r
    split at h
    · cases h
    rename_i hp
    push Not at hp
    split at h
    · rename_i hc
      injection h with h
      subst h
      refine ⟨hp, ?_, fun r' hr i j => by injection hr with hr; subst hr; ring⟩
      unfold isclose at hc
      have := (abs_le.1 hc).2
      norm_num at this
      linarith
    · injection h with h
      subst h
      have hne : (Finset.univ : Finset (Fin n)).Nonempty := ⟨⟨0, by omega⟩, Finset.mem_univ _⟩
      have hsum : 0 < ∑ j, r j := Finset.sum_pos (fun i _ => hp i) hne
      refine ⟨fun i => div_pos (hp i) hsum, ?_, fun r' hr i j => by injection hr with hr; subst hr; ring⟩
      rw [← Finset.sum_div, div_self hsum.ne']; norm_num

/-- The heart of C97: for a diagonal covariance matrix the optimum is the risk-budgeting portfolio. -/
theorem budgeting_core {solver : Opt.Solver} (hsnd : Sound solver) (a : Rrp n) (hn : 2 ≤ n) (hu : a.user = ⟨none, none⟩)
    (hb : ∀ i, 0 < a.budgets i) (hB : ∑ i, a.budgets i < 2) (hL : IsChol a.cov a.chol) (hd : ∀ i j, i ≠ j → a.cov i j = 0)
    (minT : Option ℝ) (res : RrpResult n) (h : rrpSolve solver a 0 none minT = .ok res) :
    ∀ i, contribution a.cov res.w i = a.budgets i * res.gamma ^ 2 := by
  have hn0 : 0 < n := by omega
  have hn' : (0:ℝ) < n := by exact_mod_cast hn0
  have hne : (Finset.univ : Finset (Fin n)).Nonempty := ⟨⟨0, hn0⟩, Finset.mem_univ _⟩
  obtain ⟨-, hc, -, hpsi, hg0, hfl, -, hobj, hopt⟩ := C96_solution hsnd a hn0 (fun i => (hb i).le) 0 none minT res h
  have hcon : ∀ (x : Fin n → ℝ) i, contribution a.cov x i = a.cov i i * x i ^ 2 := fun x i => by
    unfold contribution
    rw [Finset.sum_eq_single i (fun j _ hj => by rw [hd i j (Ne.symm hj), zero_mul]) (by simp)]; ring
  have hpos : ∀ i, 0 < a.cov i i := fun i => by
    rw [chol_entry hL.1 i i]
    refine lt_of_lt_of_le ?_ (Finset.single_le_sum (f := fun k => a.chol i k * a.chol i k) (fun k _ => mul_self_nonneg _) (Finset.mem_univ i))
    exact mul_pos (hL.2.2 i) (hL.2.2 i)
  have hrisk : ∀ x, rrpRisk a 0 x = Real.sqrt ((∑ i, a.cov i i * x i ^ 2) / n) := fun x => by
    unfold rrpRisk
    rw [coneNorm_sq, norm_diag hL.1 (chol_diag hL hd)]
    congr 1
    rw [zero_mul, add_zero]
    congr 1
    unfold quad
    apply Finset.sum_congr rfl; intro i _
    rw [Finset.sum_eq_single i (fun j _ hj => by rw [hd i j (Ne.symm hj)]; ring) (by simp)]; ring
  set B := ∑ i, a.budgets i with hBdef
  have hB0 : 0 < B := Finset.sum_pos (fun i _ => hb i) hne
  set s : Fin n → ℝ := fun i => Real.sqrt (a.budgets i) / Real.sqrt (a.cov i i) with hs
  have hs0 : ∀ i, 0 < s i := fun i => div_pos (Real.sqrt_pos.2 (hb i)) (Real.sqrt_pos.2 (hpos i))
  have hs2 : ∀ i, a.cov i i * s i ^ 2 = a.budgets i := fun i => by
    rw [hs]; dsimp only
    rw [div_pow, Real.sq_sqrt (hb i).le, Real.sq_sqrt (hpos i).le]
    field_simp [(hpos i).ne']
  have hS0 : 0 < ∑ i, s i := Finset.sum_pos (fun i _ => hs0 i) hne
  set g := 1 / ∑ i, s i with hgdef
  have hgpos : 0 < g := by positivity
  -- the risk-budgeting portfolio competes
  have hcand : Candidate a res.target (fun i => g * s i) := by
    have ht : res.target = none := by
      obtain ⟨-, tgt, mr, hfin⟩ := rrpSolve_finish h
      unfold rrpSolve at h
      rw [if_neg (lt_irrefl 0)] at h
      obtain ⟨x, -, rfl⟩ := rrpFinish_ok h
      rfl
    refine ⟨?_, fun i => ?_, fun t h' => by rw [ht] at h'; cases h'⟩
    · rw [hu, holding_free]
      refine ⟨fun i => (mul_pos hgpos (hs0 i)).le, ?_⟩
      rw [← Finset.mul_sum, hgdef, one_div, inv_mul_cancel₀ hS0.ne']
    · rw [Finset.sum_eq_single i (fun j _ hj => by rw [hd i j (Ne.symm hj), zero_mul]) (by simp)]
      exact (mul_pos (hpos i) (mul_pos hgpos (hs0 i))).le
  have hcomp := hopt _ g hcand hgpos.le (fun i => by
    rw [hcon]
    rw [mul_pow, ← mul_assoc, mul_comm (a.cov i i), mul_assoc, hs2, mul_comm])
  rw [hrisk] at hcomp
  have e1 : (∑ i, a.cov i i * (g * s i) ^ 2) / n = g ^ 2 * (B / n) := by
    have : ∀ i, a.cov i i * (g * s i) ^ 2 = g ^ 2 * a.budgets i := fun i => by rw [← hs2 i]; ring
    simp only [this]
    rw [← Finset.mul_sum, mul_div_assoc]
  rw [e1, Real.sqrt_mul (sq_nonneg g), Real.sqrt_sq hgpos.le] at hcomp
  set k := Real.sqrt (B / n) with hk
  have hk1 : k < 1 := by
    rw [hk, Real.sqrt_lt' one_pos, div_lt_iff₀ hn']
    have : (2:ℝ) ≤ n := by exact_mod_cast hn
    linarith
  -- lower bound on the result
  obtain ⟨hw0, hw1⟩ := (holding_free res.w).1 (hu ▸ hc.1)
  have hwi : ∀ i, res.gamma * s i ≤ res.w i := fun i => by
    have h1 := hfl i
    rw [hcon, ← hs2 i] at h1
    have h2 : (s i * res.gamma) ^ 2 ≤ res.w i ^ 2 := by
      have : a.cov i i * (s i * res.gamma) ^ 2 ≤ a.cov i i * res.w i ^ 2 := by
        calc _ = a.cov i i * s i ^ 2 * res.gamma ^ 2 := by ring
          _ ≤ _ := h1
      exact le_of_mul_le_mul_left this (hpos i)
    rw [mul_comm]
    exact le_of_sq_le_sq h2 (hw0 i)
  have hgle : res.gamma ≤ g := by
    have : res.gamma * ∑ i, s i ≤ 1 := by rw [Finset.mul_sum, ← hw1]; exact Finset.sum_le_sum fun i _ => hwi i
    rw [hgdef, le_div_iff₀ hS0]; exact this
  have hpsi' : res.gamma * k ≤ res.psi := by
    rw [hpsi, hrisk]
    apply Real.le_sqrt_of_sq_le
    rw [mul_pow, hk, Real.sq_sqrt (by positivity), ← mul_div_assoc]
    apply div_le_div_of_nonneg_right _ hn'.le
    rw [hBdef, Finset.mul_sum]
    apply Finset.sum_le_sum; intro i _
    have := hfl i
    rw [hcon] at this
    linarith
  have hgeq : res.gamma = g := by
    apply le_antisymm hgle
    rw [hobj] at hcomp
    nlinarith
  have heq : ∀ i, res.w i = res.gamma * s i := by
    have h0 : ∑ i, (res.w i - res.gamma * s i) = 0 := by
      rw [Finset.sum_sub_distrib, hw1, ← Finset.mul_sum, hgeq, hgdef, one_div, inv_mul_cancel₀ hS0.ne', sub_self]
    rw [Finset.sum_eq_zero_iff_of_nonneg (fun i _ => sub_nonneg.2 (hwi i))] at h0
    intro i
    exact sub_eq_zero.1 (h0 i (Finset.mem_univ i))
  intro i
  rw [hcon, heq i, mul_pow, ← mul_assoc, mul_comm (a.cov i i), mul_assoc, hs2, mul_comm]

/-- **C97 (partial).** For a diagonal covariance matrix and no other constraints, relaxed risk parity without regularisation or
target returns the equal-risk-contribution portfolio by default and the risk-budgeting portfolio for given positive budgets.
Missing: correlated assets, for which it fails. -/
theorem C97_diagonal_partial {solver : Opt.Solver} (hsnd : Sound solver) {factor : Bayes.Factor} (hf : CholOk factor)
    (hn : 2 ≤ n) (mean : Fin n → ℝ) (S : Matrix (Fin n) (Fin n) ℝ) (hS : ∃ L, IsChol S L) (hd : ∀ i j, i ≠ j → S i j = 0)
    (rb : Option (Fin n → ℝ)) (a : Rrp n) (ha : rrpInit factor mean S ⟨none, none⟩ rb = .ok a) (minT : Option ℝ)
    (res : RrpResult n) (h : rrpSolve solver a 0 none minT = .ok res) :
    (rb = none → IsErc S res.w) ∧ ∀ b, rb = some b → IsRiskBudgeting S b res.w := by
  obtain ⟨h1, h2, h3, h4, h5⟩ := rrpInit_ok hf hS ha
  obtain ⟨b1, b2, b3⟩ := rrpBudgets_ok hn h5
  have key := budgeting_core hsnd a hn h4 b1 b2 (by rw [h2]; exact h3) (by rw [h2]; exact hd) minT res h
  obtain ⟨-, hc, -⟩ := C96_solution hsnd a (by omega) (fun i => (b1 i).le) 0 none minT res h
  obtain ⟨hw0, hw1⟩ := (holding_free res.w).1 (h4 ▸ hc.1)
  rw [h2] at key
  refine ⟨fun hrb => ⟨hw0, hw1, fun i j => ?_⟩, fun b hrb => ⟨hw0, hw1, fun i j => ?_⟩⟩
  · rw [key, key]
    subst hrb
    unfold rrpBudgets at h5
    injection h5 with h5
    rw [← h5]
  · rw [key, key]
    have := b3 b hrb i j
    linear_combination (res.gamma ^ 2) * this

theorem holding_bounded (u : User n) : ∃ M, ∀ w, Holding u w → ∀ i, |w i| ≤ M := by
  by_cases hb : ∃ r ∈ u.A.getD [], ∀ i, |r.1 i - 1| ≤ 2 / 10 ^ 8
  · obtain ⟨r, hr, hr1⟩ := hb
    refine ⟨2 * r.2, fun w hw i => ?_⟩
    rw [abs_of_nonneg (hw.2.1 i)]
    have h1 := hw.1.2 r hr
    have h2 : ∀ j, 1 / 2 * w j ≤ r.1 j * w j := fun j => by
      have h3 := (abs_le.1 (hr1 j)).1
      norm_num at h3
      exact mul_le_mul_of_nonneg_right (by linarith) (hw.2.1 j)
    have h4 : r.1 i * w i ≤ ∑ j, r.1 j * w j := Finset.single_le_sum (f := fun j => r.1 j * w j)
      (fun j _ => le_trans (mul_nonneg (by norm_num) (hw.2.1 j)) (h2 j)) (Finset.mem_univ i)
    linarith [h2 i]
  · refine ⟨1, fun w hw i => ?_⟩
    rw [abs_of_nonneg (hw.2.1 i), ← hw.2.2 hb]
    exact Finset.single_le_sum (f := w) (fun j _ => hw.2.1 j) (Finset.mem_univ i)

theorem isClosed_candidate (a : Rrp n) (target : Option ℝ) : IsClosed {w | Candidate a target w} := by
  have : {w | Candidate a target w} = {w | Reaches a.user a.mean target w} ∩
      (⋂ i, {w : Fin n → ℝ | 0 ≤ w i}) ∩ (⋂ (_ : ¬ ∃ r ∈ a.user.A.getD [], ∀ i, |r.1 i - 1| ≤ 2 / 10 ^ 8), {w : Fin n → ℝ | ∑ i, w i = 1}) ∩
      (⋂ i, {w : Fin n → ℝ | 0 ≤ ∑ j, a.cov i j * w j}) := by
    ext w
    simp only [Candidate, Holding, Reaches, Set.mem_ofPred_eq, Set.mem_inter_iff, Set.mem_iInter, Spec.Opt.ret]
    tauto
  rw [this]
  refine (((isClosed_reaches _ _ _).inter (isClosed_iInter fun i => isClosed_le continuous_const (continuous_apply i))).inter
    (isClosed_iInter fun _ => isClosed_eq (by fun_prop) continuous_const)).inter
    (isClosed_iInter fun i => isClosed_le continuous_const (by fun_prop))

theorem continuous_contribution (S : Fin n → Fin n → ℝ) (i : Fin n) : Continuous (fun w => contribution S w i) := by
  unfold contribution; fun_prop

theorem continuous_rrpRisk (a : Rrp n) (lam : ℝ) : Continuous (rrpRisk a lam) := by
  unfold rrpRisk coneNorm; fun_prop

/-- The programme has an optimal point whenever some candidate exists. -/
theorem rrp_exists (a : Rrp n) (hn : 0 < n) (hb : ∀ i, 0 < a.budgets i) {lam : ℝ} (hl : 0 ≤ lam) {target : Option ℝ}
    (hv : ∃ v, Candidate a target v) : ∃ x, Optimal (rrpProg a lam target) x := by
  obtain ⟨M, hM⟩ := holding_bounded a.user
  have hK : IsCompact {w | Candidate a target w} := by
    refine Metric.isCompact_of_isClosed_isBounded (isClosed_candidate a target) ?_
    refine (isBounded_iff_forall_norm_le).2 ⟨max M 0, fun w hw => ?_⟩
    refine (pi_norm_le_iff_of_nonneg (le_max_right _ _)).2 fun i => ?_
    exact le_trans (hM w hw.1 i) (le_max_left _ _)
  obtain ⟨v0, hv0⟩ := hv
  set i0 : Fin n := ⟨0, hn⟩
  obtain ⟨wm, hwm, hmax⟩ := hK.exists_isMaxOn ⟨v0, hv0⟩ (continuous_contribution a.cov i0).continuousOn
  have hC0 : 0 ≤ contribution a.cov wm i0 := mul_nonneg (hwm.1.2.1 i0) (hwm.2.1 i0)
  set G := Real.sqrt (contribution a.cov wm i0 / a.budgets i0) with hG
  have hcap : ∀ w g, Candidate a target w → 0 ≤ g → (∀ i, a.budgets i * g ^ 2 ≤ contribution a.cov w i) → g ≤ G := by
    intro w g hw hg hf
    apply Real.le_sqrt_of_sq_le
    rw [le_div_iff₀ (hb i0), mul_comm]
    exact le_trans (hf i0) (hmax hw)
  set K' : Set ((Fin n → ℝ) × ℝ) := ({w | Candidate a target w} ×ˢ Set.Icc 0 G) ∩ (⋂ i, {y | a.budgets i * y.2 ^ 2 ≤ contribution a.cov y.1 i}) with hK'
  have hKc : IsCompact K' := by
    refine (hK.prod isCompact_Icc).inter_right (isClosed_iInter fun i => isClosed_le (by fun_prop) ?_)
    exact (continuous_contribution a.cov i).comp continuous_fst
  have hmem : ∀ w g, Candidate a target w → 0 ≤ g → (∀ i, a.budgets i * g ^ 2 ≤ contribution a.cov w i) → (w, g) ∈ K' := by
    intro w g hw hg hf
    exact ⟨⟨hw, hg, hcap w g hw hg hf⟩, Set.mem_iInter.2 hf⟩
  have hne : K'.Nonempty := ⟨(v0, 0), hmem v0 0 hv0 le_rfl fun i => by
    simp; exact mul_nonneg (hv0.1.2.1 i) (hv0.2.1 i)⟩
  obtain ⟨⟨w, g⟩, hwg, hmin⟩ := hKc.exists_isMinOn hne
    (f := fun y => rrpRisk a lam y.1 - y.2) (((continuous_rrpRisk a lam).comp continuous_fst).sub continuous_snd).continuousOn
  obtain ⟨⟨hw, hg, -⟩, hf⟩ := hwg
  rw [Set.mem_iInter] at hf
  refine ⟨_, (C70_feasible_iff a (fun i => (hb i).le) lam target _ _ _ _ _ _).2 (candidate_ok a hn hl hw hg hf), fun y hy => ?_⟩
  rw [rpoint_eta y, C70_feasible_iff a (fun i => (hb i).le)] at hy
  rw [rpoint_eta y, value_rrp, value_rrp]
  have h1 := risk_le_psi a hn hl hy
  have h2 := hmin (hmem _ _ ⟨hy.holding, fun i => by rw [← hy.marginal i]; exact hy.nonneg i, hy.ret⟩ hy.gamma0 (fun i => by
    have := hy.floor i; rw [hy.marginal i] at this; exact this))
  simp only [Set.mem_ofPred_eq] at h2
  linarith

theorem rrpFinish_total {solver : Opt.Solver} (hcmp : Complete solver) (a : Rrp n) (hn : 0 < n) (hb : ∀ i, 0 < a.budgets i)
    {lam : ℝ} (hl : 0 ≤ lam) {target mr : Option ℝ} (hv : ∃ v, Candidate a target v) :
    ∃ res, rrpFinish solver a lam target mr = .ok res := by
  obtain ⟨x, hx⟩ := hcmp _ inferInstance _ (convex_zero (rrpProg a lam target) rfl) (rrp_exists a hn hb hl hv)
  unfold rrpFinish
  rw [hx]
  exact ⟨_, rfl⟩

theorem rrpMaxReturn_total {solver : Opt.Solver} (hcmp : Complete solver) (a : Rrp n)
    (hA : a.user.A = none ∨ ∃ r ∈ a.user.A.getD [], ∀ i, |r.1 i - 1| ≤ 2 / 10 ^ 8) (hv : ∃ v, Holding a.user v) :
    ∃ r, rrpMaxReturn solver a = .ok r := by
  have hcl : IsClosed {w | Holding a.user w} := by
    have : {w | Holding a.user w} = {w | Candidate ⟨a.mean, 0, 0, a.budgets, a.user⟩ none w} := by
      ext w; simp [Candidate]
    rw [this]; exact isClosed_candidate _ _
  obtain ⟨M, hM⟩ := holding_bounded a.user
  have hK : IsCompact {w | Holding a.user w} := by
    refine Metric.isCompact_of_isClosed_isBounded hcl ?_
    refine (isBounded_iff_forall_norm_le).2 ⟨max M 0, fun w hw => ?_⟩
    refine (pi_norm_le_iff_of_nonneg (le_max_right _ _)).2 fun i => ?_
    exact le_trans (hM w hw i) (le_max_left _ _)
  obtain ⟨w, hw, hmax⟩ := hK.exists_isMaxOn hv (continuous_row a.mean).continuousOn
  obtain ⟨x, hx⟩ := hcmp _ inferInstance _ (convex_zero (⟨fun _ _ => 0, fun v => -(a.mean v),
      (a.user.G.getD []) ++ (List.finRange n).map (fun i => (unit i (-1), 0)), [],
      rrpLpEq a.user⟩ : Prog (Fin n)) rfl)
    ⟨w, (feasible_max a _ hA w).2 hw, fun y hy => by
      have := hmax ((feasible_max a _ hA y).1 hy)
      simp only [Set.mem_ofPred_eq] at this
      simp [value]; exact this⟩
  unfold rrpMaxReturn maxReturn
  rw [hx]
  exact ⟨_, rfl⟩

/-- **C96** Relaxed risk parity succeeds: without a target whenever some long-only holding has non-negative marginal risks;
with any target, for a non-negative covariance matrix and constraints as in C98, whenever there is a holding at all. -/
theorem C96_total {solver : Opt.Solver} (hsnd : Sound solver) (hcmp : Complete solver) (a : Rrp n) (hn : 0 < n)
    (hb : ∀ i, 0 < a.budgets i) (lam : ℝ) (hl : 0 ≤ lam) :
    ((∃ v, Holding a.user v ∧ ∀ i, 0 ≤ ∑ j, a.cov i j * v j) → ∀ minT, ∃ res, rrpSolve solver a lam none minT = .ok res) ∧
    ((∀ i j, 0 ≤ a.cov i j) →
      (a.user.A = none ∨ ∃ r ∈ a.user.A.getD [], ∀ i, |r.1 i - 1| ≤ 2 / 10 ^ 8) → (∃ v, Holding a.user v) →
      ∀ t, ∃ res, rrpSolve solver a lam (some t) none = .ok res) := by
  constructor
  · rintro ⟨v, hv, hm⟩ minT
    unfold rrpSolve
    rw [if_neg (not_lt.2 hl)]
    exact rrpFinish_total hcmp a hn hb hl ⟨v, hv, hm, by simp⟩
  · intro hpos hA hv t
    obtain ⟨r, hr⟩ := rrpMaxReturn_total hcmp a hA hv
    obtain ⟨⟨w, hw, hwr⟩, -⟩ := maxReturn_greatest hsnd a hA hr
    obtain ⟨u, hu1, -, -, hu4, -⟩ := clip_core t r
    unfold rrpSolve
    rw [if_neg (not_lt.2 hl)]
    dsimp only
    rw [hr]
    dsimp only
    refine rrpFinish_total hcmp a hn hb hl ⟨w, hw, fun i => Finset.sum_nonneg fun j _ => mul_nonneg (hpos i j) (hw.2.1 j), fun s hs => ?_⟩
    injection hs with hs
    rw [← hs, hu4, hwr]; exact hu1

/-- The covariance matrix `[[1, 16/5], [16/5, 16]]`: volatilities 1 and 4, correlation 4/5. -/
noncomputable def ercS : Matrix (Fin 2) (Fin 2) ℝ := !![1, 16/5; 16/5, 16]

theorem ercS_chol (L : Matrix (Fin 2) (Fin 2) ℝ) : IsChol ercS L ↔ L = !![1, 0; 16/5, 12/5] := by
  constructor
  · rintro ⟨h1, h2, h3⟩
    have e := chol_entry h1
    have h01 := h2 0 1 (by decide)
    have a := e 0 0
    have b := e 1 0
    have c := e 1 1
    have p0 := h3 0
    have p1 := h3 1
    simp [ercS, Fin.sum_univ_two, h01] at a b c
    have l00 : L 0 0 = 1 := by nlinarith
    rw [l00] at b
    have l10 : L 1 0 = 16/5 := by linarith
    rw [l10] at c
    have l11 : L 1 1 = 12/5 := by nlinarith
    ext i j; fin_cases i <;> fin_cases j <;> simp [h01, l00, l10, l11]
  · rintro rfl
    refine ⟨?_, ?_, ?_⟩
    · ext i j; fin_cases i <;> fin_cases j <;> simp [ercS, Matrix.mul_apply, Fin.sum_univ_two]; norm_num
    · intro i j h; fin_cases i <;> fin_cases j <;> simp_all
    · intro i; fin_cases i <;> simp

/-- **C97 is false.** Two assets with volatilities 1 and 4 and correlation 4/5, default budgets, no other constraints: the call
succeeds and the weights it returns are not the equal-risk-contribution portfolio. -/
theorem C97_counterexample {solver : Opt.Solver} (hsnd : Sound solver) (hcmp : Complete solver) {factor : Bayes.Factor}
    (hf : CholOk factor) :
    ∃ a res, rrpInit factor ![0, 0] ercS ⟨none, none⟩ none = .ok a ∧ rrpSolve solver a 0 none none = .ok res ∧
      ¬ IsErc ercS res.w ∧ IsErc ercS ![4/5, 1/5] := by
  obtain ⟨L, hL, hc⟩ := cholSquare_ok hf ercS ⟨_, (ercS_chol _).2 rfl⟩
  have hLe := (ercS_chol L).1 hc
  have hsym : Bayes.symPart ercS = ercS := by
    ext i j; fin_cases i <;> fin_cases j <;> simp [Bayes.symPart, ercS] <;> norm_num
  have hinit : rrpInit factor ![0, 0] ercS ⟨none, none⟩ none = .ok ⟨![0, 0], ercS, L, fun _ => 1 / 2, ⟨none, none⟩⟩ := by
    unfold rrpInit; rw [hsym, hL]; simp [rrpBudgets]
  set a : Rrp 2 := ⟨![0, 0], ercS, L, fun _ => 1 / 2, ⟨none, none⟩⟩ with ha
  obtain ⟨res, hres⟩ := (C96_total hsnd hcmp a (by norm_num) (fun i => by norm_num [ha]) 0 le_rfl).1
    ⟨![3/4, 1/4], (holding_free _).2 ⟨fun i => by fin_cases i <;> norm_num, by simp [Fin.sum_univ_two]; norm_num⟩, fun i => by
      fin_cases i <;> simp [ha, ercS, Fin.sum_univ_two] <;> norm_num⟩ none
  refine ⟨a, res, hinit, hres, fun herc => ?_, ?_⟩
  · obtain ⟨-, hcd, -, hpsi, hg0, hfl, -, hobj, hopt⟩ := C96_solution hsnd a (by norm_num) (fun i => by norm_num [ha]) 0 none none res hres
    obtain ⟨e1, e2, e3⟩ := herc
    have e4 := e3 0 1
    simp [contribution, ercS, Fin.sum_univ_two] at e4 e2
    have p0 := e1 0
    have p1 := e1 1
    have hw0 : res.w 0 = 4 / 5 := by
      have h1 : res.w 1 = 1 - res.w 0 := by linarith
      rw [h1] at e4 p1
      nlinarith
    have hw1 : res.w 1 = 1 / 5 := by linarith
    have hw : res.w = ![4/5, 1/5] := by funext i; fin_cases i <;> simp [hw0, hw1]
    have ht : res.target = none := by
      unfold rrpSolve at hres
      rw [if_neg (lt_irrefl 0)] at hres
      obtain ⟨x, -, rfl⟩ := rrpFinish_ok hres
      rfl
    have hrisk : ∀ x : Fin 2 → ℝ, rrpRisk a 0 x = Real.sqrt ((x 0 ^ 2 + (16/5 * x 0 + 12/5 * x 1) ^ 2) / 2) := fun x => by
      unfold rrpRisk
      rw [coneNorm_sq]
      simp [ha, hLe, Fin.sum_univ_two]
    have h2 := hopt ![3/4, 1/4] (Real.sqrt (93/40)) ⟨(holding_free _).2 ⟨fun i => by fin_cases i <;> norm_num, by
      simp [Fin.sum_univ_two]; norm_num⟩, fun i => by
        fin_cases i <;> simp [ha, ercS, Fin.sum_univ_two] <;> norm_num, by rw [ht]; simp⟩ (Real.sqrt_nonneg _) (fun i => by
        rw [Real.sq_sqrt (by norm_num)]
        fin_cases i <;> simp [ha, contribution, ercS, Fin.sum_univ_two] <;> norm_num)
    have h3 : res.gamma ≤ Real.sqrt (93/40) := by
      apply Real.le_sqrt_of_sq_le
      have := hfl 0
      rw [hw] at this
      simp [ha, contribution, ercS, Fin.sum_univ_two] at this
      norm_num at this
      linarith
    rw [hobj, hpsi, hrisk, hrisk, hw] at h2
    have h4 : Real.sqrt (((![3/4, 1/4] : Fin 2 → ℝ) 0 ^ 2 + (16/5 * (![3/4, 1/4] : Fin 2 → ℝ) 0 + 12/5 * (![3/4, 1/4] : Fin 2 → ℝ) 1) ^ 2) / 2) <
        Real.sqrt (((![4/5, 1/5] : Fin 2 → ℝ) 0 ^ 2 + (16/5 * (![4/5, 1/5] : Fin 2 → ℝ) 0 + 12/5 * (![4/5, 1/5] : Fin 2 → ℝ) 1) ^ 2) / 2) := by
      apply Real.sqrt_lt_sqrt <;> simp <;> norm_num
    linarith
  · refine ⟨fun i => by fin_cases i <;> norm_num, by simp [Fin.sum_univ_two]; norm_num, fun i j => ?_⟩
    fin_cases i <;> fin_cases j <;> simp [contribution, ercS, Fin.sum_univ_two] <;> norm_num

/-- **C98 is false.** Two assets with expected return 10% and the user equality `w0 = w1`: the half-half portfolio is a holding
with return 10%, but every correct solver finds the return LP unbounded, so any call with a target raises. -/
theorem C98_counterexample {solver : Opt.Solver} (hsnd : Sound solver) (lam t : ℝ) (hl : 0 ≤ lam) (minT : Option ℝ)
    (cov chol : Matrix (Fin 2) (Fin 2) ℝ) (b : Fin 2 → ℝ) :
    let u : User 2 := ⟨none, some [(![1, -1], 0)]⟩
    rrpSolve solver ⟨![1/10, 1/10], cov, chol, b, u⟩ lam (some t) minT = .error .runtimeError ∧
      Holding u ![1/2, 1/2] ∧ Spec.Opt.ret ![1/10, 1/10] ![1/2, 1/2] = 1 / 10 := by
  intro u
  refine ⟨?_, ⟨⟨by simp [u], fun r hr => ?_⟩, fun i => by fin_cases i <;> simp, fun _ => by simp [Fin.sum_univ_two]; norm_num⟩,
    by simp [Spec.Opt.ret, Fin.sum_univ_two]; norm_num⟩
  · set a : Rrp 2 := ⟨![1/10, 1/10], cov, chol, b, u⟩ with ha
    have hr : rrpMaxReturn solver a = .error .runtimeError := by
      unfold rrpMaxReturn maxReturn
      split
      · rename_i x hx
        exfalso
        obtain ⟨hf, ho⟩ := hsnd _ _ _ _ (convex_zero _ rfl) hx
        have key := ho (fun _ => 10 * (|x 0 + x 1| + 1)) ⟨fun r hr => ?_, by simp, fun r hr => ?_⟩
        · simp [value, ha, Fin.sum_univ_two] at key
          have := le_abs_self (x 0 + x 1)
          have := abs_nonneg (x 0 + x 1)
          linarith
        · simp [ha, u] at hr
          have := abs_nonneg (x 0 + x 1)
          rcases hr with rfl | rfl <;> simp [slack, unit, Fin.sum_univ_two] <;> linarith
        · simp [ha, u, rrpLpEq] at hr
          subst hr
          simp [slack, Fin.sum_univ_two]
      · rfl
    unfold rrpSolve
    rw [if_neg (not_lt.2 hl)]
    dsimp only
    rw [hr]
  · simp [u] at hr
    subst hr
    simp [Fin.sum_univ_two]

/-- Non-vacuity: the hypotheses of the theorems above are met by two independent assets with volatilities 1 and 2. -/
example : ∃ solver factor a res, Sound solver ∧ CholOk factor ∧
    rrpInit factor ![1/10, 1/5] !![1, 0; 0, 4] ⟨none, none⟩ (some ![1/4, 3/4]) = .ok a ∧
    rrpSolve solver a 0 none none = .ok res ∧ IsRiskBudgeting !![1, 0; 0, 4] ![1/4, 3/4] res.w := by
  obtain ⟨solver, hs, hc⟩ := exists_solver
  obtain ⟨factor, hf⟩ := cholOk_exists
  have hch : ∃ L : Matrix (Fin 2) (Fin 2) ℝ, IsChol !![1, 0; 0, 4] L := by
    refine ⟨!![1, 0; 0, 2], ?_, ?_, ?_⟩
    · ext i j; fin_cases i <;> fin_cases j <;> simp [Matrix.mul_apply, Fin.sum_univ_two]; norm_num
    · intro i j h; fin_cases i <;> fin_cases j <;> simp_all
    · intro i; fin_cases i <;> simp
  obtain ⟨L, hL, -⟩ := cholSquare_ok hf _ hch
  have hsym : Bayes.symPart (!![1, 0; 0, 4] : Matrix (Fin 2) (Fin 2) ℝ) = !![1, 0; 0, 4] := by
    ext i j; fin_cases i <;> fin_cases j <;> simp [Bayes.symPart] <;> norm_num
  have hinit : rrpInit factor ![1/10, 1/5] !![1, 0; 0, 4] ⟨none, none⟩ (some ![1/4, 3/4]) =
      .ok ⟨![1/10, 1/5], !![1, 0; 0, 4], L, ![1/4, 3/4], ⟨none, none⟩⟩ := by
    unfold rrpInit; rw [hsym, hL]
    have h1 : ¬ ∃ i, (![1/4, 3/4] : Fin 2 → ℝ) i ≤ 0 := by
      rintro ⟨i, hi⟩; fin_cases i <;> simp at hi <;> norm_num at hi
    have h2 : isclose (∑ i, (![1/4, 3/4] : Fin 2 → ℝ) i) 1 := by
      simp [isclose, Fin.sum_univ_two]; norm_num
    simp only [rrpBudgets, if_neg h1, if_pos h2]
  obtain ⟨res, hres⟩ := (C96_total hs hc ⟨![1/10, 1/5], !![1, 0; 0, 4], L, ![1/4, 3/4], ⟨none, none⟩⟩ (by norm_num)
    (fun i => by fin_cases i <;> norm_num) 0 le_rfl).1
    ⟨![3/4, 1/4], (holding_free _).2 ⟨fun i => by fin_cases i <;> norm_num, by simp [Fin.sum_univ_two]; norm_num⟩, fun i => by
      fin_cases i <;> simp [Fin.sum_univ_two] <;> norm_num⟩ none
  exact ⟨solver, factor, _, res, hs, hf, hinit, hres, (C97_diagonal_partial hs hf le_rfl _ _ hch (by
    intro i j h; fin_cases i <;> fin_cases j <;> simp_all) _ _ hinit none res hres).2 _ rfl⟩

end PyV.Props
