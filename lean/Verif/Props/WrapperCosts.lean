import Verif.Props.Wrapper

/-! # C113: transaction cost vectors of the wrong length -/

namespace PyV.Props

open PyV PyV.Api PyV.Spec.Api PyV.Opt PyV.Spec.Opt PyV.Spec.Con Matrix

variable {N : ℕ}

/-- Every vector of the cost specification has one entry per asset. -/
def CostsFit (N : ℕ) (c : Costs) : Prop :=
  c.w0.length = N ∧ (∀ l, c.impact = some l → l.length = N) ∧ ∀ l, c.prop = some l → l.length = N

theorem applyCosts_iff (c : Costs) (s : CostState) :
    applyCosts N (some c) = .ok s ↔ CostsFit N c ∧ s = ⟨some c.w0, c.impact, c.prop⟩ := by
  have key : (costLenOk N c.impact && costLenOk N c.prop) = true ↔
      (∀ l, c.impact = some l → l.length = N) ∧ ∀ l, c.prop = some l → l.length = N := by
    rcases c with ⟨w0, imp, prop⟩
    cases imp <;> cases prop <;> simp [costLenOk]
  unfold applyCosts CostsFit
  simp only
  by_cases h1 : c.w0.length = N
  · rw [if_neg (not_not.2 h1)]
    by_cases h2 : (costLenOk N c.impact && costLenOk N c.prop) = true
    · rw [if_pos h2]
      have := key.1 h2
      constructor
      · intro h; injection h with h; exact ⟨⟨h1, this⟩, h.symm⟩
      · rintro ⟨-, rfl⟩; rfl
    · rw [if_neg h2]
      simp only [reduceCtorEq, false_iff]
      rintro ⟨⟨-, h⟩, -⟩
      exact h2 (key.2 h)
  · rw [if_pos h1]
    simp only [reduceCtorEq, false_iff]
    rintro ⟨⟨h, -⟩, -⟩
    exact h1 h

theorem applyCosts_error {c : Option Costs} {e : PyErr} (h : applyCosts N c = .error e) : e = .valueError := by
  unfold applyCosts at h
  split at h
  · cases h
  · split at h
    · injection h with h; exact h.symm
    · split at h
      · cases h
      · injection h with h; exact h.symm

/-- **C113** The constructor accepts a cost specification exactly if all its vectors have one entry per asset, and then stores them;
otherwise it raises `ValueError` (the other arguments being acceptable). -/
theorem C113_constructor (d : Dist) (con : Option (PyV.Con.Spec ℝ)) (lo : Bool) (t : Option (PyFloat ℝ)) (bd : Option (PyV.Con.Bounds ℝ))
    (w : Wrapper d.N) (hw : mkWrapper d con none lo t bd = .ok w) (c : Costs) :
    (CostsFit d.N c → mkWrapper d con (some c) lo t bd = .ok { w with costs := ⟨some c.w0, c.impact, c.prop⟩ }) ∧
    (¬ CostsFit d.N c → mkWrapper d con (some c) lo t bd = .error .valueError) := by
  unfold mkWrapper at hw ⊢
  split at hw
  · cases hw
  rename_i m hm
  simp only [applyCosts] at hw
  injection hw with hw
  subst hw
  constructor
  · intro h
    rw [(applyCosts_iff c _).2 ⟨h, rfl⟩]
  · intro h
    cases hc : applyCosts d.N (some c) with
    | ok s => exact absurd ((applyCosts_iff c s).1 hc).1 h
    | error e => simp only [applyCosts_error hc]

/-- The cost vectors of a call that the mean-variance methods use. -/
def Impact (w : Wrapper N) (costs : Option Costs) (w0 l : List ℝ) : Prop :=
  (∃ c, costs = some c ∧ c.w0 = w0 ∧ c.impact = some l) ∨ (costs = none ∧ w.costs.w0 = some w0 ∧ w.costs.impact = some l)

/-- **C113 (partial).** The mean-variance methods raise `ValueError` for market impact vectors of a wrong length other than one (for two or more
assets) or of a length different from that of the initial weights.  Missing: vectors of length one and vectors that are not used. -/
theorem C113_impact_partial {solver : Opt.Solver} (argsort : Argsort) (w : Wrapper N) (mu : Fin N → ℝ) (cov : Matrix (Fin N) (Fin N) ℝ)
    (hmu : w.mu = some mu) (hcov : w.cov = some cov) (con : Option (PyV.Con.Spec ℝ)) (c : PyV.Con.Spec ℝ) (hin : InForce w con c)
    (costs : Option Costs) (w0 l : List ℝ) (hc : Impact w costs w0 l)
    (hbad : w0.length ≠ l.length ∨ (l.length ≠ N ∧ l.length ≠ 1 ∧ N ≠ 1)) (num : ℕ) (target : ℝ) :
    w.varianceFrontier solver argsort num con costs = .error .valueError ∧
      w.minVarianceAtReturn solver target con costs = .error .valueError := by
  obtain ⟨u, hu, -⟩ := user_spec hin
  have hr : (w.resolveCosts costs).w0 = some w0 ∧ (w.resolveCosts costs).impact = some l := by
    rcases hc with ⟨c, rfl, h1, h2⟩ | ⟨rfl, h1, h2⟩
    · exact ⟨by simp [Wrapper.resolveCosts, h1], by simp [Wrapper.resolveCosts, h2]⟩
    · exact ⟨h1, h2⟩
  have hmv : mvOf mu (fun i j => cov i j) u (w.resolveCosts costs) = .error .valueError := by
    unfold mvOf
    rw [hr.1, hr.2]
    simp only
    rcases hbad with h | ⟨h1, h2, h3⟩
    · rw [if_pos h]
    · by_cases h : w0.length ≠ l.length
      · rw [if_pos h]
      · rw [if_neg h, if_neg h1, if_neg h2, if_neg h3]
  constructor
  · unfold Wrapper.varianceFrontier Wrapper.moments
    rw [hmu, hcov]
    simp only [hu, hmv]
  · unfold Wrapper.minVarianceAtReturn Wrapper.moments
    rw [hmu, hcov]
    simp only [hu, hmv]

/-- The cost vectors of a call that the CVaR methods use. -/
def Proportional (w : Wrapper N) (costs : Option Costs) (w0 l : List ℝ) : Prop :=
  (∃ c, costs = some c ∧ c.w0 = w0 ∧ c.prop = some l) ∨ (costs = none ∧ w.costs.w0 = some w0 ∧ w.costs.prop = some l)

/-- **C113 (partial).** The CVaR methods never accept proportional costs whose vectors do not have one entry per asset: vectors of different lengths raise
`ValueError`.  Missing: two vectors of the same wrong length raise `TypeError` (from CVXOPT), not `ValueError`. -/
theorem C113_proportional_partial {solver : Opt.Solver} (argsort : Argsort) (sim : Sim) (seed : Option ℤ) (w : Wrapper N)
    (hsc : ∃ r, w.scenarioInputs sim seed = .ok r) (con : Option (PyV.Con.Spec ℝ)) (c : PyV.Con.Spec ℝ) (hin : InForce w con c)
    (costs : Option Costs) (w0 l : List ℝ) (hc : Proportional w costs w0 l)
    (hbad : ¬ (w0.length = N ∧ l.length = N)) (num : ℕ) (alpha target : ℝ) (enf : Bool) :
    ∃ e, w.cvarFrontier solver argsort sim num alpha seed con costs enf = .error e ∧
      w.minCvarAtReturn solver argsort sim target alpha seed con costs = .error e ∧
      (w0.length ≠ l.length → e = .valueError) ∧ (w0.length = l.length → e = .typeError) := by
  obtain ⟨u, hu, -⟩ := user_spec hin
  obtain ⟨⟨s, mu⟩, hs⟩ := hsc
  have hr : (w.resolveCosts costs).w0 = some w0 ∧ (w.resolveCosts costs).prop = some l := by
    rcases hc with ⟨c, rfl, h1, h2⟩ | ⟨rfl, h1, h2⟩
    · exact ⟨by simp [Wrapper.resolveCosts, h1], by simp [Wrapper.resolveCosts, h2]⟩
    · exact ⟨h1, h2⟩
  obtain ⟨e, hcv, he⟩ : ∃ e, cvOf s.R s.p alpha u (w.resolveCosts costs) = .error e ∧
      ((w0.length ≠ l.length → e = .valueError) ∧ (w0.length = l.length → e = .typeError)) := by
    unfold cvOf
    rw [hr.1, hr.2]
    simp only
    by_cases h : w0.length = l.length
    · rw [if_neg (not_not.2 h), if_neg (fun h' => hbad ⟨h.trans h', h'⟩)]
      exact ⟨_, rfl, fun h' => absurd h h', fun _ => rfl⟩
    · rw [if_pos h]
      exact ⟨_, rfl, fun _ => rfl, fun h' => absurd h' h⟩
  refine ⟨e, ?_, ?_, he⟩
  · unfold Wrapper.cvarFrontier
    simp only [hs, hu, hcv]
  · unfold Wrapper.minCvarAtReturn
    simp only [hs, hu, hcv]

/-- **C113** (false of the code) Two assets, but one initial weight and one impact cost are passed to `min_variance_at_return`: the call succeeds, the
cost being spread over all pairs of assets. -/
theorem C113_counterexample : ∃ w : Wrapper 2, ∀ solver, Sound solver → Complete solver →
    ∃ r, w.minVarianceAtReturn solver 0 none (some ⟨[0], some [1], none⟩) = .ok r := by
  obtain ⟨w, hmu, hcov, -, hlog, -, hin, -⟩ := exists_wrapper (N := 2) (by norm_num) (some ![1 / 10, 1 / 50])
    (some (Matrix.diagonal ![4, 1])) none false
  refine ⟨w, fun solver hs hc => ?_⟩
  obtain ⟨u, hu, hall⟩ := user_spec hin
  set C : Fin 2 → Fin 2 → ℝ := fun i j => Matrix.diagonal ![4, 1] i j + 1 with hC
  have hmv : mvOf ![1 / 10, 1 / 50] (fun i j => (Matrix.diagonal ![4, 1] : Matrix (Fin 2) (Fin 2) ℝ) i j) u
      (w.resolveCosts (some ⟨[0], some [1], none⟩)) =
      .ok { mvInit ![1 / 10, 1 / 50] C u none none with cov := fun i j => (Matrix.diagonal ![4, 1] : Matrix (Fin 2) (Fin 2) ℝ) i j } := by
    unfold mvOf mvInit
    simp [Wrapper.resolveCosts, hC]
    funext i j; ring
  obtain ⟨x, -, hx⟩ := C90_total hc ![1 / 10, 1 / 50] C u none none (by
    constructor
    · intro i j; fin_cases i <;> fin_cases j <;> simp [hC]
    · intro x
      simp [hC, Fin.sum_univ_two]
      nlinarith [sq_nonneg (x 0), sq_nonneg (x 1), sq_nonneg (x 0 + x 1)]) (by simp) (some 0)
    (by obtain ⟨M, hM⟩ := default_bounded (N := 2); exact ⟨M, fun y hy => hM y ((hall y).1 hy)⟩)
    ⟨![1, 0], (hall _).2 ((satisfies_default _).2 ⟨fun i => by fin_cases i <;> simp, by simp⟩), by
      intro t ht; injection ht with ht; rw [← ht]; simp [Fin.sum_univ_two]⟩
  have hx' : mvSolve solver { mvInit ![1 / 10, 1 / 50] C u none none with
      cov := fun i j => (Matrix.diagonal ![4, 1] : Matrix (Fin 2) (Fin 2) ℝ) i j } (some 0) = .ok x := hx
  unfold Wrapper.minVarianceAtReturn Wrapper.moments
  rw [hmu, hcov]
  simp only [hu, hmv, hx', asInfeasible]
  exact ⟨_, rfl⟩

/-- **C113** Without impact costs `variance_frontier` ignores the rest of a per-call cost specification, whatever its lengths. -/
theorem C113_unused_ignored {solver : Opt.Solver} (argsort : Argsort) (w : Wrapper N) (l : List ℝ) (p : Option (List ℝ)) (num : ℕ)
    (hcost : w.costs = ⟨none, none, none⟩) (con : Option (PyV.Con.Spec ℝ)) :
    w.varianceFrontier solver argsort num con (some ⟨l, none, p⟩) = w.varianceFrontier solver argsort num con none := by
  unfold Wrapper.varianceFrontier
  have : ∀ mu cov u, mvOf (N := N) mu cov u (w.resolveCosts (some ⟨l, none, p⟩)) = mvOf mu cov u (w.resolveCosts none) := by
    intro mu cov u
    simp [Wrapper.resolveCosts, hcost, mvOf]
  simp only [this]

/-- C113: three impact costs for two assets. -/
example {solver : Opt.Solver} (argsort : Argsort) : ∃ w : Wrapper 2,
    w.minVarianceAtReturn solver 0 none (some ⟨[1 / 2, 1 / 2, 0], some [1, 1, 1], none⟩) = .error .valueError := by
  obtain ⟨w, hmu, hcov, -, -, -, hin, -⟩ := exists_wrapper (N := 2) (by norm_num) (some ![1 / 10, 1 / 50]) (some 1) none false
  exact ⟨w, (C113_impact_partial argsort w _ _ hmu hcov none _ hin (some ⟨[1 / 2, 1 / 2, 0], some [1, 1, 1], none⟩) [1 / 2, 1 / 2, 0] [1, 1, 1] (.inl ⟨_, rfl, rfl, rfl⟩)
    (.inr ⟨by decide, by decide, by decide⟩) 5 0).2⟩

end PyV.Props
