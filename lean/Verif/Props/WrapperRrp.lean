import Verif.Props.WrapperRobust
import Verif.Props.OptRrp

/-! # C111, C112: the relaxed risk parity methods of `PortfolioWrapper`, end to end -/

namespace PyV.Props

open PyV PyV.Api PyV.Spec.Api PyV.Opt PyV.Spec.Opt PyV.Spec.Con Matrix

variable {N : ℕ}

/-! ## The retry loop -/

theorem shrink_bounds (lower t : ℝ) : (lower ≤ t → lower ≤ shrink lower t ∧ shrink lower t ≤ t) ∧ (t ≤ lower → shrink lower t ≤ lower) := by
  unfold shrink
  dsimp only
  split <;> rename_i h
  · exact ⟨fun h' => ⟨le_rfl, h'⟩, fun _ => le_rfl⟩
  · push Not at h
    exact ⟨fun h' => ⟨by linarith, by linarith⟩, fun h' => by linarith⟩

theorem rrpSolve_runtime {solver : Opt.Solver} {a : Rrp N} {lam : ℝ} (hl : 0 ≤ lam) {t m : Option ℝ} {e : PyErr}
    (h : rrpSolve solver a lam t m = .error e) : e = .runtimeError := by
  have hfin : ∀ t' r, rrpFinish solver a lam t' r = .error e → e = .runtimeError := by
    intro t' r h
    unfold rrpFinish at h
    split at h
    · injection h with h; exact h.symm
    · cases h
  unfold rrpSolve at h
  rw [if_neg (not_lt.2 hl)] at h
  split at h
  · exact hfin _ _ h
  · split at h
    · rename_i e' he'
      unfold rrpMaxReturn maxReturn at he'
      split at he'
      · cases he'
      · injection he' with he'; injection h with h; rw [← h, he']
    · exact hfin _ _ h

/-- What the retry loop returns. -/
theorem relaxedLoop_ok {solver : Opt.Solver} {a : Rrp N} {lam lower : ℝ} : ∀ (k : ℕ) (t : ℝ) (s : RrpResult N × Bool),
    relaxedLoop solver a lam lower k t = .ok s →
      (s.2 = true ∧ rrpSolve solver a lam none none = .ok s.1) ∨
      (s.2 = false ∧ ∃ t', rrpSolve solver a lam (some t') (some lower) = .ok s.1 ∧
        (lower ≤ t → lower ≤ t' ∧ t' ≤ t) ∧ (t ≤ lower → t' ≤ lower)) := by
  intro k
  induction k with
  | zero =>
    intro t s h
    unfold relaxedLoop at h
    split at h
    · cases h
    · rename_i r hr
      injection h with h; subst h
      exact .inl ⟨rfl, hr⟩
  | succ k ih =>
    intro t s h
    unfold relaxedLoop at h
    split at h
    · rename_i r hr
      injection h with h; subst h
      exact .inr ⟨rfl, t, hr, fun h => ⟨h, le_rfl⟩, fun h => h⟩
    · split at h
      · rcases ih _ _ h with h1 | ⟨h1, t', h2, h3, h4⟩
        · exact .inl h1
        · refine .inr ⟨h1, t', h2, fun hle => ?_, fun hle => h4 ((shrink_bounds _ _).2 hle)⟩
          obtain ⟨h5, h6⟩ := (shrink_bounds lower t).1 hle
          exact ⟨(h3 h5).1, (h3 h5).2.trans h6⟩
      · cases h

/-- With a non-negative penalty the loop only fails if the solve without a target does. -/
theorem relaxedLoop_total {solver : Opt.Solver} {a : Rrp N} {lam lower : ℝ} (hl : 0 ≤ lam)
    (hr : ∃ r, rrpSolve solver a lam none none = .ok r) : ∀ (k : ℕ) (t : ℝ), ∃ s, relaxedLoop solver a lam lower k t = .ok s := by
  intro k
  induction k with
  | zero => intro t; obtain ⟨r, hr⟩ := hr; exact ⟨(r, true), by simp only [relaxedLoop, hr]⟩
  | succ k ih =>
    intro t
    unfold relaxedLoop
    cases h : rrpSolve solver a lam (some t) (some lower) with
    | ok r => exact ⟨(r, false), rfl⟩
    | error e =>
      rw [rrpSolve_runtime hl h]
      obtain ⟨s, hs⟩ := ih (shrink lower t)
      exact ⟨s, by simp only [isRuntime, if_true, hs]⟩

theorem relaxedLoop_negative {solver : Opt.Solver} {a : Rrp N} {lam lower : ℝ} (hl : lam < 0) (k : ℕ) (t : ℝ) :
    relaxedLoop solver a lam lower k t = .error .valueError := by
  have h : ∀ t m, rrpSolve solver a lam t m = .error .valueError := fun t m => by unfold rrpSolve; rw [if_pos hl]
  cases k with
  | zero => simp only [relaxedLoop, h]
  | succ k => simp [relaxedLoop, h, isRuntime]

/-- A target that can be solved is used at once. -/
theorem relaxedLoop_first {solver : Opt.Solver} {a : Rrp N} {lam lower t : ℝ} {r : RrpResult N} (k : ℕ)
    (h : rrpSolve solver a lam (some t) (some lower) = .ok r) : relaxedLoop solver a lam lower (k + 1) t = .ok (r, false) := by
  simp only [relaxedLoop, h]

/-! ## Totality -/

theorem rrpInit_budgets (hn : 0 < N) {factor : Bayes.Factor} {mean : Fin N → ℝ} {S : Matrix (Fin N) (Fin N) ℝ} {u : User N}
    {rb : Option (Fin N → ℝ)} {a : Rrp N} (h : rrpInit factor mean S u rb = .ok a) :
    (∀ i, 0 < a.budgets i) ∧ a.mean = mean ∧ a.cov = Bayes.symPart S ∧ a.user = u ∧ rrpBudgets rb = .ok a.budgets := by
  unfold rrpInit at h
  split at h
  · cases h
  split at h
  · cases h
  rename_i b hb
  injection h with h; subst h
  refine ⟨?_, rfl, rfl, rfl, hb⟩
  unfold rrpBudgets at hb
  have hn' : (0 : ℝ) < N := by exact_mod_cast hn
  split at hb
  · injection hb with hb; subst hb; intro i; positivity
  · rename_i r
    split at hb
    · cases hb
    rename_i hp
    push Not at hp
    have hsum : 0 < ∑ j, r j := Finset.sum_pos (fun i _ => hp i) ⟨⟨0, hn⟩, Finset.mem_univ _⟩
    split at hb
    · injection hb with hb; subst hb; exact hp
    · injection hb with hb; subst hb; exact fun i => div_pos (hp i) hsum

/-- Relaxed risk parity without a target is solvable for every penalty as soon as it is for none. -/
theorem rrpSolve_from_base {solver : Opt.Solver} (hsnd : Sound solver) (hcmp : Complete solver) (hn : 0 < N) {a : Rrp N}
    (hb : ∀ i, 0 < a.budgets i) {rp : RrpResult N} (h : rrpSolve solver a 0 none none = .ok rp) {lam : ℝ} (hl : 0 ≤ lam) :
    ∃ r, rrpSolve solver a lam none none = .ok r := by
  obtain ⟨-, ⟨h1, h2, -⟩, -⟩ := C96_solution hsnd a hn (fun i => (hb i).le) 0 none none rp h
  exact (C96_total hsnd hcmp a hn hb lam hl).1 ⟨_, h1, h2⟩ none

/-- The return target of a call: the explicit one, or the multiple of the (non-negative part of the) risk parity return. -/
def Requested (base : ℝ) (mult target : Option ℝ) (t : ℝ) : Prop :=
  target = some t ∨ (target = none ∧ ∃ m, 0 ≤ m ∧ mult = some m ∧ t = m * max base 0)

theorem requestedTarget_iff (base : ℝ) (mult target : Option ℝ) (t : ℝ) :
    requestedTarget (max base 0) mult target = .ok t ↔ Requested base mult target t := by
  unfold requestedTarget Requested
  cases target with
  | some x => simp
  | none =>
    cases mult with
    | none => simp
    | some m =>
      by_cases hm : m < 0
      · simp [hm]
      · simp [hm, not_lt.1 hm, eq_comm]

theorem requestedTarget_error {lower : ℝ} {mult target : Option ℝ} {e : PyErr}
    (h : requestedTarget lower mult target = .error e) : e = .valueError := by
  unfold requestedTarget at h
  split at h
  · cases h
  · split at h
    · injection h with h; exact h.symm
    · split at h
      · injection h with h; exact h.symm
      · cases h

/-- The stages of a call, with the pure risk parity solve made explicit. -/
theorem relaxed_base {solver : Opt.Solver} {factor : Bayes.Factor} {w : Wrapper N} {budgets : Option (Fin N → ℝ)}
    {con : Option (PyV.Con.Spec ℝ)} {base : RelaxedOut N} (h : w.relaxed solver factor 0 none none budgets con = .ok base) :
    ∃ mu cov u a, w.moments = .ok (mu, cov) ∧ w.user con = .ok u ∧ rrpInit factor mu cov u budgets = .ok a ∧
      rrpSolve solver a 0 none none = .ok base.sol ∧ base = relaxedPack (w.report mu cov) base.sol.w base.sol none false ∧
      ∀ lam mult target, w.relaxed solver factor lam mult target budgets con =
        if lam = 0 ∧ target = none ∧ mult = none then .ok base else
          match requestedTarget (max base.ret 0) mult target with
          | .error e => .error e
          | .ok t =>
            match relaxedLoop solver a lam (max base.ret 0) 8 t with
            | .error e => .error e
            | .ok s => .ok (relaxedPack (w.report mu cov) base.w s.1 (some t) s.2) := by
  unfold Wrapper.relaxed at h
  split at h
  · cases h
  rename_i mu cov hm
  split at h
  · cases h
  rename_i u hu
  split at h
  · cases h
  rename_i a ha
  simp only at h
  split at h
  · cases h
  rename_i rp hrp
  simp only [and_self, if_true] at h
  injection h with h
  subst h
  refine ⟨mu, cov, u, a, hm, hu, ha, hrp, rfl, fun lam mult target => ?_⟩
  unfold Wrapper.relaxed
  simp only [hm, hu, ha, hrp]
  rfl

/-- **C111** Once the pure risk parity problem is solved, a call with a non-negative penalty and a return target (explicit, or a
non-negative multiple of the risk parity return; for a zero penalty the target may be omitted) returns a portfolio, and every other call
raises `ValueError`. -/
theorem C111_total {solver : Opt.Solver} (hsnd : Sound solver) (hcmp : Complete solver) {factor : Bayes.Factor} (hn : 0 < N)
    (w : Wrapper N) (budgets : Option (Fin N → ℝ)) (con : Option (PyV.Con.Spec ℝ)) (base : RelaxedOut N)
    (h : w.relaxed solver factor 0 none none budgets con = .ok base) (lam : ℝ) (mult target : Option ℝ) :
    (lam = 0 ∧ mult = none ∧ target = none ∨ 0 ≤ lam ∧ (∃ t, Requested base.ret mult target t) →
      ∃ out, w.relaxed solver factor lam mult target budgets con = .ok out) ∧
    (¬ (lam = 0 ∧ mult = none ∧ target = none) → ¬ (0 ≤ lam ∧ ∃ t, Requested base.ret mult target t) →
      w.relaxed solver factor lam mult target budgets con = .error .valueError) := by
  obtain ⟨mu, cov, u, a, -, -, ha, hrp, -, hall⟩ := relaxed_base h
  obtain ⟨hb, -⟩ := rrpInit_budgets hn ha
  rw [hall]
  constructor
  · intro hv
    by_cases hz : lam = 0 ∧ target = none ∧ mult = none
    · rw [if_pos hz]; exact ⟨_, rfl⟩
    rw [if_neg hz]
    rcases hv with hv | ⟨hl, t, ht⟩
    · exact absurd ⟨hv.1, hv.2.2, hv.2.1⟩ hz
    rw [(requestedTarget_iff _ _ _ _).2 ht]
    obtain ⟨s, hs⟩ := relaxedLoop_total (lower := max base.ret 0) hl (rrpSolve_from_base hsnd hcmp hn hb hrp hl) 8 t
    simp only [hs]
    exact ⟨_, rfl⟩
  · intro hz hv
    rw [if_neg (fun h => hz ⟨h.1, h.2.2, h.2.1⟩)]
    cases ht : requestedTarget (max base.ret 0) mult target with
    | error e => simp only [requestedTarget_error ht]
    | ok t =>
      have hl : lam < 0 := by
        by_contra hl
        exact hv ⟨not_lt.1 hl, t, (requestedTarget_iff _ _ _ _).1 ht⟩
      simp only [relaxedLoop_negative hl]

/-- **C111** If the pure risk parity problem is not solved, every call raises the same error. -/
theorem C111_base_error {solver : Opt.Solver} {factor : Bayes.Factor} (w : Wrapper N) (budgets : Option (Fin N → ℝ))
    (con : Option (PyV.Con.Spec ℝ)) (e : PyErr) (h : w.relaxed solver factor 0 none none budgets con = .error e)
    (lam : ℝ) (mult target : Option ℝ) : w.relaxed solver factor lam mult target budgets con = .error e := by
  unfold Wrapper.relaxed at h ⊢
  split at h
  · rename_i e' h1; rw [← h]
  rename_i mu cov hm
  split at h
  · rename_i e' h1; rw [← h]
  rename_i u hu
  split at h
  · rename_i e' h1; rw [← h]
  rename_i a ha
  simp only at h
  split at h
  · rename_i e' h1; rw [← h]
  · simp at h

/-! ## What is returned -/

/-- A long-only portfolio that satisfies the specification and is fully invested if the specification leaves the total weight open. -/
def LongHolding (c : PyV.Con.Spec ℝ) (x : Fin N → ℝ) : Prop :=
  Satisfies c x ∧ (∀ i, 0 ≤ x i) ∧ (c.totalWeight = none → ∑ i, x i = 1)

/-- The equality rows built from a specification without custom equalities: one fixing the total weight, if that is given. -/
theorem user_budget {w : Wrapper N} {con : Option (PyV.Con.Spec ℝ)} {c : PyV.Con.Spec ℝ} (h : InForce w con c) {u : User N}
    (hu : w.user con = .ok u) : (c.totalWeight ≠ none → ∃ r ∈ u.A.getD [], ∀ i, r.1 i = 1) ∧
      (c.totalWeight = none → c.eqRows = [] → u.A = none) := by
  have key : ∀ m : PyV.Con.Matrices (Int.toNat (N : ℤ)) ℝ, PyV.Con.build (N : ℤ) c = .ok m → u = toUser m →
      (c.totalWeight ≠ none → ∃ r ∈ u.A.getD [], ∀ i, r.1 i = 1) ∧ (c.totalWeight = none → c.eqRows = [] → u.A = none) := by
    rintro m hm rfl
    unfold PyV.Con.build at hm
    split at hm
    · cases hm
    simp only at hm
    split at hm
    · cases hm
    rename_i t ht
    split at hm
    · cases hm
    split at hm
    · cases hm
    split at hm
    · cases hm
    split at hm
    · cases hm
    split at hm
    · cases hm
    rename_i eb heb
    injection hm with hm
    subst hm
    constructor
    · intro htw
      obtain ⟨v, rfl⟩ : ∃ v, t = some v := by
        unfold PyV.Con.checkOpt at ht
        split at ht
        · exact absurd (by assumption) htw
        · split at ht
          · injection ht with ht; exact ⟨_, ht.symm⟩
          · cases ht
      refine ⟨(fun _ => 1, v), ?_, fun _ => rfl⟩
      simp [toUser, PyV.Con.totalBlock, PyV.Con.Block.append, PyV.Con.orNone]
    · intro htw heq
      rw [htw] at ht
      simp only [PyV.Con.checkOpt] at ht
      injection ht with ht
      subst ht
      rw [heq] at heb
      simp only [mapE, PyV.Con.joinE] at heb
      injection heb with heb
      subst heb
      simp [toUser, PyV.Con.totalBlock, PyV.Con.Block.append, PyV.Con.Block.join, PyV.Con.orNone]
  obtain ⟨m, hm, hu'⟩ := user_built h
  rw [hu] at hu'
  injection hu' with hu'
  exact key m hm hu'

/-- The optimiser's holdings are the long-only portfolios of the specification, unless custom equalities replace the total weight. -/
theorem holding_iff {w : Wrapper N} {con : Option (PyV.Con.Spec ℝ)} {c : PyV.Con.Spec ℝ} (h : InForce w con c) {u : User N}
    (hu : w.user con = .ok u) (hfix : c.totalWeight ≠ none ∨ c.eqRows = []) (x : Fin N → ℝ) : Holding u x ↔ LongHolding c x := by
  obtain ⟨u', hu', hall⟩ := user_spec h
  rw [hu] at hu'; injection hu' with hu'; subst hu'
  obtain ⟨h1, h2⟩ := user_budget h hu
  unfold Holding LongHolding
  rw [hall]
  refine and_congr Iff.rfl (and_congr Iff.rfl ?_)
  by_cases ht : c.totalWeight = none
  · have := h2 ht (by rcases hfix with h | h; exact absurd ht h; exact h)
    simp [ht, this]
  · obtain ⟨r, hr, hr1⟩ := h1 ht
    refine iff_of_true (fun hno => absurd ⟨r, hr, fun i => ?_⟩ hno) (fun h => absurd h ht)
    rw [hr1 i]; norm_num

theorem fix_rows {w : Wrapper N} {con : Option (PyV.Con.Spec ℝ)} {c : PyV.Con.Spec ℝ} (h : InForce w con c) {u : User N}
    (hu : w.user con = .ok u) (hfix : c.totalWeight ≠ none ∨ c.eqRows = []) :
    u.A = none ∨ ∃ r ∈ u.A.getD [], ∀ i, |r.1 i - 1| ≤ 2 / 10 ^ 8 := by
  obtain ⟨h1, h2⟩ := user_budget h hu
  by_cases ht : c.totalWeight = none
  · exact .inl (h2 ht (by rcases hfix with h | h; exact absurd ht h; exact h))
  · obtain ⟨r, hr, hr1⟩ := h1 ht
    exact .inr ⟨r, hr, fun i => by rw [hr1 i]; norm_num⟩

/-- The risk budgets used: equal by default, otherwise proportional to those given; they sum to one up to `np.isclose`. -/
def BudgetsOf (given : Option (Fin N → ℝ)) (b : Fin N → ℝ) : Prop :=
  (∀ i, 0 < b i) ∧ |∑ i, b i - 1| ≤ 2 / 10 ^ 5 ∧ (given = none → ∀ i, b i = 1 / N) ∧ ∀ g, given = some g → ∀ i j, b i * g j = b j * g i

theorem budgetsOf (hn : 0 < N) {rb : Option (Fin N → ℝ)} {b : Fin N → ℝ} (h : rrpBudgets rb = .ok b) : BudgetsOf rb b := by
  have hn' : (0 : ℝ) < N := by exact_mod_cast hn
  unfold rrpBudgets at h
  split at h
  · injection h with h; subst h
    refine ⟨fun i => by positivity, ?_, fun _ _ => rfl, by simp⟩
    simp
    rw [mul_inv_cancel₀ hn'.ne']; norm_num
  · rename_i r
    split at h
    · cases h
    rename_i hp
    push Not at hp
    have hsum : 0 < ∑ j, r j := Finset.sum_pos (fun i _ => hp i) ⟨⟨0, hn⟩, Finset.mem_univ _⟩
    split at h
    · rename_i hc
      injection h with h; subst h
      refine ⟨hp, ?_, by simp, fun r' hr i j => by injection hr with hr; subst hr; ring⟩
      unfold isclose at hc
      refine hc.trans ?_
      norm_num
    · injection h with h; subst h
      refine ⟨fun i => div_pos (hp i) hsum, ?_, by simp, fun r' hr i j => by injection hr with hr; subst hr; ring⟩
      rw [← Finset.sum_div, div_self hsum.ne']; norm_num

/-- The regulated average risk of relaxed risk parity, for an estimation-risk norm `rho`. -/
noncomputable def averageRisk (rho : (Fin N → ℝ) → ℝ) (cov : Matrix (Fin N) (Fin N) ℝ) (lam : ℝ) (x : Fin N → ℝ) : ℝ :=
  Real.sqrt (rho x ^ 2 / N + lam * ∑ k, cov k k * x k ^ 2)

theorem chol_diag_nonneg {S L : Matrix (Fin N) (Fin N) ℝ} (h : IsChol S L) (k : Fin N) : 0 ≤ S k k := by
  rw [← h.1, Matrix.mul_apply]
  exact Finset.sum_nonneg fun j _ => by rw [Matrix.transpose_apply]; exact mul_self_nonneg _

/-- The target used by a solve with a minimum. -/
theorem rrpSolve_target {solver : Opt.Solver} {a : Rrp N} {lam t m : ℝ} {res : RrpResult N}
    (h : rrpSolve solver a lam (some t) (some m) = .ok res) :
    ∃ r v, rrpMaxReturn solver a = .ok r ∧ res.maxReturn = some r ∧ v ≤ r ∧ v ≤ t ∧
      (t < r - max (1 / 10 ^ 8) (1 / 10 ^ 3 * |r|) → v = t) ∧ res.target = some (max v m) := by
  unfold rrpSolve at h
  split at h
  · cases h
  dsimp only at h
  cases hr : rrpMaxReturn solver a with
  | error e => rw [hr] at h; cases h
  | ok r =>
    rw [hr] at h
    obtain ⟨x, hx, rfl⟩ := rrpFinish_ok h
    obtain ⟨u, hu1, hu2, hu3, hu4, hu5⟩ := clip_core t r
    exact ⟨r, u, rfl, rfl, hu1, hu2, hu3, congrArg some (hu5 m)⟩

/-- **C111 (partial).** What a call with a return target returns.  The specification must fix the total weight or have no custom
equalities.  Missing: "never above the requested target", which fails when the request is below the risk parity return. -/
theorem C111_result_partial {solver : Opt.Solver} (hsnd : Sound solver) {factor : Bayes.Factor} (hf : CholOk factor) (hn : 0 < N)
    (w : Wrapper N) (mu : Fin N → ℝ) (cov : Matrix (Fin N) (Fin N) ℝ) (hmu : w.mu = some mu) (hcov : w.cov = some cov)
    (hS : ∃ L, IsChol cov L) (budgets : Option (Fin N → ℝ)) (con : Option (PyV.Con.Spec ℝ)) (c : PyV.Con.Spec ℝ) (hin : InForce w con c)
    (hfix : c.totalWeight ≠ none ∨ c.eqRows = []) (base : RelaxedOut N)
    (hbase : w.relaxed solver factor 0 none none budgets con = .ok base) (lam : ℝ) (mult target : Option ℝ) (out : RelaxedOut N)
    (h : w.relaxed solver factor lam mult target budgets con = .ok out) :
    LongHolding c out.w ∧ out.ret = ret (reportedMean w.isLog mu cov) out.w ∧ out.risk = vol (w.report mu cov).2 out.w ∧
      out.rpWeights = base.w ∧ out.rpReturn = base.ret ∧ (∀ i, out.contributions i = contribution cov out.w i) ∧
      -- the target
      (lam = 0 ∧ mult = none ∧ target = none → out = base ∧ out.requested = none ∧ out.sol.target = none ∧ out.warned = false) ∧
      (¬ (lam = 0 ∧ mult = none ∧ target = none) → ∃ t, Requested base.ret mult target t ∧ out.requested = some t ∧
        (out.warned = true → out.sol.target = none) ∧
        (out.warned = false → ∃ s r, out.sol.target = some s ∧ out.sol.maxReturn = some r ∧
          IsGreatest (ret mu '' {x | LongHolding c x}) r ∧ max base.ret 0 ≤ s ∧ s ≤ max t (max base.ret 0) ∧
          s ≤ max r (max base.ret 0) ∧ s ≤ ret mu out.w)) ∧
      -- optimality
      ∃ rho b, IsEstimationRisk cov rho ∧ BudgetsOf budgets b ∧ (∀ i, b i * out.sol.gamma ^ 2 ≤ contribution cov out.w i) ∧
        out.sol.objective = averageRisk rho cov lam out.w - out.sol.gamma ∧
        ∀ x g, LongHolding c x → (∀ i, 0 ≤ ∑ j, cov i j * x j) → (∀ s, out.sol.target = some s → s ≤ ret mu x) → 0 ≤ g →
          (∀ i, b i * g ^ 2 ≤ contribution cov x i) → out.sol.objective ≤ averageRisk rho cov lam x - g := by
  obtain ⟨mu', cov', u, a, hm, hu, ha, hrp, hpack, hall⟩ := relaxed_base hbase
  have hmom : w.moments = .ok (mu, cov) := by unfold Wrapper.moments; rw [hmu, hcov]
  rw [hm] at hmom
  injection hmom with hmom
  injection hmom with e1 e2
  subst e1 e2
  obtain ⟨hbpos, -⟩ := rrpInit_budgets hn ha
  obtain ⟨e1, e2, hch, e4, hbud⟩ := rrpInit_ok hf hS ha
  have hold := fun x => holding_iff hin hu hfix x
  have hrisk : ∀ x, rrpRisk a lam x = averageRisk (coneNorm a.chol) cov' lam x := by
    intro x
    unfold rrpRisk averageRisk
    rw [e2]
    congr 3
    refine Finset.sum_congr rfl fun k _ => ?_
    rw [max_eq_left (chol_diag_nonneg hch k)]
  have hcand : ∀ t x, Candidate a t x ↔ LongHolding c x ∧ (∀ i, 0 ≤ ∑ j, cov' i j * x j) ∧ ∀ s, t = some s → s ≤ ret mu' x := by
    intro t x
    unfold Candidate
    rw [e4, hold, e2, e1]
  have fin : ∀ sol t m, rrpSolve solver a lam t m = .ok sol →
      LongHolding c sol.w ∧ (∀ i, sol.w i * sol.marginal i = contribution cov' sol.w i) ∧ (∀ s, sol.target = some s → s ≤ ret mu' sol.w) ∧
      ∃ rho b, IsEstimationRisk cov' rho ∧ BudgetsOf budgets b ∧ (∀ i, b i * sol.gamma ^ 2 ≤ contribution cov' sol.w i) ∧
        sol.objective = averageRisk rho cov' lam sol.w - sol.gamma ∧
        ∀ x g, LongHolding c x → (∀ i, 0 ≤ ∑ j, cov' i j * x j) → (∀ s, sol.target = some s → s ≤ ret mu' x) → 0 ≤ g →
          (∀ i, b i * g ^ 2 ≤ contribution cov' x i) → sol.objective ≤ averageRisk rho cov' lam x - g := by
    intro sol t m hs
    obtain ⟨-, g1, g2, g3, g4, g5, g6, g7, g8⟩ := C96_solution hsnd a hn (fun i => (hbpos i).le) lam t m sol hs
    obtain ⟨k1, k2, k3⟩ := (hcand _ _).1 g1
    rw [e2] at g2 g5
    refine ⟨k1, fun i => by rw [g2 i]; rfl, k3, coneNorm a.chol, a.budgets, ⟨a.chol, hch, rfl⟩, budgetsOf hn hbud, g5, ?_, ?_⟩
    · rw [g7, g3, hrisk]
    · intro x g hx hmx htx hg hfx
      rw [← hrisk]
      exact g8 x g ((hcand _ _).2 ⟨hx, hmx, htx⟩) hg (by rw [e2]; exact hfx)
  have hret : ∀ x, retOf (w.report mu' cov').1 x = ret (reportedMean w.isLog mu' cov') x := by
    intro x; rw [report_mean]; rfl
  rw [hall] at h
  have hbw : base.w = base.sol.w := congrArg RelaxedOut.w hpack
  have hbr : base.ret = retOf (w.report mu' cov').1 base.sol.w := congrArg RelaxedOut.ret hpack
  by_cases hz : lam = 0 ∧ target = none ∧ mult = none
  · rw [if_pos hz] at h
    injection h with h
    subst h
    obtain ⟨rfl, rfl, rfl⟩ := hz
    obtain ⟨f1, f2, -, f3⟩ := fin _ _ _ hrp
    obtain ⟨x, -, hx⟩ := rrpFinish_ok (show rrpFinish solver a 0 none none = .ok base.sol by
      have := hrp; unfold rrpSolve at this; rw [if_neg (lt_irrefl _)] at this; exact this)
    rw [hbw]
    refine ⟨f1, ?_, congrArg RelaxedOut.risk hpack, (congrArg RelaxedOut.rpWeights hpack), ?_, fun i => ?_, ?_, ?_, f3⟩
    · rw [hbr, hret]
    · rw [hbr]; exact congrArg RelaxedOut.rpReturn hpack
    · rw [← f2 i]; exact congrFun (congrArg RelaxedOut.contributions hpack) i
    · refine fun _ => ⟨rfl, congrArg RelaxedOut.requested hpack, ?_, congrArg RelaxedOut.warned hpack⟩
      rw [hx]
    · exact fun hno => absurd ⟨rfl, rfl, rfl⟩ hno
  · rw [if_neg hz] at h
    split at h
    · cases h
    rename_i t ht
    split at h
    · cases h
    rename_i s hs
    injection h with h
    subst h
    have hcase := relaxedLoop_ok 8 t s hs
    have hsol : ∃ t m, rrpSolve solver a lam t m = .ok s.1 := by
      rcases hcase with ⟨-, h⟩ | ⟨-, t', h, -⟩ <;> exact ⟨_, _, h⟩
    obtain ⟨t0, m0, hs0⟩ := hsol
    obtain ⟨f1, f2, f2', f3⟩ := fin _ _ _ hs0
    refine ⟨f1, hret _, rfl, rfl, ?_, f2, fun h => absurd ⟨h.1, h.2.2, h.2.1⟩ hz, fun _ => ⟨t, (requestedTarget_iff _ _ _ _).1 ht, rfl, ?_, ?_⟩, f3⟩
    · rw [hbr, hbw]; rfl
    · intro hw
      rcases hcase with ⟨-, h⟩ | ⟨h, -⟩
      · unfold rrpSolve at h
        split at h
        · cases h
        obtain ⟨x, -, hx⟩ := rrpFinish_ok h
        show s.1.target = none
        rw [hx]
      · change s.2 = true at hw; rw [h] at hw; cases hw
    · intro hw
      rcases hcase with ⟨h, -⟩ | ⟨-, t', h, h1, h2⟩
      · change s.2 = false at hw; rw [h] at hw; cases hw
      · obtain ⟨r, v, hmr, hr, b1, b2, -, hv⟩ := rrpSolve_target h
        have hg := maxReturn_greatest hsnd a (by rw [e4]; exact fix_rows hin hu hfix) hmr
        have hset : {x | Holding a.user x} = {x | LongHolding c x} := by ext x; rw [Set.mem_ofPred_eq, Set.mem_ofPred_eq, e4, hold]
        rw [hset, e1] at hg
        refine ⟨_, r, hv, hr, hg, le_max_right _ _, ?_, max_le_max_right _ b1, f2' _ hv⟩
        rcases le_total (max base.ret 0) t with hle | hle
        · exact max_le_max_right _ (b2.trans (h1 hle).2)
        · exact max_le ((b2.trans (h2 hle)).trans (le_max_right _ _)) (le_max_right _ _)

/-- **C111** A requested target that lies between the risk parity return and the largest attainable return (less the solver margin) and
that some portfolio with non-negative marginal risks reaches is used as it is, without a warning, and is attained. -/
theorem C111_attained {solver : Opt.Solver} (hsnd : Sound solver) (hcmp : Complete solver) {factor : Bayes.Factor} (hf : CholOk factor)
    (hn : 0 < N) (w : Wrapper N) (mu : Fin N → ℝ) (cov : Matrix (Fin N) (Fin N) ℝ) (hmu : w.mu = some mu) (hcov : w.cov = some cov)
    (hS : ∃ L, IsChol cov L) (budgets : Option (Fin N → ℝ)) (con : Option (PyV.Con.Spec ℝ)) (c : PyV.Con.Spec ℝ) (hin : InForce w con c)
    (hfix : c.totalWeight ≠ none ∨ c.eqRows = []) (base : RelaxedOut N)
    (hbase : w.relaxed solver factor 0 none none budgets con = .ok base) (lam : ℝ) (hl : 0 ≤ lam) (mult target : Option ℝ) (t r : ℝ)
    (ht : Requested base.ret mult target t) (hr : IsGreatest (ret mu '' {x | LongHolding c x}) r)
    (hlow : max base.ret 0 ≤ t) (hup : t < r - max (1 / 10 ^ 8) (1 / 10 ^ 3 * |r|))
    (hx : ∃ x, LongHolding c x ∧ (∀ i, 0 ≤ ∑ j, cov i j * x j) ∧ t ≤ ret mu x) :
    ∃ out, w.relaxed solver factor lam mult target budgets con = .ok out ∧ out.sol.target = some t ∧ out.warned = false ∧
      t ≤ ret mu out.w := by
  obtain ⟨mu', cov', u, a, hm, hu, ha, hrp, hpack, hall⟩ := relaxed_base hbase
  have hmom : w.moments = .ok (mu, cov) := by unfold Wrapper.moments; rw [hmu, hcov]
  rw [hm] at hmom
  injection hmom with hmom
  injection hmom with e1 e2
  subst e1 e2
  obtain ⟨hbpos, -⟩ := rrpInit_budgets hn ha
  obtain ⟨e1, e2, hch, e4, hbud⟩ := rrpInit_ok hf hS ha
  have hold := fun x => holding_iff hin hu hfix x
  obtain ⟨x, hx1, hx2, hx3⟩ := hx
  have hA : a.user.A = none ∨ ∃ r ∈ a.user.A.getD [], ∀ i, |r.1 i - 1| ≤ 2 / 10 ^ 8 := by rw [e4]; exact fix_rows hin hu hfix
  obtain ⟨r', hr'⟩ := rrpMaxReturn_total hcmp a hA ⟨x, by rw [e4]; exact (hold x).2 hx1⟩
  have hset : {x | Holding a.user x} = {x | LongHolding c x} := by ext x; rw [Set.mem_ofPred_eq, Set.mem_ofPred_eq, e4, hold]
  have hg := maxReturn_greatest hsnd a hA hr'
  rw [hset, e1] at hg
  have : r' = r := hg.unique hr
  subst this
  have hclip : rrpClip t r' (some (max base.ret 0)) = t := by
    obtain ⟨v, -, -, h3, -, h5⟩ := clip_core t r'
    rw [h5, h3 hup]; exact max_eq_left hlow
  obtain ⟨res, hres⟩ := rrpFinish_total hcmp a hn hbpos hl (target := some t) (mr := some r') ⟨x, by
    refine ⟨by rw [e4]; exact (hold x).2 hx1, by rw [e2]; exact hx2, fun s hs => ?_⟩
    injection hs with hs; rw [← hs, e1]; exact hx3⟩
  have hsolve : rrpSolve solver a lam (some t) (some (max base.ret 0)) = .ok res := by
    unfold rrpSolve
    rw [if_neg (not_lt.2 hl)]
    simp only [hr', hclip]
    exact hres
  obtain ⟨y, -, hy⟩ := rrpFinish_ok hres
  obtain ⟨-, ⟨-, -, hreach⟩, -⟩ := C96_solution hsnd a hn (fun i => (hbpos i).le) lam _ _ res hsolve
  have hz : ¬ (lam = 0 ∧ target = none ∧ mult = none) := by
    rintro ⟨-, rfl, rfl⟩
    rcases ht with h | ⟨-, m, -, h, -⟩ <;> cases h
  refine ⟨relaxedPack (w.report mu' cov') base.w res (some t) false, ?_, ?_, rfl, ?_⟩
  · rw [hall, if_neg hz, (requestedTarget_iff _ _ _ _).2 ht]
    simp only [relaxedLoop_first 7 hsolve]
  · show res.target = some t
    rw [hy]
  · rw [← e1]; exact hreach t (by rw [hy])

/-- **C111** For simple returns and a non-negative risk parity return, a request at or below that return is replaced by it: the portfolio
returned never earns less than the risk parity portfolio. -/
theorem C111_raised {solver : Opt.Solver} (hsnd : Sound solver) (hcmp : Complete solver) {factor : Bayes.Factor} (hf : CholOk factor)
    (hn : 0 < N) (w : Wrapper N) (mu : Fin N → ℝ) (cov : Matrix (Fin N) (Fin N) ℝ) (hmu : w.mu = some mu) (hcov : w.cov = some cov)
    (hlog : w.isLog = false) (hS : ∃ L, IsChol cov L) (budgets : Option (Fin N → ℝ)) (con : Option (PyV.Con.Spec ℝ))
    (c : PyV.Con.Spec ℝ) (hin : InForce w con c) (hfix : c.totalWeight ≠ none ∨ c.eqRows = []) (base : RelaxedOut N)
    (hbase : w.relaxed solver factor 0 none none budgets con = .ok base) (hpos : 0 ≤ base.ret) (lam : ℝ) (hl : 0 ≤ lam)
    (mult target : Option ℝ) (t : ℝ) (ht : Requested base.ret mult target t) (hlow : t ≤ base.ret) :
    ∃ out, w.relaxed solver factor lam mult target budgets con = .ok out ∧ out.requested = some t ∧
      out.sol.target = some base.ret ∧ out.warned = false ∧ base.ret ≤ out.ret := by
  obtain ⟨mu', cov', u, a, hm, hu, ha, hrp, hpack, hall⟩ := relaxed_base hbase
  have hmom : w.moments = .ok (mu, cov) := by unfold Wrapper.moments; rw [hmu, hcov]
  rw [hm] at hmom
  injection hmom with hmom
  injection hmom with e1 e2
  subst e1 e2
  obtain ⟨hbpos, -⟩ := rrpInit_budgets hn ha
  obtain ⟨e1, e2, hch, e4, hbud⟩ := rrpInit_ok hf hS ha
  obtain ⟨-, ⟨c1, c2, -⟩, -⟩ := C96_solution hsnd a hn (fun i => (hbpos i).le) 0 none none _ hrp
  have hbr : base.ret = ret mu' base.sol.w := by
    rw [congrArg RelaxedOut.ret hpack]
    simp [relaxedPack, Wrapper.report, hlog, retOf, ret]
  have hmax : max base.ret 0 = base.ret := max_eq_left hpos
  rw [hmax] at hall
  have hA : a.user.A = none ∨ ∃ r ∈ a.user.A.getD [], ∀ i, |r.1 i - 1| ≤ 2 / 10 ^ 8 := by rw [e4]; exact fix_rows hin hu hfix
  obtain ⟨r, hr⟩ := rrpMaxReturn_total hcmp a hA ⟨_, c1⟩
  have hclip : rrpClip t r (some base.ret) = base.ret := by
    obtain ⟨v, -, h2, -, -, h5⟩ := clip_core t r
    rw [h5]; exact max_eq_right (h2.trans hlow)
  obtain ⟨res, hres⟩ := rrpFinish_total hcmp a hn hbpos hl (target := some base.ret) (mr := some r) ⟨base.sol.w, c1, c2, fun s hs => by
    injection hs with hs; rw [← hs, e1, hbr]⟩
  have hsolve : rrpSolve solver a lam (some t) (some base.ret) = .ok res := by
    unfold rrpSolve
    rw [if_neg (not_lt.2 hl)]
    simp only [hr, hclip]
    exact hres
  obtain ⟨y, -, hy⟩ := rrpFinish_ok hres
  obtain ⟨-, ⟨-, -, hreach⟩, -⟩ := C96_solution hsnd a hn (fun i => (hbpos i).le) lam _ _ res hsolve
  have hz : ¬ (lam = 0 ∧ target = none ∧ mult = none) := by
    rintro ⟨-, rfl, rfl⟩
    rcases ht with h | ⟨-, m, -, h, -⟩ <;> cases h
  refine ⟨relaxedPack (w.report mu' cov') base.w res (some t) false, ?_, rfl, ?_, rfl, ?_⟩
  · have := (requestedTarget_iff _ _ _ _).2 ht
    rw [hmax] at this
    rw [hall, if_neg hz, this]
    simp only [relaxedLoop_first 7 hsolve]
  · show res.target = _
    rw [hy]
  · have := hreach base.ret (by rw [hy])
    rw [e1] at this
    refine this.trans (le_of_eq ?_)
    simp [relaxedPack, Wrapper.report, hlog, retOf, ret]

/-! ### The target may be raised -/

theorem diag_chol : ∃ L : Matrix (Fin 2) (Fin 2) ℝ, IsChol (Matrix.diagonal ![1, 1]) L := by
  refine ⟨Matrix.diagonal ![1, 1], ?_, fun i j h => Matrix.diagonal_apply_ne _ h.ne, fun i => by fin_cases i <;> simp⟩
  rw [Matrix.diagonal_transpose, Matrix.diagonal_mul_diagonal]
  congr 1
  funext i; fin_cases i <;> norm_num

/-- The pure risk parity problem of two independent assets is solved. -/
theorem base_exists {solver : Opt.Solver} (hsnd : Sound solver) (hcmp : Complete solver) {factor : Bayes.Factor} (hf : CholOk factor)
    (w : Wrapper 2) (mu : Fin 2 → ℝ) (hmu : w.mu = some mu) (hcov : w.cov = some (Matrix.diagonal ![1, 1]))
    (hin : InForce w none PyV.Con.defaultSpec) : ∃ base, w.relaxed solver factor 0 none none none none = .ok base := by
  obtain ⟨u, hu, -⟩ := user_spec hin
  have hsym : Bayes.symPart (Matrix.diagonal ![1, 1] : Matrix (Fin 2) (Fin 2) ℝ) = Matrix.diagonal ![1, 1] := by
    ext i j; fin_cases i <;> fin_cases j <;> simp [Bayes.symPart] <;> norm_num
  obtain ⟨L, hL, hch⟩ := cholSquare_ok hf _ diag_chol
  have hinit : rrpInit factor mu (Matrix.diagonal ![1, 1]) u none =
      .ok ⟨mu, Matrix.diagonal ![1, 1], L, fun _ => 1 / ((2 : ℕ) : ℝ), u⟩ := by
    unfold rrpInit; rw [hsym, hL]; rfl
  obtain ⟨rp, hrp⟩ := (C96_total hsnd hcmp ⟨mu, Matrix.diagonal ![1, 1], L, fun _ => 1 / ((2 : ℕ) : ℝ), u⟩ (by norm_num)
    (fun i => by norm_num) 0 le_rfl).1 ⟨![1/2, 1/2], (holding_iff hin hu (.inl (by simp [PyV.Con.defaultSpec])) _).2
      ⟨(satisfies_default _).2 ⟨fun i => by fin_cases i <;> norm_num, by simp [Fin.sum_univ_two]; norm_num⟩,
        fun i => by fin_cases i <;> norm_num, by simp [PyV.Con.defaultSpec]⟩, fun i => by
        fin_cases i <;> simp [Fin.sum_univ_two]⟩ none
  refine ⟨relaxedPack (w.report mu (Matrix.diagonal ![1, 1])) rp.w rp none false, ?_⟩
  · unfold Wrapper.relaxed Wrapper.moments
    simp only [hmu, hcov, hu, hinit, hrp]
    simp

/-- **C111** (false of the code) A target of 5% is raised to the risk parity return of 10%. -/
theorem C111_counterexample : ∃ w : Wrapper 2, w.isLog = false ∧ InForce w none PyV.Con.defaultSpec ∧
    ∀ solver factor, Sound solver → Complete solver → CholOk factor →
      ∃ out, w.relaxed solver factor 1 none (some (1 / 20)) none none = .ok out ∧ out.requested = some (1 / 20) ∧
        out.sol.target = some (1 / 10) ∧ out.warned = false := by
  obtain ⟨w, hmu, hcov, -, hlog, -, hin, -⟩ := exists_wrapper (N := 2) (by norm_num)
    (some ![1/10, 1/10]) (some (Matrix.diagonal ![1, 1])) none false
  refine ⟨w, hlog, hin, fun solver factor hs hc hf => ?_⟩
  obtain ⟨base, hbase⟩ := base_exists hs hc hf w _ hmu hcov hin
  have hfix : (PyV.Con.defaultSpec : PyV.Con.Spec ℝ).totalWeight ≠ none ∨ (PyV.Con.defaultSpec : PyV.Con.Spec ℝ).eqRows = [] :=
    .inl (by simp [PyV.Con.defaultSpec])
  obtain ⟨h1, h2, -⟩ := C111_result_partial hs hf (by norm_num) w _ _ hmu hcov diag_chol none none _ hin hfix base hbase 0 none none base hbase
  have hret : base.ret = 1 / 10 := by
    have := ((satisfies_default _).1 h1.1).2
    rw [h2]
    simp [ret, reportedMean, hlog, Fin.sum_univ_two] at this ⊢
    linarith
  obtain ⟨out, ho, g1, g2, g3, -⟩ := C111_raised hs hc hf (by norm_num) w _ _ hmu hcov hlog diag_chol none none _ hin hfix base hbase
    (by rw [hret]; norm_num) 1 (by norm_num) none (some (1 / 20)) (1 / 20) (.inl rfl) (by rw [hret]; norm_num)
  exact ⟨out, ho, g1, by rw [g2, hret], g3⟩

/-! ## C112: the frontier -/

/-- The multipliers asked for: the list given, or `num` equally spaced ones from one to the maximum. -/
def MultiplierGrid (num : ℤ) (maxMult : ℝ) (mults : Option (List ℝ)) (grid : List ℝ) : Prop :=
  match mults with
  | some l => l ≠ [] ∧ (∀ x ∈ l, 0 ≤ x) ∧ grid = l
  | none => 0 < num ∧ 1 ≤ maxMult ∧
      ((num = 1 ∧ grid = [maxMult]) ∨
        (1 < num ∧ (grid.length : ℤ) = num ∧ ∀ (k : ℕ) (hk : k < grid.length), (grid[k] - 1) * (num - 1) = k * (maxMult - 1)))

theorem linspace_one {maxMult : ℝ} {num : ℤ} (h : 1 < num) (k : ℕ) :
    (linspace 1 maxMult num.toNat k - 1) * (num - 1) = k * (maxMult - 1) := by
  have h1 : ((num.toNat : ℕ) : ℝ) = (num : ℝ) := by
    have : ((num.toNat : ℕ) : ℤ) = num := Int.toNat_of_nonneg (by omega)
    exact_mod_cast this
  have h2 : (num : ℝ) - 1 ≠ 0 := by
    have : (1 : ℝ) < num := by exact_mod_cast h
    linarith
  unfold linspace
  rw [h1]
  field_simp
  ring

theorem multiplierGrid_spec (num : ℤ) (maxMult : ℝ) (mults : Option (List ℝ)) (grid : List ℝ) :
    multiplierGrid num maxMult mults = .ok grid ↔ MultiplierGrid num maxMult mults grid := by
  cases mults with
  | some l =>
    simp only [multiplierGrid, MultiplierGrid]
    by_cases h1 : l = []
    · simp [h1]
    by_cases h2 : ∃ x ∈ l, x < 0
    · rw [if_neg h1, if_pos h2]
      obtain ⟨x, hx, hx0⟩ := h2
      simp only [reduceCtorEq, false_iff]
      rintro ⟨-, h, -⟩
      exact absurd (h x hx) (not_le.2 hx0)
    · rw [if_neg h1, if_neg h2]
      push Not at h2
      exact ⟨fun h => ⟨h1, h2, by injection h with h; exact h.symm⟩, fun h => by rw [h.2.2]⟩
  | none =>
    simp only [multiplierGrid, MultiplierGrid]
    by_cases h1 : num ≤ 0
    · simp [h1, not_lt.2 h1]
    rw [if_neg h1]
    push Not at h1
    by_cases h2 : maxMult < 1
    · simp [h2, not_le.2 h2]
    rw [if_neg h2]
    push Not at h2
    by_cases h3 : num = 1
    · simp [h3, h2, eq_comm]
    rw [if_neg h3]
    have h3' : 1 < num := by omega
    simp only [h1, h2, h3, h3', true_and, false_and, false_or]
    have hnum : (num : ℝ) - 1 ≠ 0 := by
      have : (1 : ℝ) < num := by exact_mod_cast h3'
      linarith
    constructor
    · intro h
      injection h with h
      subst h
      refine ⟨by simp; omega, fun k hk => ?_⟩
      simp only [List.getElem_map, List.getElem_range]
      exact linspace_one h3' k
    · rintro ⟨hl, hk⟩
      congr 1
      apply List.ext_getElem
      · simp; omega
      · intro k h5 h6
        simp only [List.getElem_map, List.getElem_range]
        have := mul_right_cancel₀ hnum ((linspace_one h3' k).trans (hk k h6).symm)
        linarith

theorem multiplierGrid_error {num : ℤ} {maxMult : ℝ} {mults : Option (List ℝ)} {e : PyErr}
    (h : multiplierGrid num maxMult mults = .error e) : e = .valueError := by
  unfold multiplierGrid at h
  cases mults with
  | some l =>
    simp only at h
    split at h
    · injection h with h; exact h.symm
    split at h
    · injection h with h; exact h.symm
    · cases h
  | none =>
    simp only at h
    split at h
    · injection h with h; exact h.symm
    split at h
    · injection h with h; exact h.symm
    split at h <;> cases h

theorem multiplierGrid_nonneg {num : ℤ} {maxMult : ℝ} {mults : Option (List ℝ)} {grid : List ℝ}
    (h : MultiplierGrid num maxMult mults grid) : ∀ m ∈ grid, 0 ≤ m := by
  unfold MultiplierGrid at h
  cases mults with
  | some l => obtain ⟨-, h, rfl⟩ := h; exact h
  | none =>
    obtain ⟨h1, h2, ⟨-, rfl⟩ | ⟨h3, h5, h6⟩⟩ := h
    · simp; linarith
    · intro l hl
      obtain ⟨k, hk, rfl⟩ := List.getElem_of_mem hl
      have h7 := h6 k hk
      have h8 : (0 : ℝ) < (num : ℝ) - 1 := by
        have : (1 : ℝ) < num := by exact_mod_cast h3
        linarith
      have h9 : (0 : ℝ) ≤ (grid[k] - 1) * ((num : ℝ) - 1) := by
        rw [h7]; exact mul_nonneg (by positivity) (by linarith)
      have := nonneg_of_mul_nonneg_left h9 h8
      linarith

/-- The column that the single-portfolio method gives. -/
def columnOf (mult : Option ℝ) (out : RelaxedOut N) : RpColumn N := ⟨mult, out.w, out.ret, out.risk, out.sol.target, out.warned⟩

/-- **C112** `relaxed_risk_parity_frontier`, once the pure risk parity problem is solved: a valid grid and a non-negative penalty give the
risk parity portfolio (if asked for) followed by one column per multiplier, in order; the column of a multiplier is the portfolio that
`relaxed_risk_parity_portfolio` returns for that multiplier.  An invalid grid or a negative penalty raises `ValueError`. -/
theorem C112_frontier {solver : Opt.Solver} (hsnd : Sound solver) (hcmp : Complete solver) {factor : Bayes.Factor} (hn : 0 < N)
    (w : Wrapper N) (budgets : Option (Fin N → ℝ)) (con : Option (PyV.Con.Spec ℝ)) (base : RelaxedOut N)
    (hbase : w.relaxed solver factor 0 none none budgets con = .ok base) (num : ℤ) (maxMult lam : ℝ) (mults : Option (List ℝ))
    (inc : Bool) :
    (∀ grid, 0 ≤ lam → MultiplierGrid num maxMult mults grid →
      ∃ outs, List.Forall₂ (fun m out => w.relaxed solver factor lam (some m) none budgets con = .ok out) grid outs ∧
        w.relaxedFrontier solver factor num maxMult lam mults inc budgets con =
          .ok ((if inc then [columnOf none base] else []) ++ List.zipWith (fun m out => columnOf (some m) out) grid outs)) ∧
    (lam < 0 ∨ (¬ ∃ grid, MultiplierGrid num maxMult mults grid) →
      w.relaxedFrontier solver factor num maxMult lam mults inc budgets con = .error .valueError) := by
  obtain ⟨mu, cov, u, a, hm, hu, ha, hrp, hpack, hall⟩ := relaxed_base hbase
  obtain ⟨hb, -⟩ := rrpInit_budgets hn ha
  have hbw : base.w = base.sol.w := congrArg RelaxedOut.w hpack
  have hbr : base.ret = retOf (w.report mu cov).1 base.sol.w := congrArg RelaxedOut.ret hpack
  constructor
  · intro grid hl hg
    have hnn := multiplierGrid_nonneg hg
    have hreq : ∀ m ∈ grid, requestedTarget (max base.ret 0) (some m) none = .ok (m * max base.ret 0) := fun m hm =>
      (requestedTarget_iff _ _ _ _).2 (.inr ⟨rfl, m, hnn m hm, rfl, rfl⟩)
    obtain ⟨res, hres⟩ : ∃ res, mapE (fun m => relaxedLoop solver a lam (max base.ret 0) 8 (m * max base.ret 0)) grid = .ok res := by
      clear hg hnn hreq
      induction grid with
      | nil => exact ⟨[], rfl⟩
      | cons x l ih =>
        obtain ⟨r, hr⟩ := relaxedLoop_total (lower := max base.ret 0) hl (rrpSolve_from_base hsnd hcmp hn hb hrp hl) 8 (x * max base.ret 0)
        obtain ⟨rs, hrs⟩ := ih
        exact ⟨r :: rs, by simp [mapE, hr, hrs]⟩
    have hF := Ens.mapE_iff.1 hres
    refine ⟨List.zipWith (fun m s => relaxedPack (w.report mu cov) base.w s.1 (some (m * max base.ret 0)) s.2) grid res, ?_, ?_⟩
    · rw [List.forall₂_iff_get]
      refine ⟨by simp [hF.length_eq], fun k h1 h2 => ?_⟩
      rw [List.forall₂_iff_get] at hF
      have := hF.2 k h1 (by omega)
      simp only [List.get_eq_getElem, List.getElem_zipWith] at this ⊢
      rw [hall, if_neg (by simp), hreq _ (List.getElem_mem _)]
      simp only [this]
    · unfold Wrapper.relaxedFrontier
      simp only [hm, hu, ha, hrp, if_neg (not_lt.2 hl), (multiplierGrid_spec _ _ _ _).2 hg]
      rw [← hbr, hres]
      simp only
      congr 2
      · cases inc
        · rfl
        · simp only [if_true]
          rw [hpack]
          rfl
      · apply List.ext_getElem
        · simp [hF.length_eq]
        · intro k h1 h2; simp [columnOf, relaxedPack]
  · intro hbad
    unfold Wrapper.relaxedFrontier
    simp only [hm]
    by_cases hl : lam < 0
    · simp only [if_pos hl]
    simp only [if_neg hl, hu, ha, hrp]
    rcases hbad with hbad | hbad
    · exact absurd hbad hl
    cases hg : multiplierGrid num maxMult mults with
    | ok grid => exact absurd ⟨grid, (multiplierGrid_spec _ _ _ _).1 hg⟩ hbad
    | error e => simp only [multiplierGrid_error hg]

/-- Non-vacuity of C111 and C112: two independent assets with returns 10% and 20%. -/
example : ∃ (w : Wrapper 2) (solver : Opt.Solver) (factor : Bayes.Factor) (base : RelaxedOut 2), Sound solver ∧ Complete solver ∧ CholOk factor ∧
    w.relaxed solver factor 0 none none none none = .ok base ∧
    (∃ out, w.relaxed solver factor 2 (some (3 / 2)) none none none = .ok out) ∧
    ∃ cols, w.relaxedFrontier solver factor 3 2 1 none true none none = .ok cols ∧ cols.length = 4 := by
  obtain ⟨solver, h1, h2⟩ := exists_solver
  obtain ⟨factor, hf⟩ := cholOk_exists
  obtain ⟨w, hmu, hcov, -, -, -, hin, -⟩ := exists_wrapper (N := 2) (by norm_num)
    (some ![1/10, 1/5]) (some (Matrix.diagonal ![1, 1])) none false
  obtain ⟨base, hbase⟩ := base_exists h1 h2 hf w _ hmu hcov hin
  refine ⟨w, solver, factor, base, h1, h2, hf, hbase, (C111_total h1 h2 (by norm_num) w none none base hbase 2 (some (3 / 2)) none).1
    (.inr ⟨by norm_num, _, .inr ⟨rfl, 3 / 2, by norm_num, rfl, rfl⟩⟩), ?_⟩
  obtain ⟨outs, hF, hfr⟩ := (C112_frontier h1 h2 (by norm_num) w none none base hbase 3 2 1 none true).1 [1, 3 / 2, 2] (by norm_num) (by
    refine ⟨by norm_num, by norm_num, .inr ⟨by norm_num, by simp, fun k hk => ?_⟩⟩
    have : k = 0 ∨ k = 1 ∨ k = 2 := by simp at hk; omega
    rcases this with rfl | rfl | rfl <;> norm_num)
  refine ⟨_, hfr, ?_⟩
  have := hF.length_eq
  simp at this ⊢
  omega

end PyV.Props
