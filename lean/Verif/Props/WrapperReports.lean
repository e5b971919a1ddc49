import Verif.Model.WrapperReports
import Verif.Props.WrapperRrp
import Verif.Props.WrapperCvar
import Verif.Props.WrapperRobust

/-! # C158: overlays of frontiers; C159: relaxed risk parity percentages; C160: missing moments; C161: simulated scenarios -/

namespace PyV.Props

open PyV PyV.Api PyV.Opt PyV.Spec PyV.Spec.Opt PyV.Spec.Con PyV.Spec.Api PyV.Risk Matrix

variable {N : ℕ}

/-! ## Specification -/

/-- The variance of a portfolio's outcome over scenarios with probabilities `p`. -/
noncomputable def outcomeVar (s : Scen N) (x : Fin N → ℝ) : ℝ :=
  ∑ t, s.p t * (pnl s x t - ∑ t', s.p t' * pnl s x t') ^ 2

/-- The table gives `v` for the pair of labels `a`, `b`. -/
def TableSays {n m : ℕ} (A : Fin n → Fin m → ℝ) (index : Fin n → String) (columns : Fin m → String) (a b : String) (v : ℝ) : Prop :=
  ∃ k l, index k = a ∧ columns l = b ∧ A k l = v

/-- What a reported overlay is: the CVaR of the columns at 95%, in absolute value. -/
def IsCvarOverlay (s : Scen N) {M : ℕ} (W : Fin N → Fin M → ℝ) (r : Fin M → ℝ) : Prop :=
  ∀ j, ∃ v, IsCvar s.p (pnl s fun i => W i j) (95 / 100) v ∧ r j = |v|

/-! ## Proof -/

private theorem mapE_cvar {argsort : Argsort} (hs : ∀ T, IsArgsort (argsort T)) {s : Scen N} (hp : IsProb s.p) (cols : List (Fin N → ℝ)) :
    ∃ l, mapE (fun x => Risk.portfolioCvar (argsort s.T) x s.R (some s.p) (some (95 / 100)) false) cols = .ok l ∧
      List.Forall₂ (fun x v => IsCvar s.p (pnl s x) (95 / 100) v) cols l := by
  induction cols with
  | nil => exact ⟨[], rfl, .nil⟩
  | cons x l ih =>
    obtain ⟨r, h1, h2⟩ := portfolioCvar_ok (hs s.T) (w := x) (R := s.R) (p := some s.p) (conf := (95 / 100 : ℝ)) (demean := false)
      hp (by norm_num) (by norm_num)
    obtain ⟨rs, h3, h4⟩ := ih
    refine ⟨r :: rs, by simp [mapE, h1, h3], .cons ?_ h4⟩
    exact h2

theorem overlay_spec {argsort : Argsort} (hs : ∀ T, IsArgsort (argsort T)) (w : Wrapper N) (cols : List (Fin N → ℝ)) :
    (w.scen = none → overlay argsort w cols = []) ∧
    ∀ s, w.scen = some s → IsProb s.p → ∃ r, overlay argsort w cols = [("CVaR (95%)", r)] ∧
      IsCvarOverlay s (fun i j => cols.get j i) r := by
  constructor
  · intro h; unfold overlay; rw [h]
  · intro s h hp
    obtain ⟨l, h1, h2⟩ := mapE_cvar hs hp cols
    refine ⟨fun j => |l.getD j 0|, by unfold overlay; rw [h]; simp only [h1], fun j => ?_⟩
    rw [List.forall₂_iff_get] at h2
    have hl : (j : ℕ) < l.length := h2.1 ▸ j.2
    refine ⟨l.get ⟨j, hl⟩, h2.2 j j.2 hl, ?_⟩
    simp [List.getElem?_eq_getElem hl]

/-- **C158.** A variance frontier of a wrapper with scenarios carries exactly one overlay: for each column, the absolute CVaR at 95%
confidence of that column over the scenarios; without scenarios it carries none. -/
theorem C158_variance_overlay (solver : Opt.Solver) {argsort : Argsort} (hs : ∀ T, IsArgsort (argsort T)) (w : Wrapper N) (num : ℕ)
    (con : Option (PyV.Con.Spec ℝ)) (costs : Option Costs) {F : AnyFrontier N} (h : w.varianceFrontier solver argsort num con costs = .ok F) :
    F.f.riskMeasure = "Volatility" ∧ (w.scen = none → F.f.alternates = []) ∧
    ∀ s, w.scen = some s → IsProb s.p → ∃ r, F.f.alternates = [("CVaR (95%)", r)] ∧ IsCvarOverlay s F.f.weights r := by
  unfold Wrapper.varianceFrontier at h
  split at h
  · cases h
  split at h
  · cases h
  split at h
  · cases h
  split at h
  · cases h
  rename_i cols _
  injection h with h
  subst h
  exact ⟨rfl, overlay_spec hs w cols⟩

/-- The reported moments of log-return wrappers, in closed form. -/
theorem report_log (w : Wrapper N) (hlog : w.isLog = true) (mu : Fin N → ℝ) (cov : Matrix (Fin N) (Fin N) ℝ) :
    w.report mu cov = (fun i => Real.exp (mu i + cov i i / 2) - 1,
      fun i j => Real.exp (mu i + mu j + (cov i i + cov j j) / 2) * (Real.exp (cov i j) - 1)) := by
  unfold Wrapper.report
  simp only [hlog, if_true, Proj.log2simple]
  refine Prod.ext ?_ ?_
  · funext i; simp only; congr 2; ring
  · funext i j
    simp only
    rw [mul_sub, ← Real.exp_add, ← Real.exp_add, mul_one]
    congr 2 <;> ring

/-- **C158.** On a wrapper of log-return moments, `variance_frontier` reports returns and volatilities of the simple returns (the
moments of the lognormal distribution). -/
theorem C158_variance_log (solver : Opt.Solver) (argsort : Argsort) (w : Wrapper N) (mu : Fin N → ℝ) (cov : Matrix (Fin N) (Fin N) ℝ)
    (hmu : w.mu = some mu) (hcov : w.cov = some cov) (hlog : w.isLog = true) (num : ℕ)
    (con : Option (PyV.Con.Spec ℝ)) (costs : Option Costs) {F : AnyFrontier N} (h : w.varianceFrontier solver argsort num con costs = .ok F)
    (j : Fin F.M) :
    F.f.returns j = ret (fun i => Real.exp (mu i + cov i i / 2) - 1) (fun i => F.f.weights i j) ∧
    F.f.risks j = Real.sqrt (quad (fun i j => Real.exp (mu i + mu j + (cov i i + cov j j) / 2) * (Real.exp (cov i j) - 1))
      (fun i => F.f.weights i j)) := by
  unfold Wrapper.varianceFrontier Wrapper.moments at h
  rw [hmu, hcov] at h
  simp only [report_log w hlog] at h
  split at h
  · cases h
  split at h
  · cases h
  split at h
  · cases h
  injection h with h
  subst h
  exact ⟨rfl, rfl⟩

private theorem quad_scenCov {s : Scen N} (hp : IsProb s.p) (x : Fin N → ℝ) : quad (scenCov s.R s.p) x = outcomeVar s x := by
  have e1 : ∀ t, pnl s x t - ∑ t', s.p t' * pnl s x t' = ∑ i, (s.R t i - ∑ t', s.p t' * s.R t' i) * x i := by
    intro t
    simp only [sub_mul, Finset.sum_sub_distrib, Finset.sum_mul, Finset.mul_sum, pnl]
    congr 1
    rw [Finset.sum_comm]
    exact Finset.sum_congr rfl fun i _ => Finset.sum_congr rfl fun t _ => by ring
  unfold outcomeVar
  simp only [e1, quad, scenCov, hp.sum, div_one]
  have e2 : ∀ t, s.p t * (∑ i, (s.R t i - ∑ t', s.p t' * s.R t' i) * x i) ^ 2 =
      ∑ i, ∑ j, x i * (s.p t * ((s.R t i - ∑ t', s.p t' * s.R t' i) * (s.R t j - ∑ t', s.p t' * s.R t' j))) * x j := by
    intro t
    rw [sq, Finset.sum_mul_sum, Finset.mul_sum]
    refine Finset.sum_congr rfl fun i _ => ?_
    rw [Finset.mul_sum]
    exact Finset.sum_congr rfl fun j _ => by ring
  rw [Finset.sum_congr rfl fun t _ => e2 t]
  conv_rhs => rw [Finset.sum_comm]
  refine Finset.sum_congr rfl fun i _ => ?_
  conv_rhs => rw [Finset.sum_comm]
  refine Finset.sum_congr rfl fun j _ => ?_
  rw [Finset.mul_sum, Finset.sum_mul]

/-- **C158.** The "Volatility" overlay of a CVaR frontier over scenarios is the standard deviation of each column's outcome over the
scenarios (absent for a single asset). -/
theorem C158_cvar_overlay (solver : Opt.Solver) (argsort : Argsort) (sim : Sim) (w : Wrapper N) (s : Scen N)
    (hscen : w.scen = some s) (hp : IsProb s.p) (hlog : w.isLog = false) (num : ℕ) (alpha : ℝ) (seed : Option ℤ)
    (con : Option (PyV.Con.Spec ℝ)) (costs : Option Costs) (enforce : Bool) {F : AnyFrontier N}
    (h : w.cvarFrontier solver argsort sim num alpha seed con costs enforce = .ok F) :
    ∃ raw : Fin F.M → ℝ, F.f.alternates = if N = 1 then [("CVaR (raw)", raw)]
      else [("Volatility", fun j => Real.sqrt (outcomeVar s fun i => F.f.weights i j)), ("CVaR (raw)", raw)] := by
  unfold Wrapper.cvarFrontier at h
  rw [scenarioInputs_scen sim hscen hp hlog] at h
  simp only at h
  split at h
  · cases h
  split at h
  · cases h
  split at h
  · cases h
  split at h
  · cases h
  rename_i cv _
  injection h with h
  subst h
  by_cases h1 : N = 1
  · simp only [if_pos h1]
    exact ⟨_, rfl⟩
  · simp only [if_neg h1]
    simp only [← quad_scenCov hp]
    exact ⟨_, rfl⟩

/-! ### The robust frontier -/

private theorem order_map (cols : List (Column N)) :
    (riskOrder cols).map cols.get = by classical exact cols.mergeSort (fun a b => decide (a.risk ≤ b.risk)) := by
  unfold riskOrder
  rw [List.map_mergeSort (s := fun a b : Column N => decide (a.risk ≤ b.risk))]
  · congr 1
    exact List.map_get_finRange cols
  · intro a _ b _; rfl

/-- **C158.** The report of `robust_lambda_frontier` succeeds exactly when the sweep does, lists its columns, in order of risk, with their
returns, risks and penalties. -/
theorem C158_robust_columns (solver : Opt.Solver) (factor : Bayes.Factor) (argsort : Argsort) (w : Wrapper N)
    (names : Option (Fin N → String)) (num : ℤ) (maxLam : ℝ) (lambdas : Option (List ℝ)) (returnCov : Option CovRef)
    (con : Option (PyV.Con.Spec ℝ)) (costs : Option Costs) :
    (∀ e, w.robustReport solver factor argsort names num maxLam lambdas returnCov con costs = .error e ↔
      w.robustFrontier solver factor num maxLam lambdas con costs = .error e) ∧
    ∀ R, w.robustReport solver factor argsort names num maxLam lambdas returnCov con costs = .ok R →
      w.robustFrontier solver factor num maxLam lambdas con costs =
        .ok (List.ofFn fun j => ⟨R.lam j, fun i => R.f.weights i j, R.f.returns j, R.f.risks j⟩) := by
  unfold Wrapper.robustReport Wrapper.robustFrontier
  cases w.moments with
  | error e => exact ⟨fun e' => by simp, fun R h => by cases h⟩
  | ok mc =>
  cases w.user con with
  | error e => exact ⟨fun e' => by simp, fun R h => by cases h⟩
  | ok u =>
  cases lambdaGrid num maxLam lambdas with
  | error e => exact ⟨fun e' => by simp, fun R h => by cases h⟩
  | ok grid =>
  simp only
  cases mapE (Opt.robLambda solver factor (robOf mc.1 (w.unc.getD mc.2) u (w.resolveCosts costs))) grid with
  | error e => exact ⟨fun e' => by simp, fun R h => by cases h⟩
  | ok res =>
    refine ⟨fun e => ⟨fun h => (by cases h), fun h => (by cases h)⟩, fun R h => ?_⟩
    injection h with h
    subst h
    simp only [robustPack]
    congr 1
    rw [← order_map]
    apply List.ext_getElem
    · simp
    · intro k h1 h2
      simp

private theorem alt_get {A : Type} (f : A → ℝ) (cols : List A) (j : Fin cols.length) : (cols.map f).getD j 0 = f (cols.get j) := by
  simp [List.getD_eq_getElem?_getD]

private theorem mem_alts {M n : ℕ} (alts : List (String × List ℝ)) (o : Fin M → Fin n) (k : String) (r : Fin M → ℝ) :
    (k, r) ∈ alts.map (fun kv => (kv.1, fun j : Fin M => kv.2.getD (o j) 0)) ↔
      ∃ l, (k, l) ∈ alts ∧ r = fun j => l.getD (o j) 0 := by
  rw [List.mem_map]
  constructor
  · rintro ⟨⟨k', l⟩, h1, h2⟩
    injection h2 with h2 h3
    subst h2
    exact ⟨l, h1, h3.symm⟩
  · rintro ⟨l, h1, rfl⟩
    exact ⟨(k, l), h1, rfl⟩

private theorem locate_some {n : ℕ} {index : Fin n → String} {a : String} (h : (locate index a).isSome = true) :
    index ((locate index a).get h) = a := by
  have := List.find?_some (Option.some_get h).symm
  simpa using this

private theorem locate_isSome {n : ℕ} {index : Fin n → String} {a : String} : (locate index a).isSome = true ↔ ∃ k, index k = a := by
  unfold locate
  simp [List.find?_isSome]

/-- **C158.** The overlays of a robust frontier: "CVaR (95%)" is each column's absolute CVaR at 95% and is there exactly when there are
scenarios; "Volatility" is there when a covariance is available, and is `sqrt(w' C w)` of each column for the covariance described by
`C158_robust_source`. -/
theorem C158_robust_overlay (solver : Opt.Solver) (factor : Bayes.Factor) {argsort : Argsort} (hs : ∀ T, IsArgsort (argsort T)) (w : Wrapper N)
    (hpr : ∀ s, w.scen = some s → IsProb s.p)
    (names : Option (Fin N → String)) (num : ℤ) (maxLam : ℝ) (lambdas : Option (List ℝ)) (returnCov : Option CovRef)
    (con : Option (PyV.Con.Spec ℝ)) (costs : Option Costs) {R : RobustReport N}
    (h : w.robustReport solver factor argsort names num maxLam lambdas returnCov con costs = .ok R) :
    (∀ C, refCov w names returnCov = some C → ∀ r, ("Volatility", r) ∈ R.f.alternates ↔
      r = fun j => Real.sqrt (quad C fun i => R.f.weights i j)) ∧
    (refCov w names returnCov = none → ∀ r, ("Volatility", r) ∈ R.f.alternates ↔
      N ≠ 1 ∧ ∃ s, w.scen = some s ∧ r = fun j => Real.sqrt (outcomeVar s fun i => R.f.weights i j)) ∧
    (w.scen = none → ∀ r, ("CVaR (95%)", r) ∉ R.f.alternates) ∧
    (∀ s, w.scen = some s → ∃ r, ("CVaR (95%)", r) ∈ R.f.alternates) ∧
    ∀ s, w.scen = some s → ∀ r, ("CVaR (95%)", r) ∈ R.f.alternates → IsCvarOverlay s R.f.weights r := by
  obtain ⟨cols, rfl⟩ : ∃ cols, R = robustPack argsort w names returnCov cols := by
    unfold Wrapper.robustReport at h
    split at h
    · cases h
    split at h
    · cases h
    split at h
    · cases h
    split at h
    · cases h
    injection h with h
    exact ⟨_, h.symm⟩
  have hne1 : ("CVaR (95%)" : String) ≠ "Volatility" := by decide
  have hne2 : ("Volatility" : String) ≠ "CVaR (95%)" := by decide
  -- the cvar part has no volatility entry
  have hcv : ∀ r, ("Volatility", r) ∉ robustCvar argsort w (cols.map Column.w) := by
    intro r hr
    unfold robustCvar at hr
    split at hr
    · cases hr
    · split at hr
      · cases hr
      · simp at hr
  have hvol : ∀ r, ("CVaR (95%)", r) ∉ robustVolatility w names returnCov (cols.map Column.w) := by
    intro r hr
    unfold robustVolatility at hr
    split at hr
    · simp at hr
    · split at hr
      · cases hr
      · simp at hr
    · cases hr
  have hmemV : ∀ r : Fin (riskOrder cols).length → ℝ, ("Volatility", r) ∈ (robustPack argsort w names returnCov cols).f.alternates ↔
      ∃ l, ("Volatility", l) ∈ robustVolatility w names returnCov (cols.map Column.w) ∧
        r = fun j => l.getD ((riskOrder cols).get j) 0 := fun r => by
    refine (mem_alts _ _ _ _).trans ?_
    simp only [List.mem_append]
    exact exists_congr fun l => and_congr_left fun _ => or_iff_left (hcv l)
  have hmemC : ∀ r : Fin (riskOrder cols).length → ℝ, ("CVaR (95%)", r) ∈ (robustPack argsort w names returnCov cols).f.alternates ↔
      ∃ l, ("CVaR (95%)", l) ∈ robustCvar argsort w (cols.map Column.w) ∧
        r = fun j => l.getD ((riskOrder cols).get j) 0 := fun r => by
    refine (mem_alts _ _ _ _).trans ?_
    simp only [List.mem_append]
    exact exists_congr fun l => and_congr_left fun _ => or_iff_right (hvol l)
  have hget : ∀ (f : (Fin N → ℝ) → ℝ) (j : Fin (riskOrder cols).length),
      ((cols.map Column.w).map f).getD ((riskOrder cols).get j) 0 = f (fun i => (robustPack argsort w names returnCov cols).f.weights i j) := by
    intro f j
    rw [List.map_map]
    exact alt_get (f ∘ Column.w) cols ((riskOrder cols).get j)
  refine ⟨fun C hC r => ?_, fun hC r => ?_, fun hno r hr => ?_, fun s hsc => ?_, fun s hsc r hr => ?_⟩
  · refine (hmemV r).trans ?_
    unfold robustVolatility
    rw [hC]
    simp only [List.mem_singleton, Prod.mk.injEq, true_and, exists_eq_left]
    refine Eq.congr_right ?_
    funext j
    exact hget (vol C) j
  · refine (hmemV r).trans ?_
    unfold robustVolatility
    rw [hC]
    cases hsc : w.scen with
    | none => simp
    | some s =>
      by_cases h1 : N = 1
      · simp [h1]
      · simp only [h1, if_false, List.mem_singleton, Prod.mk.injEq, true_and, exists_eq_left, ne_eq, not_false_eq_true, Option.some.injEq,
          exists_eq_left']
        refine Eq.congr_right ?_
        funext j
        rw [← quad_scenCov (hpr s hsc)]
        exact hget (vol (scenCov s.R s.p)) j
  · obtain ⟨l, hl, -⟩ := (hmemC r).1 hr
    unfold robustCvar at hl
    rw [hno] at hl
    cases hl
  · obtain ⟨l, h1, h2⟩ := mapE_cvar hs (hpr s hsc) (cols.map Column.w)
    refine ⟨_, (hmemC _).2 ⟨l.map fun c => |c|, ?_, rfl⟩⟩
    unfold robustCvar
    rw [hsc]
    simp only [h1, List.mem_singleton]
  · obtain ⟨l, hl, rfl⟩ := (hmemC r).1 hr
    obtain ⟨l', h1, h2⟩ := mapE_cvar hs (hpr s hsc) (cols.map Column.w)
    unfold robustCvar at hl
    rw [hsc] at hl
    simp only [h1, List.mem_singleton, Prod.mk.injEq, true_and] at hl
    subst hl
    intro j
    rw [List.forall₂_iff_get] at h2
    set k := (riskOrder cols).get j with hk
    have hl : (k : ℕ) < l'.length := by rw [← h2.1, List.length_map]; exact k.2
    have := h2.2 k (by simp) hl
    refine ⟨l'.get ⟨k, hl⟩, ?_, ?_⟩
    · have e : (List.map Column.w cols).get ⟨(k : ℕ), by simp⟩ = (cols.get k).w := by simp
      rw [e] at this
      exact this
    · exact alt_get (fun c => |c|) l' ⟨k, hl⟩

/-- **C158.** Which covariance the robust frontier's volatility uses: a table passed as `return_cov` is read by asset label, an array by
position; a table with missing labels or an array of another shape is ignored; without `return_cov`, a wrapper with a separate uncertainty
matrix uses its own covariance. -/
theorem C158_robust_source (w : Wrapper N) (cov : Matrix (Fin N) (Fin N) ℝ) (hcov : w.cov = some cov) :
    (∀ (names : Fin N → String) n m (A : Fin n → Fin m → ℝ) index columns, Function.Injective index → Function.Injective columns →
      (∀ C, refCov w (some names) (some (.frame n m A index columns)) = some C ↔
        ∀ i j, TableSays A index columns (names i) (names j) (C i j))) ∧
    (∀ names (A : Fin N → Fin N → ℝ), refCov w names (some (.array N N A)) = some A) ∧
    (∀ names n m (A : Fin n → Fin m → ℝ), ¬ (n = N ∧ m = N) → refCov w names (some (.array n m A)) = none) ∧
    (∀ names, w.unc ≠ none → refCov w names none = some fun i j => cov i j) ∧
    (∀ names, w.unc = none → refCov w names none = none) := by
  refine ⟨fun names n m A index columns hi hc C => ?_, fun names A => ?_, fun names n m A h => ?_, fun names h => ?_, fun names h => ?_⟩
  · show locRef A index columns names = some C ↔ _
    unfold locRef
    constructor
    · intro h
      split at h
      · rename_i hh
        injection h with h
        subst h
        exact fun i j => ⟨_, _, locate_some (hh.1 i), locate_some (hh.2 j), rfl⟩
      · cases h
    · intro h
      have hh : (∀ i, (locate index (names i)).isSome = true) ∧ ∀ i, (locate columns (names i)).isSome = true := by
        constructor
        · intro i
          obtain ⟨k, l, h1, -⟩ := h i i
          exact locate_isSome.2 ⟨k, h1⟩
        · intro i
          obtain ⟨k, l, -, h1, -⟩ := h i i
          exact locate_isSome.2 ⟨l, h1⟩
      rw [dif_pos hh]
      congr 1
      funext i j
      obtain ⟨k, l, h1, h2, h3⟩ := h i j
      rw [hi ((locate_some (hh.1 i)).trans h1.symm), hc ((locate_some (hh.2 j)).trans h2.symm), h3]
  · show squareRef N N N A = _
    unfold squareRef
    simp
  · show squareRef N n m A = _
    unfold squareRef
    rw [dif_neg (fun hh => h ⟨hh.1.symm, hh.2.symm⟩)]
  · unfold refCov
    cases hu : w.unc with
    | none => exact absurd hu h
    | some u => simp [hcov]
  · unfold refCov
    simp [h]

/-- **C158** is false for wrappers of log-return moments: the volatility listed beside the simple returns of a robust frontier is that of
log returns.  One asset with log-return mean 0 and variance ln 2: the listed volatility is sqrt(ln 2), that of the simple return is sqrt 2
(as `variance_frontier` reports). -/
theorem C158_counterexample : ∃ (w : Wrapper 1) (mu : Fin 1 → ℝ) (cov : Matrix (Fin 1) (Fin 1) ℝ), w.mu = some mu ∧ w.cov = some cov ∧
    w.isLog = true ∧ (∃ S, w.unc = some S) ∧ InForce w none PyV.Con.defaultSpec ∧
    ∀ solver factor argsort, Sound solver → Complete solver → CholOk factor → (∀ T, IsArgsort (argsort T)) →
      ∃ R, w.robustReport solver factor argsort none 1 1 none none none none = .ok R ∧ ∃ j r, ("Volatility", r) ∈ R.f.alternates ∧
        r j < Real.sqrt (quad (Proj.log2simple mu fun i j => cov i j).2 fun i => R.f.weights i j) := by
  obtain ⟨w0, hmu, hcov, hsc, hlog, -, hin, htr⟩ := exists_wrapper (N := 1) (by norm_num) (some fun _ => 0)
    (some (Matrix.of fun _ _ => Real.log 2)) none true
  refine ⟨{ w0 with unc := some 1 }, _, _, hmu, hcov, hlog, ⟨_, rfl⟩, hin, fun solver factor argsort h1 h2 hf hs => ?_⟩
  set w : Wrapper 1 := { w0 with unc := some 1 } with hw
  have hchol : ∃ L : Matrix (Fin 1) (Fin 1) ℝ, IsChol (1 : Matrix (Fin 1) (Fin 1) ℝ) L :=
    ⟨1, by simp, fun i j h => absurd (Subsingleton.elim i j) h.ne, fun i => by simp⟩
  obtain ⟨cols, hok, hperm, -, -, rho, -, hcols⟩ := (C110_robust_frontier_partial h1 h2 hf w _ _ hmu hcov hchol none _ hin default_bounded
    ⟨fun _ => 1, (satisfies_default _).2 ⟨fun _ => by norm_num, by simp⟩⟩ none none none htr 1 1 none).1 [1]
    ⟨by norm_num, by norm_num, .inl ⟨rfl, rfl⟩⟩
  obtain ⟨g1, g2⟩ := C158_robust_columns solver factor argsort w none 1 1 none none none none
  cases hR : w.robustReport solver factor argsort none 1 1 none none none none with
  | error e => rw [(g1 e).1 hR] at hok; cases hok
  | ok R =>
    have hc := g2 R hR
    rw [hok] at hc
    injection hc with hc
    have hlen : cols.length = 1 := by simpa using hperm.length_eq
    have hM : R.M = 1 := by rw [hc] at hlen; simpa using hlen
    obtain ⟨k1, -⟩ := C158_robust_overlay solver factor hs w (by intro s h; rw [hw] at h; simp [hsc] at h) none 1 1 none none none none hR
    have hsrc : refCov w none none = some fun _ _ => Real.log 2 := by
      rw [(C158_robust_source w _ hcov).2.2.2.1 none (by simp [hw])]
      rfl
    let j : Fin R.M := ⟨0, by omega⟩
    have hj : (⟨R.lam j, fun i => R.f.weights i j, R.f.returns j, R.f.risks j⟩ : Column 1) ∈ cols := by
      rw [hc, List.mem_ofFn]; exact ⟨j, rfl⟩
    have hsat := ((satisfies_default _).1 (hcols _ hj).1).2
    simp only [Finset.univ_unique, Fin.default_eq_zero, Finset.sum_singleton] at hsat
    refine ⟨R, rfl, j, _, (k1 _ hsrc _).2 rfl, ?_⟩
    have hl : Real.log 2 < 1 := by
      have := Real.log_lt_sub_one_of_pos (x := 2) (by norm_num) (by norm_num)
      linarith
    refine Real.sqrt_lt_sqrt ?_ ?_
    · simp only [quad, Finset.univ_unique, Fin.default_eq_zero, Finset.sum_singleton, hsat]
      have := Real.log_pos (x := 2) (by norm_num)
      nlinarith
    · have e2 : Real.exp (Real.log 2) = 2 := Real.exp_log (by norm_num)
      have e3 : Real.exp (Real.log 2 / 2) * Real.exp (Real.log 2 / 2) = 2 := by
        rw [← Real.exp_add, add_halves, e2]
      have e4 : Real.exp (Real.log 2 + Real.log 2) = 4 := by rw [Real.exp_add, e2]; norm_num
      simp only [quad, Finset.univ_unique, Fin.default_eq_zero, Finset.sum_singleton, hsat, Proj.log2simple, Matrix.of_apply]
      have e5 : (0 + 0 + 1 / 2 * (Real.log 2 + Real.log 2 + 2 * Real.log 2) : ℝ) = Real.log 2 + Real.log 2 := by ring
      have e6 : (0 + 1 / 2 * Real.log 2 : ℝ) = Real.log 2 / 2 := by ring
      rw [e5, e6, e3, e4]
      linarith

/-- **C158.** The report of `relaxed_risk_parity_frontier` lists the columns of the sweep in order with their returns and risks, and
carries the CVaR overlay exactly when there are scenarios. -/
theorem C158_relaxed_overlay (solver : Opt.Solver) (factor : Bayes.Factor) {argsort : Argsort} (hs : ∀ T, IsArgsort (argsort T))
    (w : Wrapper N) (num : ℤ) (maxMult lam : ℝ) (mults : Option (List ℝ)) (inc : Bool) (budgets : Option (Fin N → ℝ))
    (con : Option (PyV.Con.Spec ℝ)) :
    (∀ e, w.relaxedReport solver factor argsort num maxMult lam mults inc budgets con = .error e ↔
      w.relaxedFrontier solver factor num maxMult lam mults inc budgets con = .error e) ∧
    ∀ F, w.relaxedReport solver factor argsort num maxMult lam mults inc budgets con = .ok F →
      (∃ cols, w.relaxedFrontier solver factor num maxMult lam mults inc budgets con = .ok cols ∧
        cols.map (fun c => (c.w, c.ret, c.risk)) = List.ofFn fun j => (fun i => F.f.weights i j, F.f.returns j, F.f.risks j)) ∧
      (w.scen = none → F.f.alternates = []) ∧
      ∀ s, w.scen = some s → IsProb s.p → ∃ r, F.f.alternates = [("CVaR (95%)", r)] ∧ IsCvarOverlay s F.f.weights r := by
  unfold Wrapper.relaxedReport
  cases w.relaxedFrontier solver factor num maxMult lam mults inc budgets con with
  | error e => exact ⟨fun e' => by simp, fun F h => by cases h⟩
  | ok cols =>
    refine ⟨fun e => by simp, fun F h => ?_⟩
    injection h with h
    subst h
    refine ⟨⟨cols, rfl, ?_⟩, overlay_spec hs w _⟩
    apply List.ext_getElem
    · simp
    · intro k h1 h2
      have h3 : k < cols.length := by simpa using h1
      simp

/-! ## C159: percentages of the relaxed risk parity diagnostics -/

private theorem contributions_quad {solver : Opt.Solver} (hsnd : Sound solver) {factor : Bayes.Factor} (hf : CholOk factor) (hn : 0 < N)
    {w : Wrapper N} {mu : Fin N → ℝ} {cov : Matrix (Fin N) (Fin N) ℝ} (hmu : w.mu = some mu) (hcov : w.cov = some cov)
    (hS : ∃ L, IsChol cov L) {budgets : Option (Fin N → ℝ)} {con : Option (PyV.Con.Spec ℝ)} {c : PyV.Con.Spec ℝ} (hin : InForce w con c)
    (hfix : c.totalWeight ≠ none ∨ c.eqRows = []) {lam : ℝ} {mult target : Option ℝ} {out : RelaxedOut N}
    (h : w.relaxed solver factor lam mult target budgets con = .ok out) :
    (∀ i, out.contributions i = contribution cov out.w i) ∧ out.risk = vol (w.report mu cov).2 out.w := by
  cases hb : w.relaxed solver factor 0 none none budgets con with
  | error e => rw [C111_base_error w budgets con e hb] at h; cases h
  | ok base =>
    obtain ⟨-, -, h1, -, -, h2, -⟩ := C111_result_partial hsnd hf hn w mu cov hmu hcov hS budgets con c hin hfix base hb lam mult target out h
    exact ⟨h2, h1⟩

/-- **C159** (partial: simple returns; false for log-return wrappers, `C159_counterexample`) The percentages of
`risk_contributions_pct` are each asset's share of the portfolio variance and add up to 100. -/
theorem C159_percentages_partial {solver : Opt.Solver} (hsnd : Sound solver) {factor : Bayes.Factor} (hf : CholOk factor) (hn : 0 < N)
    {w : Wrapper N} {mu : Fin N → ℝ} {cov : Matrix (Fin N) (Fin N) ℝ} (hmu : w.mu = some mu) (hcov : w.cov = some cov)
    (hlog : w.isLog = false) (hS : ∃ L, IsChol cov L) {budgets : Option (Fin N → ℝ)} {con : Option (PyV.Con.Spec ℝ)}
    {c : PyV.Con.Spec ℝ} (hin : InForce w con c)
    (hfix : c.totalWeight ≠ none ∨ c.eqRows = []) {lam : ℝ} {mult target : Option ℝ} {out : RelaxedOut N}
    (h : w.relaxed solver factor lam mult target budgets con = .ok out) (hpos : 0 < quad (fun i j => cov i j) out.w) :
    (∀ i, out.pct i = 100 * (contribution (fun i j => cov i j) out.w i / quad (fun i j => cov i j) out.w)) ∧ ∑ i, out.pct i = 100 := by
  obtain ⟨h1, h2⟩ := contributions_quad hsnd hf hn hmu hcov hS hin hfix h
  have hrep : (w.report mu cov).2 = fun i j => cov i j := by unfold Wrapper.report; simp [hlog]
  have hr : out.risk = Real.sqrt (quad (fun i j => cov i j) out.w) := by rw [h2, hrep]; rfl
  have hr0 : 0 < out.risk := by rw [hr]; exact Real.sqrt_pos.2 hpos
  have hr2 : out.risk * out.risk = quad (fun i j => cov i j) out.w := by rw [hr, Real.mul_self_sqrt hpos.le]
  have hpct : ∀ i, out.pct i = 100 * (contribution (fun i j => cov i j) out.w i / quad (fun i j => cov i j) out.w) := by
    intro i
    unfold RelaxedOut.pct
    rw [if_pos hr0, h1 i, div_div, hr2]
    ring
  refine ⟨hpct, ?_⟩
  have hsum : ∑ i, contribution (fun i j => cov i j) out.w i = quad (fun i j => cov i j) out.w := by
    unfold contribution quad
    refine Finset.sum_congr rfl fun i _ => ?_
    rw [Finset.mul_sum]
    exact Finset.sum_congr rfl fun j _ => by ring
  rw [Finset.sum_congr rfl fun i _ => hpct i, ← Finset.mul_sum, ← Finset.sum_div, hsum, div_self hpos.ne', mul_one]

/-- **C159** is false for wrappers of log-return moments: contributions to the variance of log returns are divided by the variance of
simple returns.  Two independent assets with log-return mean 0 and variance 1: the percentages add up to less than 100. -/
theorem C159_counterexample : ∃ w : Wrapper 2, w.isLog = true ∧ InForce w none PyV.Con.defaultSpec ∧
    ∀ solver factor, Sound solver → Complete solver → CholOk factor →
      ∃ out, w.relaxed solver factor 0 none none none none = .ok out ∧ 0 < out.risk ∧ ∑ i, out.pct i < 100 := by
  obtain ⟨w, hmu, hcov, -, hlog, -, hin, -⟩ := exists_wrapper (N := 2) (by norm_num) (some fun _ => 0)
    (some (Matrix.diagonal ![1, 1])) none true
  refine ⟨w, hlog, hin, fun solver factor hs hc hf => ?_⟩
  obtain ⟨out, hout⟩ := base_exists hs hc hf w _ hmu hcov hin
  have hfix : (PyV.Con.defaultSpec : PyV.Con.Spec ℝ).totalWeight ≠ none ∨ (PyV.Con.defaultSpec : PyV.Con.Spec ℝ).eqRows = [] :=
    .inl (by simp [PyV.Con.defaultSpec])
  obtain ⟨hh, -⟩ := C111_result_partial hs hf (by norm_num) w _ _ hmu hcov diag_chol none none _ hin hfix out hout 0 none none out hout
  obtain ⟨h1, h2⟩ := contributions_quad hs hf (by norm_num) hmu hcov diag_chol hin hfix hout
  obtain ⟨k1, k2⟩ := (satisfies_default _).1 hh.1
  rw [Fin.sum_univ_two] at k2
  have hq : 0 < out.w 0 ^ 2 + out.w 1 ^ 2 := by nlinarith [sq_nonneg (out.w 0 - out.w 1)]
  set e : ℝ := Real.exp 1 * (Real.exp 1 - 1) with he
  have he1 : 1 < e := by
    have := Real.add_one_lt_exp (x := 1) (by norm_num)
    nlinarith
  have hvar : out.risk = Real.sqrt (e * (out.w 0 ^ 2 + out.w 1 ^ 2)) := by
    rw [h2, report_log w hlog]
    unfold vol
    congr 1
    simp [Fin.sum_univ_two]
    ring
  have hr0 : 0 < out.risk := by rw [hvar]; exact Real.sqrt_pos.2 (by positivity)
  have hr2 : out.risk * out.risk = e * (out.w 0 ^ 2 + out.w 1 ^ 2) := by rw [hvar, Real.mul_self_sqrt (by positivity)]
  refine ⟨out, hout, hr0, ?_⟩
  have hp : ∀ i, out.pct i = 100 * (out.w i ^ 2 / (e * (out.w 0 ^ 2 + out.w 1 ^ 2))) := by
    intro i
    unfold RelaxedOut.pct
    rw [if_pos hr0, h1 i, div_div, hr2]
    have : contribution (fun i j => Matrix.diagonal ![1, 1] i j) out.w i = out.w i ^ 2 := by
      unfold contribution
      fin_cases i <;> simp [Fin.sum_univ_two, sq]
    rw [this]
    ring
  rw [Fin.sum_univ_two, hp, hp, ← mul_add, ← add_div, mul_comm e, ← div_div, div_self hq.ne']
  have : 1 / e < 1 := by rw [div_lt_one (by linarith)]; exact he1
  linarith

/-- **C159.** When the requested target was not dropped, `target_clipped` tells whether the target used differs from the requested one by
more than the tolerance 1e-10 + 1e-8·|target|. -/
theorem C159_clipped_partial {solver : Opt.Solver} (hsnd : Sound solver) {factor : Bayes.Factor} (hf : CholOk factor) (hn : 0 < N)
    {w : Wrapper N} {mu : Fin N → ℝ} {cov : Matrix (Fin N) (Fin N) ℝ} (hmu : w.mu = some mu) (hcov : w.cov = some cov)
    (hS : ∃ L, IsChol cov L) {budgets : Option (Fin N → ℝ)} {con : Option (PyV.Con.Spec ℝ)} {c : PyV.Con.Spec ℝ} (hin : InForce w con c)
    (hfix : c.totalWeight ≠ none ∨ c.eqRows = []) {lam : ℝ} {target : ℝ} {out : RelaxedOut N}
    (h : w.relaxed solver factor lam none (some target) budgets con = .ok out) (hw : out.warned = false) :
    ∃ s, out.sol.target = some s ∧ (out.clipped ↔ 1 / 10 ^ 10 + 1 / 10 ^ 8 * |target| < |s - target|) := by
  cases hb : w.relaxed solver factor 0 none none budgets con with
  | error e => rw [C111_base_error w budgets con e hb] at h; cases h
  | ok base =>
    obtain ⟨-, -, -, -, -, -, -, h2, -⟩ := C111_result_partial hsnd hf hn w mu cov hmu hcov hS budgets con c hin hfix base hb lam none
      (some target) out h
    obtain ⟨t, ht, hreq, -, h3⟩ := h2 (by simp)
    obtain ⟨s, r, hs, -⟩ := h3 hw
    have : t = target := by
      rcases ht with ht | ⟨ht, -⟩
      · injection ht with ht; exact ht.symm
      · cases ht
    subst this
    refine ⟨s, hs, ?_⟩
    unfold RelaxedOut.clipped
    rw [hs, hreq]
    exact not_le

/-- **C159** is false of `target_clipped`: when the target cannot be met at all it is dropped, and the flag stays false.  Two assets losing
5% on average, a requested return of 10%: the portfolio returned loses 5%, no target was used, `target_clipped` is false. -/
theorem C159_counterexample_clipped : ∃ w : Wrapper 2, w.isLog = false ∧ InForce w none PyV.Con.defaultSpec ∧
    ∀ solver factor, Sound solver → Complete solver → CholOk factor →
      ∃ out, w.relaxed solver factor 1 none (some (1 / 10)) none none = .ok out ∧ out.requested = some (1 / 10) ∧
        out.sol.target = none ∧ out.ret = -(1 / 20) ∧ ¬ out.clipped := by
  obtain ⟨w, hmu, hcov, -, hlog, -, hin, -⟩ := exists_wrapper (N := 2) (by norm_num)
    (some ![-(1/20), -(1/20)]) (some (Matrix.diagonal ![1, 1])) none false
  refine ⟨w, hlog, hin, fun solver factor hs hc hf => ?_⟩
  obtain ⟨base, hbase⟩ := base_exists hs hc hf w _ hmu hcov hin
  have hfix : (PyV.Con.defaultSpec : PyV.Con.Spec ℝ).totalWeight ≠ none ∨ (PyV.Con.defaultSpec : PyV.Con.Spec ℝ).eqRows = [] :=
    .inl (by simp [PyV.Con.defaultSpec])
  obtain ⟨out, hout⟩ := (C111_total hs hc (by norm_num) w none none base hbase 1 none (some (1 / 10))).1
    (.inr ⟨by norm_num, 1 / 10, .inl rfl⟩)
  obtain ⟨h1, h2, -, -, -, -, -, h3, -⟩ := C111_result_partial hs hf (by norm_num) w _ _ hmu hcov diag_chol none none _ hin hfix base hbase
    1 none (some (1 / 10)) out hout
  have hret : ∀ x : Fin 2 → ℝ, Satisfies (PyV.Con.defaultSpec : PyV.Con.Spec ℝ) x → ret ![-(1/20), -(1/20)] x = -(1 / 20) := by
    intro x hx
    have := ((satisfies_default x).1 hx).2
    simp [ret, Fin.sum_univ_two] at this ⊢
    linarith
  obtain ⟨t, ht, hreq, h4, h5⟩ := h3 (by simp)
  have htt : t = 1 / 10 := by
    rcases ht with ht | ⟨ht, -⟩
    · injection ht with ht; exact ht.symm
    · cases ht
  subst htt
  have hwarn : out.warned = true := by
    cases hw : out.warned with
    | true => rfl
    | false =>
      obtain ⟨s, r, -, -, -, k1, -, -, k2⟩ := h5 hw
      rw [hret _ h1.1] at k2
      have := (le_max_right base.ret 0).trans (k1.trans k2)
      norm_num at this
  refine ⟨out, hout, hreq, h4 hwarn, ?_, ?_⟩
  · rw [h2]
    have : reportedMean w.isLog (![-(1/20), -(1/20)] : Fin 2 → ℝ) (Matrix.diagonal ![1, 1]) = ![-(1/20), -(1/20)] := by
      funext i; simp [reportedMean, hlog]
    rw [this]
    exact hret _ h1.1
  · unfold RelaxedOut.clipped
    rw [h4 hwarn]
    simp

/-! ## C160: missing moments -/

/-- **C160.** Without a mean or without a covariance, every moment-based method raises `ValueError`, whatever the other arguments. -/
theorem C160_missing_moments (solver : Opt.Solver) (factor : Bayes.Factor) (argsort : Argsort) (w : Wrapper N)
    (h : w.mu = none ∨ w.cov = none) (con : Option (PyV.Con.Spec ℝ)) (costs : Option Costs) :
    (∀ num, w.varianceFrontier solver argsort num con costs = .error .valueError) ∧
    (∀ target, w.minVarianceAtReturn solver target con costs = .error .valueError) ∧
    (∀ names num maxLam lambdas rc, w.robustReport solver factor argsort names num maxLam lambdas rc con costs = .error .valueError) ∧
    (∀ gm gs, w.robustGamma solver factor gm gs con costs = .error .valueError) ∧
    (∀ lam mult target budgets, w.relaxed solver factor lam mult target budgets con = .error .valueError) ∧
    (∀ num maxMult lam mults inc budgets, w.relaxedReport solver factor argsort num maxMult lam mults inc budgets con =
      .error .valueError) := by
  have hm : w.moments = .error .valueError := by
    unfold Wrapper.moments
    rcases h with h | h
    · rw [h]
    · rw [h]; cases w.mu <;> rfl
  refine ⟨fun num => ?_, fun t => ?_, fun _ _ _ _ _ => ?_, fun _ _ => ?_, fun _ _ _ _ => ?_, fun _ _ _ _ _ _ => ?_⟩
  · unfold Wrapper.varianceFrontier; rw [hm]
  · unfold Wrapper.minVarianceAtReturn; rw [hm]
  · unfold Wrapper.robustReport; rw [hm]
  · unfold Wrapper.robustGamma; rw [hm]
  · unfold Wrapper.relaxed; rw [hm]
  · unfold Wrapper.relaxedReport Wrapper.relaxedFrontier; rw [hm]

/-- **C160.** The CVaR methods raise `ValueError` when there are neither scenarios nor both moments. -/
theorem C160_missing_scenarios (solver : Opt.Solver) (argsort : Argsort) (sim : Sim) (w : Wrapper N) (hs : w.scen = none)
    (h : w.mu = none ∨ w.cov = none) (con : Option (PyV.Con.Spec ℝ)) (costs : Option Costs) (seed : Option ℤ) (alpha : ℝ) :
    (∀ num enforce, w.cvarFrontier solver argsort sim num alpha seed con costs enforce = .error .valueError) ∧
    (∀ target, w.minCvarAtReturn solver argsort sim target alpha seed con costs = .error .valueError) := by
  have hi : w.scenarioInputs sim seed = .error .valueError := by
    unfold Wrapper.scenarioInputs
    rw [hs]
    rcases h with h | h
    · rw [h]
    · rw [h]; cases w.mu <;> rfl
  refine ⟨fun num enforce => ?_, fun t => ?_⟩
  · unfold Wrapper.cvarFrontier; rw [hi]
  · unfold Wrapper.minCvarAtReturn; rw [hi]

/-! ## C161: CVaR without scenarios -/

/-- The wrapper that holds, as equally likely scenarios, 5000 draws from the normal distribution of `w`'s moments, turned into simple
returns when `w` holds log-return moments, and the expected simple returns. -/
noncomputable def simulated (sim : Sim) (w : Wrapper N) (mu : Fin N → ℝ) (cov : Matrix (Fin N) (Fin N) ℝ) (seed : Option ℤ) : Wrapper N :=
  { w with
    mu := some (reportedMean w.isLog mu cov)
    scen := some ⟨5000, fun t i => if w.isLog then Real.exp (sim N mu cov 5000 seed t i) - 1 else sim N mu cov 5000 seed t i, fun _ => 1 / 5000⟩
    isLog := false }

private theorem cvarFrontier_congr {solver : Opt.Solver} {argsort : Argsort} {sim : Sim} {w w' : Wrapper N} {seed : Option ℤ}
    {con : Option (PyV.Con.Spec ℝ)} {costs : Option Costs} (h1 : w.scenarioInputs sim seed = w'.scenarioInputs sim seed)
    (h2 : w.user con = w'.user con) (h3 : w.resolveCosts costs = w'.resolveCosts costs) (num : ℕ) (alpha : ℝ) (enforce : Bool) :
    w.cvarFrontier solver argsort sim num alpha seed con costs enforce = w'.cvarFrontier solver argsort sim num alpha seed con costs enforce := by
  unfold Wrapper.cvarFrontier; rw [h1, h2, h3]

private theorem minCvar_congr {solver : Opt.Solver} {argsort : Argsort} {sim : Sim} {w w' : Wrapper N} {seed : Option ℤ}
    {con : Option (PyV.Con.Spec ℝ)} {costs : Option Costs} (h1 : w.scenarioInputs sim seed = w'.scenarioInputs sim seed)
    (h2 : w.user con = w'.user con) (h3 : w.resolveCosts costs = w'.resolveCosts costs) (target alpha : ℝ) :
    w.minCvarAtReturn solver argsort sim target alpha seed con costs = w'.minCvarAtReturn solver argsort sim target alpha seed con costs := by
  unfold Wrapper.minCvarAtReturn; rw [h1, h2, h3]

private theorem uniform_isProb {n : ℕ} (hn : 0 < n) : IsProb (fun _ : Fin n => (1 / (n : ℝ))) := by
  have : (n : ℝ) ≠ 0 := by exact_mod_cast hn.ne'
  exact ⟨fun _ => by positivity, by simp [this]⟩

private theorem simulated_left (sim : Sim) (w : Wrapper N) (mu : Fin N → ℝ) (cov : Matrix (Fin N) (Fin N) ℝ) (hmu : w.mu = some mu)
    (hcov : w.cov = some cov) (hs : w.scen = none) (seed : Option ℤ) : w.scenarioInputs sim seed =
      .ok (⟨5000, fun t i => if w.isLog then Real.exp (sim N mu cov 5000 seed t i) - 1 else sim N mu cov 5000 seed t i, fun _ => 1 / 5000⟩,
        reportedMean w.isLog mu cov) := by
  unfold Wrapper.scenarioInputs
  rw [hs, hmu, hcov]
  simp only [report_mean]

private theorem simulated_right (sim : Sim) (w : Wrapper N) (mu : Fin N → ℝ) (cov : Matrix (Fin N) (Fin N) ℝ) (seed : Option ℤ) :
    (simulated sim w mu cov seed).scenarioInputs sim seed =
      .ok (⟨5000, fun t i => if w.isLog then Real.exp (sim N mu cov 5000 seed t i) - 1 else sim N mu cov 5000 seed t i, fun _ => 1 / 5000⟩,
        reportedMean w.isLog mu cov) := by
  have hp := uniform_isProb (n := 5000) (by norm_num)
  rw [show (((5000 : ℕ) : ℝ)) = 5000 from by norm_num] at hp
  exact scenarioInputs_scen sim (w := simulated sim w mu cov seed) rfl hp rfl seed

/-- **C161.** Without scenarios, the CVaR methods give exactly what they give on the wrapper holding the simulated scenarios. -/
theorem C161_simulated (solver : Opt.Solver) (argsort : Argsort) (sim : Sim) (w : Wrapper N) (mu : Fin N → ℝ)
    (cov : Matrix (Fin N) (Fin N) ℝ) (hmu : w.mu = some mu) (hcov : w.cov = some cov) (hs : w.scen = none)
    (con : Option (PyV.Con.Spec ℝ)) (costs : Option Costs) (seed : Option ℤ) (alpha : ℝ) :
    (∀ num enforce, w.cvarFrontier solver argsort sim num alpha seed con costs enforce =
      (simulated sim w mu cov seed).cvarFrontier solver argsort sim num alpha seed con costs enforce) ∧
    (∀ target, w.minCvarAtReturn solver argsort sim target alpha seed con costs =
      (simulated sim w mu cov seed).minCvarAtReturn solver argsort sim target alpha seed con costs) := by
  have h1 : w.scenarioInputs sim seed = (simulated sim w mu cov seed).scenarioInputs sim seed :=
    (simulated_left sim w mu cov hmu hcov hs seed).trans (simulated_right sim w mu cov seed).symm
  have hu : (simulated sim w mu cov seed).user con = w.user con := rfl
  have hc : (simulated sim w mu cov seed).resolveCosts costs = w.resolveCosts costs := rfl
  exact ⟨fun num enforce => cvarFrontier_congr h1 hu.symm hc.symm num alpha enforce, fun t => minCvar_congr h1 hu.symm hc.symm t alpha⟩

/-- **C161.** In the simulated wrapper the constraints and costs in force are the same, so that C109, C114 and C71 apply to it. -/
theorem C161_in_force (sim : Sim) (w : Wrapper N) (mu : Fin N → ℝ) (cov : Matrix (Fin N) (Fin N) ℝ) (seed : Option ℤ)
    (con : Option (PyV.Con.Spec ℝ)) (c : PyV.Con.Spec ℝ) (costs : Option Costs) (w0 imp prop : Option (Fin N → ℝ)) :
    (InForce (simulated sim w mu cov seed) con c ↔ InForce w con c) ∧
    (Trading (simulated sim w mu cov seed) costs w0 imp prop ↔ Trading w costs w0 imp prop) := ⟨Iff.rfl, Iff.rfl⟩

/-- A two-asset wrapper without scenarios: its CVaR frontier exists and its columns are allowed. -/
example : ∃ (w : Wrapper 2) (solver : Opt.Solver) (argsort : Argsort) (sim : Sim), w.scen = none ∧
    ∃ F, w.cvarFrontier solver argsort sim 3 (1 / 20) none none none true = .ok F := by
  obtain ⟨solver, h1, h2⟩ := exists_solver
  obtain ⟨w, hmu, hcov, hsc, hlog, -, hin, htr⟩ := exists_wrapper (N := 2) (by norm_num) (some ![1 / 10, 1 / 50])
    (some (Matrix.diagonal ![4, 1])) none false
  refine ⟨w, solver, fun T x => Tuple.sort x, fun _ _ _ _ _ _ _ => 0, hsc, ?_⟩
  rw [(C161_simulated solver _ _ w _ _ hmu hcov hsc none none none (1 / 20)).1 3 true]
  obtain ⟨cvar, cols, f, σ, -, hok, -⟩ := C114_cvar_frontier h1 h2 (fun T x => Tuple.sort x) (fun T x => Tuple.monotone_sort x)
    (fun _ _ _ _ _ _ _ => 0) (simulated (fun _ _ _ _ _ _ _ => 0) w ![1 / 10, 1 / 50] (Matrix.diagonal ![4, 1]) none) _ rfl
    ⟨fun _ => by norm_num, by simp⟩ rfl none _ ((C161_in_force _ w _ _ none none _ none none none none).1.2 hin) default_bounded
    ⟨![1, 0], (satisfies_default _).2 ⟨by intro i; fin_cases i <;> simp, by simp⟩⟩ none none none none
    ((C161_in_force _ w _ _ none none PyV.Con.defaultSpec none none none none).2.2 htr) (by simp) (1 / 20) (by norm_num) (by norm_num) none 3 true
  exact ⟨_, hok⟩

end PyV.Props
