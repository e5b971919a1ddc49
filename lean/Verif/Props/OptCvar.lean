import Verif.Lemmas.Optimization
import Verif.Lemmas.OptExist
import Mathlib.Data.Fin.VecNotation
import Mathlib.Data.Fin.Tuple.Sort
import Mathlib.Tactic.NormNum
import Mathlib.Tactic.FinCases
import Mathlib.Tactic.Positivity

set_option linter.unusedSectionVars false

/-! # C66, C69: the CVaR programme

`Sound solver` says that CVXOPT reports `"optimal"` only for optimal points, `Complete solver` that it reports it whenever
there is one. -/

namespace PyV.Props

open PyV PyV.Opt PyV.Risk PyV.Spec PyV.Spec.Opt

variable {N T : ℕ} {argsort : (Fin T → ℝ) → Equiv.Perm (Fin T)}

/-- Sound and complete solvers exist. -/
theorem exists_solver : ∃ s : Opt.Solver, Sound s ∧ Complete s := by
  classical
  refine ⟨fun V i pr => if h : ∃ x, Optimal pr x then some h.choose else none, ?_, ?_⟩
  · intro V i pr x _ h
    dsimp only at h
    by_cases hx : ∃ x, Optimal pr x
    · rw [dif_pos hx] at h; injection h with h; subst h; exact hx.choose_spec
    · rw [dif_neg hx] at h; cases h
  · intro V i pr _ hx
    exact ⟨_, dif_pos hx⟩

/-- The CVaR computed by `portfolio_cvar` is the minimum of the Rockafellar–Uryasev objective. -/
theorem cvar_spec (hs : IsArgsort argsort) (a : CvArgs N T) (hp : IsProb a.p) (h0 : 0 < a.alpha) (h1 : a.alpha < 1)
    (w : Fin N → ℝ) :
    ∃ r, portfolioCvar argsort w a.R (some a.p) (some (1 - a.alpha)) false = .ok r ∧
      IsCvar a.p (pnlOf a w) (1 - a.alpha) r :=
  portfolioCvar_ok (w := w) (R := a.R) (p := some a.p) (demean := false) hs hp (by linarith) (by linarith)

theorem convex_zero {V : Type} [Fintype V] (pr : Prog V) (h : pr.P = fun _ _ => 0) : Convex pr := by
  constructor <;> simp [h]

theorem convex_cv {E : Type} [Fintype E] {mean : Fin N → ℝ} (target : Option ℝ) (pr : Prog (CV N T E))
    (h : pr.P = fun _ _ => 0) : Convex (addTarget mean target pr) := by
  apply convex_zero
  unfold addTarget
  cases target <;> exact h

theorem cvSolve_plain {solver : Opt.Solver} {a : CvArgs N T} (hc : a.w0 = none ∨ a.costs = none) (target : Option ℝ) :
    cvSolve solver a target =
      match solver _ inferInstance (addTarget (cvMean a) target (cvPlain a)) with
      | some x => .ok (fun i => x (Sum.inl i))
      | none => .error .runtimeError := by
  unfold cvSolve
  rcases hc with hc | hc
  · rw [hc]; cases a.costs <;> rfl
  · rw [hc]; cases a.w0 <;> rfl

/-- **C66** For fixed weights, the smallest LP objective over the auxiliary variables is the portfolio CVaR. -/
theorem C66_lp_value (hs : IsArgsort argsort) (a : CvArgs N T) (hp : IsProb a.p) (h0 : 0 < a.alpha) (h1 : a.alpha < 1)
    (target : Option ℝ) (w : Fin N → ℝ) (hw : Reaches a.user (fun i => ∑ t, a.p t * a.R t i) target w) :
    ∃ r, portfolioCvar argsort w a.R (some a.p) (some (1 - a.alpha)) false = .ok r ∧
      IsLeast {v | ∃ x, Feasible (addTarget (cvMean a) target (cvPlain a)) x ∧ (fun i => x (.inl i)) = w ∧
        v = value (addTarget (cvMean a) target (cvPlain a)) x} r := by
  obtain ⟨r, hr, hc⟩ := cvar_spec hs a hp h0 h1 w
  refine ⟨r, hr, ?_, ?_⟩
  · obtain ⟨⟨c, hc⟩, -⟩ := hc
    refine ⟨complete a w c (fun e : Empty => e.elim), ?_, rfl, ?_⟩
    · unfold cvPlain
      rw [feasible_cvBase]
      exact ⟨fun t => le_max_left _ _, fun t => le_max_right _ _, by simp, hw, by simp⟩
    · unfold cvPlain
      rw [value_cvBase, ← add_assoc, ru_complete, hc]
      simp
  · rintro v ⟨x, hx, rfl, rfl⟩
    unfold cvPlain at hx ⊢
    rw [feasible_cvBase] at hx
    rw [value_cvBase]
    refine le_trans (hc.2 ⟨cOf x, rfl⟩) ?_
    have := ru_le a hp.nonneg h0 x hx.1 hx.2.1
    simp only [Finset.univ_eq_empty, Finset.sum_empty, add_zero]
    exact this

/-- **C66** Without costs the returned weights are allowed, reach the target, and have the smallest `portfolio_cvar` among all
allowed weights that reach it. -/
theorem C66_minimises_cvar (hs : IsArgsort argsort) {solver : Opt.Solver} (hsnd : Sound solver) (a : CvArgs N T)
    (hp : IsProb a.p) (h0 : 0 < a.alpha) (h1 : a.alpha < 1) (hc : a.w0 = none ∨ a.costs = none) (target : Option ℝ)
    (w : Fin N → ℝ) (h : cvSolve solver a target = .ok w) :
    Reaches a.user (fun i => ∑ t, a.p t * a.R t i) target w ∧
    ∃ r, portfolioCvar argsort w a.R (some a.p) (some (1 - a.alpha)) false = .ok r ∧
      ∀ w' r', Reaches a.user (fun i => ∑ t, a.p t * a.R t i) target w' →
        portfolioCvar argsort w' a.R (some a.p) (some (1 - a.alpha)) false = .ok r' → r ≤ r' := by
  rw [cvSolve_plain hc] at h
  split at h
  case h_2 => cases h
  rename_i x hx
  injection h with h; subst h
  obtain ⟨hf, ho⟩ := hsnd _ _ _ _ (convex_cv _ _ rfl) hx
  have hf' := hf
  unfold cvPlain at hf'
  rw [feasible_cvBase] at hf'
  refine ⟨hf'.2.2.2.1, ?_⟩
  obtain ⟨r, hr, hl⟩ := C66_lp_value hs a hp h0 h1 target _ hf'.2.2.2.1
  refine ⟨r, hr, fun w' r' hw' hr' => ?_⟩
  obtain ⟨r2, hr2, hl2⟩ := C66_lp_value hs a hp h0 h1 target w' hw'
  rw [hr2] at hr'; injection hr' with hr'; subst hr'
  refine le_trans (hl.2 ⟨x, hf, rfl, rfl⟩) ?_
  obtain ⟨y, hy, -, hv⟩ := hl2.1
  rw [hv]; exact ho y hy

/-- **C69** For fixed weights, the smallest LP objective over the auxiliary and trade variables is the portfolio CVaR plus
`sum_i c_i |w_i - w0_i|`. -/
theorem C69_linear_turnover_value (hs : IsArgsort argsort) (a : CvArgs N T) (hp : IsProb a.p) (h0 : 0 < a.alpha)
    (h1 : a.alpha < 1) (w0 costs : Fin N → ℝ) (hcost : ∀ i, 0 ≤ costs i) (target : Option ℝ) (w : Fin N → ℝ)
    (hw : Reaches a.user (fun i => ∑ t, a.p t * a.R t i) target w) :
    ∃ r, portfolioCvar argsort w a.R (some a.p) (some (1 - a.alpha)) false = .ok r ∧
      IsLeast {v | ∃ x, Feasible (addTarget (cvMean a) target (cvCosts a w0 costs)) x ∧ (fun i => x (.inl i)) = w ∧
        v = value (addTarget (cvMean a) target (cvCosts a w0 costs)) x} (r + turnover costs w0 w) := by
  obtain ⟨r, hr, hc⟩ := cvar_spec hs a hp h0 h1 w
  refine ⟨r, hr, ?_, ?_⟩
  · obtain ⟨⟨c, hc⟩, -⟩ := hc
    refine ⟨complete a w c (Sum.elim (fun i => max (w i - w0 i) 0) (fun i => max (w0 i - w i) 0)), ?_, rfl, ?_⟩
    · unfold cvCosts
      rw [feasible_cvBase]
      refine ⟨fun t => le_max_left _ _, fun t => le_max_right _ _, ?_, hw, (trade_iff _ _).2 fun i => ?_⟩
      · rintro (e | e) - <;> simp [eOf, complete, blocks]
      · simp only [wOf, eOf, complete, blocks, Sum.elim_inl, Sum.elim_inr]
        rcases le_total (w i) (w0 i) with h | h
        · rw [max_eq_right (by linarith), max_eq_left (by linarith)]; ring
        · rw [max_eq_left (by linarith), max_eq_right (by linarith)]; ring
    · unfold cvCosts
      rw [value_cvBase, ← add_assoc, ru_complete, hc, Fintype.sum_sum_type, ← Finset.sum_add_distrib]
      congr 1
      apply Finset.sum_congr rfl; intro i _
      simp only [eOf, complete, blocks, Sum.elim_inl, Sum.elim_inr]
      rcases le_total (w i) (w0 i) with h | h
      · rw [max_eq_right (by linarith), max_eq_left (by linarith), abs_of_nonpos (by linarith)]; ring
      · rw [max_eq_left (by linarith), max_eq_right (by linarith), abs_of_nonneg (by linarith)]; ring
  · rintro v ⟨x, hx, rfl, rfl⟩
    unfold cvCosts at hx ⊢
    rw [feasible_cvBase] at hx
    obtain ⟨g1, g2, g3, -, g5⟩ := hx
    rw [trade_iff] at g5
    rw [value_cvBase, ← add_assoc]
    have := ru_le a hp.nonneg h0 x g1 g2
    refine add_le_add (le_trans (hc.2 ⟨cOf x, rfl⟩) this) ?_
    rw [Fintype.sum_sum_type, ← Finset.sum_add_distrib]
    apply Finset.sum_le_sum; intro i _
    have hp := g3 (.inl i) (by simp)
    have hm := g3 (.inr i) (by simp)
    have ht := g5 i
    simp only [Sum.elim_inl, Sum.elim_inr]
    rw [← mul_add]
    refine mul_le_mul_of_nonneg_left ?_ (hcost i)
    have ht' : x (.inl i) - w0 i = eOf x (.inl i) - eOf x (.inr i) := by unfold wOf at ht; linarith
    rw [ht', abs_le]
    constructor <;> linarith

/-- **C66/C69** With non-negative proportional costs the returned weights are allowed, reach the target and minimise
`portfolio_cvar + sum_i c_i |w_i - w0_i|` among all allowed weights that reach it. -/
theorem C69_minimises_cvar_plus_turnover (hs : IsArgsort argsort) {solver : Opt.Solver} (hsnd : Sound solver) (a : CvArgs N T)
    (hp : IsProb a.p) (h0 : 0 < a.alpha) (h1 : a.alpha < 1) (w0 costs : Fin N → ℝ) (hw0 : a.w0 = some w0)
    (hco : a.costs = some costs) (hcost : ∀ i, 0 ≤ costs i) (target : Option ℝ) (w : Fin N → ℝ)
    (h : cvSolve solver a target = .ok w) :
    Reaches a.user (fun i => ∑ t, a.p t * a.R t i) target w ∧
    ∃ r, portfolioCvar argsort w a.R (some a.p) (some (1 - a.alpha)) false = .ok r ∧
      ∀ w' r', Reaches a.user (fun i => ∑ t, a.p t * a.R t i) target w' →
        portfolioCvar argsort w' a.R (some a.p) (some (1 - a.alpha)) false = .ok r' →
        r + turnover costs w0 w ≤ r' + turnover costs w0 w' := by
  unfold cvSolve at h
  rw [hw0, hco] at h
  simp only at h
  split at h
  case h_2 => cases h
  rename_i x hx
  injection h with h; subst h
  obtain ⟨hf, ho⟩ := hsnd _ _ _ _ (convex_cv _ _ rfl) hx
  have hf' := hf
  unfold cvCosts at hf'
  rw [feasible_cvBase] at hf'
  refine ⟨hf'.2.2.2.1, ?_⟩
  obtain ⟨r, hr, hl⟩ := C69_linear_turnover_value hs a hp h0 h1 w0 costs hcost target _ hf'.2.2.2.1
  refine ⟨r, hr, fun w' r' hw' hr' => ?_⟩
  obtain ⟨r2, hr2, hl2⟩ := C69_linear_turnover_value hs a hp h0 h1 w0 costs hcost target w' hw'
  rw [hr2] at hr'; injection hr' with hr'; subst hr'
  refine le_trans (hl.2 ⟨x, hf, rfl, rfl⟩) ?_
  obtain ⟨y, hy, -, hv⟩ := hl2.1
  rw [hv]; exact ho y hy

/-- **C69** Costs are not validated: with one negative cost the programme is unbounded and every call fails. -/
theorem C69_negative_cost_fails {solver : Opt.Solver} (hsnd : Sound solver) (a : CvArgs N T) (w0 costs : Fin N → ℝ)
    (hw0 : a.w0 = some w0) (hco : a.costs = some costs) (i : Fin N) (hneg : costs i < 0) (target : Option ℝ) :
    cvSolve solver a target = .error .runtimeError := by
  unfold cvSolve
  rw [hw0, hco]
  simp only
  cases hx : solver _ inferInstance (addTarget (cvMean a) target (cvCosts a w0 costs)) with
  | none => rfl
  | some x =>
    exfalso
    obtain ⟨hf, ho⟩ := hsnd _ _ _ _ (convex_cv _ _ rfl) hx
    let y : CV N T (Fin N ⊕ Fin N) → ℝ :=
      blocks (wOf x) (cOf x) (xiOf x) (fun e => eOf x e + (if e = .inl i ∨ e = .inr i then 1 else 0))
    have hy : Feasible (addTarget (cvMean a) target (cvCosts a w0 costs)) y := by
      unfold cvCosts at hf ⊢
      rw [feasible_cvBase] at hf ⊢
      obtain ⟨g1, g2, g3, g4, g5⟩ := hf
      refine ⟨g1, g2, fun e he => add_nonneg (g3 e he) (by split_ifs <;> norm_num), g4, ?_⟩
      rw [trade_iff] at g5 ⊢
      intro j
      have := g5 j
      simp only [y, wOf, eOf, blocks, Sum.elim_inl, Sum.elim_inr, Sum.inl.injEq, Sum.inr.injEq, reduceCtorEq, or_false,
        false_or] at this ⊢
      linarith
    have hv := ho y hy
    unfold cvCosts at hv
    rw [value_cvBase, value_cvBase] at hv
    have e : ∑ e, Sum.elim costs costs e * eOf y e = ∑ e, Sum.elim costs costs e * eOf x e + 2 * costs i := by
      simp only [Fintype.sum_sum_type, y, eOf, blocks, Sum.elim_inl, Sum.elim_inr, Sum.inl.injEq, Sum.inr.injEq,
        reduceCtorEq, or_false, false_or, mul_add, Finset.sum_add_distrib, mul_ite, mul_one, mul_zero, Finset.sum_ite_eq',
        Finset.mem_univ, if_true]
      ring
    have e1 : cOf y = cOf x := rfl
    have e2 : xiOf y = xiOf x := rfl
    rw [e, e1, e2] at hv
    linarith

/-- The VaR threshold attains the CVaR and is one of the losses. -/
theorem exists_threshold {p x : Fin T → ℝ} {conf K : ℝ} (hp : IsProb p) (h0 : 0 < conf) (h1 : conf < 1)
    (hK : ∀ t, |x t| ≤ K) : ∃ c, |c| ≤ K ∧ ∀ d, ru p x conf c ≤ ru p x conf d := by
  obtain ⟨k, -, hq⟩ := quantile_spec (x := x) (σ := Tuple.sort x) hp h0 h1 (Tuple.monotone_sort x)
  exact ⟨-(x (Tuple.sort x k)), by rw [abs_neg]; exact hK _, fun d => ru_min hp h1 hq d⟩

/-- **C66** The programme is solvable: with a bounded, non-empty feasible set a complete solver always returns a portfolio. -/
theorem C66_total {solver : Opt.Solver} (hcmp : Complete solver) (a : CvArgs N T) (hp : IsProb a.p) (h0 : 0 < a.alpha)
    (h1 : a.alpha < 1) (hcost : ∀ c, a.costs = some c → ∀ i, 0 ≤ c i) (target : Option ℝ)
    (hb : ∃ M, ∀ w, Allowed a.user w → ∀ i, |w i| ≤ M)
    (hn : ∃ w, Reaches a.user (fun i => ∑ t, a.p t * a.R t i) target w) : ∃ w, cvSolve solver a target = .ok w := by
  obtain ⟨M, hM⟩ := hb
  have hM0 : 0 ≤ max M 0 := le_max_right _ _
  set K : ℝ := ∑ t, ∑ i, |a.R t i| * max M 0 with hKdef
  have hK0 : 0 ≤ K := Finset.sum_nonneg fun t _ => Finset.sum_nonneg fun i _ => by positivity
  have hK : ∀ w, Allowed a.user w → ∀ t, |pnlOf a w t| ≤ K := by
    intro w hw t
    calc |pnlOf a w t| ≤ ∑ i, |a.R t i * w i| := Finset.abs_sum_le_sum_abs _ _
      _ ≤ ∑ i, |a.R t i| * max M 0 := Finset.sum_le_sum fun i _ => by
          rw [abs_mul]; exact mul_le_mul_of_nonneg_left (le_trans (hM w hw i) (le_max_left _ _)) (abs_nonneg _)
      _ ≤ K := Finset.single_le_sum (f := fun t => ∑ i, |a.R t i| * max M 0)
          (fun t _ => Finset.sum_nonneg fun i _ => by positivity) (Finset.mem_univ t)
  have key : ∀ g : (Fin N → ℝ) → ℝ, Continuous g → ∃ w c, Reaches a.user (fun i => ∑ t, a.p t * a.R t i) target w ∧
      ∀ v d, Reaches a.user (fun i => ∑ t, a.p t * a.R t i) target v →
        ru a.p (pnlOf a w) (1 - a.alpha) c + g w ≤ ru a.p (pnlOf a v) (1 - a.alpha) d + g v := by
    intro g hg
    obtain ⟨w, c, hw, -, hmin⟩ := exists_min₂ a.user (fun i => ∑ t, a.p t * a.R t i) target ⟨M, hM⟩ hn K hK0
      (fun q => ru a.p (pnlOf a q.1) (1 - a.alpha) q.2 + g q.1) (by unfold ru expect pnlOf; fun_prop)
    refine ⟨w, c, hw, fun v d hv => ?_⟩
    obtain ⟨e, he, hle⟩ := exists_threshold (x := pnlOf a v) hp (show 0 < 1 - a.alpha by linarith) (by linarith) (hK v hv.1)
    exact le_trans (hmin v e hv he) (by linarith [hle d])
  by_cases hc : a.w0 = none ∨ a.costs = none
  · rw [cvSolve_plain hc]
    obtain ⟨w, c, hw, hmin⟩ := key (fun _ => 0) continuous_const
    have : ∃ x, Optimal (addTarget (cvMean a) target (cvPlain a)) x := by
      refine ⟨complete a w c (fun e : Empty => e.elim), ?_, fun y hy => ?_⟩
      · unfold cvPlain
        rw [feasible_cvBase]
        exact ⟨fun t => le_max_left _ _, fun t => le_max_right _ _, by simp, hw, by simp⟩
      · unfold cvPlain at hy ⊢
        rw [feasible_cvBase] at hy
        rw [value_cvBase, value_cvBase, ← add_assoc, ru_complete]
        have h1 := ru_le a hp.nonneg h0 y hy.1 hy.2.1
        have h2 := hmin (wOf y) (cOf y) hy.2.2.2.1
        simp only [Finset.univ_eq_empty, Finset.sum_empty, add_zero] at h1 h2 ⊢
        linarith
    obtain ⟨x, hx⟩ := hcmp _ inferInstance _ (convex_cv _ _ rfl) this
    rw [hx]; exact ⟨_, rfl⟩
  · obtain ⟨w0, hw0⟩ := Option.ne_none_iff_exists'.1 (fun h => hc (Or.inl h))
    obtain ⟨costs, hco⟩ := Option.ne_none_iff_exists'.1 (fun h => hc (Or.inr h))
    have hcost' := hcost costs hco
    unfold cvSolve
    rw [hw0, hco]
    obtain ⟨w, c, hw, hmin⟩ := key (turnover costs w0) (by unfold turnover; fun_prop)
    have hl := fun v hv => C69_linear_turnover_value (argsort := fun x => Tuple.sort x) (fun x => Tuple.monotone_sort x)
      a hp h0 h1 w0 costs hcost' target v hv
    obtain ⟨r, hr, hlr⟩ := hl w hw
    have : ∃ x, Optimal (addTarget (cvMean a) target (cvCosts a w0 costs)) x := by
      obtain ⟨x, hx, hxw, hxv⟩ := hlr.1
      refine ⟨x, hx, fun y hy => ?_⟩
      rw [← hxv]
      have hy' := hy
      unfold cvCosts at hy'
      rw [feasible_cvBase] at hy'
      obtain ⟨r', hr', hlr'⟩ := hl (wOf y) hy'.2.2.2.1
      refine le_trans ?_ (hlr'.2 ⟨y, hy, rfl, rfl⟩)
      obtain ⟨r1, e1, hc1⟩ := cvar_spec (argsort := fun x => Tuple.sort x) (fun x => Tuple.monotone_sort x) a hp h0 h1 w
      obtain ⟨r2, e2, hc2⟩ := cvar_spec (argsort := fun x => Tuple.sort x) (fun x => Tuple.monotone_sort x) a hp h0 h1 (wOf y)
      rw [hr] at e1; injection e1 with e1; subst e1
      rw [hr'] at e2; injection e2 with e2; subst e2
      obtain ⟨d, hd⟩ := hc2.1
      have := hmin (wOf y) d hy'.2.2.2.1
      have h3 := hc1.2 ⟨c, rfl⟩
      linarith
    obtain ⟨x, hx⟩ := hcmp _ inferInstance _ (convex_cv _ _ rfl) this
    dsimp only
    rw [hx]; exact ⟨_, rfl⟩

/-- Non-vacuity: long-only, fully invested portfolios of two assets over three scenarios form a bounded, non-empty set. -/
def exUser : User 2 := ⟨some [(![-1, 0], 0), (![0, -1], 0)], some [(![1, 1], 1)]⟩

theorem exUser_iff (w : Fin 2 → ℝ) : Allowed exUser w ↔ 0 ≤ w 0 ∧ 0 ≤ w 1 ∧ w 0 + w 1 = 1 := by
  simp [Allowed, exUser, Fin.sum_univ_two, and_assoc]

theorem exUser_bounded : ∃ M, ∀ w, Allowed exUser w → ∀ i, |w i| ≤ M :=
  ⟨1, fun w hw i => by
    obtain ⟨h1, h2, h3⟩ := (exUser_iff w).1 hw
    rw [abs_le]
    fin_cases i <;> simp <;> constructor <;> linarith⟩

noncomputable def exCv : CvArgs 2 3 :=
  ⟨![![1/10, -1/20], ![-1/5, 1/10], ![1/20, 1/20]], ![1/2, 1/4, 1/4], 1/10, exUser, some ![1/2, 1/2], some ![1/100, 1/100]⟩

/-- Non-vacuity: there is a sound and complete solver, and with it this problem with costs is solved. -/
example : ∃ solver w, Sound solver ∧ cvSolve solver exCv (some (1/100)) = .ok w := by
  obtain ⟨s, hs, hc⟩ := exists_solver
  have hp : IsProb exCv.p := ⟨fun t => by fin_cases t <;> simp [exCv], by simp [exCv, Fin.sum_univ_three]; norm_num⟩
  obtain ⟨w, hw⟩ := C66_total hc exCv hp (by simp [exCv]) (by simp [exCv]; norm_num)
    (by intro c h i; simp [exCv] at h; subst h; fin_cases i <;> simp) (some (1/100)) exUser_bounded
    ⟨![0, 1], (exUser_iff _).2 (by simp), fun t ht => by
      injection ht with ht; subst ht
      simp [exCv, Fin.sum_univ_two, Fin.sum_univ_three]; norm_num⟩
  exact ⟨s, w, hs, hw⟩

end PyV.Props
