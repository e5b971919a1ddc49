import Verif.Props.TwoFunds
import Verif.Props.UnboundedTail

set_option linter.unusedSectionVars false

/-! # Properties C296 and C297: efficient frontiers when the constraints leave the weights unbounded -/

namespace PyV.Props

open PyV PyV.Api PyV.Spec.Api PyV.Opt PyV.Spec.Opt PyV.Spec.Con PyV.Risk PyV.Spec Matrix

variable {N T : ℕ}

/-- A linear return bounded above over what is allowed is attained. -/
private theorem best_return (user : User N) (mean : Fin N → ℝ) (hn : ∃ v, Allowed user v) {M : ℝ}
    (hM : ∀ v, Allowed user v → ret mean v ≤ M) : ∃ b, Allowed user b ∧ ∀ v, Allowed user v → ret mean v ≤ ret mean b := by
  have hiff : ∀ y, Feasible (⟨fun _ _ => 0, fun v => -(mean v), user.G.getD [], [], user.A.getD []⟩ : Prog (Fin N)) y ↔ Allowed user y := by
    intro y
    constructor
    · rintro ⟨h1, -, h3⟩
      exact ⟨fun r hr => by have := h1 r hr; unfold slack at this; linarith,
        fun r hr => by have := h3 r hr; unfold slack at this; linarith⟩
    · rintro ⟨h1, h2⟩
      exact ⟨fun r hr => by have := h1 r hr; unfold slack; linarith, by simp,
        fun r hr => by have := h2 r hr; unfold slack; linarith⟩
  have hv : ∀ y, value (⟨fun _ _ => 0, fun v => -(mean v), user.G.getD [], [], user.A.getD []⟩ : Prog (Fin N)) y = -(ret mean y) := by
    intro y; simp [value, ret]
  obtain ⟨v, hv0⟩ := hn
  obtain ⟨b, hb1, hb2⟩ := exists_optimal (pr := (⟨fun _ _ => 0, fun v => -(mean v), user.G.getD [], [], user.A.getD []⟩ : Prog (Fin N)))
    (convex_zero _ rfl) rfl ⟨v, (hiff v).2 hv0⟩ ⟨-M, fun x hx => by rw [hv]; linarith [hM x ((hiff x).1 hx)]⟩
  refine ⟨b, (hiff b).1 hb1, fun y hy => ?_⟩
  have := hb2 y ((hiff y).2 hy)
  rw [hv, hv] at this
  linarith

private theorem mv_total {solver : Opt.Solver} (hcmp : Complete solver) (mean : Fin N → ℝ) (cov : Fin N → Fin N → ℝ)
    (user : User N) (w0 lam : Option (Fin N → ℝ)) (hcov : IsCov cov) (hlam : ∀ l, lam = some l → ∀ i, 0 ≤ l i) (target : Option ℝ)
    (hn : ∃ w, Reaches user mean target w) :
    ∃ x, solver _ inferInstance (mvProg (mvInit mean cov user w0 lam) target) = some x ∧
      mvSolve solver (mvInit mean cov user w0 lam) target = .ok x := by
  obtain ⟨k, hk⟩ := C69_quadratic_turnover_value mean cov user w0 lam target
  have hge : ∀ x, 0 ≤ mvCost cov w0 lam x := by
    intro x
    rw [mvCost_eq]
    unfold varianceCost
    refine add_nonneg (hcov.2 x) (Finset.sum_nonneg fun i _ => mul_nonneg ?_ (sq_nonneg _))
    cases lam with
    | none => simp
    | some l => exact hlam l rfl i
  obtain ⟨w, hw⟩ := hn
  obtain ⟨z, hz⟩ := exists_optimal (pr := mvProg (mvInit mean cov user w0 lam) target)
    (convex_mv mean cov user w0 lam target hcov hlam) (by cases target <;> rfl) ⟨w, (feasible_mv _ _ _).2 hw⟩
    ⟨-k, fun x _ => by
      have := hk x
      have := hge x
      linarith⟩
  obtain ⟨x, hx⟩ := hcmp _ inferInstance (mvProg (mvInit mean cov user w0 lam) target)
    (convex_mv mean cov user w0 lam target hcov hlam) ⟨z, hz⟩
  refine ⟨x, hx, ?_⟩
  unfold mvSolve
  rw [hx]

/-- The mean-variance frontier exists whenever some portfolio is allowed and returns are bounded. -/
private theorem mv_frontier_total {solver : Opt.Solver} (hsnd : Sound solver) (hcmp : Complete solver) (mean : Fin N → ℝ)
    (cov : Fin N → Fin N → ℝ) (user : User N) (w0 lam : Option (Fin N → ℝ)) (hcov : IsCov cov)
    (hlam : ∀ l, lam = some l → ∀ i, 0 ≤ l i) (hn : ∃ w, Allowed user w) {M : ℝ} (hM : ∀ v, Allowed user v → ret mean v ≤ M)
    (hG : user.G.getD [] ≠ []) (num : ℕ) : ∃ cols, mvFrontier solver (mvInit mean cov user w0 lam) num = .ok cols := by
  obtain ⟨w, hw⟩ := hn
  have hfirst : ∀ target, (∃ v, Reaches user mean target v) →
      ∃ x, solver _ inferInstance (mvProg (mvInit mean cov user w0 lam) target) = some x := fun target hv => by
    obtain ⟨x, hx, -⟩ := mv_total hcmp mean cov user w0 lam hcov hlam target hv; exact ⟨x, hx⟩
  obtain ⟨first, -, h1⟩ := mv_total hcmp mean cov user w0 lam hcov hlam none ⟨w, hw, by simp⟩
  have hfa := (C90_min_variance hsnd mean cov user w0 lam hcov hlam none first (hfirst none) h1).1.1
  obtain ⟨b, hb1, hb2⟩ := best_return user mean ⟨w, hw⟩ hM
  obtain ⟨x, hx⟩ := hcmp _ inferInstance (⟨fun _ _ => 0, fun v => -(mean v), user.G.getD [], [], user.A.getD []⟩ : Prog (Fin N))
    (convex_zero _ rfl) ⟨b, ⟨fun r hr => by have := hb1.1 r hr; unfold slack; linarith, by simp,
      fun r hr => by have := hb1.2 r hr; unfold slack; linarith⟩, fun y hy => by
        have := hb2 y ⟨fun r hr => by have := hy.1 r hr; unfold slack at this; linarith,
          fun r hr => by have := hy.3 r hr; unfold slack at this; linarith⟩
        simpa [value, Spec.Opt.ret] using this⟩
  have h2 : ∃ r, maxReturn solver mean (user.G.getD []) (user.A.getD []) = .ok r := by
    unfold maxReturn
    rw [hx]
    exact ⟨_, rfl⟩
  obtain ⟨r, h2⟩ := h2
  have hr := maxReturn_mv hsnd user mean r h2
  obtain ⟨cols, hc⟩ := frontier_total first (fun t => mvSolve solver (mvInit mean cov user w0 lam) (some t)) num mean r
    (hr.2 ⟨first, hfa, rfl⟩) (by
      intro t ht
      obtain ⟨v, hv, hvr⟩ := hr.1
      obtain ⟨x, -, hx⟩ := mv_total hcmp mean cov user w0 lam hcov hlam (some t) ⟨v, hv, fun s hs => by
        injection hs with hs; subst hs
        exact le_trans ht (le_of_eq hvr.symm)⟩
      exact ⟨x, hx⟩)
  refine ⟨cols, ?_⟩
  unfold mvFrontier
  rw [h1]; dsimp only
  rw [show (mvInit mean cov user w0 lam).user = user from rfl, lpInequalities_total hG]; dsimp only
  rw [show (mvInit mean cov user w0 lam).mean = mean from rfl, h2]
  exact hc

/-- **C296** Constraints that need not bound the weights: provided they contain an inequality, `variance_frontier` answers exactly when
some portfolio satisfies them and the returns of those that do are bounded above, for every covariance matrix; it then delivers the
efficient frontier with the returns and volatilities of its columns. In every other case it raises `RuntimeError`. -/
theorem C296_frontier_iff {solver : Opt.Solver} (hsnd : Sound solver) (hcmp : Complete solver) (argsort : Argsort)
    (w : Wrapper N) (mu : Fin N → ℝ) (cov : Matrix (Fin N) (Fin N) ℝ) (hmu : w.mu = some mu) (hcov : w.cov = some cov)
    (hlog : w.isLog = false) (hpsd : IsCov (fun i j => cov i j)) (con : Option (PyV.Con.Spec ℝ)) (c : PyV.Con.Spec ℝ)
    (hin : InForce w con c) (hlim : Limited N c) (costs : Option Costs) (w0 imp prop : Option (Fin N → ℝ))
    (htr : Trading w costs w0 imp prop) (himp : ∀ l, imp = some l → ∀ i, 0 ≤ l i) (num : ℕ) :
    ((∃ F, w.varianceFrontier solver argsort num con costs = .ok F) ↔
      (∃ x : Fin N → ℝ, Satisfies c x) ∧ ∃ M, ∀ x : Fin N → ℝ, Satisfies c x → ret mu x ≤ M) ∧
    (∀ F, w.varianceFrontier solver argsort num con costs = .ok F →
      ∃ (cols : List (Fin N → ℝ)) (f : Fr.Frontier String ℝ N cols.length), F = ⟨cols.length, f⟩ ∧
      IsFrontier {x | Satisfies c x} (ret mu) (varianceCost (fun i j => cov i j) w0 imp) num cols ∧
      ∀ j, (∀ i, f.weights i j = cols.get j i) ∧ f.returns j = ret mu (cols.get j) ∧
        f.risks j = Real.sqrt (quad (fun i j => cov i j) (cols.get j))) ∧
    ∀ e, w.varianceFrontier solver argsort num con costs = .error e → e = .runtimeError := by
  obtain ⟨u, hu, hall⟩ := user_spec hin
  have hset : {x | Allowed u x} = {x : Fin N → ℝ | Satisfies c x} := Set.ext hall
  have call : w.varianceFrontier solver argsort num con costs =
      match mvFrontier solver (mvInit mu (fun i j => cov i j) u w0 imp) num with
      | .error e => .error e
      | .ok cols => .ok ⟨cols.length, ⟨fun i j => cols.get j i, fun j => retOf mu (cols.get j), fun j => vol (fun i j => cov i j) (cols.get j),
          "Volatility", overlay argsort w cols⟩⟩ := by
    unfold Wrapper.varianceFrontier Wrapper.moments
    simp only [hmu, hcov, hu, mvOf_trading htr, Wrapper.report, hlog]
    cases mvFrontier solver (mvInit mu (fun i j => cov i j) u w0 imp) num <;> rfl
  have hfirst : ∀ target, (∃ v, Reaches u mu target v) →
      ∃ x, solver _ inferInstance (mvProg (mvInit mu (fun i j => cov i j) u w0 imp) target) = some x := fun target hv => by
    obtain ⟨x, hx, -⟩ := mv_total hcmp mu (fun i j => cov i j) u w0 imp hpsd himp target hv; exact ⟨x, hx⟩
  rw [call]
  refine ⟨⟨?_, ?_⟩, ?_, ?_⟩
  · rintro ⟨F, h⟩
    cases hm : mvFrontier solver (mvInit mu (fun i j => cov i j) u w0 imp) num with
    | error e => rw [hm] at h; cases h
    | ok cols =>
      clear h
      unfold mvFrontier at hm
      cases h1 : mvSolve solver (mvInit mu (fun i j => cov i j) u w0 imp) none with
      | error e => rw [h1] at hm; cases hm
      | ok first =>
        rw [h1] at hm
        dsimp only at hm
        rw [show (mvInit mu (fun i j => cov i j) u w0 imp).user = u from rfl, lpInequalities_total (user_limited hin hlim hu)] at hm
        dsimp only at hm
        cases h2 : maxReturn solver (mvInit mu (fun i j => cov i j) u w0 imp).mean (u.G.getD []) (u.A.getD []) with
        | error e => rw [h2] at hm; cases hm
        | ok r =>
          have hr := maxReturn_mv hsnd u mu r h2
          obtain ⟨x, hx, -⟩ := hr.1
          exact ⟨⟨x, (hall x).1 hx⟩, r, fun y hy => hr.2 ⟨y, (hall y).2 hy, rfl⟩⟩
  · rintro ⟨⟨x, hx⟩, M, hM⟩
    obtain ⟨cols, hc⟩ := mv_frontier_total hsnd hcmp mu (fun i j => cov i j) u w0 imp hpsd himp ⟨x, (hall x).2 hx⟩
      (fun v hv => hM v ((hall v).1 hv)) (user_limited hin hlim hu) num
    rw [hc]
    exact ⟨_, rfl⟩
  · intro F h
    cases hm : mvFrontier solver (mvInit mu (fun i j => cov i j) u w0 imp) num with
    | error e => rw [hm] at h; cases h
    | ok cols =>
      rw [hm] at h
      injection h with h; subst h
      have h2 := C91_mean_variance_frontier hsnd mu (fun i j => cov i j) u w0 imp hpsd himp hfirst num cols hm
      rw [hset, mvCost_eq] at h2
      exact ⟨cols, _, rfl, h2, fun j => ⟨fun i => rfl, rfl, rfl⟩⟩
  · intro e h
    cases hm : mvFrontier solver (mvInit mu (fun i j => cov i j) u w0 imp) num with
    | ok cols => rw [hm] at h; cases h
    | error e' =>
      rw [hm] at h
      injection h with h; subst h
      unfold mvFrontier at hm
      cases h1 : mvSolve solver (mvInit mu (fun i j => cov i j) u w0 imp) none with
      | error e2 =>
        rw [h1] at hm
        injection hm with hm; subst hm
        exact mvSolve_error _ _ _ h1
      | ok first =>
        rw [h1] at hm
        dsimp only at hm
        rw [show (mvInit mu (fun i j => cov i j) u w0 imp).user = u from rfl, lpInequalities_total (user_limited hin hlim hu)] at hm
        dsimp only at hm
        cases h2 : maxReturn solver (mvInit mu (fun i j => cov i j) u w0 imp).mean (u.G.getD []) (u.A.getD []) with
        | error e2 =>
          rw [h2] at hm
          injection hm with hm; subst hm
          unfold maxReturn at h2
          split at h2
          · cases h2
          · injection h2 with h2; exact h2.symm
        | ok r =>
          exfalso
          have hr := maxReturn_mv hsnd u mu r h2
          have hfa := (C90_min_variance hsnd mu (fun i j => cov i j) u w0 imp hpsd himp none first (hfirst none) h1).1.1
          obtain ⟨cols, hc⟩ := frontier_total first (fun t => mvSolve solver (mvInit mu (fun i j => cov i j) u w0 imp) (some t)) num mu r
            (hr.2 ⟨first, hfa, rfl⟩) (by
              intro t ht
              obtain ⟨v, hv, hvr⟩ := hr.1
              obtain ⟨x, -, hx⟩ := mv_total hcmp mu (fun i j => cov i j) u w0 imp hpsd himp (some t) ⟨v, hv, fun s hs => by
                injection hs with hs; subst hs
                exact le_trans ht (le_of_eq hvr.symm)⟩
              exact ⟨x, hx⟩)
          rw [h2] at hm
          dsimp only at hm
          rw [show (mvInit mu (fun i j => cov i j) u w0 imp).mean = mu from rfl] at hm
          rw [hc] at hm
          cases hm

/-- The CVaR frontier exists whenever some portfolio is allowed and returns are bounded. -/
private theorem cv_frontier_total {solver : Opt.Solver} (hsnd : Sound solver) (hcmp : Complete solver) (a : CvArgs N T)
    (hp : IsProb a.p) (h0 : 0 < a.alpha) (h1 : a.alpha < 1) (hcost : ∀ c, a.costs = some c → ∀ i, 0 ≤ c i)
    (hn : ∃ w, Allowed a.user w) {M : ℝ} (hM : ∀ v, Allowed a.user v → ret (cvMean a) v ≤ M) (num : ℕ) :
    ∃ cols, cvFrontier solver a num = .ok cols := by
  have hs : IsArgsort (fun x : Fin T → ℝ => Tuple.sort x) := fun x => Tuple.monotone_sort x
  have hex : ∀ x, ∃ r, portfolioCvar (fun x => Tuple.sort x) x a.R (some a.p) (some (1 - a.alpha)) false = .ok r ∧
      IsCvar a.p (pnlOf a x) (1 - a.alpha) r := fun x => cvar_spec hs a hp h0 h1 x
  choose cvar hcv hiscv using hex
  have hlow : ∀ x, Allowed a.user x → -M ≤ cvCost a cvar x := by
    intro x hx
    have g1 := mean_le_cvar hp (by linarith) (by linarith) (hiscv x)
    have g2 : ∑ t, a.p t * pnlOf a x t = ret (cvMean a) x := by
      unfold ret cvMean pnlOf
      simp only [Finset.mul_sum, Finset.sum_mul]
      rw [Finset.sum_comm]
      exact Finset.sum_congr rfl fun i _ => Finset.sum_congr rfl fun t _ => by ring
    have g3 := hM x hx
    have g4 : 0 ≤ cvCost a cvar x - cvar x := by
      unfold cvCost
      cases hw : a.w0 with
      | none => simp
      | some w0 =>
        cases hc : a.costs with
        | none => simp
        | some cs =>
          dsimp only
          rw [add_sub_cancel_left]
          exact Finset.sum_nonneg fun i _ => mul_nonneg (hcost cs hc i) (abs_nonneg _)
    linarith
  have total : ∀ target, (∃ w, Reaches a.user (cvMean a) target w) → ∃ w, cvSolve solver a target = .ok w := fun target hw =>
    solve_of_bounded hcmp a hp h0 h1 hcost cvar hiscv target hw (m := -M) fun w hw => hlow w hw.1
  obtain ⟨w, hw⟩ := hn
  obtain ⟨first, hf⟩ := total none ⟨w, hw, by simp⟩
  have hfa := (cvSolve_spec hs hsnd a hp h0 h1 hcost cvar hcv none first hf).1.1
  obtain ⟨b, hb1, hb2⟩ := best_return a.user (cvMean a) ⟨w, hw⟩ hM
  have key : ∀ {E : Type} [Fintype E] [DecidableEq E] (cost : E → ℝ) (nonneg : List E) (trade : List (Row (CV N T E))),
      (∀ w, Allowed a.user w → ∃ e : E → ℝ, (∀ f, 0 ≤ e f) ∧ ∀ r ∈ trade, slack (complete a w 0 e) r = 0) →
      ∃ r, maxReturn solver (blocks (cvMean a) 0 (fun _ => 0) (fun _ => 0)) (cvBase a cost nonneg trade).lin
        (cvBase a cost nonneg trade).eq = .ok r := by
    intro E _ _ cost nonneg trade htr
    have hiff : ∀ y, Feasible (⟨fun _ _ => 0, fun v => -(blocks (cvMean a) 0 (fun _ => 0) (fun _ => 0) v),
        (cvBase a cost nonneg trade).lin, [], (cvBase a cost nonneg trade).eq⟩ : Prog (CV N T E)) y ↔
        Feasible (addTarget (cvMean a) none (cvBase a cost nonneg trade)) y := by
      intro y
      exact ⟨fun ⟨h1, h2, h3⟩ => ⟨h1, by simp [addTarget, cvBase], h3⟩, fun ⟨h1, h2, h3⟩ => ⟨h1, by simp, h3⟩⟩
    have hv : ∀ y : CV N T E → ℝ, ∑ v, -(blocks (cvMean a) 0 (fun _ => (0:ℝ)) (fun _ => (0:ℝ)) v) * y v =
        -(Spec.Opt.ret (cvMean a) (wOf y)) := by
      intro y
      simp only [neg_mul, Finset.sum_neg_distrib, sum_blocks]
      simp [Spec.Opt.ret, wOf]
    obtain ⟨ee, he1, he2⟩ := htr b hb1
    obtain ⟨x, hx⟩ := hcmp _ inferInstance (⟨fun _ _ => 0, fun v => -(blocks (cvMean a) 0 (fun _ => 0) (fun _ => 0) v),
        (cvBase a cost nonneg trade).lin, [], (cvBase a cost nonneg trade).eq⟩ : Prog (CV N T E)) (convex_zero _ rfl)
      ⟨complete a b 0 ee, (hiff _).2 ((feasible_cvBase a cost nonneg trade none _).2
        ⟨fun t => le_max_left _ _, fun t => le_max_right _ _, fun f _ => he1 f, ⟨hb1, by simp⟩, he2⟩), fun y hy => by
          have hy' := (feasible_cvBase a cost nonneg trade none y).1 ((hiff y).1 hy)
          have := hb2 (wOf y) hy'.2.2.2.1.1
          simp only [value, hv]
          simp only [mul_zero, zero_mul, Finset.sum_const_zero, zero_add]
          exact neg_le_neg this⟩
    unfold maxReturn
    rw [hx]
    exact ⟨_, rfl⟩
  have hmax : ∃ r, cvMaxReturn solver a = .ok r := by
    have plain : (a.w0 = none ∨ a.costs = none) → ∃ r, cvMaxReturn solver a = .ok r := by
      intro hc
      have e : cvMaxReturn solver a =
          maxReturn solver (blocks (cvMean a) 0 (fun _ => 0) (fun _ => 0)) (cvPlain a).lin (cvPlain a).eq := by
        unfold cvMaxReturn
        rcases hc with hc | hc
        · rw [hc]
        · rw [hc]; cases a.w0 <;> rfl
      rw [e]
      exact key (fun e : Empty => e.elim) [] [] (fun w _ => ⟨fun e => e.elim, fun f => f.elim, by simp⟩)
    by_cases hc : a.w0 = none ∨ a.costs = none
    · exact plain hc
    · obtain ⟨w0, hw0⟩ := Option.ne_none_iff_exists'.1 (fun h => hc (Or.inl h))
      obtain ⟨costs, hco⟩ := Option.ne_none_iff_exists'.1 (fun h => hc (Or.inr h))
      unfold cvMaxReturn
      rw [hw0, hco]
      refine key (Sum.elim costs costs) _ (tradeRows w0) (fun w _ =>
        ⟨Sum.elim (fun i => max (w i - w0 i) 0) (fun i => max (w0 i - w i) 0), ?_, (trade_iff _ _).2 fun i => ?_⟩)
      · rintro (f | f) <;> simp
      · simp only [wOf, eOf, complete, blocks, Sum.elim_inl, Sum.elim_inr]
        rcases le_total (w i) (w0 i) with h | h
        · rw [max_eq_right (by linarith), max_eq_left (by linarith)]; ring
        · rw [max_eq_left (by linarith), max_eq_right (by linarith)]; ring
  obtain ⟨r, h2⟩ := hmax
  have hr := cvMaxReturn_spec hsnd a r h2
  obtain ⟨cols, hc⟩ := frontier_total first (fun t => cvSolve solver a (some t)) num (cvMean a) r
    (hr.2 ⟨first, hfa, rfl⟩) (by
      intro t ht
      obtain ⟨v, hv, hvr⟩ := hr.1
      exact total (some t) ⟨v, hv, fun s hs => by
        injection hs with hs; subst hs
        exact le_trans ht (le_of_eq hvr.symm)⟩)
  exact ⟨cols, by unfold cvFrontier; rw [hf, h2]; exact hc⟩

/-- **C297** On scenarios, `cvar_frontier` answers exactly when some portfolio satisfies the constraints and the scenario mean returns of
those that do are bounded above, however large their weights; its columns are then, up to order, an efficient frontier of CVaR plus
proportional cost, ordered by reported return, with the absolute values of their CVaR as raw risks. -/
theorem C297_cvar_frontier_iff {solver : Opt.Solver} (hsnd : Sound solver) (hcmp : Complete solver) (argsort : Argsort)
    (hs : ∀ T, IsArgsort (argsort T)) (sim : Sim) (w : Wrapper N) (s : Scen N) (hscen : w.scen = some s) (hp : IsProb s.p)
    (hlog : w.isLog = false) (con : Option (PyV.Con.Spec ℝ)) (c : PyV.Con.Spec ℝ) (hin : InForce w con c)
    (costs : Option Costs) (w0 imp prop : Option (Fin N → ℝ)) (htr : Trading w costs w0 imp prop)
    (hprop : ∀ l, prop = some l → ∀ i, 0 ≤ l i) (alpha : ℝ) (h0 : 0 < alpha) (h1 : alpha < 1) (seed : Option ℤ) (num : ℕ)
    (enforce : Bool) :
    ((∃ F, w.cvarFrontier solver argsort sim num alpha seed con costs enforce = .ok F) ↔
      (∃ x : Fin N → ℝ, Satisfies c x) ∧ ∃ M, ∀ x : Fin N → ℝ, Satisfies c x → ret (scenMean s) x ≤ M) ∧
    ∀ F, w.cvarFrontier solver argsort sim num alpha seed con costs enforce = .ok F →
      ∃ (cvar : (Fin N → ℝ) → ℝ) (cols : List (Fin N → ℝ)) (f : Fr.Frontier String ℝ N cols.length) (σ : Equiv.Perm (Fin cols.length)),
      (∀ x, IsCvar s.p (pnl s x) (1 - alpha) (cvar x)) ∧ F = ⟨cols.length, f⟩ ∧
      IsFrontier {x | Satisfies c x} (ret (scenMean s)) (turnoverCost cvar w0 prop) num cols ∧
      (∀ j i, f.weights i j = cols.get (σ j) i) ∧
      (∀ j, f.returns j = ret (w.mu.getD (scenMean s)) (cols.get (σ j))) ∧ Monotone f.returns ∧
      ("CVaR (raw)", fun j => |cvar (cols.get (σ j))|) ∈ f.alternates ∧
      (enforce = false → ∀ j, f.risks j = |cvar (cols.get (σ j))|) ∧ (enforce = true → Monotone f.risks) := by
  obtain ⟨u, hu, hall⟩ := user_spec hin
  have hset : {x | Allowed u x} = {x : Fin N → ℝ | Satisfies c x} := Set.ext hall
  obtain ⟨w0', prop', ha, hpr, hcost⟩ := cvOf_trading htr s.R s.p alpha u
  set a : CvArgs N s.T := ⟨s.R, s.p, alpha, u, w0', prop'⟩ with hadef
  have hcs : ∀ l, a.costs = some l → ∀ i, 0 ≤ l i := fun l hl => hprop l (hpr l hl)
  have given : ∀ cols, cvFrontier solver a num = .ok cols →
      ∃ (cvar : (Fin N → ℝ) → ℝ) (f : Fr.Frontier String ℝ N cols.length) (σ : Equiv.Perm (Fin cols.length)),
      (∀ x, IsCvar s.p (pnl s x) (1 - alpha) (cvar x)) ∧
      w.cvarFrontier solver argsort sim num alpha seed con costs enforce = .ok ⟨cols.length, f⟩ ∧
      IsFrontier {x | Satisfies c x} (ret (scenMean s)) (turnoverCost cvar w0 prop) num cols ∧
      (∀ j i, f.weights i j = cols.get (σ j) i) ∧
      (∀ j, f.returns j = ret (w.mu.getD (scenMean s)) (cols.get (σ j))) ∧ Monotone f.returns ∧
      ("CVaR (raw)", fun j => |cvar (cols.get (σ j))|) ∈ f.alternates ∧
      (enforce = false → ∀ j, f.risks j = |cvar (cols.get (σ j))|) ∧ (enforce = true → Monotone f.risks) := by
    intro cols hcols
    obtain ⟨cvar, hcv, hfr⟩ := C91_mean_cvar_frontier (hs s.T) hsnd a hp h0 h1 hcs num cols hcols
    rw [hcost] at hfr
    have hfr' : IsFrontier {x : Fin N → ℝ | Satisfies c x} (ret (scenMean s)) (turnoverCost cvar w0 prop) num cols := by
      rw [← hset]; exact hfr
    have hiscv : ∀ x, IsCvar s.p (pnl s x) (1 - alpha) (cvar x) := fun x => by
      obtain ⟨r, hr, h⟩ := cvar_spec (hs s.T) a hp h0 h1 x
      rw [hcv] at hr; injection hr with hr; subst hr; exact h
    have hmap : mapE (fun x => portfolioCvar (argsort s.T) x s.R (some s.p) (some (1 - alpha)) false) cols = .ok (cols.map cvar) := by
      rw [Ens.mapE_iff, List.forall₂_map_right_iff, List.forall₂_same]
      exact fun x _ => hcv x
    set m := w.mu.getD (scenMean s) with hmdef
    set f0 := Fr.cvarFrontier (argsort cols.length) m (fun i j => cols.get j i) (fun j => (cols.map cvar).getD j 0)
      (fun j => vol (scenCov s.R s.p) (cols.get j)) enforce with hf0
    have hget : ∀ j : Fin cols.length, (cols.map cvar).getD (j : ℕ) 0 = cvar (cols.get j) := fun j => by simp
    set σ := argsort cols.length (fun j => ∑ i, m i * cols.get j i) with hσ
    have hmono : Monotone (fun j => ret m (cols.get (σ j))) := hs cols.length (fun j => ∑ i, m i * cols.get j i)
    refine ⟨cvar, if N = 1 then { f0 with alternates := f0.alternates.tail } else f0, σ, hiscv, ?_, hfr', ?_, ?_, ?_, ?_, ?_, ?_⟩
    · unfold Wrapper.cvarFrontier
      simp only [scenarioInputs_scen sim hscen hp hlog, hu, ha, hcols, hmap]
      rfl
    · intro j i; split <;> rfl
    · intro j; split <;> rfl
    · split <;> exact hmono
    · have : (fun j => |cvar (cols.get (σ j))|) = fun j => |(cols.map cvar).getD (σ j : ℕ) 0| := by
        funext j; rw [hget]
      rw [this]
      split <;> simp [hf0, Fr.cvarFrontier, hσ]
    · rintro rfl j
      rw [← hget]
      split <;> rfl
    · rintro rfl
      have := (C55_envelope (argsort cols.length) (hs _) m (fun i j => cols.get j i) (fun j => (cols.map cvar).getD j 0)
        (fun j => vol (scenCov s.R s.p) (cols.get j)) f0 hf0).2.2.2.1
      split <;> exact this
  have inner : ∀ F, w.cvarFrontier solver argsort sim num alpha seed con costs enforce = .ok F → ∃ cols, cvFrontier solver a num = .ok cols := by
    intro F h
    cases hm : cvFrontier solver a num with
    | ok cols => exact ⟨cols, rfl⟩
    | error e =>
      exfalso
      unfold Wrapper.cvarFrontier at h
      simp only [scenarioInputs_scen sim hscen hp hlog, hu, ha, hm] at h
      cases h
  refine ⟨⟨?_, ?_⟩, ?_⟩
  · rintro ⟨F, h⟩
    obtain ⟨cols, hm⟩ := inner F h
    unfold cvFrontier at hm
    cases h1 : cvSolve solver a none with
    | error e => rw [h1] at hm; cases hm
    | ok first =>
      rw [h1] at hm
      dsimp only at hm
      cases h2 : cvMaxReturn solver a with
      | error e => rw [h2] at hm; cases hm
      | ok r =>
        have hr := cvMaxReturn_spec hsnd a r h2
        obtain ⟨x, hx, -⟩ := hr.1
        exact ⟨⟨x, (hall x).1 hx⟩, r, fun y hy => hr.2 ⟨y, (hall y).2 hy, rfl⟩⟩
  · rintro ⟨⟨x, hx⟩, M, hM⟩
    obtain ⟨cols, hc⟩ := cv_frontier_total hsnd hcmp a hp h0 h1 hcs ⟨x, (hall x).2 hx⟩ (fun v hv => hM v ((hall v).1 hv)) num
    obtain ⟨-, f, -, -, h, -⟩ := given cols hc
    exact ⟨_, h⟩
  · intro F h
    obtain ⟨cols, hm⟩ := inner F h
    obtain ⟨cvar, f, σ, k1, k2, k3⟩ := given cols hm
    rw [h] at k2
    injection k2 with k2
    exact ⟨cvar, cols, f, σ, k1, k2, k3⟩

/-- Two assets, fully invested, the first at most everything, the second without limit and financed by shorting the first. When the first
earns more, returns are bounded and both methods answer with weights unbounded; when the second earns more, `variance_frontier` raises
`RuntimeError` and `cvar_frontier` does not answer. -/
example : ∃ (w w' : Wrapper 2) (solver : Opt.Solver) (argsort : Argsort) (c : PyV.Con.Spec ℝ), Sound solver ∧ Complete solver ∧
    (∀ T, IsArgsort (argsort T)) ∧ (∀ M : ℝ, ∃ x : Fin 2 → ℝ, Satisfies c x ∧ M ≤ x 1) ∧ ∀ sim,
      (∃ F, w.varianceFrontier solver argsort 5 (some c) none = .ok F) ∧
      (∃ F, w.cvarFrontier solver argsort sim 5 (1 / 2) none (some c) none true = .ok F) ∧
      w'.varianceFrontier solver argsort 5 (some c) none = .error .runtimeError ∧
      ∀ F, w'.cvarFrontier solver argsort sim 5 (1 / 2) none (some c) none true ≠ .ok F := by
  obtain ⟨solver, h1, h2⟩ := exists_solver
  obtain ⟨w, hmu, hcov, hsc, hlog, -, -, htr⟩ := exists_wrapper (N := 2) (by norm_num) (some ![1, 0]) (some 1)
    (some ⟨1, fun _ => ![1, 0], fun _ => 1⟩) false
  obtain ⟨w', hmu', hcov', hsc', hlog', -, -, htr'⟩ := exists_wrapper (N := 2) (by norm_num) (some ![0, 1]) (some 1)
    (some ⟨1, fun _ => ![0, 1], fun _ => 1⟩) false
  set c : PyV.Con.Spec ℝ := ⟨false, some (.fin 1), none, [], [], [([1, 0], .fin 1)], []⟩ with hc
  have hin : ∀ w : Wrapper 2, InForce w (some c) c := fun w => Or.inl ⟨rfl, ⟨by norm_num, by simp [hc, FinOpt, Fin'], by simp [hc, BoundsOK],
    by simp [hc], by simp [hc], by simp [hc, Fin'], by simp [hc]⟩⟩
  have hsat : ∀ x : Fin 2 → ℝ, x 0 + x 1 = 1 → x 0 ≤ 1 → Satisfies c x := by
    intro x hx h0
    refine ⟨by simp [hc], fun t ht => ?_, by simp [hc, InBounds], by simp [hc], by simp [hc], ?_, by simp [hc]⟩
    · simp only [hc, Option.some.injEq, PyFloat.fin.injEq] at ht
      rw [Fin.sum_univ_two, hx, ht]
    · simp [hc, Fin.sum_univ_two]
      exact h0
  have hone : ∀ x : Fin 2 → ℝ, Satisfies c x → x 0 ≤ 1 := by
    intro x hx
    have := hx.ineq ([1, 0], .fin 1) (by simp [hc]) 1 rfl
    simpa [Fin.sum_univ_two] using this
  have hlim : Limited 2 c := ⟨![2, 0], fun h => by
    have := h.ineq ([1, 0], .fin 1) (by simp [hc]) 1 rfl
    simp [Fin.sum_univ_two] at this⟩
  have hpsd : IsCov (fun i j : Fin 2 => (1 : Matrix (Fin 2) (Fin 2) ℝ) i j) := by
    refine ⟨fun i j => by simp [Matrix.one_apply, eq_comm], fun x => ?_⟩
    show 0 ≤ quad _ x
    have : quad (fun i j : Fin 2 => (1 : Matrix (Fin 2) (Fin 2) ℝ) i j) x = ∑ i, x i ^ 2 := by simp [quad, Matrix.one_apply, sq]
    rw [this]
    exact Finset.sum_nonneg fun i _ => sq_nonneg _
  have hp : IsProb (fun _ : Fin 1 => (1 : ℝ)) := ⟨by intro t; positivity, by simp⟩
  have big : ∀ M : ℝ, ∃ x : Fin 2 → ℝ, Satisfies c x ∧ M ≤ x 1 := fun M =>
    ⟨![1 - |M|, |M|], hsat _ (by simp) (by simp), by simpa using le_abs_self M⟩
  have unb : ¬ ∃ M, ∀ x : Fin 2 → ℝ, Satisfies c x → ret ![0, 1] x ≤ M := by
    rintro ⟨M, hM⟩
    obtain ⟨x, hx, hx1⟩ := big (M + 1)
    have := hM x hx
    simp [ret, Fin.sum_univ_two] at this
    linarith
  have bnd : ∀ x : Fin 2 → ℝ, Satisfies c x → ret ![1, 0] x ≤ 1 := by
    intro x hx
    simpa [ret, Fin.sum_univ_two] using hone x hx
  have mean : ∀ v : Fin 2 → ℝ, scenMean (⟨1, fun _ => v, fun _ => 1⟩ : Scen 2) = v := by
    intro v; funext i; simp [scenMean]
  have hs : ∀ T, IsArgsort (fun x : Fin T → ℝ => Tuple.sort x) := fun T x => Tuple.monotone_sort x
  refine ⟨w, w', solver, fun T x => Tuple.sort x, c, h1, h2, hs, big, fun sim => ⟨?_, ?_, ?_, ?_⟩⟩
  · exact (C296_frontier_iff h1 h2 _ w _ _ hmu hcov hlog hpsd (some c) c (hin w) hlim none none none none htr (by simp) 5).1.2
      ⟨⟨_, (big 0).choose_spec.1⟩, 1, bnd⟩
  · refine (C297_cvar_frontier_iff h1 h2 _ hs sim w _ hsc hp hlog (some c) c (hin w) none none none none htr (by simp) (1 / 2)
      (by norm_num) (by norm_num) none 5 true).1.2 ⟨⟨_, (big 0).choose_spec.1⟩, 1, ?_⟩
    rw [mean]
    exact bnd
  · obtain ⟨A1, -, A3⟩ := C296_frontier_iff h1 h2 (fun T x => Tuple.sort x) w' _ _ hmu' hcov' hlog' hpsd (some c) c (hin w') hlim
      none none none none htr' (by simp) 5
    cases h : w'.varianceFrontier solver (fun T x => Tuple.sort x) 5 (some c) none with
    | ok F => exact absurd (A1.1 ⟨F, h⟩).2 unb
    | error e => rw [A3 e h]
  · intro F h
    have := ((C297_cvar_frontier_iff h1 h2 _ hs sim w' _ hsc' hp hlog' (some c) c (hin w') none none none none htr' (by simp) (1 / 2)
      (by norm_num) (by norm_num) none 5 true).1.1 ⟨F, h⟩).2
    rw [mean] at this
    exact unb this

end PyV.Props
