import Verif.Props.OptMv
import Mathlib.Tactic.FieldSimp

set_option linter.unusedSectionVars false

/-! # C91: efficient frontiers -/

namespace PyV.Props

open PyV PyV.Opt PyV.Risk PyV.Spec PyV.Spec.Opt

variable {N T : ℕ} {argsort : (Fin T → ℝ) → Equiv.Perm (Fin T)}

theorem mapTargets_spec {α : Type} (fn : ℝ → Except PyErr α) : ∀ (l : List ℝ) (out : List α), mapTargets fn l = .ok out →
    List.Forall₂ (fun t a => fn t = .ok a) l out := by
  intro l
  induction l with
  | nil => intro out h; injection h with h; subst h; exact .nil
  | cons t ts ih =>
    intro out h
    unfold mapTargets at h
    cases h1 : fn t with
    | error e => rw [h1] at h; cases h
    | ok a =>
      rw [h1] at h
      cases h2 : mapTargets fn ts with
      | error e => rw [h2] at h; cases h
      | ok l' =>
        rw [h2] at h
        injection h with h; subst h
        exact .cons h1 (ih _ h2)

theorem frontier_spec (allowed : Set (Fin N → ℝ)) (risk : (Fin N → ℝ) → ℝ) (mean first : Fin N → ℝ)
    (fn : ℝ → Except PyErr (Fin N → ℝ)) (num : ℕ) (r : ℝ) (cols : List (Fin N → ℝ))
    (hfirst : first ∈ allowed ∧ ∀ v ∈ allowed, risk first ≤ risk v)
    (hfn : ∀ t w, fn t = .ok w → w ∈ allowed ∧ t ≤ Spec.Opt.ret mean w ∧
      ∀ v ∈ allowed, t ≤ Spec.Opt.ret mean v → risk w ≤ risk v)
    (hr : IsGreatest (Spec.Opt.ret mean '' allowed) r) (h : Opt.frontier first fn num mean r = .ok cols) :
    IsFrontier allowed (Spec.Opt.ret mean) risk num cols := by
  unfold Opt.frontier at h
  dsimp only at h
  have hdot : dot mean first = Spec.Opt.ret mean first := rfl
  split at h
  · rename_i hn
    injection h with h; subst h
    have hl : ([first] : List (Fin N → ℝ)).length = num ∨ (([first] : List (Fin N → ℝ)).length = 1 ∧ (num = 0 ∨
        ∀ w, [first].head? = some w → ∀ r, IsGreatest (Spec.Opt.ret mean '' allowed) r →
          |Spec.Opt.ret mean w - r| ≤ 1 / 10 ^ 8 + 1 / 10 ^ 5 * |r|)) := by
      rcases hn with hn | hn
      · rcases (by omega : num = 0 ∨ num = 1) with rfl | rfl
        · exact Or.inr ⟨rfl, Or.inl rfl⟩
        · exact Or.inl rfl
      · refine Or.inr ⟨rfl, Or.inr fun w hw r' hr' => ?_⟩
        injection hw with hw; subst hw
        rw [hr'.unique hr]
        exact hn
    exact ⟨by simpa using hfirst.1, by simpa using fun v hv _ => hfirst.2 v hv, by simpa using hfirst.2, by simp,
      by simp, by simp, by simp, by simp, hl, by simp⟩
  · rename_i hn
    push Not at hn
    cases hm : mapTargets fn ((List.range (num - 1)).map (fun k => linspace (dot mean first) r num (k + 1))) with
    | error e => rw [hm] at h; cases h
    | ok l =>
      rw [hm] at h
      injection h with h; subst h
      have hf := mapTargets_spec _ _ _ hm
      rw [List.forall₂_map_left_iff] at hf
      have hlen : l.length = num - 1 := by rw [← hf.length_eq]; simp
      have hle : Spec.Opt.ret mean first ≤ r := hr.2 ⟨first, hfirst.1, rfl⟩
      have hnum : (1 : ℝ) < num := by exact_mod_cast (by omega : 1 < num)
      have hget : ∀ k (hk : k < l.length), fn (linspace (Spec.Opt.ret mean first) r num (k + 1)) = .ok l[k] := by
        intro k hk
        have := hf.get (i := k) (by simpa [hlen] using hk) hk
        simpa [hdot] using this
      have hgrid : ∀ k j : ℕ, k ≤ j → linspace (Spec.Opt.ret mean first) r num k ≤ linspace (Spec.Opt.ret mean first) r num j := by
        intro k j hkj
        unfold linspace
        have : 0 ≤ (r - Spec.Opt.ret mean first) / ((num : ℝ) - 1) := div_nonneg (by linarith) (by linarith)
        have hkj' : (k : ℝ) ≤ j := by exact_mod_cast hkj
        nlinarith
      refine ⟨?_, ?_, ?_, ?_, ?_, ?_, ?_, by simp, ?_, ?_⟩
      · intro w hw
        rcases List.mem_cons.1 hw with rfl | hw
        · exact hfirst.1
        · obtain ⟨k, hk, rfl⟩ := List.getElem_of_mem hw
          exact (hfn _ _ (hget k hk)).1
      · intro w hw v hv hle
        rcases List.mem_cons.1 hw with rfl | hw
        · exact hfirst.2 v hv
        · obtain ⟨k, hk, rfl⟩ := List.getElem_of_mem hw
          obtain ⟨-, h2, h3⟩ := hfn _ _ (hget k hk)
          exact h3 v hv (le_trans h2 hle)
      · intro w hw; injection hw with hw; subst hw; exact hfirst.2
      · refine List.pairwise_cons.2 ⟨fun w hw => ?_, ?_⟩
        · obtain ⟨k, hk, rfl⟩ := List.getElem_of_mem hw
          exact hfirst.2 _ (hfn _ _ (hget k hk)).1
        · rw [List.pairwise_iff_getElem]
          intro i j hi hj hij
          obtain ⟨a1, a2, -⟩ := hfn _ _ (hget j hj)
          obtain ⟨-, -, b3⟩ := hfn _ _ (hget i hi)
          exact b3 _ a1 (le_trans (by exact_mod_cast hgrid (i + 1) (j + 1) (by omega)) a2)
      · intro k w hw v hv r' hr' _
        have : r' = r := hr'.unique hr
        subst this
        injection hv with hv; subst hv
        cases k with
        | zero => simp only [List.getElem?_cons_zero] at hw; injection hw with hw; subst hw; simp
        | succ k =>
          rw [List.getElem?_cons_succ] at hw
          obtain ⟨hk, rfl⟩ := List.getElem?_eq_some_iff.1 hw
          have := (hfn _ _ (hget k hk)).2.1
          unfold linspace at this
          push_cast at this ⊢
          exact this
      · intro k w hw v hv r' hr' _ u hu hle'
        have : r' = r := hr'.unique hr
        subst this
        injection hv with hv; subst hv
        cases k with
        | zero =>
          simp only [List.getElem?_cons_zero] at hw; injection hw with hw; subst hw
          exact hfirst.2 u hu
        | succ k =>
          rw [List.getElem?_cons_succ] at hw
          obtain ⟨hk, rfl⟩ := List.getElem?_eq_some_iff.1 hw
          refine (hfn _ _ (hget k hk)).2.2 u hu ?_
          unfold linspace
          push_cast at hle' ⊢
          exact hle'
      · intro w hw r' hr' hcl
        have : r' = r := hr'.unique hr
        subst this
        injection hw with hw; subst hw
        exact absurd hcl hn.2
      · left; rw [List.length_cons, hlen]; omega
      · intro w hw _ v hv
        have hl0 : l ≠ [] := by intro hh; rw [hh] at hlen; simp at hlen; omega
        rw [List.getLast?_eq_some_getLast (by simp), List.getLast_cons hl0, List.getLast_eq_getElem] at hw
        injection hw with hw; subst hw
        have hk : l.length - 1 < l.length := by have := List.length_pos_of_ne_nil hl0; omega
        have := (hfn _ _ (hget _ hk)).2.1
        refine le_trans (hr.2 ⟨v, hv, rfl⟩) (le_trans (le_of_eq ?_) this)
        unfold linspace
        have h1 : ((l.length - 1 : ℕ) : ℝ) + 1 = (num : ℝ) - 1 := by
          rw [hlen]
          have : ((num - 1 - 1 : ℕ) : ℝ) = (num : ℝ) - 1 - 1 := by
            rw [Nat.cast_sub (by omega), Nat.cast_sub (by omega)]; simp
          rw [this]; ring
        push_cast
        rw [h1]
        field_simp [show (num : ℝ) - 1 ≠ 0 by linarith]
        ring

theorem maxReturn_mv {solver : Opt.Solver} (hsnd : Sound solver) (user : User N) (mean : Fin N → ℝ) (r : ℝ)
    (h : maxReturn solver mean (user.G.getD []) (user.A.getD []) = .ok r) :
    IsGreatest (Spec.Opt.ret mean '' {w | Allowed user w}) r := by
  unfold maxReturn at h
  cases hx : solver _ inferInstance ⟨fun _ _ => 0, fun v => -(mean v), user.G.getD [], [], user.A.getD []⟩ with
  | none => rw [hx] at h; cases h
  | some x =>
    rw [hx] at h
    injection h with h; subst h
    obtain ⟨hf, ho⟩ := hsnd _ _ _ _ (convex_zero _ rfl) hx
    have hiff : ∀ y, Feasible (⟨fun _ _ => 0, fun v => -(mean v), user.G.getD [], [], user.A.getD []⟩ : Prog (Fin N)) y ↔
        Allowed user y := by
      intro y
      constructor
      · rintro ⟨h1, -, h3⟩
        exact ⟨fun r hr => by have := h1 r hr; unfold slack at this; linarith,
          fun r hr => by have := h3 r hr; unfold slack at this; linarith⟩
      · rintro ⟨h1, h2⟩
        exact ⟨fun r hr => by have := h1 r hr; unfold slack; linarith, by simp,
          fun r hr => by have := h2 r hr; unfold slack; linarith⟩
    have hv : ∀ y, value (⟨fun _ _ => 0, fun v => -(mean v), user.G.getD [], [], user.A.getD []⟩ : Prog (Fin N)) y =
        -(Spec.Opt.ret mean y) := by
      intro y; simp [value, Spec.Opt.ret]
    have e : -(dot (fun v => -(mean v)) x) = Spec.Opt.ret mean x := by simp [dot, Spec.Opt.ret]
    rw [e]
    refine ⟨⟨x, (hiff x).1 hf, rfl⟩, ?_⟩
    rintro _ ⟨y, hy, rfl⟩
    have := ho y ((hiff y).2 hy)
    rw [hv, hv] at this
    linarith

theorem lpInequalities_ok {V : Type} {u G : _} (h : lpInequalities (V := V) u = .ok G) : u.getD [] = G ∧ G ≠ [] := by
  unfold lpInequalities at h
  split at h
  · cases h
  · cases h
  · injection h with h; subst h; exact ⟨rfl, by simp⟩

theorem lpInequalities_total {V : Type} {u : Option (List (Row V))} (h : u.getD [] ≠ []) : lpInequalities u = .ok (u.getD []) := by
  unfold lpInequalities
  split
  · exact absurd rfl h
  · exact absurd rfl h
  · rfl

/-- **C91** `MeanVariance.efficient_frontier`: whenever CVXOPT solves the feasible programmes at the first attempt, the columns
form the efficient frontier of variance plus impact over the allowed weights. -/
theorem C91_mean_variance_frontier {solver : Opt.Solver} (hsnd : Sound solver) (mean : Fin N → ℝ)
    (cov : Fin N → Fin N → ℝ) (user : User N) (w0 lam : Option (Fin N → ℝ)) (hcov : IsCov cov)
    (hlam : ∀ l, lam = some l → ∀ i, 0 ≤ l i)
    (hfirst : ∀ target, (∃ v, Reaches user mean target v) →
      ∃ x, solver _ inferInstance (mvProg (mvInit mean cov user w0 lam) target) = some x)
    (num : ℕ) (cols : List (Fin N → ℝ)) (h : mvFrontier solver (mvInit mean cov user w0 lam) num = .ok cols) :
    IsFrontier {w | Allowed user w} (Spec.Opt.ret mean) (mvCost cov w0 lam) num cols := by
  unfold mvFrontier at h
  cases h1 : mvSolve solver (mvInit mean cov user w0 lam) none with
  | error e => rw [h1] at h; cases h
  | ok first =>
    rw [h1] at h
    dsimp only at h
    cases h0 : lpInequalities (mvInit mean cov user w0 lam).user.G with
    | error e => rw [h0] at h; cases h
    | ok G =>
     rw [h0] at h
     obtain rfl : (mvInit mean cov user w0 lam).user.G.getD [] = G := (lpInequalities_ok h0).1
     dsimp only at h
     cases h2 : maxReturn solver (mvInit mean cov user w0 lam).mean ((mvInit mean cov user w0 lam).user.G.getD [])
        ((mvInit mean cov user w0 lam).user.A.getD []) with
     | error e => rw [h2] at h; cases h
     | ok r =>
      rw [h2] at h
      obtain ⟨a1, a2⟩ := C90_min_variance hsnd mean cov user w0 lam hcov hlam none first (hfirst none) h1
      refine frontier_spec _ _ _ _ _ num r cols ⟨a1.1, fun v hv => a2 v ⟨hv, by simp⟩⟩ ?_ (maxReturn_mv hsnd user mean r h2) h
      intro t w hw
      obtain ⟨b1, b2⟩ := C90_min_variance hsnd mean cov user w0 lam hcov hlam (some t) w (hfirst (some t)) hw
      exact ⟨b1.1, b1.2 t rfl, fun v hv ht => b2 v ⟨hv, fun s hs => by injection hs with hs; subst hs; exact ht⟩⟩

/-- What `MeanCVaR` minimises, given the CVaR function: CVaR plus proportional costs (only when both arguments are given). -/
def cvCost (a : CvArgs N T) (cvar : (Fin N → ℝ) → ℝ) (w : Fin N → ℝ) : ℝ :=
  cvar w + (match a.w0, a.costs with | some v, some c => turnover c v w | _, _ => 0)

theorem cvSolve_spec (hs : IsArgsort argsort) {solver : Opt.Solver} (hsnd : Sound solver) (a : CvArgs N T)
    (hp : IsProb a.p) (h0 : 0 < a.alpha) (h1 : a.alpha < 1) (hcost : ∀ c, a.costs = some c → ∀ i, 0 ≤ c i)
    (cvar : (Fin N → ℝ) → ℝ)
    (hcv : ∀ w, portfolioCvar argsort w a.R (some a.p) (some (1 - a.alpha)) false = .ok (cvar w)) (target : Option ℝ)
    (w : Fin N → ℝ) (h : cvSolve solver a target = .ok w) :
    Reaches a.user (cvMean a) target w ∧ ∀ v, Reaches a.user (cvMean a) target v → cvCost a cvar w ≤ cvCost a cvar v := by
  by_cases hc : a.w0 = none ∨ a.costs = none
  · obtain ⟨g1, r, hr, g2⟩ := C66_minimises_cvar hs hsnd a hp h0 h1 hc target w h
    have hz : ∀ v, cvCost a cvar v = cvar v := by
      intro v; unfold cvCost
      rcases hc with hc | hc
      · rw [hc]; cases a.costs <;> simp
      · rw [hc]; cases a.w0 <;> simp
    refine ⟨g1, fun v hv => ?_⟩
    rw [hcv] at hr; injection hr with hr; subst hr
    rw [hz, hz]
    exact g2 v _ hv (hcv v)
  · obtain ⟨w0, hw0⟩ := Option.ne_none_iff_exists'.1 (fun h => hc (Or.inl h))
    obtain ⟨costs, hco⟩ := Option.ne_none_iff_exists'.1 (fun h => hc (Or.inr h))
    obtain ⟨g1, r, hr, g2⟩ := C69_minimises_cvar_plus_turnover hs hsnd a hp h0 h1 w0 costs hw0 hco (hcost _ hco) target w h
    refine ⟨g1, fun v hv => ?_⟩
    rw [hcv] at hr; injection hr with hr; subst hr
    have := g2 v _ hv (hcv v)
    unfold cvCost
    rw [hw0, hco]
    exact this

theorem cvMaxReturn_spec {solver : Opt.Solver} (hsnd : Sound solver) (a : CvArgs N T) (r : ℝ)
    (h : cvMaxReturn solver a = .ok r) : IsGreatest (Spec.Opt.ret (cvMean a) '' {w | Allowed a.user w}) r := by
  have key : ∀ {E : Type} [Fintype E] [DecidableEq E] (cost : E → ℝ) (nonneg : List E) (trade : List (Row (CV N T E))),
      (∀ w, Allowed a.user w → ∃ e : E → ℝ, (∀ f, 0 ≤ e f) ∧ ∀ r ∈ trade, slack (complete a w 0 e) r = 0) →
      maxReturn solver (blocks (cvMean a) 0 (fun _ => 0) (fun _ => 0)) (cvBase a cost nonneg trade).lin
        (cvBase a cost nonneg trade).eq = .ok r →
      IsGreatest (Spec.Opt.ret (cvMean a) '' {w | Allowed a.user w}) r := by
    intro E _ _ cost nonneg trade htr h
    unfold maxReturn at h
    cases hx : solver _ inferInstance (⟨fun _ _ => 0, fun v => -(blocks (cvMean a) 0 (fun _ => 0) (fun _ => 0) v),
        (cvBase a cost nonneg trade).lin, [], (cvBase a cost nonneg trade).eq⟩ : Prog (CV N T E)) with
    | none => rw [hx] at h; cases h
    | some x =>
      rw [hx] at h
      injection h with h; subst h
      obtain ⟨hf, ho⟩ := hsnd _ _ _ _ (convex_zero _ rfl) hx
      have hiff : ∀ y, Feasible (⟨fun _ _ => 0, fun v => -(blocks (cvMean a) 0 (fun _ => 0) (fun _ => 0) v),
          (cvBase a cost nonneg trade).lin, [], (cvBase a cost nonneg trade).eq⟩ : Prog (CV N T E)) y ↔
          Feasible (addTarget (cvMean a) none (cvBase a cost nonneg trade)) y := by
        intro y
        exact ⟨fun ⟨h1, h2, h3⟩ => ⟨h1, by simp [addTarget, cvBase], h3⟩, fun ⟨h1, h2, h3⟩ => ⟨h1, by simp, h3⟩⟩
      have hv : ∀ y : CV N T E → ℝ, ∑ v, -(blocks (cvMean a) 0 (fun _ => (0:ℝ)) (fun _ => (0:ℝ)) v) * y v =
          -(Spec.Opt.ret (cvMean a) (wOf y)) := by
        intro y
        simp only [neg_mul, Finset.sum_neg_distrib, sum_blocks]
        simp [Spec.Opt.ret, wOf]
      have e : -(dot (fun v => -(blocks (cvMean a) 0 (fun _ => (0:ℝ)) (fun _ => (0:ℝ)) v)) x) =
          Spec.Opt.ret (cvMean a) (wOf x) := by
        unfold dot; rw [hv]; ring
      rw [e]
      have hfx := (feasible_cvBase a cost nonneg trade none x).1 ((hiff x).1 hf)
      refine ⟨⟨wOf x, hfx.2.2.2.1.1, rfl⟩, ?_⟩
      rintro _ ⟨w, hw, rfl⟩
      obtain ⟨ee, he1, he2⟩ := htr w hw
      have := ho (complete a w 0 ee) ((hiff _).2 ((feasible_cvBase a cost nonneg trade none _).2
        ⟨fun t => le_max_left _ _, fun t => le_max_right _ _, fun f _ => he1 f, ⟨hw, by simp⟩, he2⟩))
      simp only [value, hv] at this
      simp only [mul_zero, zero_mul, Finset.sum_const_zero, zero_add] at this
      have e2 : wOf (complete a w 0 ee) = w := rfl
      rw [e2] at this
      linarith
  have plain : (a.w0 = none ∨ a.costs = none) → IsGreatest (Spec.Opt.ret (cvMean a) '' {w | Allowed a.user w}) r := by
    intro hc
    have e : cvMaxReturn solver a =
        maxReturn solver (blocks (cvMean a) 0 (fun _ => 0) (fun _ => 0)) (cvPlain a).lin (cvPlain a).eq := by
      unfold cvMaxReturn
      rcases hc with hc | hc
      · rw [hc]
      · rw [hc]; cases a.w0 <;> rfl
    rw [e] at h
    exact key (fun e : Empty => e.elim) [] [] (fun w _ => ⟨fun e => e.elim, fun f => f.elim, by simp⟩) h
  by_cases hc : a.w0 = none ∨ a.costs = none
  · exact plain hc
  · obtain ⟨w0, hw0⟩ := Option.ne_none_iff_exists'.1 (fun h => hc (Or.inl h))
    obtain ⟨costs, hco⟩ := Option.ne_none_iff_exists'.1 (fun h => hc (Or.inr h))
    unfold cvMaxReturn at h
    rw [hw0, hco] at h
    refine key (Sum.elim costs costs) _ (tradeRows w0) (fun w _ =>
      ⟨Sum.elim (fun i => max (w i - w0 i) 0) (fun i => max (w0 i - w i) 0), ?_, (trade_iff _ _).2 fun i => ?_⟩) h
    · rintro (f | f) <;> simp
    · simp only [wOf, eOf, complete, blocks, Sum.elim_inl, Sum.elim_inr]
      rcases le_total (w i) (w0 i) with h | h
      · rw [max_eq_right (by linarith), max_eq_left (by linarith)]; ring
      · rw [max_eq_left (by linarith), max_eq_right (by linarith)]; ring

/-- **C91** `MeanCVaR.efficient_frontier`: the columns form the efficient frontier of `portfolio_cvar` (plus proportional costs)
over the allowed weights. -/
theorem C91_mean_cvar_frontier (hs : IsArgsort argsort) {solver : Opt.Solver} (hsnd : Sound solver) (a : CvArgs N T)
    (hp : IsProb a.p) (h0 : 0 < a.alpha) (h1 : a.alpha < 1) (hcost : ∀ c, a.costs = some c → ∀ i, 0 ≤ c i)
    (num : ℕ) (cols : List (Fin N → ℝ)) (h : cvFrontier solver a num = .ok cols) :
    ∃ cvar : (Fin N → ℝ) → ℝ,
      (∀ w, portfolioCvar argsort w a.R (some a.p) (some (1 - a.alpha)) false = .ok (cvar w)) ∧
      IsFrontier {w | Allowed a.user w} (Spec.Opt.ret (fun i => ∑ t, a.p t * a.R t i)) (cvCost a cvar) num cols := by
  have hex : ∀ w, ∃ r, portfolioCvar argsort w a.R (some a.p) (some (1 - a.alpha)) false = .ok r := fun w => by
    obtain ⟨r, hr, -⟩ := cvar_spec hs a hp h0 h1 w; exact ⟨r, hr⟩
  choose cvar hcv using hex
  refine ⟨cvar, hcv, ?_⟩
  unfold cvFrontier at h
  cases h2 : cvSolve solver a none with
  | error e => rw [h2] at h; cases h
  | ok first =>
    rw [h2] at h
    cases h3 : cvMaxReturn solver a with
    | error e => rw [h3] at h; cases h
    | ok r =>
      rw [h3] at h
      obtain ⟨a1, a2⟩ := cvSolve_spec hs hsnd a hp h0 h1 hcost cvar hcv none first h2
      refine frontier_spec _ _ _ _ _ num r cols ⟨a1.1, fun v hv => a2 v ⟨hv, by simp⟩⟩ ?_ (cvMaxReturn_spec hsnd a r h3) h
      intro t w hw
      obtain ⟨b1, b2⟩ := cvSolve_spec hs hsnd a hp h0 h1 hcost cvar hcv (some t) w hw
      exact ⟨b1.1, b1.2 t rfl, fun v hv ht => b2 v ⟨hv, fun s hs => by injection hs with hs; subst hs; exact ht⟩⟩

theorem mapTargets_total {α : Type} (fn : ℝ → Except PyErr α) : ∀ l : List ℝ, (∀ t ∈ l, ∃ a, fn t = .ok a) →
    ∃ out, mapTargets fn l = .ok out := by
  intro l
  induction l with
  | nil => intro _; exact ⟨[], rfl⟩
  | cons t ts ih =>
    intro h
    obtain ⟨a, ha⟩ := h t (by simp)
    obtain ⟨out, ho⟩ := ih fun s hs => h s (by simp [hs])
    exact ⟨a :: out, by unfold mapTargets; rw [ha, ho]⟩

theorem frontier_total (first : Fin N → ℝ) (fn : ℝ → Except PyErr (Fin N → ℝ)) (num : ℕ) (mean : Fin N → ℝ) (r : ℝ)
    (hle : Spec.Opt.ret mean first ≤ r) (hfn : ∀ t ≤ r, ∃ w, fn t = .ok w) :
    ∃ cols, Opt.frontier first fn num mean r = .ok cols := by
  unfold Opt.frontier
  dsimp only
  split
  · exact ⟨_, rfl⟩
  · rename_i hn
    push Not at hn
    have hnum : (1 : ℝ) < num := by exact_mod_cast (by omega : 1 < num)
    obtain ⟨out, ho⟩ := mapTargets_total fn
      ((List.range (num - 1)).map (fun k => linspace (dot mean first) r num (k + 1))) (by
        intro t ht
        obtain ⟨k, hk, rfl⟩ := List.mem_map.1 ht
        rw [List.mem_range] at hk
        refine hfn _ ?_
        unfold linspace
        have hd : dot mean first = Spec.Opt.ret mean first := rfl
        rw [hd]
        have h1 : 0 ≤ (r - Spec.Opt.ret mean first) / ((num : ℝ) - 1) := div_nonneg (by linarith) (by linarith)
        have h2 : ((k + 1 : ℕ) : ℝ) ≤ (num : ℝ) - 1 := by
          have : k + 1 ≤ num - 1 := hk
          have h3 : ((k + 1 : ℕ) : ℝ) ≤ ((num - 1 : ℕ) : ℝ) := by exact_mod_cast this
          rwa [Nat.cast_sub (by omega), Nat.cast_one] at h3
        calc Spec.Opt.ret mean first + ((k + 1 : ℕ) : ℝ) * ((r - Spec.Opt.ret mean first) / ((num : ℝ) - 1))
            ≤ Spec.Opt.ret mean first + ((num : ℝ) - 1) * ((r - Spec.Opt.ret mean first) / ((num : ℝ) - 1)) := by
              gcongr
          _ = r := by field_simp [show (num : ℝ) - 1 ≠ 0 by linarith]; ring)
    rw [ho]
    exact ⟨_, rfl⟩

/-- **C91** With a bounded, non-empty allowed set, at least one inequality (`C91_no_inequality`) and a sound and complete solver,
`MeanVariance.efficient_frontier` returns a frontier for every number of portfolios. -/
theorem C91_mean_variance_total {solver : Opt.Solver} (hsnd : Sound solver) (hcmp : Complete solver) (mean : Fin N → ℝ)
    (cov : Fin N → Fin N → ℝ) (user : User N) (w0 lam : Option (Fin N → ℝ)) (hcov : IsCov cov)
    (hlam : ∀ l, lam = some l → ∀ i, 0 ≤ l i) (hb : ∃ M, ∀ w, Allowed user w → ∀ i, |w i| ≤ M) (hn : ∃ w, Allowed user w)
    (hG : user.G.getD [] ≠ []) (num : ℕ) : ∃ cols, mvFrontier solver (mvInit mean cov user w0 lam) num = .ok cols ∧
      IsFrontier {w | Allowed user w} (Spec.Opt.ret mean) (mvCost cov w0 lam) num cols := by
  have hfirst : ∀ target, (∃ v, Reaches user mean target v) →
      ∃ x, solver _ inferInstance (mvProg (mvInit mean cov user w0 lam) target) = some x := fun target hv => by
    obtain ⟨x, hx, -⟩ := C90_total hcmp mean cov user w0 lam hcov hlam target hb hv; exact ⟨x, hx⟩
  have hok : ∃ cols, mvFrontier solver (mvInit mean cov user w0 lam) num = .ok cols := by
    obtain ⟨w, hw⟩ := hn
    obtain ⟨first, -, h1⟩ := C90_total hcmp mean cov user w0 lam hcov hlam none hb ⟨w, hw, by simp⟩
    have hfa := (C90_min_variance hsnd mean cov user w0 lam hcov hlam none first (hfirst none) h1).1.1
    obtain ⟨b, hb1, hb2⟩ := exists_min user mean none hb ⟨w, hw, by simp⟩ (fun v => -(Spec.Opt.ret mean v))
      (by unfold Spec.Opt.ret; fun_prop)
    obtain ⟨x, hx⟩ := hcmp _ inferInstance (⟨fun _ _ => 0, fun v => -(mean v), user.G.getD [], [], user.A.getD []⟩ : Prog (Fin N))
      (convex_zero _ rfl) ⟨b, ⟨fun r hr => by have := hb1.1.1 r hr; unfold slack; linarith, by simp,
        fun r hr => by have := hb1.1.2 r hr; unfold slack; linarith⟩, fun y hy => by
          have := hb2 y ⟨⟨fun r hr => by have := hy.1 r hr; unfold slack at this; linarith,
            fun r hr => by have := hy.3 r hr; unfold slack at this; linarith⟩, by simp⟩
          simpa [value, Spec.Opt.ret] using this⟩
    have h2 : ∃ r, maxReturn solver (mvInit mean cov user w0 lam).mean ((mvInit mean cov user w0 lam).user.G.getD [])
        ((mvInit mean cov user w0 lam).user.A.getD []) = .ok r := by
      unfold maxReturn
      rw [show (mvInit mean cov user w0 lam).mean = mean from rfl, show (mvInit mean cov user w0 lam).user = user from rfl, hx]
      exact ⟨_, rfl⟩
    obtain ⟨r, h2⟩ := h2
    have hr := maxReturn_mv hsnd user mean r h2
    obtain ⟨cols, hc⟩ := frontier_total first (fun t => mvSolve solver (mvInit mean cov user w0 lam) (some t)) num mean r
      (hr.2 ⟨first, hfa, rfl⟩) (by
        intro t ht
        obtain ⟨v, hv, hvr⟩ := hr.1
        obtain ⟨x, -, hx⟩ := C90_total hcmp mean cov user w0 lam hcov hlam (some t) hb ⟨v, hv, fun s hs => by
          injection hs with hs; subst hs
          exact le_trans ht (le_of_eq hvr.symm)⟩
        exact ⟨x, hx⟩)
    refine ⟨cols, ?_⟩
    unfold mvFrontier
    rw [h1]; dsimp only
    rw [show (mvInit mean cov user w0 lam).user = user from rfl, lpInequalities_total hG]; dsimp only
    rw [show (mvInit mean cov user w0 lam).user = user from rfl] at h2
    rw [h2]
    exact hc
  obtain ⟨cols, hc⟩ := hok
  exact ⟨cols, hc, C91_mean_variance_frontier hsnd mean cov user w0 lam hcov hlam hfirst num cols hc⟩

/-- **C91** without any inequality `MeanVariance.efficient_frontier` fails, even when a single portfolio is allowed: CVXOPT's `lp`
rejects `G = None`. -/
theorem C91_no_inequality (solver : Opt.Solver) (m : MV N) (hG : m.user.G = none) (num : ℕ) :
    ∀ cols, mvFrontier solver m num ≠ .ok cols := by
  intro cols h
  unfold mvFrontier at h
  cases h1 : mvSolve solver m none with
  | error e => rw [h1] at h; cases h
  | ok first => rw [h1, hG] at h; cases h

/-- Non-vacuity: the two-asset problem has a frontier of ten portfolios. -/
example : ∃ solver cols, Sound solver ∧
    mvFrontier solver (mvInit ![1/10, 1/20] ![![4/100, 0], ![0, 1/100]] exUser none none) 10 = .ok cols := by
  obtain ⟨s, hs, hc⟩ := exists_solver
  obtain ⟨cols, hw, -⟩ := C91_mean_variance_total hs hc ![1/10, 1/20] ![![4/100, 0], ![0, 1/100]] exUser none none exCov
    (by simp) exUser_bounded ⟨![1, 0], (exUser_iff _).2 (by simp)⟩ (by simp [exUser]) 10
  exact ⟨s, cols, hs, hw⟩

/-- **C91** With a bounded, non-empty allowed set and a sound and complete solver, `MeanCVaR.efficient_frontier` returns a
frontier for every number of portfolios. -/
theorem C91_mean_cvar_total {solver : Opt.Solver} (hsnd : Sound solver) (hcmp : Complete solver) (a : CvArgs N T)
    (hp : IsProb a.p) (h0 : 0 < a.alpha) (h1 : a.alpha < 1) (hcost : ∀ c, a.costs = some c → ∀ i, 0 ≤ c i)
    (hb : ∃ M, ∀ w, Allowed a.user w → ∀ i, |w i| ≤ M) (hn : ∃ w, Allowed a.user w) (num : ℕ) :
    ∃ cols, cvFrontier solver a num = .ok cols := by
  obtain ⟨w, hw⟩ := hn
  obtain ⟨first, hf⟩ := C66_total hcmp a hp h0 h1 hcost none hb ⟨w, hw, by simp⟩
  have hs : IsArgsort (fun x : Fin T → ℝ => Tuple.sort x) := fun x => Tuple.monotone_sort x
  have hex : ∀ w, ∃ r, portfolioCvar (fun x => Tuple.sort x) w a.R (some a.p) (some (1 - a.alpha)) false = .ok r := fun w => by
    obtain ⟨r, hr, -⟩ := cvar_spec hs a hp h0 h1 w; exact ⟨r, hr⟩
  choose cvar hcv using hex
  have hfa := (cvSolve_spec hs hsnd a hp h0 h1 hcost cvar hcv none first hf).1.1
  obtain ⟨b, hb1, hb2⟩ := exists_min a.user (cvMean a) none hb ⟨w, hw, by simp⟩ (fun v => -(Spec.Opt.ret (cvMean a) v))
    (by unfold Spec.Opt.ret; fun_prop)
  have key : ∀ {E : Type} [Fintype E] [DecidableEq E] (cost : E → ℝ) (nonneg : List E) (trade : List (Row (CV N T E))),
      (∀ w, Allowed a.user w → ∃ e : E → ℝ, (∀ f, 0 ≤ e f) ∧ ∀ r ∈ trade, slack (complete a w 0 e) r = 0) →
      ∃ r, maxReturn solver (blocks (cvMean a) 0 (fun _ => 0) (fun _ => 0)) (cvBase a cost nonneg trade).lin
        (cvBase a cost nonneg trade).eq = .ok r := by
    intro E _ _ cost nonneg trade htr
    have hiff : ∀ y, Feasible (⟨fun _ _ => 0, fun v => -(blocks (cvMean a) 0 (fun _ => 0) (fun _ => 0) v),
        (cvBase a cost nonneg trade).lin, [], (cvBase a cost nonneg trade).eq⟩ : Prog (CV N T E)) y ↔
        Feasible (addTarget (cvMean a) none (cvBase a cost nonneg trade)) y := by
      intro y
      exact ⟨fun ⟨h1, h2, h3⟩ => ⟨h1, by simp [addTarget, cvBase], h3⟩, fun ⟨h1, h2, h3⟩ => ⟨h1, by simp, h3⟩⟩
    have hv : ∀ y : CV N T E → ℝ, ∑ v, -(blocks (cvMean a) 0 (fun _ => (0:ℝ)) (fun _ => (0:ℝ)) v) * y v =
        -(Spec.Opt.ret (cvMean a) (wOf y)) := by
      intro y
      simp only [neg_mul, Finset.sum_neg_distrib, sum_blocks]
      simp [Spec.Opt.ret, wOf]
    obtain ⟨ee, he1, he2⟩ := htr b hb1.1
    obtain ⟨x, hx⟩ := hcmp _ inferInstance (⟨fun _ _ => 0, fun v => -(blocks (cvMean a) 0 (fun _ => 0) (fun _ => 0) v),
        (cvBase a cost nonneg trade).lin, [], (cvBase a cost nonneg trade).eq⟩ : Prog (CV N T E)) (convex_zero _ rfl)
      ⟨complete a b 0 ee, (hiff _).2 ((feasible_cvBase a cost nonneg trade none _).2
        ⟨fun t => le_max_left _ _, fun t => le_max_right _ _, fun f _ => he1 f, ⟨hb1.1, by simp⟩, he2⟩), fun y hy => by
          have hy' := (feasible_cvBase a cost nonneg trade none y).1 ((hiff y).1 hy)
          have := hb2 (wOf y) hy'.2.2.2.1
          simp only [value, hv]
          simp only [mul_zero, zero_mul, Finset.sum_const_zero, zero_add]
          exact this⟩
    unfold maxReturn
    rw [hx]
    exact ⟨_, rfl⟩
  have h3 : ∃ r, cvMaxReturn solver a = .ok r := by
    unfold cvMaxReturn
    have hp := key (fun e : Empty => e.elim) [] [] (fun w _ => ⟨fun e => e.elim, fun f => f.elim, by simp⟩)
    cases hw0 : a.w0 with
    | none => exact hp
    | some w0 =>
      cases hco : a.costs with
      | none => exact hp
      | some costs =>
        refine key (Sum.elim costs costs) _ (tradeRows w0) (fun w _ =>
          ⟨Sum.elim (fun i => max (w i - w0 i) 0) (fun i => max (w0 i - w i) 0), ?_, (trade_iff _ _).2 fun i => ?_⟩)
        · rintro (f | f) <;> simp
        · simp only [wOf, eOf, complete, blocks, Sum.elim_inl, Sum.elim_inr]
          rcases le_total (w i) (w0 i) with h | h
          · rw [max_eq_right (by linarith), max_eq_left (by linarith)]; ring
          · rw [max_eq_left (by linarith), max_eq_right (by linarith)]; ring
  obtain ⟨r, h3⟩ := h3
  have hr := cvMaxReturn_spec hsnd a r h3
  obtain ⟨cols, hc⟩ := frontier_total first (fun t => cvSolve solver a (some t)) num (cvMean a) r
    (hr.2 ⟨first, hfa, rfl⟩) (by
      intro t ht
      obtain ⟨v, hv, hvr⟩ := hr.1
      exact C66_total hcmp a hp h0 h1 hcost (some t) hb ⟨v, hv, fun s hs => by
        injection hs with hs; subst hs
        exact le_trans ht (le_of_eq hvr.symm)⟩)
  refine ⟨cols, ?_⟩
  unfold cvFrontier
  rw [hf]; dsimp only; rw [h3]
  exact hc

end PyV.Props
