import Verif.Props.RrpUnique

/-! # Property C244: penalised robust portfolios are determined by their inputs -/

namespace PyV.Props

open PyV PyV.Api PyV.Spec.Api PyV.Opt PyV.Spec.Opt PyV.Spec.Con Matrix PyV.Lemmas

variable {N : ℕ}

private theorem cone_len (L : Matrix (Fin N) (Fin N) ℝ) (x : Fin N → ℝ) : coneNorm L x = len (fun k i => L k i) x := rfl

private theorem allowed_half {u : User N} {x y : Fin N → ℝ} (hx : Allowed u x) (hy : Allowed u y) : Allowed u (fun i => (x i + y i) / 2) := by
  have e : ∀ r : Fin N → ℝ, ∑ i, r i * ((x i + y i) / 2) = (∑ i, r i * x i + ∑ i, r i * y i) / 2 := by
    intro r
    rw [← Finset.sum_add_distrib, Finset.sum_div]
    exact Finset.sum_congr rfl fun i _ => by ring
  refine ⟨fun r hr => ?_, fun r hr => ?_⟩
  · rw [e]; have := hx.1 r hr; have := hy.1 r hr; linarith
  · rw [e]; have := hx.2 r hr; have := hy.2 r hr; linarith

private theorem robSolve_unique {s1 s2 : Opt.Solver} (hs1 : Sound s1) (hc1 : Complete s1) (hs2 : Sound s2) (hc2 : Complete s2) (a : RobArgs N)
    {A L : Matrix (Fin N) (Fin N) ℝ} (hL : IsChol A L) {t : ℝ} (ht : t ≠ 0) (hsum : ∀ x, Allowed a.user x → ∑ i, x i = t) {pen : ℝ} (hp : 0 < pen)
    (cap : Option ℝ) : robSolve s1 a L pen cap = robSolve s2 a L pen cap := by
  have hcv : Convex (robProg a L pen cap) := convex_zero _ rfl
  -- both solvers succeed or both fail
  have none_iff : s1 _ inferInstance (robProg a L pen cap) = none ↔ s2 _ inferInstance (robProg a L pen cap) = none := by
    constructor
    · intro h
      cases h2 : s2 _ inferInstance (robProg a L pen cap) with
      | none => rfl
      | some y =>
        obtain ⟨x, hx⟩ := hc1 _ _ _ hcv ⟨y, hs2 _ _ _ _ hcv h2⟩
        rw [h] at hx; cases hx
    · intro h
      cases h2 : s1 _ inferInstance (robProg a L pen cap) with
      | none => rfl
      | some y =>
        obtain ⟨x, hx⟩ := hc2 _ _ _ hcv ⟨y, hs1 _ _ _ _ hcv h2⟩
        rw [h] at hx; cases hx
  have key : ∀ r r', robSolve s1 a L pen cap = .ok r → robSolve s2 a L pen cap = .ok r' → r = r' := by
    intro r r' h h'
    obtain ⟨p1, p2, p3, p4, p5⟩ := robSolve_spec hs1 a L pen cap r h
    obtain ⟨q1, q2, q3, q4, q5⟩ := robSolve_spec hs2 a L pen cap r' h'
    -- the radius is tight
    have tight : ∀ {r : Result N}, coneNorm L r.w ≤ r.risk → Allowed a.user r.w → r.ret = Spec.Opt.ret a.mean r.w → (∀ s, cap = some s → r.risk ≤ Real.sqrt s) →
        (∀ v t, Allowed a.user v → coneNorm L v ≤ t → (∀ s, cap = some s → t ≤ Real.sqrt s) → pen * r.risk - r.ret ≤ pen * t - Spec.Opt.ret a.mean v) →
        r.risk = coneNorm L r.w := by
      intro r h1 h2 h3 h4 h5
      have := h5 r.w (coneNorm L r.w) h2 le_rfl (fun s hs => h1.trans (h4 s hs))
      rw [h3] at this
      have : pen * r.risk ≤ pen * coneNorm L r.w := by linarith
      exact le_antisymm (le_of_mul_le_mul_left this hp) h1
    have e := tight p3 p1 p2 p4 p5
    have e' := tight q3 q1 q2 q4 q5
    have hhalf : coneNorm L (fun i => (r.w i + r'.w i) / 2) = len (fun k i => L k i) (fun i => r.w i + r'.w i) / 2 := by
      rw [cone_len]; exact len_half _ (fun i => r.w i + r'.w i)
    have htri : len (fun k i => L k i) (fun i => r.w i + r'.w i) ≤ coneNorm L r.w + coneNorm L r'.w := len_add_le (fun k i => L k i) r.w r'.w
    have hm := p5 _ _ (allowed_half p1 q1) le_rfl (fun s hs => by
      have h1 := p4 s hs; have h2 := q4 s hs
      rw [e] at h1; rw [e'] at h2; rw [hhalf]; linarith)
    have hx := q5 r.w r.risk p1 p3 p4
    rw [hhalf] at hm
    have er : Spec.Opt.ret a.mean (fun i => (r.w i + r'.w i) / 2) = (Spec.Opt.ret a.mean r.w + Spec.Opt.ret a.mean r'.w) / 2 := by
      unfold Spec.Opt.ret
      rw [← Finset.sum_add_distrib, Finset.sum_div]
      exact Finset.sum_congr rfl fun i _ => by ring
    rw [er] at hm
    rw [p2, e] at hm
    rw [q2, e', e] at hx
    have hge : pen * (coneNorm L r.w + coneNorm L r'.w) ≤ pen * len (fun k i => L k i) (fun i => r.w i + r'.w i) := by linarith
    have hge' := le_of_mul_le_mul_left hge hp
    have hw : r.w = r'.w := by
      refine len_unique (M := fun k i => L k i) (r := fun _ => 1) (fun x hx => ?_) ht (by simpa using hsum _ p1) (by simpa using hsum _ q1) hge'
      have hdet : L.det ≠ 0 := by
        rw [det_lower hL.2.1]
        exact Finset.prod_ne_zero_iff.mpr fun i _ => (hL.2.2 i).ne'
      exact Matrix.eq_zero_of_mulVec_eq_zero hdet (funext hx)
    have hr : r.ret = r'.ret := by rw [p2, q2, hw]
    have hk : r.risk = r'.risk := by rw [e, e', hw]
    cases r; cases r'
    simp only at hw hr hk
    subst hw hr hk
    rfl
  by_cases hcost : ∃ w0 c, a.w0 = some w0 ∧ a.costs = some c
  · obtain ⟨w0, c, h1, h2⟩ := hcost
    unfold robSolve
    rw [h1, h2]
  · have hred : ∀ s, robSolve s a L pen cap = match s _ inferInstance (robProg a L pen cap) with
        | none => .error .runtimeError
        | some x => .ok ⟨fun i => x (Sum.inl i), dot a.mean (fun i => x (Sum.inl i)), x (Sum.inr ())⟩ := by
      intro s
      unfold robSolve
      split
      · rename_i w0 c h1 h2
        exact absurd ⟨_, _, h1, h2⟩ hcost
      · rfl
    cases h1 : s1 _ inferInstance (robProg a L pen cap) with
    | none => rw [hred, hred, h1, none_iff.1 h1]
    | some x =>
      cases h2 : s2 _ inferInstance (robProg a L pen cap) with
      | none => rw [none_iff.2 h2] at h1; cases h1
      | some y =>
        have k1 := hred s1
        have k2 := hred s2
        rw [h1] at k1
        rw [h2] at k2
        rw [k1, k2]
        exact congrArg Except.ok (key _ _ k1 k2)

/-- The optimiser: a positive penalty. -/
private theorem robLambda_unique {s1 s2 : Opt.Solver} (hs1 : Sound s1) (hc1 : Complete s1) (hs2 : Sound s2) (hc2 : Complete s2) {f : Bayes.Factor} (hf : CholOk f)
    (a : RobArgs N) {t : ℝ} (ht : t ≠ 0) (hsum : ∀ x, Allowed a.user x → ∑ i, x i = t) {lam : ℝ} (hp : 0 < lam) :
    robLambda s1 f a lam = robLambda s2 f a lam := by
  unfold robLambda
  cases h : (Bayes.cholSquare f a.S).result with
  | error e => rfl
  | ok L =>
    obtain ⟨A, hA⟩ := cholSquare_isChol hf h
    dsimp only
    rw [if_neg (not_lt.2 hp.le), if_neg (not_lt.2 hp.le)]
    exact robSolve_unique hs1 hc1 hs2 hc2 a hA ht hsum hp none

private theorem mapE_congr_mem {α β : Type} {f g : α → Except PyErr β} : ∀ (l : List α), (∀ x ∈ l, f x = g x) → mapE f l = mapE g l
  | [], _ => rfl
  | x :: l, h => by
    unfold mapE
    rw [h x (by simp), mapE_congr_mem l fun y hy => h y (by simp [hy])]

/-- **C244** When the constraints fix a total weight other than zero, `robust_lambda_frontier` with positive penalties and
`solve_robust_gamma_portfolio` with a positive penalty return the same portfolios, returns and risks, or raise the same error, whatever correct solver and
Cholesky routine are used. -/
theorem C244_robust {s1 s2 : Opt.Solver} (hs1 : Sound s1) (hc1 : Complete s1) (hs2 : Sound s2) (hc2 : Complete s2) {f1 f2 : Bayes.Factor}
    (hf1 : CholOk f1) (hf2 : CholOk f2) (w : Wrapper N) (con : Option (PyV.Con.Spec ℝ)) (c : PyV.Con.Spec ℝ) (hin : InForce w con c)
    {t : ℝ} (hc : c.totalWeight = some (.fin t)) (ht : t ≠ 0) (costs : Option Costs) :
    (∀ num maxLam lams, (∀ l ∈ lams, 0 < l) →
      w.robustFrontier s1 f1 num maxLam (some lams) con costs = w.robustFrontier s2 f2 num maxLam (some lams) con costs) ∧
    ∀ gm gs, 0 < gm → w.robustGamma s1 f1 gm gs con costs = w.robustGamma s2 f2 gm gs con costs := by
  obtain rfl := cholOk_unique hf1 hf2
  obtain ⟨u, hu, hall⟩ := user_spec hin
  have hsum : ∀ x, Allowed u x → ∑ i, x i = t := fun x hx => ((hall x).1 hx).total t hc
  constructor
  · intro num maxLam lams hpos
    unfold Wrapper.robustFrontier
    cases w.moments with
    | error e => rfl
    | ok p =>
      obtain ⟨mu, cov⟩ := p
      dsimp only
      rw [hu]
      dsimp only
      cases hg : lambdaGrid num maxLam (some lams) with
      | error e => rfl
      | ok grid =>
        have hgrid : grid = lams := by
          unfold lambdaGrid at hg
          dsimp only at hg
          split_ifs at hg
          injection hg with hg
          exact hg.symm
        subst hgrid
        dsimp only
        have hru : (robOf mu (w.unc.getD cov) u (w.resolveCosts costs)).user = u := by unfold robOf; rfl
        rw [mapE_congr_mem grid fun l hl => robLambda_unique hs1 hc1 hs2 hc2 hf1 _ ht (by rw [hru]; exact hsum) (hpos l hl)]
  · intro gm gs hgm
    unfold Wrapper.robustGamma
    cases w.moments with
    | error e => rfl
    | ok p =>
      obtain ⟨mu, cov⟩ := p
      dsimp only
      rw [hu]
      dsimp only
      have hru : (robOf mu (w.unc.getD cov) u (w.resolveCosts costs)).user = u := by unfold robOf; rfl
      have e : robGamma s1 f1 (robOf mu (w.unc.getD cov) u (w.resolveCosts costs)) gm gs = robGamma s2 f1 (robOf mu (w.unc.getD cov) u (w.resolveCosts costs)) gm gs := by
        unfold robGamma
        cases h : (Bayes.cholSquare f1 (robOf mu (w.unc.getD cov) u (w.resolveCosts costs)).S).result with
        | error e => rfl
        | ok L =>
          obtain ⟨A, hA⟩ := cholSquare_isChol hf1 h
          dsimp only
          split_ifs
          · rfl
          · exact robSolve_unique hs1 hc1 hs2 hc2 _ hA ht (by rw [hru]; exact hsum) hgm _
      rw [e]

/-- Non-vacuity: two assets, the default constraints (total weight one), penalties 2 and 1; every correct solver succeeds. -/
example : ∃ (w : Wrapper 2) (solver : Opt.Solver) (factor : Bayes.Factor) (cols : List (Column 2)), Sound solver ∧ Complete solver ∧ CholOk factor ∧
    InForce w none PyV.Con.defaultSpec ∧ (PyV.Con.defaultSpec : PyV.Con.Spec ℝ).totalWeight = some (.fin 1) ∧
    w.robustFrontier solver factor 1 1 (some [2, 1]) none none = .ok cols ∧ cols.length = 2 := by
  obtain ⟨solver, h1, h2⟩ := exists_solver
  obtain ⟨factor, hf⟩ := cholOk_exists
  obtain ⟨w, hmu, hcov, -, -, hunc, hin, htr⟩ := exists_wrapper (N := 2) (by norm_num)
    (some ![1/10, 0]) (some (Matrix.diagonal ![1, 1])) none false
  obtain ⟨cols, hcols, hp, -⟩ := (C110_robust_frontier_partial h1 h2 hf w _ _ hmu hcov (by rw [hunc]; exact diag_chol) none PyV.Con.defaultSpec hin default_bounded
    ⟨![1, 0], (satisfies_default _).2 ⟨fun i => by fin_cases i <;> simp, by simp⟩⟩ none none none htr 1 1 (some [2, 1])).1 [2, 1]
    ⟨by simp, by intro x hx; simp at hx; rcases hx with rfl | rfl <;> norm_num, rfl⟩
  refine ⟨w, solver, factor, cols, h1, h2, hf, hin, by simp [PyV.Con.defaultSpec], hcols, ?_⟩
  have := hp.length_eq
  simpa using this

end PyV.Props
