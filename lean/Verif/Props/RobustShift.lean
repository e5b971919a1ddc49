import Verif.Props.RobustUnique

/-! # Property C250 for the penalised robust methods -/

namespace PyV.Props

open PyV PyV.Api PyV.Spec.Api PyV.Opt PyV.Spec.Opt PyV.Spec.Con Matrix PyV.Lemmas

variable {N : ℕ}

private def shifted (a : RobArgs N) (k : ℝ) : RobArgs N := { a with mean := fun i => a.mean i + k }

private theorem cone_len (L : Matrix (Fin N) (Fin N) ℝ) (x : Fin N → ℝ) : coneNorm L x = len (fun k i => L k i) x := rfl

private theorem allowed_half {u : User N} {x y : Fin N → ℝ} (hx : Allowed u x) (hy : Allowed u y) : Allowed u (fun i => (x i + y i) / 2) := by
  have e : ∀ r : Fin N → ℝ, ∑ i, r i * ((x i + y i) / 2) = (∑ i, r i * x i + ∑ i, r i * y i) / 2 := by
    intro r
    rw [← Finset.sum_add_distrib, Finset.sum_div]
    exact Finset.sum_congr rfl fun i _ => by ring
  refine ⟨fun r hr => ?_, fun r hr => ?_⟩
  · rw [e]; have := hx.1 r hr; have := hy.1 r hr; linarith
  · rw [e]; have := hx.2 r hr; have := hy.2 r hr; linarith

private theorem robSolve_shift {s1 s2 : Opt.Solver} (hs1 : Sound s1) (hc1 : Complete s1) (hs2 : Sound s2) (hc2 : Complete s2) (a : RobArgs N)
    {A L : Matrix (Fin N) (Fin N) ℝ} (hL : IsChol A L) {t : ℝ} (ht : t ≠ 0) (hsum : ∀ x, Allowed a.user x → ∑ i, x i = t) {pen : ℝ} (hp : 0 < pen)
    (cap : Option ℝ) (k : ℝ) : robSolve s2 (shifted a k) L pen cap = (robSolve s1 a L pen cap).map (fun r => ⟨r.w, r.ret + k * t, r.risk⟩) := by
  have hcv : Convex (robProg a L pen cap) := convex_zero _ rfl
  have hcv' : Convex (robProg (shifted a k) L pen cap) := convex_zero _ rfl
  have hret : ∀ x, Allowed a.user x → Spec.Opt.ret (shifted a k).mean x = Spec.Opt.ret a.mean x + k * t := by
    intro x hx
    unfold Spec.Opt.ret shifted
    rw [← hsum x hx, Finset.mul_sum, ← Finset.sum_add_distrib]
    exact Finset.sum_congr rfl fun i _ => by ring
  have hfeas : ∀ x, Feasible (robProg (shifted a k) L pen cap) x ↔ Feasible (robProg a L pen cap) x := by
    intro x; rw [feasible_rob, feasible_rob]; rfl
  have hval : ∀ x, Feasible (robProg a L pen cap) x → value (robProg (shifted a k) L pen cap) x = value (robProg a L pen cap) x - k * t := by
    intro x hx
    rw [value_rob, value_rob, hret _ ((feasible_rob _ _ _ _ _).1 hx).1]; ring
  have hopt : ∀ x, Optimal (robProg (shifted a k) L pen cap) x ↔ Optimal (robProg a L pen cap) x := by
    intro x
    constructor
    · rintro ⟨h1, h2⟩
      refine ⟨(hfeas x).1 h1, fun y hy => ?_⟩
      have := h2 y ((hfeas y).2 hy)
      rw [hval x ((hfeas x).1 h1), hval y hy] at this
      linarith
    · rintro ⟨h1, h2⟩
      refine ⟨(hfeas x).2 h1, fun y hy => ?_⟩
      have := h2 y ((hfeas y).1 hy)
      rw [hval x h1, hval y ((hfeas y).1 hy)]
      linarith
  -- both solvers succeed or both fail
  have none_iff : s1 _ inferInstance (robProg a L pen cap) = none ↔ s2 _ inferInstance (robProg (shifted a k) L pen cap) = none := by
    constructor
    · intro h
      cases h2 : s2 _ inferInstance (robProg (shifted a k) L pen cap) with
      | none => rfl
      | some y =>
        obtain ⟨x, hx⟩ := hc1 _ _ _ hcv ⟨y, (hopt y).1 (hs2 _ _ _ _ hcv' h2)⟩
        rw [h] at hx; cases hx
    · intro h
      cases h2 : s1 _ inferInstance (robProg a L pen cap) with
      | none => rfl
      | some y =>
        obtain ⟨x, hx⟩ := hc2 _ _ _ hcv' ⟨y, (hopt y).2 (hs1 _ _ _ _ hcv h2)⟩
        rw [h] at hx; cases hx
  have key : ∀ r r', robSolve s1 a L pen cap = .ok r → robSolve s2 (shifted a k) L pen cap = .ok r' → r' = ⟨r.w, r.ret + k * t, r.risk⟩ := by
    intro r r' h h'
    obtain ⟨p1, p2, p3, p4, p5⟩ := robSolve_spec hs1 a L pen cap r h
    obtain ⟨q1, q2, q3, q4, q5⟩ := robSolve_spec hs2 (shifted a k) L pen cap r' h'
    rw [hret _ q1] at q2
    have q5 : ∀ v t', Allowed a.user v → coneNorm L v ≤ t' → (∀ s, cap = some s → t' ≤ Real.sqrt s) →
        pen * r'.risk - (r'.ret - k * t) ≤ pen * t' - Spec.Opt.ret a.mean v := by
      intro v t' h1 h2 h3
      have := q5 v t' h1 h2 h3
      rw [hret v h1] at this
      linarith
    have q2 : r'.ret - k * t = Spec.Opt.ret a.mean r'.w := by linarith
    -- the radius is tight
    have tight : ∀ {r : Result N} {g : ℝ}, coneNorm L r.w ≤ r.risk → Allowed a.user r.w → g = Spec.Opt.ret a.mean r.w → (∀ s, cap = some s → r.risk ≤ Real.sqrt s) →
        (∀ v t, Allowed a.user v → coneNorm L v ≤ t → (∀ s, cap = some s → t ≤ Real.sqrt s) → pen * r.risk - g ≤ pen * t - Spec.Opt.ret a.mean v) →
        r.risk = coneNorm L r.w := by
      intro r g h1 h2 h3 h4 h5
      have := h5 r.w (coneNorm L r.w) h2 le_rfl (fun s hs => h1.trans (h4 s hs))
      rw [h3] at this
      have : pen * r.risk ≤ pen * coneNorm L r.w := by linarith
      exact le_antisymm (le_of_mul_le_mul_left this hp) h1
    have e := tight p3 p1 p2 p4 p5
    have e' := tight q3 q1 q2 q4 q5
    have hhalf : coneNorm L (fun i => (r.w i + r'.w i) / 2) = len (fun k i => L k i) (fun i => r.w i + r'.w i) / 2 := by
      rw [cone_len]; exact len_half _ (fun i => r.w i + r'.w i)
    have htri : len (fun k i => L k i) (fun i => r.w i + r'.w i) ≤ coneNorm L r.w + coneNorm L r'.w := len_add_le (fun k i => L k i) r.w r'.w
    have hm := p5 _ _ (allowed_half p1 q1) le_rfl (fun s hs => by
      have h1 := p4 s hs; have h2 := q4 s hs
      rw [e] at h1; rw [e'] at h2; rw [hhalf]; linarith)
    have hx := q5 r.w r.risk p1 p3 p4
    rw [hhalf] at hm
    have er : Spec.Opt.ret a.mean (fun i => (r.w i + r'.w i) / 2) = (Spec.Opt.ret a.mean r.w + Spec.Opt.ret a.mean r'.w) / 2 := by
      unfold Spec.Opt.ret
      rw [← Finset.sum_add_distrib, Finset.sum_div]
      exact Finset.sum_congr rfl fun i _ => by ring
    rw [er] at hm
    rw [p2, e] at hm
    rw [q2, e', e] at hx
    have hge : pen * (coneNorm L r.w + coneNorm L r'.w) ≤ pen * len (fun k i => L k i) (fun i => r.w i + r'.w i) := by linarith
    have hge' := le_of_mul_le_mul_left hge hp
    have hw : r.w = r'.w := by
      refine len_unique (M := fun k i => L k i) (r := fun _ => 1) (fun x hx => ?_) ht (by simpa using hsum _ p1) (by simpa using hsum _ q1) hge'
      have hdet : L.det ≠ 0 := by
        rw [det_lower hL.2.1]
        exact Finset.prod_ne_zero_iff.mpr fun i _ => (hL.2.2 i).ne'
      exact Matrix.eq_zero_of_mulVec_eq_zero hdet (funext hx)
    have hr : r'.ret = r.ret + k * t := by rw [p2, hw]; linarith
    have hk : r.risk = r'.risk := by rw [e, e', hw]
    cases r; cases r'
    simp only at hw hr hk
    subst hw hr hk
    rfl
  by_cases hcost : ∃ w0 c, a.w0 = some w0 ∧ a.costs = some c
  · obtain ⟨w0, c, h1, h2⟩ := hcost
    unfold robSolve
    have h1' : (shifted a k).w0 = some w0 := h1
    have h2' : (shifted a k).costs = some c := h2
    rw [h1, h2, h1', h2']
    rfl
  · have hred : ∀ (b : RobArgs N) s, (¬ ∃ w0 c, b.w0 = some w0 ∧ b.costs = some c) → robSolve s b L pen cap = match s _ inferInstance (robProg b L pen cap) with
        | none => .error .runtimeError
        | some x => .ok ⟨fun i => x (Sum.inl i), dot b.mean (fun i => x (Sum.inl i)), x (Sum.inr ())⟩ := by
      intro b s hcost
      unfold robSolve
      split
      · rename_i w0 c h1 h2
        exact absurd ⟨_, _, h1, h2⟩ hcost
      · rfl
    have k1 := hred a s1 hcost
    have k2 := hred (shifted a k) s2 hcost
    cases h1 : s1 _ inferInstance (robProg a L pen cap) with
    | none =>
      rw [h1] at k1
      rw [none_iff.1 h1] at k2
      rw [k1, k2]; rfl
    | some x =>
      cases h2 : s2 _ inferInstance (robProg (shifted a k) L pen cap) with
      | none => rw [none_iff.2 h2] at h1; cases h1
      | some y =>
        rw [h1] at k1
        rw [h2] at k2
        have := key _ _ k1 k2
        rw [k1, k2]
        exact congrArg Except.ok this

private theorem robLambda_shift {s1 s2 : Opt.Solver} (hs1 : Sound s1) (hc1 : Complete s1) (hs2 : Sound s2) (hc2 : Complete s2) {f : Bayes.Factor} (hf : CholOk f)
    (a : RobArgs N) {t : ℝ} (ht : t ≠ 0) (hsum : ∀ x, Allowed a.user x → ∑ i, x i = t) {lam : ℝ} (hp : 0 < lam) (k : ℝ) :
    robLambda s2 f (shifted a k) lam = (robLambda s1 f a lam).map (fun r => ⟨r.w, r.ret + k * t, r.risk⟩) := by
  unfold robLambda
  have hS : (shifted a k).S = a.S := rfl
  rw [hS]
  cases h : (Bayes.cholSquare f a.S).result with
  | error e => rfl
  | ok L =>
    obtain ⟨A, hA⟩ := cholSquare_isChol hf h
    dsimp only
    rw [if_neg (not_lt.2 hp.le), if_neg (not_lt.2 hp.le)]
    exact robSolve_shift hs1 hc1 hs2 hc2 a hA ht hsum hp none k

private theorem mapE_map_mem {α β γ : Type} {f : α → Except PyErr β} {g : α → Except PyErr γ} {m : β → γ} :
    ∀ (l : List α), (∀ x ∈ l, g x = (f x).map m) → mapE g l = (mapE f l).map (List.map m)
  | [], _ => rfl
  | x :: l, h => by
    unfold mapE
    rw [h x (by simp), mapE_map_mem l fun y hy => h y (by simp [hy])]
    cases f x with
    | error e => rfl
    | ok y =>
      cases mapE f l with
      | error e => rfl
      | ok ys => rfl

private theorem mergeSort_map {α β : Type} (m : α → β) (le : α → α → Bool) (le' : β → β → Bool) (h : ∀ a b, le' (m a) (m b) = le a b)
    (l : List α) : (l.map m).mergeSort le' = (l.mergeSort le).map m := by
  exact (List.map_mergeSort (fun a _ b _ => (h a b).symm)).symm

private theorem zipWith_map_mem {α β β' γ γ' : Type} {F : α → β → γ} {F' : α → β' → γ'} {m : β → β'} {M : γ → γ'} {P : β → Prop}
    (h : ∀ a b, P b → F' a (m b) = M (F a b)) : ∀ (l : List α) (r : List β), (∀ b ∈ r, P b) → l.zipWith F' (r.map m) = (l.zipWith F r).map M
  | [], _, _ => rfl
  | _ :: _, [], _ => rfl
  | a :: l, b :: r, hr => by
    simp only [List.map_cons, List.zipWith_cons_cons]
    rw [h a b (hr b (by simp)), zipWith_map_mem h l r fun x hx => hr x (by simp [hx])]

private theorem robLambda_allowed {s : Opt.Solver} (hs : Sound s) {f : Bayes.Factor} {a : RobArgs N} {lam : ℝ} {r : Result N} (h : robLambda s f a lam = .ok r) :
    Allowed a.user r.w := by
  unfold robLambda at h
  split at h
  · cases h
  · split_ifs at h
    exact (robSolve_spec hs a _ _ _ _ h).1

/-- **C250** (robust) When the constraints fix a total weight `t` other than zero, adding `k` to every expected return leaves the portfolios and risks of
`robust_lambda_frontier` with positive penalties and of `solve_robust_gamma_portfolio` with a positive penalty unchanged and adds `k * t` to their returns;
errors are the same too. -/
theorem C250_robust {s1 s2 : Opt.Solver} (hs1 : Sound s1) (hc1 : Complete s1) (hs2 : Sound s2) (hc2 : Complete s2) {f1 f2 : Bayes.Factor}
    (hf1 : CholOk f1) (hf2 : CholOk f2) (w : Wrapper N) (mu : Fin N → ℝ) (k : ℝ) (hmu : w.mu = some mu) (hlog : w.isLog = false)
    (con : Option (PyV.Con.Spec ℝ)) (c : PyV.Con.Spec ℝ) (hin : InForce w con c)
    {t : ℝ} (hc : c.totalWeight = some (.fin t)) (ht : t ≠ 0) (costs : Option Costs) :
    (∀ num maxLam lams, (∀ l ∈ lams, 0 < l) →
      ({ w with mu := some (fun i => mu i + k) } : Wrapper N).robustFrontier s2 f2 num maxLam (some lams) con costs =
        (w.robustFrontier s1 f1 num maxLam (some lams) con costs).map (List.map fun r => ⟨r.lam, r.w, r.ret + k * t, r.risk⟩)) ∧
    ∀ gm gs, 0 < gm → ({ w with mu := some (fun i => mu i + k) } : Wrapper N).robustGamma s2 f2 gm gs con costs =
        (w.robustGamma s1 f1 gm gs con costs).map (fun r => ⟨r.w, r.ret + k * t, r.risk⟩) := by
  obtain rfl := cholOk_unique hf1 hf2
  obtain ⟨u, hu, hall⟩ := user_spec hin
  have hu' : ({ w with mu := some (fun i => mu i + k) } : Wrapper N).user con = .ok u := hu
  have hsum : ∀ x, Allowed u x → ∑ i, x i = t := fun x hx => ((hall x).1 hx).total t hc
  constructor
  · intro num maxLam lams hpos
    unfold Wrapper.robustFrontier
    rw [hu, hu']
    obtain hcov | ⟨cov, hcov⟩ := Option.eq_none_or_eq_some w.cov
    · simp only [Wrapper.moments, hcov, hmu]; rfl
    · have m1 : w.moments = .ok (mu, cov) := by simp only [Wrapper.moments, hmu, hcov]
      have m2 : ({ w with mu := some (fun i => mu i + k) } : Wrapper N).moments = .ok (fun i => mu i + k, cov) := by
        simp only [Wrapper.moments, hcov]
      rw [m1, m2]
      dsimp only
      cases hg : lambdaGrid num maxLam (some lams) with
      | error e => rfl
      | ok grid =>
        have hgrid : grid = lams := by
          unfold lambdaGrid at hg
          dsimp only at hg
          split_ifs at hg
          injection hg with hg
          exact hg.symm
        subst hgrid
        dsimp only
        have hsh : robOf (fun i => mu i + k) (w.unc.getD cov) u (({ w with mu := some (fun i => mu i + k) } : Wrapper N).resolveCosts costs) =
            shifted (robOf mu (w.unc.getD cov) u (w.resolveCosts costs)) k := rfl
        have hmap := mapE_map_mem grid fun l hl => robLambda_shift hs1 hc1 hs2 hc2 hf1 (robOf mu (w.unc.getD cov) u (w.resolveCosts costs)) ht hsum (hpos l hl) k
        rw [hsh, hmap]
        cases hres : mapE (robLambda s1 f1 (robOf mu (w.unc.getD cov) u (w.resolveCosts costs))) grid with
        | error e => rfl
        | ok res =>
          have hall' : ∀ r ∈ res, Allowed u r.w := by
            have F := Ens.mapE_iff.1 hres
            intro r hr
            obtain ⟨j, hj, rfl⟩ := List.getElem_of_mem hr
            have := (List.forall₂_iff_get.1 F).2 j (by rw [F.length_eq]; exact hj) hj
            exact robLambda_allowed hs1 this
          simp only [Except.map]
          refine congrArg Except.ok ?_
          have hrep : ∀ x : Wrapper N, x.isLog = false → ∀ m : Fin N → ℝ, (x.report m cov).1 = m := by
            intro x hx m; simp [Wrapper.report, hx]
          rw [hrep w hlog mu, hrep _ (show ({ w with mu := some (fun i => mu i + k) } : Wrapper N).isLog = false from hlog)]
          rw [zipWith_map_mem (F := fun l (r : Opt.Result N) => (⟨l, r.w, retOf mu r.w, r.risk⟩ : Column N))
            (M := fun r : Column N => (⟨r.lam, r.w, r.ret + k * t, r.risk⟩ : Column N)) (P := fun r => Allowed u r.w) ?_ grid res hall']
          · exact mergeSort_map _ _ _ (fun a b => rfl) _
          · intro l r hr
            have : retOf (fun i => mu i + k) r.w = retOf mu r.w + k * t := by
              unfold retOf
              rw [← hsum r.w hr, Finset.mul_sum, ← Finset.sum_add_distrib]
              exact Finset.sum_congr rfl fun i _ => by ring
            dsimp only
            rw [this]
  · intro gm gs hgm
    unfold Wrapper.robustGamma
    rw [hu, hu']
    obtain hcov | ⟨cov, hcov⟩ := Option.eq_none_or_eq_some w.cov
    · simp only [Wrapper.moments, hcov, hmu]; rfl
    · have m1 : w.moments = .ok (mu, cov) := by simp only [Wrapper.moments, hmu, hcov]
      have m2 : ({ w with mu := some (fun i => mu i + k) } : Wrapper N).moments = .ok (fun i => mu i + k, cov) := by
        simp only [Wrapper.moments, hcov]
      rw [m1, m2]
      dsimp only
      have hsh : robOf (fun i => mu i + k) (w.unc.getD cov) u (({ w with mu := some (fun i => mu i + k) } : Wrapper N).resolveCosts costs) =
          shifted (robOf mu (w.unc.getD cov) u (w.resolveCosts costs)) k := rfl
      have e : robGamma s2 f1 (shifted (robOf mu (w.unc.getD cov) u (w.resolveCosts costs)) k) gm gs =
          (robGamma s1 f1 (robOf mu (w.unc.getD cov) u (w.resolveCosts costs)) gm gs).map (fun r => ⟨r.w, r.ret + k * t, r.risk⟩) := by
        unfold robGamma
        have hS : (shifted (robOf mu (w.unc.getD cov) u (w.resolveCosts costs)) k).S = (robOf mu (w.unc.getD cov) u (w.resolveCosts costs)).S := rfl
        rw [hS]
        cases h : (Bayes.cholSquare f1 (robOf mu (w.unc.getD cov) u (w.resolveCosts costs)).S).result with
        | error e => rfl
        | ok L =>
          obtain ⟨A, hA⟩ := cholSquare_isChol hf1 h
          dsimp only
          split_ifs
          · rfl
          · exact robSolve_shift hs1 hc1 hs2 hc2 _ hA ht hsum hgm _ k
      rw [hsh, e]
      cases robGamma s1 f1 (robOf mu (w.unc.getD cov) u (w.resolveCosts costs)) gm gs <;> rfl

/-- Non-vacuity: two assets with means 1/10 and 0, the default constraints (total weight one), penalties 2 and 1, every mean raised by 3. -/
example : ∃ (w : Wrapper 2) (solver : Opt.Solver) (factor : Bayes.Factor) (cols cols' : List (Column 2)), Sound solver ∧ Complete solver ∧ CholOk factor ∧
    w.mu = some ![1/10, 0] ∧ w.isLog = false ∧ InForce w none PyV.Con.defaultSpec ∧ (PyV.Con.defaultSpec : PyV.Con.Spec ℝ).totalWeight = some (.fin 1) ∧
    w.robustFrontier solver factor 1 1 (some [2, 1]) none none = .ok cols ∧ cols.length = 2 ∧
    ({ w with mu := some (fun i => (![1/10, 0] : Fin 2 → ℝ) i + 3) } : Wrapper 2).robustFrontier solver factor 1 1 (some [2, 1]) none none = .ok cols' := by
  obtain ⟨solver, h1, h2⟩ := exists_solver
  obtain ⟨factor, hf⟩ := cholOk_exists
  obtain ⟨w, hmu, hcov, -, hlog, hunc, hin, htr⟩ := exists_wrapper (N := 2) (by norm_num)
    (some ![1/10, 0]) (some (Matrix.diagonal ![1, 1])) none false
  obtain ⟨cols, hcols, hp, -⟩ := (C110_robust_frontier_partial h1 h2 hf w _ _ hmu hcov (by rw [hunc]; exact diag_chol) none PyV.Con.defaultSpec hin default_bounded
    ⟨![1, 0], (satisfies_default _).2 ⟨fun i => by fin_cases i <;> simp, by simp⟩⟩ none none none htr 1 1 (some [2, 1])).1 [2, 1]
    ⟨by simp, by intro x hx; simp at hx; rcases hx with rfl | rfl <;> norm_num, rfl⟩
  have htot : (PyV.Con.defaultSpec : PyV.Con.Spec ℝ).totalWeight = some (.fin 1) := by simp [PyV.Con.defaultSpec]
  have hsh := (C250_robust h1 h2 h1 h2 hf hf w _ 3 hmu hlog none _ hin htot one_ne_zero none).1 1 1 [2, 1] (by
    intro x hx; simp at hx; rcases hx with rfl | rfl <;> norm_num)
  rw [hcols] at hsh
  exact ⟨w, solver, factor, cols, _, h1, h2, hf, hmu, hlog, hin, htot, hcols, by simpa using hp.length_eq, hsh⟩

end PyV.Props
