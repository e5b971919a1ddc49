import Verif.Props.Wrapper
import Verif.Props.OptRobust
import Verif.Props.FromMoments
import Verif.Lemmas.Ensembles
import Verif.Lemmas.OptExist

/-! # C104, C110: the robust methods of `PortfolioWrapper`, end to end -/

namespace PyV.Props

open PyV PyV.Api PyV.Spec.Api PyV.Opt PyV.Spec.Opt PyV.Spec.Con Matrix

variable {N : ℕ}

theorem continuous_coneNorm (L : Matrix (Fin N) (Fin N) ℝ) : Continuous (coneNorm L) := by
  unfold coneNorm
  fun_prop

/-- The robust programme is solved whenever the matrix has a Cholesky factor and the allowed set is non-empty and bounded. -/
theorem robLambda_total {solver : Opt.Solver} (hcmp : Complete solver) {factor : Bayes.Factor} (hf : CholOk factor)
    (a : RobArgs N) (hS : ∃ L, IsChol a.S L) (hc : a.costs = none) (hb : ∃ M, ∀ x, Allowed a.user x → ∀ i, |x i| ≤ M)
    (hne : ∃ x, Allowed a.user x) {lam : ℝ} (hl : 0 ≤ lam) : ∃ res, robLambda solver factor a lam = .ok res := by
  obtain ⟨L, hL, hch⟩ := cholSquare_ok hf a.S hS
  obtain ⟨v, hv, hmin⟩ := Opt.exists_min a.user a.mean none hb (by simpa [Reaches] using hne) (fun x => lam * coneNorm L x - Spec.Opt.ret a.mean x)
    (by
      have := continuous_coneNorm L
      unfold Spec.Opt.ret
      fun_prop)
  have hopt : Optimal (robProg a L lam none) (Sum.elim v (fun _ => coneNorm L v)) := by
    refine ⟨(feasible_rob _ _ _ _ _).2 ⟨?_, le_refl _, by simp⟩, fun y hy => ?_⟩
    · simpa [Reaches] using hv
    · rw [feasible_rob] at hy
      rw [value_rob, value_rob]
      have h1 := hmin (fun i => y (.inl i)) (by simpa [Reaches] using hy.1)
      have h2 := mul_le_mul_of_nonneg_left hy.2.1 hl
      simp only [Sum.elim_inl, Sum.elim_inr]
      linarith
  obtain ⟨x, hx⟩ := hcmp _ inferInstance (robProg a L lam none) (convex_zero _ rfl) ⟨_, hopt⟩
  unfold robLambda
  rw [hL]
  dsimp only
  rw [if_neg (not_lt.2 hl)]
  unfold robSolve
  rw [hc]
  cases a.w0 <;> simp only [hx] <;> exact ⟨_, rfl⟩

/-- **C92** With non-negative penalties, at least one, the sweep succeeds whenever the matrix has a Cholesky factor, no costs are
charged and the allowed set is non-empty and bounded. -/
theorem C92_frontier_total {solver : Opt.Solver} (hcmp : Complete solver) {factor : Bayes.Factor} (hf : CholOk factor)
    (a : RobArgs N) (hS : ∃ L, IsChol a.S L) (hc : a.costs = none) (hb : ∃ M, ∀ x, Allowed a.user x → ∀ i, |x i| ≤ M)
    (hne : ∃ x, Allowed a.user x) (lams : List ℝ) (hl : ∀ l ∈ lams, 0 ≤ l) (h0 : lams ≠ []) :
    ∃ res, robFrontier solver factor a lams = .ok res := by
  obtain ⟨L, hL, -⟩ := cholSquare_ok hf a.S hS
  obtain ⟨res, hres⟩ : ∃ res, mapE (robLambda solver factor a) lams = .ok res := by
    clear h0
    induction lams with
    | nil => exact ⟨[], rfl⟩
    | cons x l ih =>
      obtain ⟨r, hr⟩ := robLambda_total hcmp hf a hS hc hb hne (hl x (by simp))
      obtain ⟨rs, hrs⟩ := ih (fun y hy => hl y (by simp [hy]))
      exact ⟨r :: rs, by simp [mapE, hr, hrs]⟩
  refine ⟨res, ?_⟩
  unfold robFrontier
  rw [hL]
  simp only [hres]
  have hlen := (frontier_forall hres).length_eq
  have : res ≠ [] := by
    rintro rfl
    exact h0 (List.length_eq_zero_iff.mp hlen)
  simp [this]

/-- The hypotheses are met by two assets, the simplex-like set of the counterexample of C67, and penalties `0, 1, 2`. -/
example {solver : Opt.Solver} (hcmp : Complete solver) {factor : Bayes.Factor} (hf : CholOk factor) :
    ∃ res, robFrontier solver factor ⟨![0, 0], !![1, 1; 1, 2], exUser, none, none⟩ [0, 1, 2] = .ok res := by
  refine C92_frontier_total hcmp hf _ ⟨_, (chol_example _).2 rfl⟩ rfl ⟨1, fun x hx => ?_⟩ ⟨![0, 1], (exUser_iff _).2 (by simp)⟩ _ ?_ (by simp)
  · obtain ⟨h0, h1, h2⟩ := (exUser_iff _).1 hx
    intro i
    fin_cases i <;> simp [abs_le] <;> constructor <;> linarith
  · intro l hl
    simp at hl
    rcases hl with rfl | rfl | rfl <;> norm_num

theorem sum_upto {n : ℕ} (j : Fin n) (f : Fin n → ℝ) (h : ∀ k, j < k → f k = 0) : ∑ k, f k = ∑ k ∈ Finset.Iio j, f k + f j := by
  rw [← Finset.sum_subset (Finset.subset_univ (insert j (Finset.Iio j))), Finset.sum_insert (by simp), add_comm]
  intro k _ hk
  simp only [Finset.mem_insert, Finset.mem_Iio, not_or, not_lt] at hk
  exact h k (lt_of_le_of_ne hk.2 (Ne.symm hk.1))

/-- Cholesky factors are unique. -/
theorem isChol_unique {n : ℕ} {A L L' : Matrix (Fin n) (Fin n) ℝ} (h : IsChol A L) (h' : IsChol A L') : L = L' := by
  obtain ⟨h1, h2, h3⟩ := h
  obtain ⟨g1, g2, g3⟩ := h'
  have key : ∀ m : ℕ, ∀ j : Fin n, (j : ℕ) = m → ∀ i, L i j = L' i j := by
    intro m
    induction m using Nat.strong_induction_on with
    | _ m ih =>
      intro j hj
      have hcol : ∀ k, k < j → ∀ i, L i k = L' i k := fun k hk i => ih k (by rw [← hj]; exact hk) k rfl i
      have hpart : ∀ i, ∑ k ∈ Finset.Iio j, L i k * L j k = ∑ k ∈ Finset.Iio j, L' i k * L' j k := fun i =>
        Finset.sum_congr rfl fun k hk => by rw [hcol k (Finset.mem_Iio.1 hk), hcol k (Finset.mem_Iio.1 hk)]
      have hent : ∀ i, L i j * L j j = L' i j * L' j j := by
        intro i
        have e1 := chol_entry h1 i j
        have e2 := chol_entry g1 i j
        rw [sum_upto j _ (fun k hk => by rw [h2 j k hk, mul_zero])] at e1
        rw [sum_upto j _ (fun k hk => by rw [g2 j k hk, mul_zero])] at e2
        linarith [hpart i]
      have hd : L j j = L' j j := by
        have := hent j
        have p1 := h3 j
        have p2 := g3 j
        nlinarith
      intro i
      have := hent i
      rw [hd] at this
      exact mul_right_cancel₀ (g3 j).ne' this
  ext i j
  exact key j j rfl i

/-- **C93** The capped variant answers exactly when both parameters are non-negative and some allowed portfolio stays within the cap
(Cholesky factor available, no costs charged, allowed set bounded). -/
theorem C93_accepts_iff {solver : Opt.Solver} (hsnd : Sound solver) (hcmp : Complete solver) {factor : Bayes.Factor} (hf : CholOk factor)
    (a : RobArgs N) {L : Matrix (Fin N) (Fin N) ℝ} (hL : IsChol a.S L) (hc : a.costs = none) (hb : ∃ M, ∀ x, Allowed a.user x → ∀ i, |x i| ≤ M)
    (gm gs : ℝ) : (∃ res, robGamma solver factor a gm gs = .ok res) ↔
      0 ≤ gm ∧ 0 ≤ gs ∧ ∃ x, Allowed a.user x ∧ coneNorm L x ≤ Real.sqrt gs := by
  obtain ⟨L', hL', hch⟩ := cholSquare_ok hf a.S ⟨L, hL⟩
  have hLL : L' = L := isChol_unique hch hL
  subst hLL
  constructor
  · rintro ⟨res, h⟩
    have hn := (C93_gamma_cap hsnd (factor := factor) a gm gs).1
    obtain ⟨L2, hL2, h1, -, h2, h3, -⟩ := (C93_gamma_cap hsnd a gm gs).2 res h
    rw [hL'] at hL2
    injection hL2 with hL2
    subst hL2
    refine ⟨?_, ?_, res.w, h1, h2.trans h3⟩
    · by_contra hg; exact hn (.inl (not_le.1 hg)) res h
    · by_contra hg; exact hn (.inr (not_le.1 hg)) res h
  · rintro ⟨h1, h2, x0, hx0, hx0'⟩
    have hcont : Continuous fun x : Fin N → ℝ => gm * coneNorm L' x - Spec.Opt.ret a.mean x := by
      have := continuous_coneNorm L'
      unfold Spec.Opt.ret
      fun_prop
    have hcomp : IsCompact ({w | Reaches a.user a.mean none w} ∩ {w | coneNorm L' w ≤ Real.sqrt gs}) :=
      (isCompact_reaches a.user a.mean none hb).inter_right (isClosed_le (continuous_coneNorm L') continuous_const)
    obtain ⟨v, ⟨hv, hv'⟩, hmin⟩ := hcomp.exists_isMinOn ⟨x0, by simpa [Reaches] using hx0, hx0'⟩ hcont.continuousOn
    have hopt : Optimal (robProg a L' gm (some gs)) (Sum.elim v (fun _ => coneNorm L' v)) := by
      refine ⟨(feasible_rob _ _ _ _ _).2 ⟨?_, le_refl _, ?_⟩, fun y hy => ?_⟩
      · have hv2 : Reaches a.user a.mean none v := hv
        simpa [Reaches] using hv2
      · intro g hg
        injection hg with hg
        subst hg
        exact hv'
      · rw [feasible_rob] at hy
        rw [value_rob, value_rob]
        have k1 := hmin (show (fun i => y (.inl i)) ∈ _ from
          ⟨show Reaches a.user a.mean none _ by simpa [Reaches] using hy.1, hy.2.1.trans (hy.2.2 gs rfl)⟩)
        have k2 := mul_le_mul_of_nonneg_left hy.2.1 h1
        simp only [Set.mem_setOf_eq] at k1
        simp only [Sum.elim_inl, Sum.elim_inr]
        linarith
    obtain ⟨x, hx⟩ := hcmp _ inferInstance (robProg a L' gm (some gs)) (convex_zero _ rfl) ⟨_, hopt⟩
    unfold robGamma
    rw [hL']
    dsimp only
    rw [if_neg (by push Not; exact ⟨h1, h2⟩)]
    unfold robSolve
    rw [hc]
    cases a.w0 <;> simp only [hx] <;> exact ⟨_, rfl⟩

/-- The set of the counterexample of C67 (weights `[0,1] × {1}`) is bounded. -/
private theorem exUser_within : ∃ M : ℝ, ∀ x, Allowed exUser x → ∀ i, |x i| ≤ M := by
  refine ⟨1, fun x hx => ?_⟩
  obtain ⟨h0, h1, h2⟩ := (exUser_iff _).1 hx
  intro i
  fin_cases i <;> simp [abs_le] <;> constructor <;> linarith

/-- A cap of one is met by `(0, 1)` and one of a half by nobody: the call succeeds, respectively fails. -/
example {solver : Opt.Solver} (hsnd : Sound solver) (hcmp : Complete solver) {factor : Bayes.Factor} (hf : CholOk factor) :
    (∃ res, robGamma solver factor ⟨![0, 0], !![1, 1; 1, 2], exUser, none, none⟩ 1 1 = .ok res) ∧
    ¬ ∃ res, robGamma solver factor ⟨![0, 0], !![1, 1; 1, 2], exUser, none, none⟩ 1 (1 / 4) = .ok res := by
  have hn : ∀ w, Allowed exUser w → coneNorm !![1, 0; 1, 1] w = Real.sqrt (w 0 ^ 2 + 1) := by
    intro w hw
    obtain ⟨-, -, h3⟩ := (exUser_iff w).1 hw
    unfold coneNorm
    simp [Fin.sum_univ_two, h3]
  have hch : IsChol (!![1, 1; 1, 2] : Matrix (Fin 2) (Fin 2) ℝ) !![1, 0; 1, 1] := (chol_example _).2 rfl
  have hiff := fun gs => C93_accepts_iff hsnd hcmp hf ⟨![0, 0], !![1, 1; 1, 2], exUser, none, none⟩ hch rfl exUser_within 1 gs
  constructor
  · have h0 : Allowed exUser ![0, 1] := (exUser_iff _).2 (by simp)
    exact (hiff 1).2 ⟨by norm_num, by norm_num, _, h0, by rw [hn _ h0]; simp⟩
  · rw [hiff]
    rintro ⟨-, -, x, hx, h⟩
    have hx : Allowed exUser x := hx
    rw [hn _ hx] at h
    have := Real.sqrt_le_sqrt_iff (by positivity : (0:ℝ) ≤ 1 / 4) |>.1 h
    nlinarith [sq_nonneg (x 0)]

/-- `C67_diagonal_partial`, `C92_lambda_monotone` and `C95_positive_lambda_partial` apply: a diagonal matrix with penalties one and two. -/
example {solver : Opt.Solver} (hsnd : Sound solver) (hcmp : Complete solver) {factor : Bayes.Factor} (hf : CholOk factor) :
    ∃ r1 r2, robLambda solver factor ⟨![0, 0], 1, exUser, none, none⟩ 1 = .ok r1 ∧ robLambda solver factor ⟨![0, 0], 1, exUser, none, none⟩ 2 = .ok r2 ∧
      r1.risk = Real.sqrt (quad (1 : Matrix (Fin 2) (Fin 2) ℝ) r1.w) ∧ r2.risk ≤ r1.risk := by
  have hch : IsChol (1 : Matrix (Fin 2) (Fin 2) ℝ) 1 :=
    ⟨by rw [Matrix.transpose_one, Matrix.one_mul], fun _ _ h => Matrix.one_apply_ne h.ne, fun i => by rw [Matrix.one_apply_eq]; norm_num⟩
  have h0 : Allowed exUser ![0, 1] := (exUser_iff _).2 (by simp)
  have ht := fun lam (hl : (0:ℝ) ≤ lam) => robLambda_total hcmp hf ⟨![0, 0], 1, exUser, none, none⟩ ⟨1, hch⟩ rfl exUser_within ⟨_, h0⟩ hl
  obtain ⟨r1, h1⟩ := ht 1 (by norm_num)
  obtain ⟨r2, h2⟩ := ht 2 (by norm_num)
  refine ⟨r1, r2, h1, h2, ?_, (C92_lambda_monotone hsnd _ 1 2 (by norm_num) r1 r2 h1 h2).1⟩
  exact (C67_diagonal_partial hsnd hf _ ⟨1, hch⟩ (fun i j hij => Matrix.one_apply_ne hij) 1 r1 h1).2.2.2.1 (by norm_num)

/-- **C95 is false.** There is a correct solver (it returns an optimal point of every convex programme that has one) with
which `lambda = 0` on a plain two-asset problem reports a risk strictly above the radius of the returned weights. -/
theorem C95_counterexample {factor : Bayes.Factor} (hf : CholOk factor) :
    ∃ solver : Opt.Solver, Sound solver ∧ Complete solver ∧ ∃ (L : Matrix (Fin 2) (Fin 2) ℝ) (res : Result 2),
      (Bayes.cholSquare factor !![1, 1; 1, 2]).result = .ok L ∧
      robLambda solver factor ⟨![1/10, 1/20], !![1, 1; 1, 2], exUser, none, none⟩ 0 = .ok res ∧ coneNorm L res.w < res.risk := by
  classical
  obtain ⟨s, hsnd, hcmp⟩ := exists_solver
  -- another correct solver, which prefers a different optimum whenever there is one
  let s' : Opt.Solver := fun V i pr => if h : ∃ y, Optimal pr y ∧ s V i pr ≠ some y then some h.choose else s V i pr
  have hsnd' : Sound s' := by
    intro V i pr x hc h
    dsimp only [s'] at h
    split at h
    · rename_i hx
      injection h with h; subst h; exact hx.choose_spec.1
    · exact hsnd V i pr x hc h
  have hcmp' : Complete s' := by
    intro V i pr hc hx
    by_cases h : ∃ y, Optimal pr y ∧ s V i pr ≠ some y
    · exact ⟨_, dif_pos h⟩
    · obtain ⟨x, hx⟩ := hcmp V i pr hc hx
      exact ⟨x, (dif_neg h).trans hx⟩
  set a : RobArgs 2 := ⟨![1/10, 1/20], !![1, 1; 1, 2], exUser, none, none⟩ with ha
  have hex : ∃ L, IsChol a.S L := ⟨_, (chol_example _).2 rfl⟩
  have hb : ∃ M, ∀ x, Allowed a.user x → ∀ i, |x i| ≤ M := exUser_bounded
  have hne : ∃ x, Allowed a.user x := ⟨![0, 1], (exUser_iff _).2 (by simp)⟩
  obtain ⟨L, hL, -⟩ := cholSquare_ok hf a.S hex
  obtain ⟨r, hr⟩ := robLambda_total hcmp hf a hex rfl hb hne le_rfl
  obtain ⟨r', hr'⟩ := robLambda_total hcmp' hf a hex rfl hb hne le_rfl
  have key : ∀ (q : Opt.Solver), Sound q → ∀ res, robLambda q factor a 0 = .ok res →
      ∃ x, q _ inferInstance (robProg a L 0 none) = some x ∧ res.w = (fun i => x (.inl i)) ∧ res.risk = x (.inr ()) ∧
        coneNorm L res.w ≤ res.risk ∧ res.w = ![1, 0] := by
    intro q hq res h
    unfold robLambda at h
    rw [hL] at h
    simp only [lt_irrefl, if_false] at h
    obtain ⟨h1, h2, h3, -, h5⟩ := robSolve_spec hq a L 0 none res h
    have h6 := h5 ![1, 0] _ ((exUser_iff _).2 (by simp)) le_rfl (by simp)
    obtain ⟨k0, k1, k2⟩ := (exUser_iff _).1 h1
    rw [h2] at h6
    simp [ha, Spec.Opt.ret, Fin.sum_univ_two] at h6
    have e : ∃ x, q _ inferInstance (robProg a L 0 none) = some x ∧
        res = ⟨fun i => x (Sum.inl i), dot a.mean (fun i => x (Sum.inl i)), x (Sum.inr ())⟩ := by
      unfold robSolve at h
      split at h
      · cases h
      · split at h
        · cases h
        · rename_i x hx
          injection h with h
          exact ⟨x, hx, h.symm⟩
    obtain ⟨x, hx, hres⟩ := e
    refine ⟨x, hx, by rw [hres], by rw [hres], h3, ?_⟩
    funext i
    fin_cases i
    · show res.w 0 = 1; linarith
    · show res.w 1 = 0; linarith
  obtain ⟨x, hx, hw, hk, hle, hu⟩ := key s hsnd r hr
  obtain ⟨x', hx', hw', hk', hle', hu'⟩ := key s' hsnd' r' hr'
  have hconv : Convex (robProg a L 0 none) := convex_zero _ rfl
  have hne : r.risk ≠ r'.risk := by
    intro he
    have hopt := hsnd _ _ _ _ hconv hx
    have hother : ∃ y, Optimal (robProg a L 0 none) y ∧ s _ inferInstance (robProg a L 0 none) ≠ some y := by
      refine ⟨_, C95_zero_lambda_risk_undetermined a L x hopt (x (.inr ()) + 1) (by linarith), ?_⟩
      rw [hx]
      intro hc
      injection hc with hc
      have := congrFun hc (.inr ())
      simp at this
    have hd : s' _ inferInstance (robProg a L 0 none) = some hother.choose := dif_pos hother
    have hs := hother.choose_spec
    rw [hx'] at hd
    injection hd with hd
    rw [← hd] at hs
    refine hs.2 ?_
    rw [hx]
    congr 1
    funext v
    rcases v with i | u
    · have e1 := congrFun hw i
      have e2 := congrFun hw' i
      rw [← e1, ← e2, hu, hu']
    · rw [← hk, ← hk']; exact he
  rcases lt_or_eq_of_le hle with h | h
  · exact ⟨s, hsnd, hcmp, L, r, hL, hr, h⟩
  · refine ⟨s', hsnd', hcmp', L, r', hL, hr', lt_of_le_of_ne hle' (fun h' => hne ?_)⟩
    rw [← h, ← h', hu, hu']

/-- A column of the swept frontier is a solution of the robust problem at its penalty. -/
theorem robustFrontier_columns {solver : Opt.Solver} {factor : Bayes.Factor} {w : Wrapper N} {mu : Fin N → ℝ}
    {cov : Matrix (Fin N) (Fin N) ℝ} (hmu : w.mu = some mu) (hcov : w.cov = some cov) {con : Option (PyV.Con.Spec ℝ)} {u : User N}
    (hu : w.user con = .ok u) {costs : Option Costs} {num : ℤ} {maxLam : ℝ} {lambdas : Option (List ℝ)} {cols : List (Column N)}
    (h : w.robustFrontier solver factor num maxLam lambdas con costs = .ok cols) :
    ∃ grid, lambdaGrid num maxLam lambdas = .ok grid ∧ (cols.map Column.lam).Perm grid ∧
      cols.Pairwise (fun a b => a.risk ≤ b.risk) ∧
      ∀ col ∈ cols, ∃ r, robLambda solver factor (robOf mu (w.unc.getD cov) u (w.resolveCosts costs)) col.lam = .ok r ∧
        col.w = r.w ∧ col.risk = r.risk ∧ col.ret = Spec.Opt.ret (w.report mu cov).1 r.w := by
  unfold Wrapper.robustFrontier Wrapper.moments at h
  rw [hmu, hcov] at h
  simp only [hu] at h
  cases hg : lambdaGrid num maxLam lambdas with
  | error e => rw [hg] at h; cases h
  | ok grid =>
    rw [hg] at h
    simp only at h
    split at h
    · cases h
    rename_i res hres
    injection h with h
    have hF := Ens.mapE_iff.1 hres
    have hlen := hF.length_eq
    set raw := grid.zipWith (fun l (r : Opt.Result N) => (⟨l, r.w, retOf (w.report mu cov).1 r.w, r.risk⟩ : Column N)) res with hraw
    have hperm : cols.Perm raw := by rw [← h]; exact List.mergeSort_perm _ _
    refine ⟨grid, rfl, ?_, ?_, ?_⟩
    · refine (hperm.map _).trans (List.Perm.of_eq ?_)
      rw [hraw, List.map_zipWith]
      apply List.ext_getElem
      · simp [hlen]
      · intro k h1 h2; simp
    · rw [← h]
      have := List.pairwise_mergeSort (le := fun a b : Column N => decide (a.risk ≤ b.risk))
        (by intro a b c hab hbc; simp only [decide_eq_true_eq] at *; exact le_trans hab hbc)
        (by intro a b; simp only [Bool.or_eq_true, decide_eq_true_eq]; exact le_total _ _) raw
      exact this.imp (by intro a b hab; simpa using hab)
    · intro col hcol
      have := hperm.mem_iff.1 hcol
      rw [hraw] at this
      obtain ⟨k, hk, rfl⟩ := List.getElem_of_mem this
      simp only [List.length_zipWith] at hk
      rw [List.forall₂_iff_get] at hF
      have := hF.2 k (by omega) (by omega)
      simp only [List.getElem_zipWith]
      exact ⟨_, this, rfl, rfl, rfl⟩

/-- The penalties asked for: the list given, or `num` equally spaced ones from zero to the maximum. -/
def PenaltyGrid (num : ℤ) (maxLam : ℝ) (lambdas : Option (List ℝ)) (grid : List ℝ) : Prop :=
  match lambdas with
  | some l => l ≠ [] ∧ (∀ x ∈ l, 0 ≤ x) ∧ grid = l
  | none => 0 < num ∧ 0 ≤ maxLam ∧
      ((num = 1 ∧ grid = [maxLam]) ∨ (1 < num ∧ maxLam = 0 ∧ grid = [0]) ∨
        (1 < num ∧ 0 < maxLam ∧ (grid.length : ℤ) = num ∧ ∀ (k : ℕ) (hk : k < grid.length), grid[k] * (num - 1) = k * maxLam))

theorem linspace_mul {maxLam : ℝ} {num : ℤ} (h : 1 < num) (k : ℕ) :
    linspace 0 maxLam num.toNat k * (num - 1) = k * maxLam := by
  have h1 : ((num.toNat : ℕ) : ℝ) = (num : ℝ) := by
    have : ((num.toNat : ℕ) : ℤ) = num := Int.toNat_of_nonneg (by omega)
    exact_mod_cast this
  have h2 : (num : ℝ) - 1 ≠ 0 := by
    have : (1 : ℝ) < num := by exact_mod_cast h
    linarith
  unfold linspace
  rw [h1]
  field_simp
  ring

theorem lambdaGrid_spec (num : ℤ) (maxLam : ℝ) (lambdas : Option (List ℝ)) (grid : List ℝ) :
    lambdaGrid num maxLam lambdas = .ok grid ↔ PenaltyGrid num maxLam lambdas grid := by
  cases lambdas with
  | some l =>
    simp only [lambdaGrid, PenaltyGrid]
    by_cases h1 : l = []
    · simp [h1]
    by_cases h2 : ∃ x ∈ l, x < 0
    · rw [if_neg h1, if_pos h2]
      obtain ⟨x, hx, hx0⟩ := h2
      simp only [reduceCtorEq, false_iff]
      rintro ⟨-, h, -⟩
      exact absurd (h x hx) (not_le.2 hx0)
    · rw [if_neg h1, if_neg h2]
      push Not at h2
      exact ⟨fun h => ⟨h1, h2, by injection h with h; exact h.symm⟩, fun h => by rw [h.2.2]⟩
  | none =>
    simp only [lambdaGrid, PenaltyGrid]
    by_cases h1 : num ≤ 0
    · simp [h1, not_lt.2 h1]
    rw [if_neg h1]
    push Not at h1
    by_cases h2 : maxLam < 0
    · simp [h2, not_le.2 h2]
    rw [if_neg h2]
    push Not at h2
    by_cases h3 : num = 1
    · simp [h3, h2, eq_comm]
    rw [if_neg h3]
    have h3' : 1 < num := by omega
    by_cases h4 : maxLam = 0
    · simp [h1, h3, h3', h4, eq_comm]
    rw [if_neg h4]
    have h4' : 0 < maxLam := lt_of_le_of_ne h2 (Ne.symm h4)
    simp only [h1, h2, h3, h3', h4, h4', true_and, false_and, and_false, false_or]
    have hnum : (num : ℝ) - 1 ≠ 0 := by
      have : (1 : ℝ) < num := by exact_mod_cast h3'
      linarith
    constructor
    · intro h
      injection h with h
      subst h
      refine ⟨by simp; omega, fun k hk => ?_⟩
      simp only [List.getElem_map, List.getElem_range]
      exact linspace_mul h3' k
    · rintro ⟨hl, hk⟩
      congr 1
      apply List.ext_getElem
      · simp; omega
      · intro k h5 h6
        simp only [List.getElem_map, List.getElem_range]
        exact mul_right_cancel₀ hnum ((linspace_mul h3' k).trans (hk k h6).symm)

theorem lambdaGrid_error (num : ℤ) (maxLam : ℝ) (lambdas : Option (List ℝ)) (e : PyErr)
    (h : lambdaGrid num maxLam lambdas = .error e) : e = .valueError := by
  unfold lambdaGrid at h
  cases lambdas with
  | some l =>
    simp only at h
    split at h
    · injection h with h; exact h.symm
    split at h
    · injection h with h; exact h.symm
    · cases h
  | none =>
    simp only at h
    split at h
    · injection h with h; exact h.symm
    split at h
    · injection h with h; exact h.symm
    split at h
    · cases h
    split at h
    · cases h
    · cases h

/-- The estimation-risk norm that the robust methods of the wrapper bound: `||L x||` for the Cholesky factor `L` of the uncertainty
matrix, the one passed by `from_robust_posterior` or else the covariance. -/
def IsEstimationRisk (S : Matrix (Fin N) (Fin N) ℝ) (rho : (Fin N → ℝ) → ℝ) : Prop := ∃ L, IsChol S L ∧ rho = coneNorm L

/-- The mean returns a wrapper reports: those of the lognormal distribution for a wrapper of log returns. -/
noncomputable def reportedMean (isLog : Bool) (mu : Fin N → ℝ) (cov : Matrix (Fin N) (Fin N) ℝ) : Fin N → ℝ := fun i =>
  if isLog then Real.exp (mu i + cov i i / 2) - 1 else mu i

theorem report_mean (w : Wrapper N) (mu : Fin N → ℝ) (cov : Matrix (Fin N) (Fin N) ℝ) : (w.report mu cov).1 = reportedMean w.isLog mu cov := by
  unfold Wrapper.report reportedMean
  cases w.isLog
  · rfl
  · funext i
    simp only [if_true, Proj.log2simple]
    congr 2; ring

/-- **C110** `robust_lambda_frontier`, without proportional costs, with a positive definite uncertainty matrix and a non-empty bounded set of
allowed portfolios: a valid grid gives a frontier with one column per penalty, the penalties recorded, sorted by risk; every column
satisfies the constraints and minimises penalty times estimation risk minus mean return; the return reported is the column's and, for a
positive penalty, so is the risk; for simple returns the returns do not decrease.  An invalid grid raises `ValueError`. -/
theorem C110_robust_frontier_partial {solver : Opt.Solver} (hsnd : Sound solver) (hcmp : Complete solver) {factor : Bayes.Factor} (hf : CholOk factor)
    (w : Wrapper N) (mu : Fin N → ℝ) (cov : Matrix (Fin N) (Fin N) ℝ) (hmu : w.mu = some mu) (hcov : w.cov = some cov)
    (hS : ∃ L, IsChol (w.unc.getD cov) L) (con : Option (PyV.Con.Spec ℝ)) (c : PyV.Con.Spec ℝ)
    (hin : InForce w con c) (hb : ∃ M, ∀ x : Fin N → ℝ, Satisfies c x → ∀ i, |x i| ≤ M) (hne : ∃ x : Fin N → ℝ, Satisfies c x)
    (costs : Option Costs) (w0 imp : Option (Fin N → ℝ)) (htr : Trading w costs w0 imp none)
    (num : ℤ) (maxLam : ℝ) (lambdas : Option (List ℝ)) :
    (∀ grid, PenaltyGrid num maxLam lambdas grid →
      ∃ cols, w.robustFrontier solver factor num maxLam lambdas con costs = .ok cols ∧
        (cols.map Column.lam).Perm grid ∧ cols.Pairwise (fun a b => a.risk ≤ b.risk) ∧
        (w.isLog = false → cols.Pairwise (fun a b => a.ret ≤ b.ret)) ∧
        ∃ rho, IsEstimationRisk (w.unc.getD cov) rho ∧ ∀ col ∈ cols, Satisfies c col.w ∧
          col.ret = ret (reportedMean w.isLog mu cov) col.w ∧ rho col.w ≤ col.risk ∧
          (0 < col.lam → col.risk = rho col.w) ∧
          ∀ x, Satisfies c x → col.lam * rho col.w - ret mu col.w ≤ col.lam * rho x - ret mu x) ∧
    ((¬∃ grid, PenaltyGrid num maxLam lambdas grid) →
      w.robustFrontier solver factor num maxLam lambdas con costs = .error .valueError) := by
  obtain ⟨u, hu, hall⟩ := user_spec hin
  set a := robOf mu (w.unc.getD cov) u (w.resolveCosts costs) with ha
  have hcost : a.costs = none := by rw [ha, resolve_trading htr]; rfl
  have hau : a.user = u := rfl
  constructor
  · intro grid hg
    have htot : ∃ cols, w.robustFrontier solver factor num maxLam lambdas con costs = .ok cols := by
      have hg' := (lambdaGrid_spec _ _ _ _).2 hg
      have hpos : ∀ l ∈ grid, 0 ≤ l := by
        unfold PenaltyGrid at hg
        cases lambdas with
        | some l => obtain ⟨-, h, rfl⟩ := hg; exact h
        | none =>
          obtain ⟨h1, h2, ⟨-, rfl⟩ | ⟨-, -, rfl⟩ | ⟨h3, h4, h5, h6⟩⟩ := hg
          · simpa using h2
          · simp
          · intro l hl
            obtain ⟨k, hk, rfl⟩ := List.getElem_of_mem hl
            have h7 := h6 k hk
            have h8 : (0 : ℝ) < (num : ℝ) - 1 := by
              have : (1 : ℝ) < num := by exact_mod_cast h3
              linarith
            have h9 : (0 : ℝ) ≤ grid[k] * ((num : ℝ) - 1) := by rw [h7]; positivity
            exact nonneg_of_mul_nonneg_left h9 h8
      have hex : ∀ l ∈ grid, ∃ r, robLambda solver factor a l = .ok r := fun l hl =>
        robLambda_total hcmp hf a hS hcost (by
          obtain ⟨M, hM⟩ := hb; exact ⟨M, fun x hx => hM x ((hall x).1 hx)⟩) (by
          obtain ⟨x, hx⟩ := hne; exact ⟨x, (hall x).2 hx⟩) (hpos l hl)
      obtain ⟨res, hres⟩ : ∃ res, mapE (robLambda solver factor a) grid = .ok res := by
        clear hg hg' hpos
        induction grid with
        | nil => exact ⟨[], rfl⟩
        | cons x l ih =>
          obtain ⟨r, hr⟩ := hex x (by simp)
          obtain ⟨rs, hrs⟩ := ih (fun y hy => hex y (by simp [hy]))
          exact ⟨r :: rs, by simp [mapE, hr, hrs]⟩
      unfold Wrapper.robustFrontier Wrapper.moments
      rw [hmu, hcov]
      simp only [hu, hg']
      rw [← ha, hres]
      exact ⟨_, rfl⟩
    obtain ⟨cols, hcols⟩ := htot
    obtain ⟨grid', hg', hperm, hsort, hcol⟩ := robustFrontier_columns hmu hcov hu hcols
    have : grid' = grid := by
      rw [(lambdaGrid_spec _ _ _ _).2 hg] at hg'; injection hg' with hg'; exact hg'.symm
    subst this
    obtain ⟨L, hL, hch⟩ := cholSquare_ok hf a.S hS
    have hspec : ∀ col ∈ cols, Satisfies c col.w ∧ col.ret = ret (reportedMean w.isLog mu cov) col.w ∧
        coneNorm L col.w ≤ col.risk ∧ 0 ≤ col.lam ∧
        ∀ x t, Satisfies c x → coneNorm L x ≤ t → col.lam * col.risk - ret mu col.w ≤ col.lam * t - ret mu x := by
      intro col hc
      obtain ⟨r, hr, e1, e2, e3⟩ := hcol col hc
      rw [← ha] at hr
      unfold robLambda at hr
      rw [hL] at hr
      dsimp only at hr
      split at hr
      · cases hr
      rename_i hlam
      obtain ⟨g1, g2, g3, -, g5⟩ := robSolve_spec hsnd a L col.lam none r hr
      rw [report_mean] at e3
      rw [e1, e2, e3]
      refine ⟨(hall _).1 g1, rfl, g3, not_lt.1 hlam, fun x t hx ht => ?_⟩
      have := g5 x t ((hall x).2 hx) ht (by simp)
      rw [g2] at this
      exact this
    refine ⟨cols, hcols, hperm, hsort, ?_, coneNorm L, ⟨L, hch, rfl⟩, fun col hc => ?_⟩
    · intro hlog
      refine List.Pairwise.imp_of_mem ?_ hsort
      intro x y hx hy hxy
      obtain ⟨h1, h2, h3, -, -⟩ := hspec x hx
      obtain ⟨-, h2', -, h4, h5⟩ := hspec y hy
      have := h5 x.w x.risk h1 h3
      have e : reportedMean w.isLog mu cov = mu := by funext i; simp [reportedMean, hlog]
      rw [e] at h2 h2'
      rw [← h2, ← h2'] at this
      nlinarith [mul_le_mul_of_nonneg_left hxy h4]
    · obtain ⟨h1, h2, h3, h4, h5⟩ := hspec col hc
      refine ⟨h1, h2, h3, fun hl => ?_, fun x hx => ?_⟩
      · have := h5 col.w _ h1 (le_refl _)
        exact le_antisymm (le_of_mul_le_mul_left (by linarith) hl) h3
      · have := h5 x _ hx (le_refl _)
        have := mul_le_mul_of_nonneg_left h3 h4
        linarith
  · intro hno
    cases hg : lambdaGrid num maxLam lambdas with
    | ok grid => exact absurd ⟨grid, (lambdaGrid_spec _ _ _ _).1 hg⟩ hno
    | error e =>
      have := lambdaGrid_error _ _ _ _ hg
      subst this
      unfold Wrapper.robustFrontier Wrapper.moments
      rw [hmu, hcov]
      simp only [hu, hg]

/-- **C110** (false of the code for wrappers of log returns) the frontier of two assets for which the returns reported decrease with
risk. -/
theorem C110_counterexample : ∃ (w : Wrapper 2) (mu : Fin 2 → ℝ) (cov S : Matrix (Fin 2) (Fin 2) ℝ),
    w.mu = some mu ∧ w.cov = some cov ∧ w.unc = some S ∧ w.isLog = true ∧ InForce w none PyV.Con.defaultSpec ∧
    ∀ solver factor, Sound solver → Complete solver → CholOk factor →
      ∃ a b, w.robustFrontier solver factor 2 1 none none none = .ok [a, b] ∧ b.ret < a.ret := by
  obtain ⟨w, hmu, hcov, -, hlog, -, hin, htr⟩ := exists_wrapper (N := 2) (by norm_num)
    (some ![1/10, 0]) (some (Matrix.diagonal ![0, 1])) none true
  have hS : IsChol (Matrix.diagonal ![(4 : ℝ), 1]) (Matrix.diagonal ![2, 1]) := by
    refine ⟨?_, fun i j h => Matrix.diagonal_apply_ne _ h.ne, fun i => by fin_cases i <;> simp⟩
    rw [Matrix.diagonal_transpose, Matrix.diagonal_mul_diagonal]
    congr 1
    funext i; fin_cases i <;> norm_num
  refine ⟨{ w with unc := some (Matrix.diagonal ![4, 1]) }, _, _, _, hmu, hcov, rfl, hlog, hin, fun solver factor hs hc hf => ?_⟩
  obtain ⟨cols, hcols, hperm, hsort, -, rho, ⟨L, hL, rfl⟩, hcol⟩ := (C110_robust_frontier_partial hs hc hf
    { w with unc := some (Matrix.diagonal ![4, 1]) } _ _ hmu hcov ⟨_, hS⟩ none PyV.Con.defaultSpec hin default_bounded
    ⟨![1, 0], (satisfies_default _).2 ⟨fun i => by fin_cases i <;> simp, by simp⟩⟩ none none none htr 2 1 none).1 [0, 1] (by
      refine ⟨by norm_num, by norm_num, Or.inr (Or.inr ⟨by norm_num, by norm_num, by simp, fun k hk => ?_⟩)⟩
      have : k = 0 ∨ k = 1 := by simp at hk; omega
      rcases this with rfl | rfl <;> norm_num)
  have hlen : cols.length = 2 := by simpa using hperm.length_eq
  have hq : ∀ x, coneNorm L x = Real.sqrt (4 * x 0 ^ 2 + x 1 ^ 2) := by
    intro x
    rw [(C67_right_iff_diagonal hL).2 (fun i j h => Matrix.diagonal_apply_ne _ h) x]
    congr 1
    simp [quad, Fin.sum_univ_two, Matrix.diagonal]
    ring
  have key : ∀ a ∈ cols, ∀ b ∈ cols, a.lam = 1 → b.lam = 0 → a.risk < b.risk ∧ b.ret < a.ret := by
    intro a ha b hb la lb
    obtain ⟨a1, a2, a3, a4, a5⟩ := hcol a ha
    obtain ⟨b1, b2, b3, -, b5⟩ := hcol b hb
    obtain ⟨an, as⟩ := (satisfies_default _).1 a1
    obtain ⟨bn, bs⟩ := (satisfies_default _).1 b1
    have e0 : Satisfies (PyV.Con.defaultSpec : PyV.Con.Spec ℝ) ![(1 : ℝ), 0] :=
      (satisfies_default _).2 ⟨fun i => by fin_cases i <;> simp, by simp⟩
    have e1 : Satisfies (PyV.Con.defaultSpec : PyV.Con.Spec ℝ) ![(0 : ℝ), 1] :=
      (satisfies_default _).2 ⟨fun i => by fin_cases i <;> simp, by simp⟩
    have p := a5 _ e1
    have q := b5 _ e0
    have an0 := an 0
    have an1 := an 1
    have bn1 := bn 1
    simp only [Fin.sum_univ_two] at as bs
    rw [la, hq, hq] at p
    rw [lb] at q
    simp [Spec.Opt.ret, Fin.sum_univ_two] at p q
    have hb0 : b.w 0 = 1 := by linarith
    have hb1 : b.w 1 = 0 := by linarith
    have hra : a.risk ≤ 11 / 10 := by
      rw [a4 (by rw [la]; norm_num), hq]; linarith
    have hrb : 2 ≤ b.risk := by
      rw [hq, hb0, hb1] at b3
      have : Real.sqrt (4 * 1 ^ 2 + 0 ^ 2) = 2 := by
        rw [show (4 * 1 ^ 2 + 0 ^ 2 : ℝ) = 2 ^ 2 by norm_num]; exact Real.sqrt_sq (by norm_num)
      linarith
    have ha0 : a.w 0 < 1 := by
      by_contra hcon
      push Not at hcon
      have h1 : a.w 0 = 1 := by linarith
      have h2 : a.w 1 = 0 := by linarith
      rw [hq, h1, h2] at a3
      have : Real.sqrt (4 * 1 ^ 2 + 0 ^ 2) = 2 := by
        rw [show (4 * 1 ^ 2 + 0 ^ 2 : ℝ) = 2 ^ 2 by norm_num]; exact Real.sqrt_sq (by norm_num)
      linarith
    refine ⟨by linarith, ?_⟩
    rw [a2, b2]
    simp [Spec.Opt.ret, reportedMean, hlog, Fin.sum_univ_two, hb0, hb1]
    have hexp : Real.exp (10⁻¹) < Real.exp (2⁻¹) := Real.exp_lt_exp.2 (by norm_num)
    have ha1 : a.w 1 = 1 - a.w 0 := by linarith
    rw [ha1]
    nlinarith [mul_pos (sub_pos.2 hexp) (sub_pos.2 ha0)]
  match cols, hlen, hperm, hsort, key, hcols with
  | [x, y], _, hperm, hsort, key, hcols =>
    simp only [List.map_cons, List.map_nil] at hperm
    have hxy : x.risk ≤ y.risk := by simpa using hsort
    have h2 : [x.lam, y.lam] = [0, 1] ∨ [x.lam, y.lam] = [1, 0] := by
      have hx : x.lam ∈ [(0 : ℝ), 1] := hperm.mem_iff.1 (by simp)
      have hy : y.lam ∈ [(0 : ℝ), 1] := hperm.mem_iff.1 (by simp)
      have hs := hperm.sum_eq
      simp at hx hy hs
      rcases hx with hx | hx <;> rcases hy with hy | hy <;> simp [hx, hy] at hs ⊢
    rcases h2 with h2 | h2
    · simp at h2
      have := (key y (by simp) x (by simp) h2.2 h2.1).1
      linarith
    · simp at h2
      exact ⟨x, y, hcols, (key x (by simp) y (by simp) h2.1 h2.2).2⟩

/-! ## C104: the annualisation factor -/

/-- The wrapper `from_robust_posterior` builds. -/
theorem fromRobust_fields {n : ℕ} (hn : 0 < n) (mu : Fin n → ℝ) (sigma sMu : Matrix (Fin n) (Fin n) ℝ) (h : ℝ) (c : PyV.Con.Spec ℝ)
    (costs : Option Costs) (lo : Bool) (t : Option (PyFloat ℝ)) (bd : Option (PyV.Con.Bounds ℝ)) (N : ℕ) (w : Wrapper N)
    (hw : fromRobustPosterior mu sigma sMu h (some c) costs lo t bd = .ok ⟨N, w⟩) (hex : ∃ x : Fin n → ℝ, ¬ Satisfies c x) :
    ∃ e : N = n, (e ▸ w).mu = some (fun i => mu i * h) ∧ (e ▸ w).unc = some (h ^ 2 • sMu) ∧ (e ▸ w).isLog = true ∧
      InForce (e ▸ w) none c ∧ (∃ P, (e ▸ w).cov = some P) ∧ (costs = none → Trading (e ▸ w) none none none none) := by
  obtain ⟨P, names, hfm, -, -⟩ := C103_simple (mu := .array (List.ofFn (fun i => .fin (mu i * h))))
    (cov := .array ⟨n, n, fun i j => .fin (sigma i j * h)⟩) hn (m := fun i => mu i * h) (C := fun i j => sigma i j * h)
    rfl ⟨_, .inl rfl, rfl, rfl, fun _ _ => rfl⟩ (by simp [momentLabels, labelLists]) "simple" (by decide)
  unfold fromRobustPosterior at hw
  rw [hfm] at hw
  simp only at hw
  cases hm : mkWrapper ⟨n, some (fun i => mu i * h), some P, none, names⟩ (some c) costs lo t bd with
  | error e => rw [hm] at hw; cases hw
  | ok w0 =>
    rw [hm] at hw
    injection hw with hw
    injection hw with e1 e2
    subst e1
    have e2 := eq_of_heq e2
    obtain ⟨g1, g2, g3, g4⟩ := C105_constructor hm hex
    subst e2
    refine ⟨rfl, g2, ?_, rfl, g1, ⟨P, g3⟩, ?_⟩
    · simp only
      congr 1
      ext i j
      simp [mul_comm]
    · rintro rfl
      refine Or.inr ⟨rfl, ?_⟩
      unfold mkWrapper at hm
      cases h1 : Fr.setupConstraints n (some c) lo t bd with
      | error e => rw [h1] at hm; cases hm
      | ok m =>
        rw [h1] at hm
        simp only [applyCosts] at hm
        injection hm with hm
        subst hm
        rfl

theorem isChol_smul {n : ℕ} {A L : Matrix (Fin n) (Fin n) ℝ} (h : IsChol A L) {k : ℝ} (hk : 0 < k) : IsChol (k ^ 2 • A) (k • L) := by
  obtain ⟨h1, h2, h3⟩ := h
  refine ⟨?_, fun i j hij => by simp [h2 i j hij], fun i => by simpa using mul_pos hk (h3 i)⟩
  rw [← h1, Matrix.transpose_smul, Matrix.smul_mul, Matrix.mul_smul, smul_smul, sq]

theorem coneNorm_smul {k : ℝ} (hk : 0 ≤ k) (L : Matrix (Fin N) (Fin N) ℝ) (x : Fin N → ℝ) : coneNorm (k • L) x = k * coneNorm L x := by
  unfold coneNorm
  rw [← Real.sqrt_sq hk, ← Real.sqrt_mul (sq_nonneg k), Real.sqrt_sq hk]
  congr 1
  rw [Finset.mul_sum]
  refine Finset.sum_congr rfl fun i _ => ?_
  simp only [Matrix.smul_apply, smul_eq_mul, mul_assoc]
  rw [← Finset.mul_sum, mul_pow]

/-- **C104** For a wrapper made by `from_robust_posterior` from any posterior with a positive definite scatter of the mean, and for every
positive annualisation factor, the columns of `robust_lambda_frontier` are portfolios satisfying the constraints that minimise
`lambda ||L x|| - mu' x`, where `L` and `mu` are the Cholesky factor of the posterior scatter and the posterior mean: a problem that does
not mention the factor. -/
theorem C104_factor_free {n : ℕ} (hn : 0 < n) (mu : Fin n → ℝ) (sigma sMu : Matrix (Fin n) (Fin n) ℝ) (hS : ∃ L, IsChol sMu L)
    (c : PyV.Con.Spec ℝ) (hex : ∃ x : Fin n → ℝ, ¬ Satisfies c x) :
    ∃ rho, IsEstimationRisk sMu rho ∧ ∀ h : ℝ, 0 < h →
      ∀ solver factor, Sound solver → CholOk factor → ∀ (lo : Bool) (t : Option (PyFloat ℝ)) (bd : Option (PyV.Con.Bounds ℝ)) (w : Wrapper n),
        fromRobustPosterior mu sigma sMu h (some c) none lo t bd = .ok ⟨n, w⟩ →
        ∀ num maxLam lambdas cols, w.robustFrontier solver factor num maxLam lambdas none none = .ok cols →
          ∀ col ∈ cols, Satisfies c col.w ∧ (0 < col.lam → col.risk = h * rho col.w) ∧
            ∀ x, Satisfies c x → col.lam * rho col.w - ret mu col.w ≤ col.lam * rho x - ret mu x := by
  obtain ⟨L, hL⟩ := hS
  refine ⟨coneNorm L, ⟨L, hL, rfl⟩, fun h hh solver factor hs hf lo t bd w hw num maxLam lambdas cols hcols col hcol => ?_⟩
  obtain ⟨e, e1, e2, -, e4, ⟨P, e5⟩, -⟩ := fromRobust_fields hn mu sigma sMu h c none lo t bd n w hw hex
  have : e = rfl := rfl
  subst this
  simp only at e1 e2 e4 e5
  obtain ⟨u, hu, hall⟩ := user_spec e4
  obtain ⟨grid, -, -, -, hc⟩ := robustFrontier_columns e1 e5 hu hcols
  obtain ⟨r, hr, r1, r2, -⟩ := hc col hcol
  have hS' : ∃ L', IsChol (w.unc.getD P) L' := ⟨h • L, by rw [e2]; exact isChol_smul hL hh⟩
  obtain ⟨L', hL', a1, a2, -, a3, a4, a5⟩ := C67_actual_objective hs hf _ hS' col.lam r hr
  have hLe : L' = h • L := isChol_unique hL' (by
    show IsChol (w.unc.getD P) _
    rw [e2]; exact isChol_smul hL hh)
  subst hLe
  rw [r1, r2]
  have hret : ∀ x : Fin n → ℝ, ret (fun i => mu i * h) x = h * ret mu x := by
    intro x; unfold Spec.Opt.ret; rw [Finset.mul_sum]; exact Finset.sum_congr rfl fun i _ => by ring
  refine ⟨(hall _).1 a1, fun hl => by rw [a4 hl, coneNorm_smul hh.le], fun x hx => ?_⟩
  have := a5 x ((hall x).2 hx)
  rw [a2] at this
  simp only [coneNorm_smul hh.le] at this
  have e6 : ∀ x : Fin n → ℝ, ret (robOf (fun i => mu i * h) (w.unc.getD P) u (w.resolveCosts none)).mean x = h * ret mu x := hret
  rw [e6, e6] at this
  have h2 : h * (col.lam * coneNorm L r.w - ret mu r.w) ≤ h * (col.lam * coneNorm L x - ret mu x) := by linarith
  exact le_of_mul_le_mul_left h2 hh

/-- **C104** In particular, when the robust problem has a single solution, two wrappers made with different annualisation factors return the
same weights for the same penalty. -/
theorem C104_same_weights {n : ℕ} (hn : 0 < n) (mu : Fin n → ℝ) (sigma sMu : Matrix (Fin n) (Fin n) ℝ) (hS : ∃ L, IsChol sMu L)
    (c : PyV.Con.Spec ℝ) (hex : ∃ x : Fin n → ℝ, ¬ Satisfies c x) (lam : ℝ)
    (huniq : ∀ rho, IsEstimationRisk sMu rho → ∀ x y : Fin n → ℝ, Satisfies c x → Satisfies c y →
      (∀ z, Satisfies c z → lam * rho x - ret mu x ≤ lam * rho z - ret mu z) →
      (∀ z, Satisfies c z → lam * rho y - ret mu y ≤ lam * rho z - ret mu z) → x = y)
    (h h' : ℝ) (hh : 0 < h) (hh' : 0 < h') (solver : Opt.Solver) (factor : Bayes.Factor) (hs : Sound solver) (hf : CholOk factor)
    (lo : Bool) (t : Option (PyFloat ℝ)) (bd : Option (PyV.Con.Bounds ℝ)) (w w' : Wrapper n)
    (hw : fromRobustPosterior mu sigma sMu h (some c) none lo t bd = .ok ⟨n, w⟩)
    (hw' : fromRobustPosterior mu sigma sMu h' (some c) none lo t bd = .ok ⟨n, w'⟩) (r r' : Column n)
    (hr : w.robustFrontier solver factor 1 lam none none none = .ok [r])
    (hr' : w'.robustFrontier solver factor 1 lam none none none = .ok [r']) : r.w = r'.w := by
  obtain ⟨rho, hrho, hall⟩ := C104_factor_free hn mu sigma sMu hS c hex
  have hlam : ∀ (v : Wrapper n) (k : ℝ), fromRobustPosterior mu sigma sMu k (some c) none lo t bd = .ok ⟨n, v⟩ → ∀ q : Column n,
      v.robustFrontier solver factor 1 lam none none none = .ok [q] → q.lam = lam := by
    intro v k hv q hq
    obtain ⟨e, e1, -, -, e4, ⟨P, e5⟩, -⟩ := fromRobust_fields hn mu sigma sMu k c none lo t bd n v hv hex
    have : e = rfl := rfl
    subst this
    simp only at e1 e4 e5
    obtain ⟨u, hu, -⟩ := user_spec e4
    obtain ⟨grid, hg, hp, -⟩ := robustFrontier_columns e1 e5 hu hq
    rw [lambdaGrid_spec] at hg
    obtain ⟨-, -, ⟨-, rfl⟩ | ⟨h1, -⟩ | ⟨h1, -⟩⟩ := hg
    · simpa using hp
    · omega
    · omega
  obtain ⟨a1, -, a2⟩ := hall h hh solver factor hs hf lo t bd w hw 1 lam none [r] hr r (by simp)
  obtain ⟨b1, -, b2⟩ := hall h' hh' solver factor hs hf lo t bd w' hw' 1 lam none [r'] hr' r' (by simp)
  rw [hlam w h hw r hr] at a2
  rw [hlam w' h' hw' r' hr'] at b2
  exact huniq rho hrho _ _ a1 b1 a2 b2

/-- `from_robust_posterior` succeeds for every posterior and every valid specification. -/
theorem C104_total {n : ℕ} (hn : 0 < n) (mu : Fin n → ℝ) (sigma sMu : Matrix (Fin n) (Fin n) ℝ) (h : ℝ) (c : PyV.Con.Spec ℝ)
    (hv : PyV.Spec.Con.Valid (n : ℤ) c) (lo : Bool) (t : Option (PyFloat ℝ)) (bd : Option (PyV.Con.Bounds ℝ)) :
    ∃ w : Wrapper n, fromRobustPosterior mu sigma sMu h (some c) none lo t bd = .ok ⟨n, w⟩ := by
  obtain ⟨P, names, hfm, -, -⟩ := C103_simple (mu := .array (List.ofFn (fun i => .fin (mu i * h))))
    (cov := .array ⟨n, n, fun i j => .fin (sigma i j * h)⟩) hn (m := fun i => mu i * h) (C := fun i j => sigma i j * h)
    rfl ⟨_, .inl rfl, rfl, rfl, fun _ _ => rfl⟩ (by simp [momentLabels, labelLists]) "simple" (by decide)
  obtain ⟨m, hm⟩ := (PyV.Con.build_isOk (nAssets := (n : ℤ)) (c := c) (rn := true)).mpr hv
  unfold fromRobustPosterior
  rw [hfm]
  simp only [mkWrapper, Fr.setupConstraints, hm, applyCosts]
  exact ⟨_, rfl⟩

/-- Two correlated assets with the default constraints and factors 1 and 252: the wrappers exist, the frontiers exist, and the hypotheses of
C104 hold. -/
example : ∃ (w w' : Wrapper 2) (solver : Opt.Solver) (factor : Bayes.Factor), Sound solver ∧ CholOk factor ∧
    fromRobustPosterior ![1/10, 1/20] 1 !![1, 1; 1, 2] 1 (some PyV.Con.defaultSpec) none true none none = .ok ⟨2, w⟩ ∧
    fromRobustPosterior ![1/10, 1/20] 1 !![1, 1; 1, 2] 252 (some PyV.Con.defaultSpec) none true none none = .ok ⟨2, w'⟩ ∧
    (∃ cols, w.robustFrontier solver factor 5 2 none none none = .ok cols ∧ cols.length = 5) ∧
    ∃ cols, w'.robustFrontier solver factor 5 2 none none none = .ok cols ∧ cols.length = 5 := by
  obtain ⟨solver, h1, h2⟩ := exists_solver
  obtain ⟨factor, hf⟩ := cholOk_exists
  have hv : PyV.Spec.Con.Valid ((2 : ℕ) : ℤ) (PyV.Con.defaultSpec : PyV.Con.Spec ℝ) :=
    (PyV.Con.build_isOk (nAssets := ((2 : ℕ) : ℤ)) (c := PyV.Con.defaultSpec) (rn := true)).1 (by
      obtain ⟨m, hm, -⟩ := C10_default_is_simplex (K := ℝ) 2 (by norm_num)
      exact ⟨m, hm⟩)
  have hex : ∃ x : Fin 2 → ℝ, ¬ Satisfies (PyV.Con.defaultSpec : PyV.Con.Spec ℝ) x := by
    refine ⟨fun _ => 0, fun h => ?_⟩
    have := ((satisfies_default _).1 h).2
    simp at this
  have key : ∀ h : ℝ, 0 < h → ∃ w : Wrapper 2,
      fromRobustPosterior ![1/10, 1/20] 1 !![1, 1; 1, 2] h (some PyV.Con.defaultSpec) none true none none = .ok ⟨2, w⟩ ∧
      ∃ cols, w.robustFrontier solver factor 5 2 none none none = .ok cols ∧ cols.length = 5 := by
    intro h hh
    obtain ⟨w, hw⟩ := C104_total (n := 2) (by norm_num) ![1/10, 1/20] 1 !![1, 1; 1, 2] h PyV.Con.defaultSpec hv true none none
    obtain ⟨e, e1, e2, -, e4, ⟨P, e5⟩, e6⟩ := fromRobust_fields (by norm_num) _ _ _ _ _ none _ _ _ 2 w hw hex
    have : e = rfl := rfl
    subst this
    simp only at e1 e2 e4 e5 e6
    obtain ⟨cols, hcols, hp, -⟩ := (C110_robust_frontier_partial h1 h2 hf w _ _ e1 e5 (by
        rw [e2]; exact ⟨_, isChol_smul ((chol_example _).2 rfl) hh⟩) none PyV.Con.defaultSpec e4 default_bounded
      ⟨![1, 0], (satisfies_default _).2 ⟨fun i => by fin_cases i <;> simp, by simp⟩⟩ none none none (e6 trivial) 5 2 none).1
      [0, 1/2, 1, 3/2, 2] (by
        refine ⟨by norm_num, by norm_num, Or.inr (Or.inr ⟨by norm_num, by norm_num, by simp, fun k hk => ?_⟩)⟩
        have : k = 0 ∨ k = 1 ∨ k = 2 ∨ k = 3 ∨ k = 4 := by simp at hk; omega
        rcases this with rfl | rfl | rfl | rfl | rfl <;> norm_num)
    exact ⟨w, hw, cols, hcols, by simpa using hp.length_eq⟩
  obtain ⟨w, hw, hc⟩ := key 1 (by norm_num)
  obtain ⟨w', hw', hc'⟩ := key 252 (by norm_num)
  exact ⟨w, w', solver, factor, h1, hf, hw, hw', hc, hc'⟩

/-! ## C117: `solve_robust_gamma_portfolio` -/

/-- **C117** (for a positive penalty; the reported risk is not determined at zero, and the return of a log-return wrapper is reported in log
units) the portfolio satisfies the constraints, its squared estimation risk is at most the cap, it minimises penalty times estimation risk
minus mean return among such portfolios, and its mean return and squared estimation risk are reported.  Negative parameters raise
`ValueError`; when no allowed portfolio is under the cap the call raises `RuntimeError`, and otherwise it succeeds on bounded sets. -/
theorem C117_gamma_partial {solver : Opt.Solver} (hsnd : Sound solver) (hcmp : Complete solver) {factor : Bayes.Factor} (hf : CholOk factor)
    (w : Wrapper N) (mu : Fin N → ℝ) (cov : Matrix (Fin N) (Fin N) ℝ) (hmu : w.mu = some mu) (hcov : w.cov = some cov)
    (hS : ∃ L, IsChol (w.unc.getD cov) L) (con : Option (PyV.Con.Spec ℝ)) (c : PyV.Con.Spec ℝ)
    (hin : InForce w con c) (hb : ∃ M, ∀ x : Fin N → ℝ, Satisfies c x → ∀ i, |x i| ≤ M)
    (costs : Option Costs) (w0 imp : Option (Fin N → ℝ)) (htr : Trading w costs w0 imp none) (gm gs : ℝ) :
    ∃ rho, IsEstimationRisk (w.unc.getD cov) rho ∧
      (gm < 0 ∨ gs < 0 → w.robustGamma solver factor gm gs con costs = .error .valueError) ∧
      (0 ≤ gm → 0 ≤ gs → (∀ x : Fin N → ℝ, Satisfies c x → gs < rho x ^ 2) →
        w.robustGamma solver factor gm gs con costs = .error .runtimeError) ∧
      (0 ≤ gm → 0 ≤ gs → (∃ x : Fin N → ℝ, Satisfies c x ∧ rho x ^ 2 ≤ gs) →
        ∃ r, w.robustGamma solver factor gm gs con costs = .ok r ∧ Satisfies c r.w ∧ rho r.w ^ 2 ≤ r.risk ∧ r.risk ≤ gs ∧
          r.ret = ret mu r.w ∧ (0 < gm → r.risk = rho r.w ^ 2) ∧
          ∀ x, Satisfies c x → rho x ^ 2 ≤ gs → gm * rho r.w - ret mu r.w ≤ gm * rho x - ret mu x) := by
  obtain ⟨u, hu, hall⟩ := user_spec hin
  set a := robOf mu (w.unc.getD cov) u (w.resolveCosts costs) with ha
  have hcost : a.costs = none := by rw [ha, resolve_trading htr]; rfl
  obtain ⟨L, hL, hch⟩ := cholSquare_ok hf a.S hS
  have hn0 : ∀ x, 0 ≤ coneNorm L x := fun x => Real.sqrt_nonneg _
  have hsq : ∀ x, 0 ≤ gs → (coneNorm L x ≤ Real.sqrt gs ↔ coneNorm L x ^ 2 ≤ gs) := by
    intro x hg
    rw [Real.le_sqrt (hn0 x) hg]
  have hcall : w.robustGamma solver factor gm gs con costs = match robGamma solver factor a gm gs with
      | .error e => .error e
      | .ok r => .ok ⟨r.w, r.ret, min (r.risk ^ 2) gs⟩ := by
    unfold Wrapper.robustGamma Wrapper.moments
    rw [hmu, hcov]
    simp only [hu]
    rw [← ha]
    cases robGamma solver factor a gm gs <;> rfl
  refine ⟨coneNorm L, ⟨L, hch, rfl⟩, fun hneg => ?_, fun h1 h2 hno => ?_, fun h1 h2 hx => ?_⟩
  · rw [hcall]
    unfold robGamma
    rw [hL]
    dsimp only
    rw [if_pos hneg]
  · rw [hcall]
    have : robGamma solver factor a gm gs = .error .runtimeError := by
      cases h : robGamma solver factor a gm gs with
      | ok r =>
        obtain ⟨L', hL', g1, -, g3, g4, -⟩ := (C93_gamma_cap hsnd a gm gs).2 r h
        rw [hL] at hL'
        injection hL' with hL'
        subst hL'
        have := hno r.w ((hall _).1 g1)
        have := (hsq r.w h2).1 (le_trans g3 g4)
        linarith
      | error e =>
        unfold robGamma at h
        rw [hL] at h
        dsimp only at h
        rw [if_neg (by push Not; exact ⟨h1, h2⟩)] at h
        unfold robSolve at h
        rw [hcost] at h
        cases hw0 : a.w0 <;> rw [hw0] at h <;> simp only at h <;> split at h
        all_goals first | (injection h with h; rw [h]) | cases h
    rw [this]
  · have hg : robGamma solver factor a gm gs = robSolve solver a L gm (some gs) := by
      unfold robGamma
      rw [hL]
      dsimp only
      rw [if_neg (by push Not; exact ⟨h1, h2⟩)]
    have htot : ∃ r, robSolve solver a L gm (some gs) = .ok r := by
      obtain ⟨M, hM⟩ := hb
      have hcomp : IsCompact ({x | Reaches u mu none x} ∩ {x | coneNorm L x ≤ Real.sqrt gs}) :=
        (isCompact_reaches u mu none ⟨M, fun x hx => hM x ((hall x).1 hx)⟩).inter_right
          (isClosed_le (continuous_coneNorm L) continuous_const)
      have hreach : ∀ x, Reaches u mu none x ↔ Allowed u x := fun x => by simp [Reaches]
      obtain ⟨y, hy, hyg⟩ := hx
      have hcont : Continuous (fun x => gm * coneNorm L x - Spec.Opt.ret mu x) := by
        have := continuous_coneNorm L
        unfold Spec.Opt.ret
        fun_prop
      obtain ⟨v, ⟨hv1, hv2⟩, hmin⟩ := hcomp.exists_isMinOn ⟨y, (hreach y).2 ((hall y).2 hy), (hsq y h2).2 hyg⟩ hcont.continuousOn
      have hopt : Optimal (robProg a L gm (some gs)) (Sum.elim v (fun _ => coneNorm L v)) := by
        refine ⟨(feasible_rob _ _ _ _ _).2 ⟨(hreach v).1 hv1, le_refl _, fun s hs => ?_⟩, fun z hz => ?_⟩
        · injection hs with hs; subst hs; exact hv2
        · rw [feasible_rob] at hz
          rw [value_rob, value_rob]
          have h3 := hmin (⟨(hreach _).2 hz.1, le_trans hz.2.1 (hz.2.2 gs rfl)⟩ :
            (fun i => z (Sum.inl i)) ∈ {x | Reaches u mu none x} ∩ {x | coneNorm L x ≤ Real.sqrt gs})
          have h4 := mul_le_mul_of_nonneg_left hz.2.1 h1
          simp only [Sum.elim_inl, Sum.elim_inr]
          have h5 : gm * coneNorm L v - Spec.Opt.ret mu v ≤ gm * coneNorm L (fun i => z (Sum.inl i)) - Spec.Opt.ret mu (fun i => z (Sum.inl i)) := h3
          have e : a.mean = mu := rfl
          rw [e]
          linarith
      obtain ⟨x, hx⟩ := hcmp _ inferInstance (robProg a L gm (some gs)) (convex_zero _ rfl) ⟨_, hopt⟩
      unfold robSolve
      rw [hcost]
      cases a.w0 <;> simp only [hx] <;> exact ⟨_, rfl⟩
    obtain ⟨r, hr⟩ := htot
    obtain ⟨g1, g2, g3, g4', g5'⟩ := robSolve_spec hsnd a L gm (some gs) r hr
    have g4 := g4' gs rfl
    rw [hr] at hg
    rename' hg => hr'
    have hr0 : 0 ≤ r.risk := le_trans (hn0 _) g3
    have hrs : r.risk ^ 2 ≤ gs := by
      rw [← Real.le_sqrt hr0 h2]; exact g4
    refine ⟨⟨r.w, r.ret, min (r.risk ^ 2) gs⟩, by rw [hcall, hr'], (hall _).1 g1, ?_, min_le_right _ _, g2, fun hg => ?_, fun x hx hxg => ?_⟩
    · simp only [min_eq_left hrs]
      exact pow_le_pow_left₀ (hn0 _) g3 2
    · simp only [min_eq_left hrs]
      have : r.risk = coneNorm L r.w := by
        have := g5' r.w _ g1 (le_refl _) (fun s hs => by injection hs with hs; subst hs; exact le_trans g3 g4)
        rw [g2] at this
        exact le_antisymm (le_of_mul_le_mul_left (by linarith) hg) g3
      rw [this]
    · have := g5' x _ ((hall x).2 hx) (le_refl _) (fun s hs => by injection hs with hs; subst hs; exact (hsq x h2).2 hxg)
      rw [g2] at this
      have h6 := mul_le_mul_of_nonneg_left g3 h1
      have e : a.mean = mu := rfl
      rw [e] at this
      simp only
      linarith

/-- **C117** (false of the code for wrappers of log returns) the return reported is the log mean of the portfolio, not the expected simple
return that `robust_lambda_frontier` and the other methods report for the same weights. -/
theorem C117_counterexample : ∃ (w : Wrapper 2) (mu : Fin 2 → ℝ) (cov : Matrix (Fin 2) (Fin 2) ℝ),
    w.mu = some mu ∧ w.cov = some cov ∧ w.isLog = true ∧ InForce w none PyV.Con.defaultSpec ∧
    ∀ solver factor, Sound solver → Complete solver → CholOk factor →
      ∃ r, w.robustGamma solver factor 1 4 none none = .ok r ∧ r.ret = 0 ∧ 0 < ret (reportedMean w.isLog mu cov) r.w := by
  obtain ⟨w, hmu, hcov, -, hlog, hunc, hin, htr⟩ := exists_wrapper (N := 2) (by norm_num) (some ![0, 0]) (some 1) none true
  refine ⟨w, _, _, hmu, hcov, hlog, hin, fun solver factor hs hc hf => ?_⟩
  have hS : IsChol (1 : Matrix (Fin 2) (Fin 2) ℝ) 1 := ⟨by simp, fun i j h => Matrix.one_apply_ne h.ne, fun i => by simp⟩
  have e : w.unc.getD 1 = (1 : Matrix (Fin 2) (Fin 2) ℝ) := by rw [hunc]; rfl
  obtain ⟨rho, ⟨L, hL, rfl⟩, -, -, h⟩ := C117_gamma_partial hs hc hf w _ _ hmu hcov (by rw [e]; exact ⟨1, hS⟩) none _ hin default_bounded none
    none none htr 1 4
  rw [e] at hL
  have := isChol_unique hL hS
  subst this
  obtain ⟨r, hr, h1, -, -, h2, -⟩ := h (by norm_num) (by norm_num) ⟨![1, 0], (satisfies_default _).2
    ⟨fun i => by fin_cases i <;> simp, by simp⟩, by
      unfold coneNorm
      rw [Real.sq_sqrt (by positivity)]
      simp [Fin.sum_univ_two, Matrix.one_apply]⟩
  refine ⟨r, hr, by rw [h2]; simp [Spec.Opt.ret], ?_⟩
  obtain ⟨-, hsum⟩ := (satisfies_default _).1 h1
  have he : (1 : ℝ) < Real.exp 2⁻¹ := Real.one_lt_exp_iff.2 (by norm_num)
  simp only [Fin.sum_univ_two] at hsum
  have : ret (reportedMean w.isLog ![0, 0] 1) r.w = (Real.exp 2⁻¹ - 1) * (r.w 0 + r.w 1) := by
    simp [Spec.Opt.ret, reportedMean, hlog, Fin.sum_univ_two]
    ring
  rw [this, hsum]
  linarith


/-- **C94** (through `PortfolioWrapper`) With initial weights and proportional costs in force, no call of `robust_lambda_frontier` or
`solve_robust_gamma_portfolio` returns: every one raises, for every solver, wrapper, grid and radius. -/
theorem C94_wrapper {solver : Opt.Solver} {factor : Bayes.Factor} (w : Wrapper N) (costs : Option Costs) (w0 prop : Fin N → ℝ)
    (imp : Option (Fin N → ℝ)) (htr : Trading w costs (some w0) imp (some prop)) (con : Option (PyV.Con.Spec ℝ))
    (num : ℤ) (maxLam : ℝ) (lambdas : Option (List ℝ)) (gm gs : ℝ) :
    (∀ cols, w.robustFrontier solver factor num maxLam lambdas con costs ≠ .ok cols) ∧
    (∀ r, w.robustGamma solver factor gm gs con costs ≠ .ok r) := by
  have key : ∀ mu S u, (robOf mu S u (w.resolveCosts costs)).w0 = some w0 ∧ (robOf mu S u (w.resolveCosts costs)).costs = some prop := by
    intro mu S u
    have hv : ∀ v : Fin N → ℝ, vecOf N (List.ofFn v) = v := by
      intro v; funext i; simp [vecOf]
    rw [resolve_trading htr]
    simp [robOf, hv]
  constructor
  · intro cols h
    unfold Wrapper.robustFrontier at h
    split at h
    · cases h
    split at h
    · cases h
    split at h
    · cases h
    rename_i _ mu cov _ _ u _ _ grid hgrid
    split at h
    · cases h
    rename_i res hres
    have hne : grid ≠ [] := by
      rintro rfl
      have := (lambdaGrid_spec _ _ _ _).1 hgrid
      unfold PenaltyGrid at this
      cases lambdas with
      | some l => obtain ⟨h1, -, h3⟩ := this; exact h1 h3.symm
      | none =>
        obtain ⟨h1, -, ⟨-, h3⟩ | ⟨-, -, h3⟩ | ⟨h3, h4, h5, -⟩⟩ := this
        · cases h3
        · cases h3
        · rw [List.length_nil] at h5; omega
    cases grid with
    | nil => exact hne rfl
    | cons l ls =>
      obtain ⟨k1, k2⟩ := key mu (w.unc.getD cov) u
      rcases hl : robLambda solver factor (robOf mu (w.unc.getD cov) u (w.resolveCosts costs)) l with e | r
      · simp [mapE, hl] at hres
      · exact (C94_costs_always_fail solver factor _ w0 prop k1 k2 l gm gs).1 r hl
  · intro r h
    unfold Wrapper.robustGamma at h
    split at h
    · cases h
    split at h
    · cases h
    rename_i _ mu cov _ _ u _
    split at h
    · cases h
    rename_i r' hr'
    obtain ⟨k1, k2⟩ := key mu (w.unc.getD cov) u
    exact (C94_costs_always_fail solver factor _ w0 prop k1 k2 0 gm gs).2.1 r' hr'

/-- Costs passed to the call put them in force. -/
example (w : Wrapper 2) : Trading w (some ⟨[1, 0], none, some [1 / 100, 1 / 50]⟩) (some ![1, 0]) none (some ![1 / 100, 1 / 50]) :=
  .inl ⟨_, _, rfl, rfl, by simp⟩

/-- C67, C92, C93, C95 (low level): with a diagonal or a full uncertainty matrix the calls succeed for long-only, fully invested weights. -/
example {solver : Opt.Solver} (hsnd : Sound solver) (hcmp : Complete solver) {factor : Bayes.Factor} (hf : CholOk factor) :
    (∃ r1 r2 rs, robLambda solver factor ⟨![1 / 10, 1 / 5], !![1, 1; 1, 2], exUser, none, none⟩ 1 = .ok r1 ∧
      robLambda solver factor ⟨![1 / 10, 1 / 5], !![1, 1; 1, 2], exUser, none, none⟩ 2 = .ok r2 ∧ r2.risk ≤ r1.risk ∧
      robFrontier solver factor ⟨![1 / 10, 1 / 5], !![1, 1; 1, 2], exUser, none, none⟩ [0, 1, 2] = .ok rs) ∧
    ∃ r, robLambda solver factor ⟨![1 / 10, 1 / 5], 1, exUser, none, none⟩ 1 = .ok r ∧ r.risk = Real.sqrt (quad (1 : Matrix (Fin 2) (Fin 2) ℝ) r.w) := by
  have hne : ∃ x, Allowed exUser x := ⟨![0, 1], (exUser_iff _).2 (by simp)⟩
  have hc : ∃ L, IsChol (!![1, 1; 1, 2] : Matrix (Fin 2) (Fin 2) ℝ) L := ⟨_, (chol_example _).2 rfl⟩
  have h1 : ∃ L, IsChol (1 : Matrix (Fin 2) (Fin 2) ℝ) L := ⟨1, by simp, fun i j h => by simp [h.ne], fun i => by simp⟩
  constructor
  · obtain ⟨r1, e1⟩ := robLambda_total hcmp hf ⟨![1 / 10, 1 / 5], !![1, 1; 1, 2], exUser, none, none⟩ hc rfl exUser_bounded hne (lam := 1) (by norm_num)
    obtain ⟨r2, e2⟩ := robLambda_total hcmp hf ⟨![1 / 10, 1 / 5], !![1, 1; 1, 2], exUser, none, none⟩ hc rfl exUser_bounded hne (lam := 2) (by norm_num)
    obtain ⟨rs, e3⟩ := C92_frontier_total hcmp hf ⟨![1 / 10, 1 / 5], !![1, 1; 1, 2], exUser, none, none⟩ hc rfl exUser_bounded hne [0, 1, 2]
      (by simp) (by simp)
    exact ⟨r1, r2, rs, e1, e2, (C92_lambda_monotone hsnd _ 1 2 (by norm_num) _ _ e1 e2).1, e3⟩
  · obtain ⟨r, e⟩ := robLambda_total hcmp hf ⟨![1 / 10, 1 / 5], 1, exUser, none, none⟩ h1 rfl exUser_bounded hne (lam := 1) (by norm_num)
    exact ⟨r, e, (C67_diagonal_partial hsnd hf _ h1 (fun i j h => by simp [h]) 1 r e).2.2.2.1 one_pos⟩

end PyV.Props
