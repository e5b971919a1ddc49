import Verif.Props.WrapperRobust

/-! # C92: which penalties the robust frontier accepts; C93, C95 on a concrete problem -/

namespace PyV.Props

open PyV PyV.Opt PyV.Spec.Opt PyV.Spec Matrix

variable {N : ℕ}

/-- **C92** For a covariance with a Cholesky factor and a non-empty bounded set of allowed portfolios, the robust frontier returns one portfolio per
penalty for every non-empty list of nonnegative penalties, and raises for every other list. -/
theorem C92_accepts_iff {solver : Opt.Solver} (hsnd : Sound solver) (hcmp : Complete solver) {factor : Bayes.Factor} (hf : CholOk factor)
    (a : RobArgs N) (hS : ∃ L, IsChol a.S L) (hc : a.costs = none) (hb : ∃ M, ∀ x, Allowed a.user x → ∀ i, |x i| ≤ M)
    (hne : ∃ x, Allowed a.user x) (lams : List ℝ) :
    (∃ res, robFrontier solver factor a lams = .ok res ∧ res.length = lams.length) ↔ lams ≠ [] ∧ ∀ l ∈ lams, 0 ≤ l := by
  constructor
  · rintro ⟨res, h, -⟩
    have hno := (C92_frontier hsnd (factor := factor) a lams).1
    refine ⟨fun h0 => hno (.inl h0) res h, fun l hl => ?_⟩
    by_contra hneg
    exact hno (.inr ⟨l, hl, not_le.mp hneg⟩) res h
  · rintro ⟨h0, hl⟩
    have hall : ∀ l : List ℝ, (∀ x ∈ l, 0 ≤ x) → ∃ r, mapE (robLambda solver factor a) l = .ok r ∧ r.length = l.length := by
      intro l
      induction l with
      | nil => intro _; exact ⟨[], rfl, rfl⟩
      | cons x l ih =>
        intro hx
        obtain ⟨r, hr, hlen⟩ := ih fun y hy => hx y (List.mem_cons_of_mem _ hy)
        obtain ⟨q, hq⟩ := robLambda_total hcmp hf a hS hc hb hne (hx x List.mem_cons_self)
        exact ⟨q :: r, by simp [mapE, hq, hr], by simp [hlen]⟩
    obtain ⟨r, hr, hlen⟩ := hall lams hl
    obtain ⟨L, hL, -⟩ := cholSquare_ok hf a.S hS
    refine ⟨r, ?_, hlen⟩
    unfold robFrontier
    rw [hL]
    dsimp only
    rw [hr]
    dsimp only
    rw [if_neg]
    intro he
    apply h0
    rw [List.isEmpty_iff] at he
    rw [he] at hlen
    exact List.length_eq_zero_iff.mp hlen.symm

/-- Two assets, uncertainty matrix `[[1, 1], [1, 2]]`, long only and fully invested. -/
noncomputable def exCapped : RobArgs 2 := ⟨![1 / 10, 1 / 20], !![1, 1; 1, 2], exUser, none, none⟩

theorem exCapped_chol : ∃ L, IsChol exCapped.S L := ⟨!![1, 0; 1, 1], (chol_example _).2 rfl⟩

theorem exCapped_allowed : ∃ x, Allowed exCapped.user x := ⟨![1, 0], (exUser_iff _).2 (by norm_num)⟩

/-- Concretely: the frontier at penalties 0, 1, 2 exists, and along it neither risk nor return increases. -/
example : ∃ (solver : Opt.Solver) (factor : Bayes.Factor) (r0 r1 r2 : Result 2),
    robFrontier solver factor exCapped [0, 1, 2] = .ok [r0, r1, r2] ∧ r1.risk ≤ r0.risk ∧ r2.risk ≤ r1.risk ∧ r1.ret ≤ r0.ret ∧ r2.ret ≤ r1.ret ∧
      ∀ res, robFrontier solver factor exCapped [1, -1] ≠ .ok res := by
  obtain ⟨solver, hs, hc⟩ := exists_solver
  obtain ⟨factor, hf⟩ := cholOk_exists
  obtain ⟨res, hr, hlen⟩ := (C92_accepts_iff hs hc hf exCapped exCapped_chol rfl exUser_bounded exCapped_allowed [0, 1, 2]).2
    ⟨by simp, by intro l hl; fin_cases hl <;> norm_num⟩
  obtain ⟨r0, r1, r2, rfl⟩ : ∃ r0 r1 r2, res = [r0, r1, r2] := by
    match res, hlen with
    | [a, b, c], _ => exact ⟨a, b, c, rfl⟩
  have hm := ((C92_frontier hs exCapped [0, 1, 2]).2 _ hr).2.2
  have h01 := hm 0 1 0 1 r0 r1 rfl rfl (by norm_num) rfl rfl
  have h12 := hm 1 2 1 2 r1 r2 rfl rfl (by norm_num) rfl rfl
  exact ⟨solver, factor, r0, r1, r2, hr, h01.1, h12.1, h01.2, h12.2,
    (C92_frontier hs exCapped [1, -1]).1 (.inr ⟨-1, by simp, by norm_num⟩)⟩

/-- Concretely: with a positive penalty the reported risk is the estimation risk of the portfolio (`C95_positive_lambda_partial`), and a cap of 4 on
the squared estimation risk is accepted and met (`C93_gamma_cap`). -/
example : ∃ (solver : Opt.Solver) (factor : Bayes.Factor) (r g : Result 2),
    robLambda solver factor exCapped 1 = .ok r ∧ r.risk = coneNorm !![1, 0; 1, 1] r.w ∧
      robGamma solver factor exCapped 1 4 = .ok g ∧ coneNorm !![1, 0; 1, 1] g.w ≤ 2 := by
  obtain ⟨solver, hs, hc⟩ := exists_solver
  obtain ⟨factor, hf⟩ := cholOk_exists
  obtain ⟨r, hr⟩ := robLambda_total hc hf exCapped exCapped_chol rfl exUser_bounded exCapped_allowed (by norm_num : (0 : ℝ) ≤ 1)
  have hL : ∀ L, (Bayes.cholSquare factor exCapped.S).result = .ok L → L = !![1, 0; 1, 1] := by
    intro L hL
    obtain ⟨L', hL', hch⟩ := cholSquare_ok hf exCapped.S exCapped_chol
    rw [hL'] at hL
    injection hL with hL
    subst hL
    exact (chol_example _).1 hch
  have h2 : Real.sqrt 4 = 2 := by
    rw [show (4 : ℝ) = 2 ^ 2 by norm_num]
    exact Real.sqrt_sq (by norm_num)
  obtain ⟨g, hg⟩ := (C93_accepts_iff hs hc hf exCapped ((chol_example _).2 rfl) rfl exUser_bounded 1 4).2
    ⟨by norm_num, by norm_num, ![1, 0], (exUser_iff _).2 (by norm_num), by
      rw [h2]
      unfold coneNorm
      rw [Real.sqrt_le_left (by norm_num)]
      simp [Fin.sum_univ_two]
      norm_num⟩
  obtain ⟨L, hL1, hrisk⟩ := C95_positive_lambda_partial hs exCapped 1 (by norm_num) r hr
  obtain ⟨L2, hL2, -, -, h3, h4, -⟩ := (C93_gamma_cap hs exCapped 1 4).2 g hg
  rw [hL L hL1] at hrisk
  rw [hL L2 hL2] at h3
  rw [h2] at h4
  exact ⟨solver, factor, r, g, hr, hrisk, hg, h3.trans h4⟩

end PyV.Props
