import Verif.Props.WrapperRobust

/-! # Property C226: robust portfolios and the order of the assets -/

namespace PyV.Props

open PyV PyV.Opt PyV.Spec.Opt Matrix

variable {N : ℕ}

theorem diagonal_chol {d : Fin N → ℝ} (hd : ∀ i, 0 < d i) : ∃ L, IsChol (Matrix.diagonal d) L := by
  refine ⟨Matrix.diagonal fun i => Real.sqrt (d i), ?_, fun i j h => Matrix.diagonal_apply_ne _ h.ne, fun i => ?_⟩
  · rw [Matrix.diagonal_transpose, Matrix.diagonal_mul_diagonal]
    congr 1
    funext i
    exact Real.mul_self_sqrt (hd i).le
  · rw [Matrix.diagonal_apply_eq]; exact Real.sqrt_pos.2 (hd i)

theorem quad_diagonal (d x : Fin N → ℝ) : quad (Matrix.diagonal d) x = ∑ i, d i * x i ^ 2 := by
  unfold quad
  refine Finset.sum_congr rfl fun i _ => ?_
  rw [Finset.sum_eq_single i (fun j _ hj => by rw [Matrix.diagonal_apply_ne _ hj.symm]; ring) (by simp), Matrix.diagonal_apply_eq]
  ring

theorem allowed_mid {u : Opt.User N} {x y : Fin N → ℝ} (hx : Allowed u x) (hy : Allowed u y) : Allowed u (fun i => (x i + y i) / 2) := by
  have e : ∀ r : Fin N → ℝ, ∑ i, r i * ((x i + y i) / 2) = (∑ i, r i * x i + ∑ i, r i * y i) / 2 := by
    intro r
    rw [← Finset.sum_add_distrib, Finset.sum_div]
    exact Finset.sum_congr rfl fun i _ => by ring
  refine ⟨fun r hr => ?_, fun r hr => ?_⟩
  · rw [e]; have := hx.1 r hr; have := hy.1 r hr; linarith
  · rw [e, hx.2 r hr, hy.2 r hr]; ring

/-- Among portfolios with the same total, mean minus a positive multiple of the norm has one maximiser. -/
theorem norm_parallel {d : Fin N → ℝ} (hd : ∀ i, 0 < d i) {c : ℝ} (hc : c ≠ 0) {x y : Fin N → ℝ} (hx : ∑ i, x i = c) (hy : ∑ i, y i = c)
    (hge : Real.sqrt (∑ i, d i * x i ^ 2) + Real.sqrt (∑ i, d i * y i ^ 2) ≤ Real.sqrt (∑ i, d i * (x i + y i) ^ 2)) : x = y := by
  have pos : ∀ z : Fin N → ℝ, 0 ≤ ∑ i, d i * z i ^ 2 := fun z => Finset.sum_nonneg fun i _ => mul_nonneg (hd i).le (sq_nonneg _)
  set a := Real.sqrt (∑ i, d i * x i ^ 2) with ha
  set b := Real.sqrt (∑ i, d i * y i ^ 2) with hb
  have ha2 : a ^ 2 = ∑ i, d i * x i ^ 2 := Real.sq_sqrt (pos x)
  have hb2 : b ^ 2 = ∑ i, d i * y i ^ 2 := Real.sq_sqrt (pos y)
  have ha0 : 0 ≤ a := Real.sqrt_nonneg _
  have hb0 : 0 ≤ b := Real.sqrt_nonneg _
  have hge2 : (a + b) ^ 2 ≤ ∑ i, d i * (x i + y i) ^ 2 := by
    rw [← Real.sq_sqrt (pos fun i => x i + y i)]
    exact pow_le_pow_left₀ (by positivity) hge 2
  have hexp : ∑ i, d i * (x i + y i) ^ 2 = a ^ 2 + b ^ 2 + 2 * ∑ i, d i * (x i * y i) := by
    rw [ha2, hb2, Finset.mul_sum, ← Finset.sum_add_distrib, ← Finset.sum_add_distrib]
    exact Finset.sum_congr rfl fun i _ => by ring
  have hcs : a * b ≤ ∑ i, d i * (x i * y i) := by nlinarith
  have hz : ∑ i, d i * (b * x i - a * y i) ^ 2 = b ^ 2 * a ^ 2 + a ^ 2 * b ^ 2 - 2 * a * b * ∑ i, d i * (x i * y i) := by
    rw [ha2, hb2]
    rw [← ha2, ← hb2]
    calc ∑ i, d i * (b * x i - a * y i) ^ 2
        = b ^ 2 * (∑ i, d i * x i ^ 2) + a ^ 2 * (∑ i, d i * y i ^ 2) - 2 * a * b * ∑ i, d i * (x i * y i) := by
          rw [Finset.mul_sum, Finset.mul_sum, Finset.mul_sum, ← Finset.sum_add_distrib, ← Finset.sum_sub_distrib]
          exact Finset.sum_congr rfl fun i _ => by ring
      _ = _ := by rw [← ha2, ← hb2]
  have hz0 : ∑ i, d i * (b * x i - a * y i) ^ 2 = 0 := by
    refine le_antisymm ?_ (pos fun i => b * x i - a * y i)
    rw [hz]
    nlinarith [mul_le_mul_of_nonneg_left hcs (mul_nonneg ha0 hb0)]
  have hi : ∀ i, b * x i = a * y i := by
    intro i
    have := (Finset.sum_eq_zero_iff_of_nonneg fun i _ => mul_nonneg (hd i).le (sq_nonneg _)).1 hz0 i (Finset.mem_univ i)
    rcases mul_eq_zero.1 this with h | h
    · exact absurd h (hd i).ne'
    · have := pow_eq_zero_iff (two_ne_zero) |>.1 h
      linarith
  have hs : b * c = a * c := by
    conv_lhs => rw [← hx]
    conv_rhs => rw [← hy]
    rw [Finset.mul_sum, Finset.mul_sum]
    exact Finset.sum_congr rfl fun i _ => hi i
  have hab : b = a := mul_right_cancel₀ hc hs
  have hane : a ≠ 0 := by
    intro h0
    rw [h0] at ha2
    have hx0 : ∀ i, x i = 0 := by
      intro i
      have := (Finset.sum_eq_zero_iff_of_nonneg fun i _ => mul_nonneg (hd i).le (sq_nonneg _)).1 (by rw [← ha2]; ring : ∑ i, d i * x i ^ 2 = 0) i (Finset.mem_univ i)
      rcases mul_eq_zero.1 this with h | h
      · exact absurd h (hd i).ne'
      · exact pow_eq_zero_iff (two_ne_zero) |>.1 h
    exact hc (by rw [← hx]; exact Finset.sum_eq_zero fun i _ => hx0 i)
  funext i
  have := hi i
  rw [hab] at this
  exact mul_left_cancel₀ hane this

theorem norm_unique {d : Fin N → ℝ} (hd : ∀ i, 0 < d i) {u : Opt.User N} {c : ℝ} (hc : c ≠ 0) (hsum : ∀ x, Allowed u x → ∑ i, x i = c)
    {mean : Fin N → ℝ} {lam : ℝ} (hl : 0 < lam) {x y : Fin N → ℝ} (hx : Allowed u x) (hy : Allowed u y)
    (hmx : ∀ v, Allowed u v → lam * Real.sqrt (∑ i, d i * x i ^ 2) - ret mean x ≤ lam * Real.sqrt (∑ i, d i * v i ^ 2) - ret mean v)
    (hmy : ∀ v, Allowed u v → lam * Real.sqrt (∑ i, d i * y i ^ 2) - ret mean y ≤ lam * Real.sqrt (∑ i, d i * v i ^ 2) - ret mean v) : x = y := by
  have hm := hmx _ (allowed_mid hx hy)
  have hxy := hmx _ hy
  have hyx := hmy _ hx
  have er : ret mean (fun i => (x i + y i) / 2) = (ret mean x + ret mean y) / 2 := by
    unfold ret
    rw [← Finset.sum_add_distrib, Finset.sum_div]
    exact Finset.sum_congr rfl fun i _ => by ring
  rw [er] at hm
  have pos : ∀ z : Fin N → ℝ, 0 ≤ ∑ i, d i * z i ^ 2 := fun z => Finset.sum_nonneg fun i _ => mul_nonneg (hd i).le (sq_nonneg _)
  have hc' : Real.sqrt (∑ i, d i * ((x i + y i) / 2) ^ 2) = Real.sqrt (∑ i, d i * (x i + y i) ^ 2) / 2 := by
    rw [show (∑ i, d i * ((x i + y i) / 2) ^ 2) = (∑ i, d i * (x i + y i) ^ 2) / 2 ^ 2 from by
      rw [Finset.sum_div]; exact Finset.sum_congr rfl fun i _ => by ring]
    rw [Real.sqrt_div (pos fun i => x i + y i), Real.sqrt_sq (by norm_num)]
  rw [hc'] at hm
  refine norm_parallel hd hc (hsum x hx) (hsum y hy) ?_
  set a := Real.sqrt (∑ i, d i * x i ^ 2) with ha
  set b := Real.sqrt (∑ i, d i * y i ^ 2) with hb
  have : lam * (a + b) ≤ lam * Real.sqrt (∑ i, d i * (x i + y i) ^ 2) := by nlinarith
  exact le_of_mul_le_mul_left this hl

/-- **C226** (partial) With a diagonal uncertainty matrix (independent estimation errors), a positive penalty and constraints that fix the total weight,
listing the assets in another order gives the robust portfolio in that order, with the same return and uncertainty radius, whatever correct solvers are
used.  Missing: uncertainty matrices that are not diagonal, for which it fails (`C226_counterexample`). -/
theorem C226_diagonal_partial {s1 s2 : Opt.Solver} (hs1 : Sound s1) (hc1 : Complete s1) (hs2 : Sound s2) (hc2 : Complete s2) {f1 f2 : Bayes.Factor}
    (hf1 : CholOk f1) (hf2 : CholOk f2) (σ : Equiv.Perm (Fin N)) (mean d : Fin N → ℝ) (hd : ∀ i, 0 < d i) (u u' : Opt.User N)
    (huu : ∀ x : Fin N → ℝ, Allowed u' (fun i => x (σ i)) ↔ Allowed u x) (hb : ∃ M, ∀ x, Allowed u x → ∀ i, |x i| ≤ M) (hne : ∃ x, Allowed u x)
    {c : ℝ} (hc : c ≠ 0) (hsum : ∀ x, Allowed u x → ∑ i, x i = c) {lam : ℝ} (hl : 0 < lam) :
    ∃ r r', robLambda s1 f1 ⟨mean, Matrix.diagonal d, u, none, none⟩ lam = .ok r ∧
      robLambda s2 f2 ⟨fun i => mean (σ i), Matrix.diagonal fun i => d (σ i), u', none, none⟩ lam = .ok r' ∧
      (∀ i, r'.w i = r.w (σ i)) ∧ r'.ret = r.ret ∧ r'.risk = r.risk := by
  have huu' : ∀ y, Allowed u' y ↔ Allowed u (fun i => y (σ.symm i)) := by
    intro y
    have := huu fun i => y (σ.symm i)
    simpa using this
  obtain ⟨r, hr⟩ := robLambda_total hc1 hf1 ⟨mean, Matrix.diagonal d, u, none, none⟩ (diagonal_chol hd) rfl hb hne hl.le
  obtain ⟨r', hr'⟩ := robLambda_total hc2 hf2 ⟨fun i => mean (σ i), Matrix.diagonal fun i => d (σ i), u', none, none⟩
    (diagonal_chol fun i => hd (σ i)) rfl (by
      obtain ⟨M, hM⟩ := hb
      exact ⟨M, fun y hy i => by have := hM _ ((huu' y).1 hy) (σ i); simpa using this⟩) (by
      obtain ⟨x, hx⟩ := hne
      exact ⟨_, (huu x).2 hx⟩) hl.le
  obtain ⟨a1, a2, -, a4, a5⟩ := C67_diagonal_partial hs1 hf1 _ (diagonal_chol hd) (fun i j h => Matrix.diagonal_apply_ne _ h) lam r hr
  obtain ⟨b1, b2, -, b4, b5⟩ := C67_diagonal_partial hs2 hf2 _ (diagonal_chol fun i => hd (σ i)) (fun i j h => Matrix.diagonal_apply_ne _ h) lam r' hr'
  have a4 := a4 hl
  have b4 := b4 hl
  dsimp only at a1 a2 a4 a5 b1 b2 b4 b5
  simp only [quad_diagonal] at a4 a5 b4 b5
  have hret : ∀ x : Fin N → ℝ, ret (fun i => mean (σ i)) x = ret mean (fun i => x (σ.symm i)) := by
    intro x; unfold ret
    rw [← Equiv.sum_comp σ (fun i => mean i * x (σ.symm i))]
    simp
  have hq : ∀ x : Fin N → ℝ, ∑ i, d (σ i) * x i ^ 2 = ∑ i, d i * x (σ.symm i) ^ 2 := by
    intro x
    rw [← Equiv.sum_comp σ (fun i => d i * x (σ.symm i) ^ 2)]
    simp
  have hw : r.w = fun i => r'.w (σ.symm i) := by
    refine norm_unique (mean := mean) hd hc hsum hl a1 ((huu' _).1 b1) (fun v hv => ?_) (fun v hv => ?_)
    · have := a5 v hv; rwa [a2] at this
    · have := b5 (fun i => v (σ i)) ((huu v).2 hv)
      rw [b2, hret, hret, hq, hq] at this
      simpa using this
  refine ⟨r, r', hr, hr', fun i => by rw [hw]; simp, ?_, ?_⟩
  · rw [a2, b2, hret, hw]
  · rw [a4, b4, hq, hw]

/-- The Cholesky factor of `[[1, 3/5], [3/5, 1]]`. -/
theorem chol_three_fifths (L : Matrix (Fin 2) (Fin 2) ℝ) : IsChol !![1, 3 / 5; 3 / 5, 1] L ↔ L = !![1, 0; 3 / 5, 4 / 5] := by
  constructor
  · rintro ⟨h1, h2, h3⟩
    have e := chol_entry h1
    have h01 := h2 0 1 (by decide)
    have a := e 0 0
    have b := e 1 0
    have c := e 1 1
    have p0 := h3 0
    have p1 := h3 1
    simp [Fin.sum_univ_two, h01] at a b c
    have l00 : L 0 0 = 1 := by nlinarith
    rw [l00] at b
    have l10 : L 1 0 = 3 / 5 := by linarith
    rw [l10] at c
    have l11 : L 1 1 = 4 / 5 := by nlinarith
    ext i j; fin_cases i <;> fin_cases j <;> simp [h01, l00, l10, l11]
  · rintro rfl
    refine ⟨?_, ?_, ?_⟩
    · ext i j; fin_cases i <;> fin_cases j <;> simp [Matrix.mul_apply, Fin.sum_univ_two]; norm_num
    · intro i j h; fin_cases i <;> fin_cases j <;> simp_all
    · intro i; fin_cases i <;> norm_num

/-- **C226** (false of the code) Two assets that nothing distinguishes (equal means, equal uncertainty, correlation 0.6), held long-only and fully
invested: exchanging them changes no input, yet the asset listed first receives 2/13 and the asset listed second 11/13. -/
theorem C226_counterexample {solver : Opt.Solver} (hsnd : Sound solver) (hcmp : Complete solver) {factor : Bayes.Factor} (hf : CholOk factor) :
    (∀ x : Fin 2 → ℝ, Allowed exUser (fun i => x (Equiv.swap 0 1 i)) ↔ Allowed exUser x) ∧
    (!![1, 3 / 5; 3 / 5, 1] : Matrix (Fin 2) (Fin 2) ℝ).submatrix (Equiv.swap 0 1) (Equiv.swap 0 1) = !![1, 3 / 5; 3 / 5, 1] ∧
    ∃ r, robLambda solver factor ⟨fun _ => 0, !![1, 3 / 5; 3 / 5, 1], exUser, none, none⟩ 1 = .ok r ∧ r.w = ![2 / 13, 11 / 13] := by
  refine ⟨fun x => ?_, ?_, ?_⟩
  · rw [exUser_iff, exUser_iff]
    simp only [Equiv.swap_apply_left, Equiv.swap_apply_right]
    constructor <;> rintro ⟨a, b, c⟩ <;> exact ⟨b, a, by linarith⟩
  · ext i j; fin_cases i <;> fin_cases j <;> simp
  have hch : ∃ L, IsChol (!![1, 3 / 5; 3 / 5, 1] : Matrix (Fin 2) (Fin 2) ℝ) L := ⟨_, (chol_three_fifths _).2 rfl⟩
  obtain ⟨r, hr⟩ := robLambda_total hcmp hf ⟨fun _ => 0, !![1, 3 / 5; 3 / 5, 1], exUser, none, none⟩ hch rfl exUser_bounded
    ⟨![1, 0], (exUser_iff _).2 (by simp)⟩ zero_le_one
  refine ⟨r, hr, ?_⟩
  obtain ⟨L, hL, h1, -, -, -, -, h5⟩ := C67_actual_objective hsnd hf _ hch 1 r hr
  obtain rfl := (chol_three_fifths L).1 hL
  have h := h5 ![2 / 13, 11 / 13] ((exUser_iff _).2 (by simp; norm_num))
  obtain ⟨p0, p1, ps⟩ := (exUser_iff _).1 h1
  have e : ∀ x : Fin 2 → ℝ, coneNorm !![1, 0; 3 / 5, 4 / 5] x = Real.sqrt (x 0 ^ 2 + (3 / 5 * x 0 + 4 / 5 * x 1) ^ 2) := by
    intro x; unfold coneNorm; simp [Fin.sum_univ_two]
  have hret : r.ret = 0 := by
    obtain ⟨_, _, _, hh, _⟩ := C67_actual_objective hsnd hf _ hch 1 r hr
    rw [hh]; simp [ret]
  rw [e, e, hret] at h
  simp only [ret, zero_mul, Finset.sum_const_zero, sub_zero, one_mul] at h
  rw [Real.sqrt_le_sqrt_iff (by positivity)] at h
  simp at h
  have hw1 : r.w 1 = 1 - r.w 0 := by linarith
  rw [hw1] at h
  have h0 : r.w 0 = 2 / 13 := by nlinarith [sq_nonneg (r.w 0 - 2 / 13)]
  funext i
  fin_cases i
  · simpa using h0
  · simp only [Fin.mk_one, hw1, h0]; norm_num

/-- The hypotheses of the partial theorem hold: two assets with different uncertainties, long-only and fully invested, exchanged. -/
example : ∃ (s : Opt.Solver) (f : Bayes.Factor) (r r' : Result 2),
    robLambda s f ⟨![1 / 10, 1 / 20], Matrix.diagonal ![1, 2], exUser, none, none⟩ 1 = .ok r ∧
    robLambda s f ⟨fun i => ![1 / 10, 1 / 20] (Equiv.swap 0 1 i), Matrix.diagonal fun i => ![1, 2] (Equiv.swap 0 1 i), exUser, none, none⟩ 1 = .ok r' ∧
    r'.w 0 = r.w 1 := by
  obtain ⟨s, hs, hc⟩ := exists_solver
  obtain ⟨f, hf⟩ := cholOk_exists
  obtain ⟨r, r', h1, h2, h3, -⟩ := C226_diagonal_partial hs hc hs hc hf hf (Equiv.swap 0 1) ![1 / 10, 1 / 20] ![1, 2]
    (by intro i; fin_cases i <;> simp) exUser exUser (C226_counterexample hs hc hf).1 exUser_bounded ⟨![1, 0], (exUser_iff _).2 (by simp)⟩
    (c := 1) one_ne_zero (fun x hx => by rw [Fin.sum_univ_two]; exact ((exUser_iff x).1 hx).2.2) one_pos
  exact ⟨s, f, r, r', h1, h2, by rw [h3]; simp⟩

end PyV.Props
