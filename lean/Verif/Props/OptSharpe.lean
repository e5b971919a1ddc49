import Verif.Props.OptMv
import Mathlib.Tactic.FieldSimp

set_option linter.unusedSectionVars false

/-! # C68: `MeanVariance.max_sharpe` -/

namespace PyV.Props

open PyV PyV.Opt PyV.Spec PyV.Spec.Opt

variable {N : ℕ}

theorem convex_sharpe (m : MV N) (rf : ℝ) (hcov : IsCov m.cov) : Convex (sharpeProg m rf) := by
  refine ⟨fun i j => ?_, fun x => ?_⟩
  · simp only [sharpeProg, hcov.1 i j]
  · have : ∑ i, ∑ j, x i * (2 * m.cov i j) * x j = 2 * ∑ i, ∑ j, x i * m.cov i j * x j := by
      rw [Finset.mul_sum]; apply Finset.sum_congr rfl; intro i _
      rw [Finset.mul_sum]; apply Finset.sum_congr rfl; intro j _
      ring
    simp only [sharpeProg]
    rw [this]
    exact mul_nonneg (by norm_num) (hcov.2 x)

theorem value_sharpe (m : MV N) (rf : ℝ) (y : Fin N → ℝ) : value (sharpeProg m rf) y = quad m.cov y := by
  have : 1 / 2 * ∑ i, ∑ j, y i * (2 * m.cov i j) * y j = quad m.cov y := by
    unfold quad
    rw [Finset.mul_sum]; apply Finset.sum_congr rfl; intro i _
    rw [Finset.mul_sum]; apply Finset.sum_congr rfl; intro j _
    ring
  simp only [value, sharpeProg, this]
  simp

theorem feasible_sharpe (m : MV N) (rf : ℝ) (y : Fin N → ℝ) :
    Feasible (sharpeProg m rf) y ↔ (∀ r ∈ m.user.G.getD [], ∑ i, r.1 i * y i ≤ 0) ∧
      (∑ i, (m.mean i - rf) * y i = 1) ∧ ∀ r ∈ m.user.A.getD [], |r.2| ≤ 1 / 10 ^ 12 → ∑ i, r.1 i * y i = 0 := by
  constructor
  · rintro ⟨h1, -, h3⟩
    simp only [sharpeProg, List.mem_map, List.mem_cons, List.mem_filter, decide_eq_true_eq] at h1 h3
    refine ⟨fun r hr => ?_, ?_, fun r hr ha => ?_⟩
    · have := h1 _ ⟨r, hr, rfl⟩; simp only [slack] at this; linarith
    · have := h3 _ (Or.inl rfl); simp only [slack] at this; linarith
    · have := h3 _ (Or.inr ⟨r, ⟨hr, ha⟩, rfl⟩); simp only [slack] at this; linarith
  · rintro ⟨h1, h2, h3⟩
    refine ⟨?_, by simp [sharpeProg], ?_⟩
    · intro r hr
      simp only [sharpeProg, List.mem_map] at hr
      obtain ⟨r, hr, rfl⟩ := hr
      have := h1 r hr; simp only [slack]; linarith
    · intro r hr
      simp only [sharpeProg, List.mem_map, List.mem_cons, List.mem_filter, decide_eq_true_eq] at hr
      rcases hr with rfl | ⟨r, ⟨hr, ha⟩, rfl⟩
      · simp only [slack]; linarith
      · have := h3 r hr ha; simp only [slack]; linarith

/-- **C68 is false.** Whenever every asset has a lower and an upper bound (of any value), `max_sharpe` reports infeasibility:
the right-hand sides of the bounds are replaced by zero, which only leaves `y = 0`. -/
theorem C68_bounds_always_fail {solver : Opt.Solver} (hsnd : Sound solver) (mean : Fin N → ℝ) (cov : Fin N → Fin N → ℝ)
    (user : User N) (w0 lam : Option (Fin N → ℝ)) (hcov : IsCov cov) (rf : ℝ) (lo hi : Fin N → ℝ)
    (hlo : ∀ i, ((fun j => if j = i then -1 else 0), -(lo i)) ∈ user.G.getD [])
    (hhi : ∀ i, ((fun j => if j = i then 1 else 0), hi i) ∈ user.G.getD []) :
    maxSharpe solver (mvInit mean cov user w0 lam) rf = .error .infeasible := by
  unfold maxSharpe
  cases hx : solver _ inferInstance (sharpeProg (mvInit mean cov user w0 lam) rf) with
  | none => rfl
  | some y =>
    exfalso
    have hf := (hsnd _ _ _ _ (convex_sharpe _ rf hcov) hx).1
    rw [feasible_sharpe] at hf
    obtain ⟨h1, h2, -⟩ := hf
    have hy : ∀ i, y i = 0 := by
      intro i
      have a := h1 _ (hlo i)
      have b := h1 _ (hhi i)
      simp at a b
      linarith
    simp [hy] at h2

/-- The counterexample: two assets, long-only with a cap of 60% each, fully invested, both expected returns above the
risk-free rate.  There are admissible portfolios, yet `max_sharpe` raises. -/
theorem C68_counterexample {solver : Opt.Solver} (hsnd : Sound solver) :
    let user : User 2 := ⟨some [(fun j => if j = 0 then -1 else 0, -0), (fun j => if j = 1 then -1 else 0, -0),
      (fun j => if j = 0 then 1 else 0, 3/5), (fun j => if j = 1 then 1 else 0, 3/5)], some [(fun _ => 1, 1)]⟩
    (∃ w, Allowed user w) ∧
    maxSharpe solver (mvInit ![1/10, 1/20] ![![4/100, 0], ![0, 1/100]] user none none) 0 = .error .infeasible := by
  intro user
  refine ⟨⟨![1/2, 1/2], ?_⟩, C68_bounds_always_fail hsnd _ _ user none none exCov 0 (fun _ => 0) (fun _ => 3/5) ?_ ?_⟩
  · simp [Allowed, user, Fin.sum_univ_two]; norm_num
  · intro i; fin_cases i <;> simp [user]
  · intro i; fin_cases i <;> simp [user]

/-- Constraint systems `max_sharpe` can represent: homogeneous inequalities, equalities that are homogeneous or the budget. -/
def Conic (u : User N) : Prop :=
  (∀ r ∈ u.G.getD [], r.2 = 0) ∧ ∀ r ∈ u.A.getD [], r.2 = 0 ∨ (r.2 = 1 ∧ ∀ i, r.1 i = 1)

theorem quad_smul (S : Fin N → Fin N → ℝ) (y : Fin N → ℝ) (c : ℝ) : quad S (fun i => y i / c) = quad S y / c ^ 2 := by
  unfold quad
  rw [Finset.sum_div]; apply Finset.sum_congr rfl; intro i _
  rw [Finset.sum_div]; apply Finset.sum_congr rfl; intro j _
  rw [sq]; rw [div_mul_eq_mul_div, div_mul_div_comm]

theorem sum_smul' (g y : Fin N → ℝ) (c : ℝ) : ∑ i, g i * (y i / c) = (∑ i, g i * y i) / c := by
  rw [Finset.sum_div]; apply Finset.sum_congr rfl; intro i _; rw [mul_div_assoc]

/-- Common part: what a returned portfolio looks like. -/
theorem sharpe_core {solver : Opt.Solver} (hsnd : Sound solver) (mean : Fin N → ℝ) (cov : Fin N → Fin N → ℝ)
    (user : User N) (w0 lam : Option (Fin N → ℝ)) (hcov : IsCov cov) (rf : ℝ) (hconic : Conic user) (res : Result N)
    (h : maxSharpe solver (mvInit mean cov user w0 lam) rf = .ok res) :
    ∃ y s, s = ∑ i, y i ∧ s ≠ 0 ∧ (∀ r ∈ user.G.getD [], ∑ i, r.1 i * y i ≤ 0) ∧
      (∀ r ∈ user.A.getD [], r.2 = 0 → ∑ i, r.1 i * y i = 0) ∧
      res.w = (fun i => y i / s) ∧ res.ret = Spec.Opt.ret mean res.w ∧ res.risk = Real.sqrt (quad cov res.w) ∧
      ∑ i, res.w i = 1 ∧ res.ret - rf = 1 / s ∧
      ∀ z, (∀ r ∈ user.G.getD [], ∑ i, r.1 i * z i ≤ 0) → (∀ r ∈ user.A.getD [], r.2 = 0 → ∑ i, r.1 i * z i = 0) →
        ∑ i, (mean i - rf) * z i = 1 → quad cov y ≤ quad cov z := by
  unfold maxSharpe at h
  cases hx : solver _ inferInstance (sharpeProg (mvInit mean cov user w0 lam) rf) with
  | none => rw [hx] at h; cases h
  | some y =>
    rw [hx] at h
    dsimp only at h
    split at h
    · cases h
    · rename_i hs
      injection h with h; subst h
      obtain ⟨hf, ho⟩ := hsnd _ _ _ _ (convex_sharpe _ rf hcov) hx
      have hf' := hf
      rw [feasible_sharpe] at hf'
      obtain ⟨h1, h2, h3⟩ := hf'
      have hs0 : ∑ i, y i ≠ 0 := fun hz => hs (by rw [hz]; norm_num)
      have hrows : ∀ r ∈ user.A.getD [], |r.2| ≤ 1 / 10 ^ 12 → r.2 = 0 := by
        intro r hr ha
        rcases hconic.2 r hr with h0 | ⟨h1, -⟩
        · exact h0
        · rw [h1] at ha; norm_num at ha
      have hsum : ∑ i, y i / (∑ i, y i) = 1 := by rw [← Finset.sum_div]; exact div_self hs0
      refine ⟨y, _, rfl, hs0, h1, fun r hr h0 => h3 r hr (by rw [h0]; norm_num), rfl, rfl, rfl, hsum, ?_, ?_⟩
      · show dot mean (fun i => y i / (∑ i, y i)) - rf = _
        unfold dot
        rw [sum_smul']
        have e : ∑ i, (mean i - rf) * y i = ∑ i, mean i * y i - rf * ∑ i, y i := by
          rw [Finset.mul_sum, ← Finset.sum_sub_distrib]; apply Finset.sum_congr rfl; intro i _; ring
        have h2' : ∑ i, mean i * y i - rf * ∑ i, y i = 1 := by rw [← e]; exact h2
        field_simp
        linarith
      · intro z hz1 hz2 hz3
        have := ho z ((feasible_sharpe _ rf z).2 ⟨hz1, hz3, fun r hr ha => hz2 r hr (hrows r hr ha)⟩)
        rwa [value_sharpe, value_sharpe] at this

theorem excess_eq (mean v : Fin N → ℝ) (rf : ℝ) (hv : ∑ i, v i = 1) :
    ∑ i, (mean i - rf) * v i = Spec.Opt.ret mean v - rf := by
  have : ∑ i, (mean i - rf) * v i = Spec.Opt.ret mean v - rf * ∑ i, v i := by
    unfold Spec.Opt.ret
    rw [Finset.mul_sum, ← Finset.sum_sub_distrib]; apply Finset.sum_congr rfl; intro i _; ring
  rw [this, hv, mul_one]

/-- **C68** (partial) For constraint systems without upper bounds, a returned portfolio whose return exceeds the risk-free rate
is admissible, fully invested, correctly reported, and has the largest Sharpe ratio of all admissible fully invested
portfolios (written without division).  Missing: systems with non-zero right-hand sides, for which the claim fails. -/
theorem C68_max_sharpe_partial {solver : Opt.Solver} (hsnd : Sound solver) (mean : Fin N → ℝ) (cov : Fin N → Fin N → ℝ)
    (user : User N) (w0 lam : Option (Fin N → ℝ)) (hcov : IsCov cov) (rf : ℝ) (hconic : Conic user) (res : Result N)
    (h : maxSharpe solver (mvInit mean cov user w0 lam) rf = .ok res) (hpos : rf < res.ret) :
    Allowed user res.w ∧ ∑ i, res.w i = 1 ∧ res.ret = Spec.Opt.ret mean res.w ∧ res.risk = Real.sqrt (quad cov res.w) ∧
    ∀ v, Allowed user v → ∑ i, v i = 1 →
      (Spec.Opt.ret mean v - rf) * res.risk ≤ (res.ret - rf) * Real.sqrt (quad cov v) := by
  obtain ⟨y, s, hs, hs0, h1, h2, hw, hret, hrisk, hsum, he, ho⟩ := sharpe_core hsnd mean cov user w0 lam hcov rf hconic res h
  have hspos : 0 < s := by
    have : 0 < 1 / s := by rw [← he]; linarith
    exact one_div_pos.1 this
  refine ⟨⟨fun r hr => ?_, fun r hr => ?_⟩, hsum, hret, hrisk, fun v hv hv1 => ?_⟩
  · rw [hw, hconic.1 r hr]
    simp only [sum_smul']
    exact div_nonpos_of_nonpos_of_nonneg (h1 r hr) hspos.le
  · rcases hconic.2 r hr with h0 | ⟨h0, hone⟩
    · rw [hw, h0]; simp only [sum_smul']; rw [h2 r hr h0, zero_div]
    · rw [h0, ← hsum]; apply Finset.sum_congr rfl; intro i _; rw [hone i, one_mul]
  · rcases le_or_gt (Spec.Opt.ret mean v - rf) 0 with hle | hgt
    · have a : (Spec.Opt.ret mean v - rf) * res.risk ≤ 0 :=
        mul_nonpos_of_nonpos_of_nonneg hle (by rw [hrisk]; exact Real.sqrt_nonneg _)
      have b : 0 ≤ (res.ret - rf) * Real.sqrt (quad cov v) := mul_nonneg (by linarith) (Real.sqrt_nonneg _)
      linarith
    · set e := Spec.Opt.ret mean v - rf with hedef
      have hq := ho (fun i => v i / e)
        (fun r hr => by
          simp only [sum_smul']
          refine div_nonpos_of_nonpos_of_nonneg ?_ hgt.le
          have := hv.1 r hr; rwa [hconic.1 r hr] at this)
        (fun r hr h0 => by simp only [sum_smul']; rw [hv.2 r hr, h0, zero_div])
        (by rw [sum_smul', excess_eq mean v rf hv1]; exact div_self hgt.ne')
      rw [quad_smul] at hq
      rw [hrisk, hw, he, quad_smul, Real.sqrt_div' _ (by positivity), Real.sqrt_sq hspos.le]
      have hy : Real.sqrt (quad cov y) ≤ Real.sqrt (quad cov v) / e := by
        rw [← Real.sqrt_sq hgt.le, ← Real.sqrt_div' _ (by positivity)]
        exact Real.sqrt_le_sqrt hq
      rw [le_div_iff₀ hgt] at hy
      rw [← mul_div_assoc, div_mul_eq_mul_div, one_mul]
      gcongr
      linarith

/-- **C68** For long-only systems without upper bounds every returned portfolio earns more than the risk-free rate, so the
previous theorem applies to it. -/
theorem C68_long_only_excess {solver : Opt.Solver} (hsnd : Sound solver) (mean : Fin N → ℝ) (cov : Fin N → Fin N → ℝ)
    (user : User N) (w0 lam : Option (Fin N → ℝ)) (hcov : IsCov cov) (rf : ℝ) (hconic : Conic user)
    (hlong : ∀ i, ((fun j => if j = i then -1 else 0), 0) ∈ user.G.getD []) (res : Result N)
    (h : maxSharpe solver (mvInit mean cov user w0 lam) rf = .ok res) : rf < res.ret := by
  obtain ⟨y, s, hs, hs0, h1, -, -, -, -, -, he, -⟩ := sharpe_core hsnd mean cov user w0 lam hcov rf hconic res h
  have hy : ∀ i, 0 ≤ y i := fun i => by have := h1 _ (hlong i); simp at this; exact this
  have : 0 ≤ s := by rw [hs]; exact Finset.sum_nonneg fun i _ => hy i
  have : 0 < s := lt_of_le_of_ne this (Ne.symm hs0)
  have : 0 < 1 / s := one_div_pos.2 this
  rw [← he] at this; linarith

/-- **C68** Without inequalities (short sales allowed), a returned portfolio that earns less than the risk-free rate has the
*smallest* Sharpe ratio of all admissible fully invested portfolios. -/
theorem C68_negative_excess_is_worst {solver : Opt.Solver} (hsnd : Sound solver) (mean : Fin N → ℝ)
    (cov : Fin N → Fin N → ℝ) (user : User N) (w0 lam : Option (Fin N → ℝ)) (hcov : IsCov cov) (rf : ℝ) (hconic : Conic user)
    (hG : user.G.getD [] = []) (res : Result N)
    (h : maxSharpe solver (mvInit mean cov user w0 lam) rf = .ok res) (hneg : res.ret < rf) :
    ∀ v, Allowed user v → ∑ i, v i = 1 →
      (res.ret - rf) * Real.sqrt (quad cov v) ≤ (Spec.Opt.ret mean v - rf) * res.risk := by
  obtain ⟨y, s, hs, hs0, -, h2, hw, hret, hrisk, hsum, he, ho⟩ := sharpe_core hsnd mean cov user w0 lam hcov rf hconic res h
  have hsneg : s < 0 := by
    have : 1 / s < 0 := by rw [← he]; linarith
    exact one_div_neg.1 this
  intro v hv hv1
  rcases le_or_gt 0 (Spec.Opt.ret mean v - rf) with hge | hlt
  · have a : 0 ≤ (Spec.Opt.ret mean v - rf) * res.risk := mul_nonneg hge (by rw [hrisk]; exact Real.sqrt_nonneg _)
    have b : (res.ret - rf) * Real.sqrt (quad cov v) ≤ 0 :=
      mul_nonpos_of_nonpos_of_nonneg (by linarith) (Real.sqrt_nonneg _)
    linarith
  · set e := Spec.Opt.ret mean v - rf with hedef
    have hq := ho (fun i => v i / e) (by rw [hG]; simp)
      (fun r hr h0 => by simp only [sum_smul']; rw [hv.2 r hr, h0, zero_div])
      (by rw [sum_smul', excess_eq mean v rf hv1]; exact div_self hlt.ne)
    rw [quad_smul] at hq
    have hq' : quad cov y ≤ quad cov v / (-e) ^ 2 := by rwa [neg_sq]
    rw [hrisk, hw, he, quad_smul, ← neg_sq s, Real.sqrt_div' _ (by positivity), Real.sqrt_sq (by linarith)]
    have hy : Real.sqrt (quad cov y) ≤ Real.sqrt (quad cov v) / (-e) := by
      rw [← Real.sqrt_sq (show 0 ≤ -e by linarith), ← Real.sqrt_div' _ (by positivity)]
      exact Real.sqrt_le_sqrt hq'
    rw [le_div_iff₀ (by linarith)] at hy
    have hs' : 0 < -s := by linarith
    rw [show 1 / s * Real.sqrt (quad cov v) = -(Real.sqrt (quad cov v) / -s) by
      rw [div_neg, neg_neg, div_mul_eq_mul_div, one_mul], ← mul_div_assoc, neg_le, ← neg_div, ← neg_mul]
    gcongr
    linarith

/-- Two uncorrelated assets with expected returns -1 and -2: the programme's only solution. -/
theorem sharpe_example (y : Fin 2 → ℝ) (m : MV 2) (hm : m = mvInit ![-1, -2] ![![1, 0], ![0, 1]] ⟨none, some [(fun _ => 1, 1)]⟩ none none)
    (h : Optimal (sharpeProg m 0) y) : y = ![-1/5, -2/5] := by
  obtain ⟨hf, ho⟩ := h
  rw [feasible_sharpe] at hf
  obtain ⟨-, h2, -⟩ := hf
  have := ho ![-1/5, -2/5] ((feasible_sharpe _ _ _).2 ⟨by subst hm; simp [mvInit], by
    subst hm; simp [mvInit, Fin.sum_univ_two]; norm_num, by subst hm; simp [mvInit]; norm_num⟩)
  rw [value_sharpe, value_sharpe] at this
  subst hm
  simp [mvInit, quad, Fin.sum_univ_two] at this h2
  have e0 : y 0 = -1/5 := by nlinarith [sq_nonneg (y 0 + 1/5), sq_nonneg (y 1 + 2/5)]
  have e1 : y 1 = -2/5 := by linarith
  funext i; fin_cases i <;> simp [e0, e1]

/-- **C68** The bad case happens: with expected returns -1 and -2, unit variances and the budget as only constraint, every
sound and complete solver makes `max_sharpe` return `(1/3, 2/3)`, whose excess return is negative, while `(2, -1)` has a
non-negative one. -/
theorem C68_worst_counterexample {solver : Opt.Solver} (hsnd : Sound solver) (hcmp : Complete solver) :
    let user : User 2 := ⟨none, some [(fun _ => 1, 1)]⟩
    ∃ res, maxSharpe solver (mvInit ![-1, -2] ![![1, 0], ![0, 1]] user none none) 0 = .ok res ∧
      res.w = ![1/3, 2/3] ∧ res.ret < 0 ∧
      ∃ v, Allowed user v ∧ ∑ i, v i = 1 ∧ 0 ≤ Spec.Opt.ret ![-1, -2] v := by
  intro user
  have hcov : IsCov (![![1, 0], ![0, 1]] : Fin 2 → Fin 2 → ℝ) := by
    refine ⟨fun i j => by fin_cases i <;> fin_cases j <;> simp, fun w => ?_⟩
    simp [Fin.sum_univ_two]
    nlinarith [sq_nonneg (w 0), sq_nonneg (w 1)]
  set m := mvInit ![-1, -2] ![![1, 0], ![0, 1]] user none none with hm
  have hopt : Optimal (sharpeProg m 0) ![-1/5, -2/5] := by
    refine ⟨(feasible_sharpe _ _ _).2 ⟨by simp [hm, mvInit, user], by simp [hm, mvInit, Fin.sum_univ_two]; norm_num,
      by simp [hm, mvInit, user]; norm_num⟩, fun y hy => ?_⟩
    rw [feasible_sharpe] at hy
    obtain ⟨-, h2, -⟩ := hy
    rw [value_sharpe, value_sharpe]
    simp [hm, mvInit, quad, Fin.sum_univ_two] at h2 ⊢
    nlinarith [sq_nonneg (y 0 + 1/5), sq_nonneg (y 1 + 2/5)]
  obtain ⟨y, hy⟩ := hcmp _ inferInstance (sharpeProg m 0) (convex_sharpe m 0 hcov) ⟨_, hopt⟩
  have he := sharpe_example y m hm (hsnd _ _ _ _ (convex_sharpe m 0 hcov) hy)
  subst he
  have hsum : ∑ i, (![-1/5, -2/5] : Fin 2 → ℝ) i = -3/5 := by simp [Fin.sum_univ_two]; norm_num
  set w : Fin 2 → ℝ := fun i => (![-1/5, -2/5] : Fin 2 → ℝ) i / (∑ i, (![-1/5, -2/5] : Fin 2 → ℝ) i) with hw
  refine ⟨⟨w, dot m.mean w, Real.sqrt (∑ i, ∑ j, w i * m.cov i j * w j)⟩, ?_, ?_, ?_, ![2, -1], ?_, ?_, ?_⟩
  · unfold maxSharpe
    rw [hy]
    dsimp only
    rw [if_neg (by rw [hsum]; norm_num [abs_of_neg])]
  · funext i; rw [hw]; simp only [hsum]; fin_cases i <;> norm_num
  · simp only [hw, hsum, dot, hm, mvInit, Fin.sum_univ_two]; norm_num
  · simp [Allowed, user, Fin.sum_univ_two]; norm_num
  · simp [Fin.sum_univ_two]; norm_num
  · simp [Spec.Opt.ret, Fin.sum_univ_two]

/-- Non-vacuity of the partial theorem: for the long-only two-asset problem `max_sharpe` returns `(1/3, 2/3)`. -/
example : ∃ solver res, Sound solver ∧ Conic exUser ∧
    maxSharpe solver (mvInit ![1/10, 1/20] ![![4/100, 0], ![0, 1/100]] exUser none none) 0 = .ok res ∧ 0 < res.ret := by
  obtain ⟨s, hs, hc⟩ := exists_solver
  have hcon : Conic exUser := by simp [Conic, exUser]
  set m := mvInit ![1/10, 1/20] ![![4/100, 0], ![0, 1/100]] exUser none none with hm
  have hopt : Optimal (sharpeProg m 0) ![5, 10] := by
    refine ⟨(feasible_sharpe _ _ _).2 ⟨by simp [hm, mvInit, exUser, Fin.sum_univ_two], by
      simp [hm, mvInit, Fin.sum_univ_two]; norm_num, by simp [hm, mvInit, exUser]; norm_num⟩, fun y hy => ?_⟩
    rw [feasible_sharpe] at hy
    obtain ⟨-, h2, -⟩ := hy
    rw [value_sharpe, value_sharpe]
    simp [hm, mvInit, quad, Fin.sum_univ_two] at h2 ⊢
    nlinarith [sq_nonneg (y 0 - 5), sq_nonneg (y 1 - 10)]
  obtain ⟨y, hy⟩ := hc _ inferInstance (sharpeProg m 0) (convex_sharpe m 0 exCov) ⟨_, hopt⟩
  have hf := (hs _ _ _ _ (convex_sharpe m 0 exCov) hy).1
  rw [feasible_sharpe] at hf
  obtain ⟨h1, h2, -⟩ := hf
  simp [hm, mvInit, exUser, Fin.sum_univ_two] at h1 h2
  have hsum : 1 ≤ ∑ i, y i := by rw [Fin.sum_univ_two]; linarith
  have : ∃ res, maxSharpe s m 0 = .ok res := by
    unfold maxSharpe
    rw [hy]
    dsimp only
    rw [if_neg (by rw [abs_of_nonneg (by linarith)]; norm_num; linarith)]
    exact ⟨_, rfl⟩
  obtain ⟨res, hres⟩ := this
  refine ⟨s, res, hs, hcon, hres, C68_long_only_excess hs _ _ exUser none none exCov 0 hcon ?_ res hres⟩
  intro i; fin_cases i
  · simp [exUser]; left; funext j; fin_cases j <;> simp
  · simp [exUser]; right; funext j; fin_cases j <;> simp

end PyV.Props
