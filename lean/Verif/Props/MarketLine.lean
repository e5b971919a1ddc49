import Verif.Props.TwoFunds
import Verif.Props.FrontierShape

/-! # Property C294: lending and borrowing at the riskless rate -/

namespace PyV.Props

open PyV PyV.Api PyV.Spec.Api PyV.Opt PyV.Spec.Opt PyV.Spec.Con PyV.Risk PyV.Spec Matrix

variable {N : ℕ}

/-- All positions except the one in asset `k` multiplied by `s`, asset `k` holding the rest of a total of one. -/
def levered (k : Fin N) (s : ℝ) (x : Fin N → ℝ) : Fin N → ℝ := fun i => if i = k then 1 - s * (1 - x k) else s * x i

/-- Asset `k` is an account that can be drawn on freely: the portfolios satisfying the constraints have total weight one, and scaling
their other positions by any non-negative factor keeps them so. -/
structure FreeAccount (c : PyV.Con.Spec ℝ) (k : Fin N) : Prop where
  total : ∀ x : Fin N → ℝ, Satisfies c x → ∑ i, x i = 1
  scale : ∀ x : Fin N → ℝ, Satisfies c x → ∀ s, 0 ≤ s → Satisfies c (levered k s x)

/-- Asset `k` does not vary, and no combination of the others is riskless. -/
structure Riskless (C : Fin N → Fin N → ℝ) (k : Fin N) : Prop where
  row : ∀ i, C k i = 0
  only : ∀ x : Fin N → ℝ, quad C x = 0 → ∀ i, i ≠ k → x i = 0

private theorem levered_split (k : Fin N) (s : ℝ) (x : Fin N → ℝ) :
    levered k s x = fun i => s * x i + (if i = k then 1 - s else 0) := by
  funext i
  unfold levered
  split_ifs with h
  · subst h; ring
  · ring

private theorem sum_levered (k : Fin N) (s : ℝ) {x : Fin N → ℝ} (hx : ∑ i, x i = 1) : ∑ i, levered k s x i = 1 := by
  rw [levered_split, Finset.sum_add_distrib, ← Finset.mul_sum, hx]
  simp

private theorem ret_levered (mu : Fin N → ℝ) (k : Fin N) (s : ℝ) (x : Fin N → ℝ) :
    ret mu (levered k s x) = mu k + s * (ret mu x - mu k) := by
  rw [levered_split]
  unfold ret
  simp only [mul_add, mul_ite, mul_zero, Finset.sum_add_distrib, Finset.sum_ite_eq', Finset.mem_univ, if_true]
  have : ∑ i, mu i * (s * x i) = s * ∑ i, mu i * x i := by
    rw [Finset.mul_sum]; exact Finset.sum_congr rfl fun i _ => by ring
  rw [this]; ring

private theorem quad_levered {C : Fin N → Fin N → ℝ} (hsym : ∀ i j, C i j = C j i) {k : Fin N} (hrow : ∀ i, C k i = 0) (s : ℝ)
    (x : Fin N → ℝ) : quad C (levered k s x) = s ^ 2 * quad C x := by
  unfold quad
  rw [Finset.mul_sum]
  refine Finset.sum_congr rfl fun i _ => ?_
  rw [Finset.mul_sum]
  refine Finset.sum_congr rfl fun j _ => ?_
  by_cases hi : i = k
  · subst hi; rw [hrow]; ring
  by_cases hj : j = k
  · subst hj; rw [hsym, hrow]; ring
  unfold levered
  rw [if_neg hi, if_neg hj]
  ring

private theorem quad_mid {C : Fin N → Fin N → ℝ} (u v : Fin N → ℝ) :
    quad C (fun i => (u i + v i) / 2) + quad C (fun i => (u i - v i) / 2) = (quad C u + quad C v) / 2 := by
  unfold quad
  rw [← Finset.sum_add_distrib, ← Finset.sum_add_distrib, Finset.sum_div]
  refine Finset.sum_congr rfl fun i _ => ?_
  rw [← Finset.sum_add_distrib, ← Finset.sum_add_distrib, Finset.sum_div]
  exact Finset.sum_congr rfl fun j _ => by ring

private theorem same_risky {C : Fin N → Fin N → ℝ} {k : Fin N} (hk : Riskless C k) {u v : Fin N → ℝ} (hu : ∑ i, u i = 1) (hv : ∑ i, v i = 1)
    (h : quad C (fun i => (u i - v i) / 2) = 0) : u = v := by
  have h1 : ∀ i, i ≠ k → u i = v i := by
    intro i hi
    have := hk.only _ h i hi
    linarith
  funext i
  by_cases hi : i = k
  · subst hi
    have e : ∑ j, (u j - v j) = 0 := by rw [Finset.sum_sub_distrib, hu, hv, sub_self]
    rw [Finset.sum_eq_single i (fun j _ hj => by rw [h1 j hj, sub_self]) (by simp)] at e
    linarith
  · exact h1 i hi

/-- **C294** Lending and borrowing: with a riskless asset that may be held long or short freely, and the other assets not riskless in any
combination, every portfolio `min_variance_at_return` gives above the riskless rate earns exactly its target, and the portfolio for any
other target from the riskless rate upwards is answered too and holds the same mix of the other assets: their weights, and the reported
volatility, are proportional to the excess of the target over the riskless rate. -/
theorem C294_market_line {solver : Opt.Solver} (hsnd : Sound solver) (hcmp : Complete solver)
    (w : Wrapper N) (mu : Fin N → ℝ) (cov : Matrix (Fin N) (Fin N) ℝ) (hmu : w.mu = some mu) (hcov : w.cov = some cov)
    (hlog : w.isLog = false) (hpsd : IsCov (fun i j => cov i j)) (con : Option (PyV.Con.Spec ℝ)) (c : PyV.Con.Spec ℝ) (hin : InForce w con c)
    (htr : Trading w none none none none) {k : Fin N} (hacc : FreeAccount c k) (hk : Riskless (fun i j => cov i j) k)
    {t₀ : ℝ} (ht₀ : mu k < t₀) {r₀ : Opt.Result N} (h₀ : w.minVarianceAtReturn solver t₀ con none = .ok r₀) {t : ℝ} (ht : mu k ≤ t) :
    r₀.ret = t₀ ∧ ∃ r, w.minVarianceAtReturn solver t con none = .ok r ∧ r.ret = t ∧
      (∀ i, i ≠ k → r.w i = (t - mu k) / (t₀ - mu k) * r₀.w i) ∧ r.risk = (t - mu k) / (t₀ - mu k) * r₀.risk := by
  set C : Fin N → Fin N → ℝ := fun i j => cov i j with hC
  have hvc : ∀ x, varianceCost C (none : Option (Fin N → ℝ)) none x = quad C x := by
    intro x
    simp [varianceCost, hC]
  have hq0 : ∀ x, 0 ≤ quad C x := fun x => hpsd.2 x
  have U := C107_unbounded hsnd hcmp w mu cov hmu hcov hlog hpsd con c hin none none none none htr (by simp)
  simp only [← hC, hvc] at U
  obtain ⟨a1, a2, a3, a4, a5⟩ := (U t₀).2.1 r₀ h₀
  have hpos : 0 < quad C r₀.w := by
    refine (hq0 _).lt_of_ne fun h => ?_
    have h1 := hk.only _ h.symm
    have h2 := hacc.total _ a1
    rw [Finset.sum_eq_single k (fun j _ hj => h1 j hj) (by simp)] at h2
    have h3 : ret mu r₀.w = mu k := by
      unfold ret
      rw [Finset.sum_eq_single k (fun j _ hj => by rw [h1 j hj, mul_zero]) (by simp), h2, mul_one]
    rw [a3, h3] at a2
    linarith
  have hr₀ : r₀.ret = t₀ := by
    by_contra hne
    have hlt : t₀ < r₀.ret := lt_of_le_of_ne a2 (Ne.symm hne)
    set s : ℝ := (t₀ - mu k) / (r₀.ret - mu k) with hs
    have hd : 0 < r₀.ret - mu k := by linarith
    have hs0 : 0 < s := div_pos (by linarith) hd
    have hs1 : s < 1 := by rw [hs, div_lt_one hd]; linarith
    have e : s * (r₀.ret - mu k) = t₀ - mu k := div_mul_cancel₀ _ hd.ne'
    have h1 := a5 (levered k s r₀.w) (hacc.scale _ a1 s hs0.le) (by rw [ret_levered, ← a3, e]; linarith)
    rw [quad_levered hpsd.1 hk.row] at h1
    have : s ^ 2 < 1 := by nlinarith
    nlinarith
  refine ⟨hr₀, ?_⟩
  set s : ℝ := (t - mu k) / (t₀ - mu k) with hs
  have hd : 0 < t₀ - mu k := by linarith
  have hs0 : 0 ≤ s := div_nonneg (by linarith) hd.le
  have hse : s * (t₀ - mu k) = t - mu k := div_mul_cancel₀ _ hd.ne'
  set z := levered k s r₀.w with hz
  have hzs : Satisfies c z := hacc.scale _ a1 s hs0
  have hzr : ret mu z = t := by rw [hz, ret_levered, ← a3, hr₀, hse]; ring
  obtain ⟨r, hr⟩ := (U t).1.1 ⟨z, hzs, hzr.ge⟩
  obtain ⟨b1, b2, b3, b4, b5⟩ := (U t).2.1 r hr
  have hzq : quad C z = s ^ 2 * quad C r₀.w := quad_levered hpsd.1 hk.row s _
  have hle : quad C r.w ≤ quad C z := b5 z hzs hzr.ge
  have hmid := b5 (fun i => (r.w i + z i) / 2) (satisfies_mid hin b1 hzs) (by
    have : ret mu (fun i => (r.w i + z i) / 2) = (ret mu r.w + ret mu z) / 2 := by
      unfold ret
      rw [← Finset.sum_add_distrib, Finset.sum_div]
      exact Finset.sum_congr rfl fun i _ => by ring
    rw [this, ← b3, hzr]
    linarith)
  -- the scaled portfolio is no riskier than the answer
  have hge : quad C z ≤ quad C r.w := by
    rcases hs0.lt_or_eq with hsp | hsz
    · have h1 := a5 (levered k s⁻¹ r.w) (hacc.scale _ b1 _ (inv_pos.2 hsp).le) (by
        rw [ret_levered, ← b3]
        have h2 : s * (t₀ - mu k) ≤ r.ret - mu k := by rw [hse]; linarith
        have h3 := mul_le_mul_of_nonneg_left h2 (inv_pos.2 hsp).le
        rw [← mul_assoc, inv_mul_cancel₀ hsp.ne', one_mul] at h3
        linarith)
      rw [quad_levered hpsd.1 hk.row] at h1
      rw [hzq]
      have h2 := mul_le_mul_of_nonneg_left h1 (sq_nonneg s)
      rwa [← mul_assoc, ← mul_pow, mul_inv_cancel₀ hsp.ne', one_pow, one_mul] at h2
    · rw [hzq, ← hsz]
      simpa using hq0 r.w
  have hrz : r.w = z := by
    refine same_risky hk (hacc.total _ b1) (hacc.total _ hzs) ?_
    have := quad_mid (C := C) r.w z
    have := hq0 fun i => (r.w i - z i) / 2
    linarith
  refine ⟨r, hr, by rw [b3, hrz, hzr], fun i hi => ?_, ?_⟩
  · rw [hrz, hz]
    unfold levered
    rw [if_neg hi]
  · rw [b4, hrz, hzq, a4, Real.sqrt_mul (sq_nonneg s), Real.sqrt_sq hs0]

/-- **C294** Every target: as soon as one portfolio satisfying the constraints earns more than the riskless rate, `min_variance_at_return`
answers every target whatever. If none does, it raises `InfeasibleOptimizationError` above the riskless rate. -/
theorem C294_every_target {solver : Opt.Solver} (hsnd : Sound solver) (hcmp : Complete solver)
    (w : Wrapper N) (mu : Fin N → ℝ) (cov : Matrix (Fin N) (Fin N) ℝ) (hmu : w.mu = some mu) (hcov : w.cov = some cov)
    (hlog : w.isLog = false) (hpsd : IsCov (fun i j => cov i j)) (con : Option (PyV.Con.Spec ℝ)) (c : PyV.Con.Spec ℝ) (hin : InForce w con c)
    (htr : Trading w none none none none) {k : Fin N} (hacc : FreeAccount c k) :
    ((∃ x : Fin N → ℝ, Satisfies c x ∧ mu k < ret mu x) → ∀ t, ∃ r, w.minVarianceAtReturn solver t con none = .ok r) ∧
    ((∀ x : Fin N → ℝ, Satisfies c x → ret mu x ≤ mu k) → ∀ t, mu k < t → w.minVarianceAtReturn solver t con none = .error .infeasible) := by
  have U := C107_unbounded hsnd hcmp w mu cov hmu hcov hlog hpsd con c hin none none none none htr (by simp)
  refine ⟨fun ⟨x, hx, hlt⟩ t => (U t).1.1 ?_, fun h t ht => (U t).2.2 fun x hx => (h x hx).trans_lt ht⟩
  have hd : 0 < ret mu x - mu k := by linarith
  refine ⟨_, hacc.scale x hx (|t - mu k| / (ret mu x - mu k)) (div_nonneg (abs_nonneg _) hd.le), ?_⟩
  rw [ret_levered, div_mul_cancel₀ _ hd.ne']
  linarith [le_abs_self (t - mu k)]

/-- **C294** At or below the riskless rate everything is held in the riskless asset. -/
theorem C294_all_cash {solver : Opt.Solver} (hsnd : Sound solver) (hcmp : Complete solver)
    (w : Wrapper N) (mu : Fin N → ℝ) (cov : Matrix (Fin N) (Fin N) ℝ) (hmu : w.mu = some mu) (hcov : w.cov = some cov)
    (hlog : w.isLog = false) (hpsd : IsCov (fun i j => cov i j)) (con : Option (PyV.Con.Spec ℝ)) (c : PyV.Con.Spec ℝ) (hin : InForce w con c)
    (htr : Trading w none none none none) {k : Fin N} (hacc : FreeAccount c k) (hk : Riskless (fun i j => cov i j) k)
    (hsome : ∃ x : Fin N → ℝ, Satisfies c x) {t : ℝ} (ht : t ≤ mu k) :
    ∃ r, w.minVarianceAtReturn solver t con none = .ok r ∧ (∀ i, r.w i = if i = k then 1 else 0) ∧ r.ret = mu k ∧ r.risk = 0 := by
  set C : Fin N → Fin N → ℝ := fun i j => cov i j with hC
  have hvc : ∀ x, varianceCost C (none : Option (Fin N → ℝ)) none x = quad C x := by
    intro x
    simp [varianceCost, hC]
  have U := C107_unbounded hsnd hcmp w mu cov hmu hcov hlog hpsd con c hin none none none none htr (by simp) t
  simp only [← hC, hvc] at U
  obtain ⟨x, hx⟩ := hsome
  have hz := hacc.scale x hx 0 le_rfl
  have hzr : ret mu (levered k 0 x) = mu k := by rw [ret_levered]; ring
  have hzq : quad C (levered k 0 x) = 0 := by rw [quad_levered hpsd.1 hk.row]; ring
  obtain ⟨r, hr⟩ := U.1.1 ⟨_, hz, by rw [hzr]; exact ht⟩
  obtain ⟨b1, b2, b3, b4, b5⟩ := U.2.1 r hr
  have h1 := b5 _ hz (by rw [hzr]; exact ht)
  rw [hzq] at h1
  have h2 : quad C r.w = 0 := le_antisymm h1 (hpsd.2 _)
  have h3 := hk.only _ h2
  have h4 := hacc.total _ b1
  rw [Finset.sum_eq_single k (fun j _ hj => h3 j hj) (by simp)] at h4
  refine ⟨r, hr, fun i => ?_, ?_, by rw [b4, h2, Real.sqrt_zero]⟩
  · split_ifs with hi
    · rw [hi, h4]
    · exact h3 i hi
  · rw [b3]
    unfold ret
    rw [Finset.sum_eq_single k (fun j _ hj => by rw [h3 j hj, mul_zero]) (by simp), h4, mul_one]

/-- With only a total weight of one, every asset is such an account. -/
theorem free_account_of_total (k : Fin N) : FreeAccount (⟨false, some (.fin 1), none, [], [], [], []⟩ : PyV.Con.Spec ℝ) k := by
  have tot : ∀ x : Fin N → ℝ, Satisfies (⟨false, some (.fin 1), none, [], [], [], []⟩ : PyV.Con.Spec ℝ) x → ∑ i, x i = 1 :=
    fun x hx => hx.total 1 rfl
  refine ⟨tot, fun x hx s _ => ⟨by simp, fun t ht => ?_, by simp [InBounds], by simp, by simp, by simp, by simp⟩⟩
  simp only [Option.some.injEq, PyFloat.fin.injEq] at ht
  rw [sum_levered k s (tot x hx), ht]

/-- Cash at 2% and two uncorrelated assets with means 6% and 12%: from the portfolio for 4%, the one for 10% holds four times the risky
positions at four times the volatility, most of it borrowed. -/
example : ∃ (w : Wrapper 3) (solver : Opt.Solver) (c : PyV.Con.Spec ℝ) (r₀ r : Opt.Result 3), Sound solver ∧ Complete solver ∧
    FreeAccount c (0 : Fin 3) ∧ w.minVarianceAtReturn solver 4 (some c) none = .ok r₀ ∧ w.minVarianceAtReturn solver 10 (some c) none = .ok r ∧
      r₀.ret = 4 ∧ r.ret = 10 ∧ r.w 1 = 4 * r₀.w 1 ∧ r.w 2 = 4 * r₀.w 2 ∧ r.risk = 4 * r₀.risk := by
  obtain ⟨solver, h1, h2⟩ := exists_solver
  obtain ⟨w, hmu, hcov, -, hlog, -, -, htr⟩ := exists_wrapper (N := 3) (by norm_num) (some ![2, 6, 12]) (some (Matrix.diagonal ![0, 1, 1])) none false
  set c : PyV.Con.Spec ℝ := ⟨false, some (.fin 1), none, [], [], [], []⟩ with hc
  have hin : InForce w (some c) c := Or.inl ⟨rfl, ⟨by norm_num, by simp [hc, FinOpt, Fin'], by simp [hc, BoundsOK], by simp [hc], by simp [hc],
    by simp [hc], by simp [hc]⟩⟩
  have hq : ∀ x : Fin 3 → ℝ, quad (fun i j => (Matrix.diagonal ![(0 : ℝ), 1, 1]) i j) x = x 1 ^ 2 + x 2 ^ 2 := by
    intro x
    simp [quad, Fin.sum_univ_three, Matrix.diagonal_apply]
    ring
  have hpsd : IsCov (fun i j => (Matrix.diagonal ![(0 : ℝ), 1, 1]) i j) := by
    refine ⟨fun i j => by fin_cases i <;> fin_cases j <;> simp, fun x => ?_⟩
    show 0 ≤ quad _ x
    rw [hq]; positivity
  have hk : Riskless (fun i j => (Matrix.diagonal ![(0 : ℝ), 1, 1]) i j) 0 := by
    refine ⟨fun i => by fin_cases i <;> simp, fun x hx i hi => ?_⟩
    rw [hq] at hx
    have g1 : x 1 = 0 := by nlinarith [sq_nonneg (x 1), sq_nonneg (x 2)]
    have g2 : x 2 = 0 := by nlinarith [sq_nonneg (x 1), sq_nonneg (x 2)]
    fin_cases i
    · exact absurd rfl hi
    · exact g1
    · exact g2
  have hacc : FreeAccount c (0 : Fin 3) := free_account_of_total 0
  have hsat : Satisfies c (![0, 0, 1] : Fin 3 → ℝ) := by
    refine ⟨by simp [hc], fun t ht => ?_, by simp [hc, InBounds], by simp [hc], by simp [hc], by simp [hc], by simp [hc]⟩
    simp only [hc, Option.some.injEq, PyFloat.fin.injEq] at ht
    simp [Fin.sum_univ_three, ht]
  obtain ⟨r₀, e0⟩ := (C294_every_target h1 h2 w _ _ hmu hcov hlog hpsd (some c) c hin htr hacc).1
    ⟨_, hsat, by simp [ret, Fin.sum_univ_three]; norm_num⟩ 4
  obtain ⟨g1, r, e1, g2, g3, g4⟩ := C294_market_line h1 h2 w _ _ hmu hcov hlog hpsd (some c) c hin htr hacc hk (t₀ := 4) (by norm_num) e0
    (t := 10) (by norm_num)
  have e : ((10 : ℝ) - ![2, 6, 12] (0 : Fin 3)) / (4 - ![2, 6, 12] (0 : Fin 3)) = 4 := by norm_num
  rw [e] at g3 g4
  exact ⟨w, solver, c, r₀, r, h1, h2, hacc, e0, e1, g1, g2, g3 1 (by decide), g3 2 (by decide), g4⟩

end PyV.Props
