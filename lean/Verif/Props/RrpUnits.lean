import Verif.Props.RrpOrder
import Verif.Props.RrpUnique

/-! # Properties C245, C246: units of relaxed risk parity; the price of return -/

namespace PyV.Props

open PyV PyV.Opt PyV.Spec.Opt Matrix

variable {n : ℕ}

private theorem chol_scaled {S L : Matrix (Fin n) (Fin n) ℝ} (h : IsChol S L) {k : ℝ} (hk : 0 < k) : IsChol (k ^ 2 • S) (k • L) := by
  refine ⟨?_, fun i j hij => ?_, fun i => ?_⟩
  · rw [Matrix.transpose_smul, Matrix.smul_mul, Matrix.mul_smul, smul_smul, h.1, pow_two]
  · rw [Matrix.smul_apply, h.2.1 i j hij, smul_zero]
  · rw [Matrix.smul_apply, smul_eq_mul]; exact mul_pos hk (h.2.2 i)

private theorem clip_scaled {t r k : ℝ} (hk : 0 < k) (h1 : 1 / 10 ^ 5 ≤ |r|) (h2 : 1 / 10 ^ 5 ≤ k * |r|) (m : Option ℝ) :
    rrpClip (k * t) (k * r) (m.map (k * ·)) = k * rrpClip t r m := by
  have e1 : max (1 / 10 ^ 8 : ℝ) (1 / 10 ^ 3 * |r|) = 1 / 10 ^ 3 * |r| := max_eq_right (by norm_num at h1 ⊢; linarith)
  have e2 : max (1 / 10 ^ 8 : ℝ) (1 / 10 ^ 3 * |k * r|) = k * (1 / 10 ^ 3 * |r|) := by
    rw [abs_mul, abs_of_pos hk, max_eq_right (by norm_num at h2 ⊢; linarith)]; ring
  have e3 : k * r - k * (1 / 10 ^ 3 * |r|) ≤ k * t ↔ r - 1 / 10 ^ 3 * |r| ≤ t := by
    rw [← mul_sub]; exact mul_le_mul_iff_right₀ hk
  unfold rrpClip
  rw [e1, e2]
  dsimp only
  cases m with
  | none =>
    dsimp only [Option.map_none]
    by_cases h : r - 1 / 10 ^ 3 * |r| ≤ t
    · rw [if_pos h, if_pos (e3.2 h)]; ring
    · rw [if_neg h, if_neg (fun h' => h (e3.1 h'))]
  | some m =>
    dsimp only [Option.map_some]
    by_cases h : r - 1 / 10 ^ 3 * |r| ≤ t
    · rw [if_pos h, if_pos (e3.2 h), mul_max_of_nonneg _ _ hk.le]; congr 1; ring
    · rw [if_neg h, if_neg (fun h' => h (e3.1 h')), mul_max_of_nonneg _ _ hk.le]

private theorem target_of {solver : Opt.Solver} {a : Rrp n} {lam : ℝ} {target minT : Option ℝ} {res : RrpResult n}
    (h : rrpSolve solver a lam target minT = .ok res) :
    (target = none ∧ res.target = none ∧ res.maxReturn = none) ∨
      ∃ t r, target = some t ∧ rrpMaxReturn solver a = .ok r ∧ res.target = some (rrpClip t r minT) ∧ res.maxReturn = some r := by
  unfold rrpSolve at h
  split_ifs at h
  cases target with
  | none =>
    obtain ⟨x, -, rfl⟩ := rrpFinish_ok h
    exact .inl ⟨rfl, rfl, rfl⟩
  | some t =>
    dsimp only at h
    split at h
    · cases h
    · rename_i r hr
      obtain ⟨x, -, rfl⟩ := rrpFinish_ok h
      exact .inr ⟨t, r, rfl, hr, rfl, rfl⟩

/-- **C245** (partial) Expressing returns in another unit (means and targets times `k`, covariances times `k²`) leaves the relaxed risk parity portfolio
unchanged and scales its marginal risks, average risk, contribution level, objective, target and greatest return.  Missing: targets when the greatest
attainable return is a number below `10⁻⁵` in one of the units, for which it fails (`C245_counterexample`). -/
theorem C245_units_partial {s1 s2 : Opt.Solver} (hs1 : Sound s1) (hs2 : Sound s2) {f1 f2 : Bayes.Factor} (hf1 : CholOk f1) (hf2 : CholOk f2) (hn : 2 ≤ n)
    (mean : Fin n → ℝ) (S : Matrix (Fin n) (Fin n) ℝ) (hS : ∃ L, IsChol S L) (u : User n) (rb : Option (Fin n → ℝ)) {k : ℝ} (hk : 0 < k) {a a' : Rrp n}
    (ha : rrpInit f1 mean S u rb = .ok a) (ha' : rrpInit f2 (fun i => k * mean i) (k ^ 2 • S) u rb = .ok a') (lam : ℝ) (target minT : Option ℝ)
    (htol : target = none ∨ (u.A = none ∨ ∃ r ∈ u.A.getD [], ∀ i, |r.1 i - 1| ≤ 2 / 10 ^ 8) ∧
      ∃ r, IsGreatest (Spec.Opt.ret mean '' {w | Holding u w}) r ∧ 1 / 10 ^ 5 ≤ |r| ∧ 1 / 10 ^ 5 ≤ k * |r|)
    {res res' : RrpResult n} (h : rrpSolve s1 a lam target minT = .ok res) (h' : rrpSolve s2 a' lam (target.map (k * ·)) (minT.map (k * ·)) = .ok res') :
    res'.w = res.w ∧ (∀ i, res'.marginal i = k ^ 2 * res.marginal i) ∧ res'.psi = k * res.psi ∧ res'.gamma = k * res.gamma ∧
      res'.objective = k * res.objective ∧ res'.target = res.target.map (k * ·) ∧ res'.maxReturn = res.maxReturn.map (k * ·) := by
  have hS' : ∃ L, IsChol (k ^ 2 • S) L := by obtain ⟨L, hL⟩ := hS; exact ⟨_, chol_scaled hL hk⟩
  obtain ⟨em, ecov, hL, eu, eb⟩ := rrpInit_ok hf1 hS ha
  obtain ⟨em', ecov', hL', eu', eb'⟩ := rrpInit_ok hf2 hS' ha'
  have hbud : a'.budgets = a.budgets := by rw [eb] at eb'; injection eb' with e; exact e.symm
  have hchol : a'.chol = k • a.chol := isChol_unique hL' (chol_scaled hL hk)
  have hb := fun i => ((rrpBudgets_ok hn eb).1 i).le
  have hb' := fun i => ((rrpBudgets_ok hn eb').1 i).le
  have hret : ∀ x, Spec.Opt.ret a'.mean x = k * Spec.Opt.ret a.mean x := by
    intro x; unfold Spec.Opt.ret; rw [em, em', Finset.mul_sum]; exact Finset.sum_congr rfl fun i _ => by ring
  -- targets
  have htm : res'.target = res.target.map (k * ·) ∧ res'.maxReturn = res.maxReturn.map (k * ·) := by
    rcases target_of h with ⟨e, e1, e2⟩ | ⟨t, r, e, hr, e1, e2⟩ <;> rcases target_of h' with ⟨q, q1, q2⟩ | ⟨t', r', q, hr', q1, q2⟩
    · rw [e1, e2, q1, q2]; exact ⟨rfl, rfl⟩
    · rw [e] at q; cases q
    · rw [e] at q; cases q
    · rw [e] at q
      simp only [Option.map_some, Option.some.injEq] at q
      rcases htol with h0 | ⟨hA, r0, hr0, hr1, hr2⟩
      · rw [e] at h0; cases h0
      have g1 := maxReturn_greatest hs1 a (by rw [eu]; exact hA) hr
      have g2 := maxReturn_greatest hs2 a' (by rw [eu']; exact hA) hr'
      rw [em, eu] at g1
      have er : r = r0 := g1.unique hr0
      subst er
      have g3 : IsGreatest (Spec.Opt.ret a'.mean '' {w | Holding a'.user w}) (k * r) := by
        obtain ⟨⟨w, hw, hwr⟩, hup⟩ := g1
        refine ⟨⟨w, by rw [eu']; exact hw, by rw [hret, em, hwr]⟩, ?_⟩
        rintro _ ⟨v, hv, rfl⟩
        rw [hret, em]
        refine mul_le_mul_of_nonneg_left (hup ⟨v, ?_, rfl⟩) hk.le
        rw [eu'] at hv; exact hv
      have er' : r' = k * r := g2.unique g3
      rw [e1, e2, q1, q2, er', ← q, clip_scaled hk hr1 hr2]
      exact ⟨rfl, rfl⟩
  obtain ⟨ht, hmr⟩ := htm
  obtain ⟨hl, p1, p2, p3, p4, p5, -, p7, p8⟩ := C96_solution hs1 a (by omega) hb lam target minT res h
  obtain ⟨-, q1, q2, q3, q4, q5, -, q7, q8⟩ := C96_solution hs2 a' (by omega) hb' lam _ _ res' h'
  rw [ht] at q1 q8
  have hmarg : ∀ (x : Fin n → ℝ) i, ∑ j, a'.cov i j * x j = k ^ 2 * ∑ j, a.cov i j * x j := by
    intro x i
    rw [ecov, ecov', Finset.mul_sum]
    exact Finset.sum_congr rfl fun j _ => by rw [Matrix.smul_apply, smul_eq_mul]; ring
  have hcand : ∀ x, Candidate a' (res.target.map (k * ·)) x ↔ Candidate a res.target x := by
    intro x
    unfold Candidate
    rw [eu', eu]
    simp only [hret, hmarg]
    refine and_congr_right fun _ => and_congr ⟨fun h i => ?_, fun h i => mul_nonneg (by positivity) (h i)⟩ ⟨fun h t ht => ?_, fun h t ht => ?_⟩
    · exact nonneg_of_mul_nonneg_right (h i) (by positivity)
    · exact le_of_mul_le_mul_left (h (k * t) (by rw [ht]; rfl)) hk
    · cases hres : res.target with
      | none => rw [hres] at ht; cases ht
      | some v =>
        rw [hres] at ht
        simp only [Option.map_some, Option.some.injEq] at ht
        rw [← ht]
        exact mul_le_mul_of_nonneg_left (h v hres) hk.le
  have hcon : ∀ (x : Fin n → ℝ) i, contribution a'.cov x i = k ^ 2 * contribution a.cov x i := by
    intro x i
    unfold contribution
    rw [hmarg]; ring
  have hrisk : ∀ x, rrpRisk a' lam x = k * rrpRisk a lam x := by
    intro x
    unfold rrpRisk
    rw [coneNorm_sq, coneNorm_sq, hchol, ecov, ecov']
    have e1 : ∑ i, (∑ j, (k • a.chol) i j * x j) ^ 2 = k ^ 2 * ∑ i, (∑ j, a.chol i j * x j) ^ 2 := by
      rw [Finset.mul_sum]
      refine Finset.sum_congr rfl fun i _ => ?_
      rw [← mul_pow, Finset.mul_sum]
      exact congrArg (· ^ 2) (Finset.sum_congr rfl fun j _ => by rw [Matrix.smul_apply, smul_eq_mul]; ring)
    have e2 : ∑ i, max ((k ^ 2 • S) i i) 0 * x i ^ 2 = k ^ 2 * ∑ i, max (S i i) 0 * x i ^ 2 := by
      rw [Finset.mul_sum]
      refine Finset.sum_congr rfl fun i _ => ?_
      rw [Matrix.smul_apply, smul_eq_mul]
      have : max (k ^ 2 * S i i) 0 = k ^ 2 * max (S i i) 0 := by
        rw [mul_max_of_nonneg _ _ (by positivity : (0:ℝ) ≤ k ^ 2), mul_zero]
      rw [this]; ring
    rw [e1, e2]
    rw [show k ^ 2 * (∑ i, (∑ j, a.chol i j * x j) ^ 2) / (n : ℝ) + lam * (k ^ 2 * ∑ i, max (S i i) 0 * x i ^ 2) =
      k ^ 2 * ((∑ i, (∑ j, a.chol i j * x j) ^ 2) / (n : ℝ) + lam * ∑ i, max (S i i) 0 * x i ^ 2) by ring]
    rw [Real.sqrt_mul (by positivity), Real.sqrt_sq hk.le]
  -- the second solution, in the first unit
  set g := res'.gamma / k with hg
  have hgk : res'.gamma = k * g := by rw [hg]; field_simp
  have hg0 : 0 ≤ g := div_nonneg q4 hk.le
  have hf' : ∀ i, a.budgets i * g ^ 2 ≤ contribution a.cov res'.w i := by
    intro i
    have := q5 i
    rw [hbud, hcon, hgk, mul_pow] at this
    have : k ^ 2 * (a.budgets i * g ^ 2) ≤ k ^ 2 * contribution a.cov res'.w i := by linarith
    exact le_of_mul_le_mul_left this (by positivity)
  have hbest : ∀ v m, Candidate a res.target v → 0 ≤ m → (∀ i, a.budgets i * m ^ 2 ≤ contribution a.cov v i) →
      rrpRisk a lam res'.w - g ≤ rrpRisk a lam v - m := by
    intro v m hv hm hvf
    have := q8 v (k * m) ((hcand v).2 hv) (by positivity) (fun i => by
      rw [hbud, hcon, mul_pow]
      have := mul_le_mul_of_nonneg_left (hvf i) (by positivity : (0:ℝ) ≤ k ^ 2)
      linarith)
    rw [q7, q3, hrisk, hrisk, hgk] at this
    have : k * (rrpRisk a lam res'.w - g) ≤ k * (rrpRisk a lam v - m) := by linarith
    exact le_of_mul_le_mul_left this hk
  obtain ⟨hw, hgg⟩ := rrp_best_unique hL hb hl p1 ((hcand _).1 q1) p4 hg0 p5 hf' (fun v m hv hm hvf => by
    have := p8 v m hv hm hvf
    rwa [p7, p3] at this) hbest
  have hpsi : res'.psi = k * res.psi := by rw [q3, p3, hrisk, hw]
  have hgam : res'.gamma = k * res.gamma := by rw [hgk, hgg]
  refine ⟨hw.symm, fun i => by rw [q2, p2, hmarg, hw], hpsi, hgam, ?_, ht, hmr⟩
  rw [q7, p7, hpsi, hgam]; ring

private theorem one_chol : IsChol (1 : Matrix (Fin 2) (Fin 2) ℝ) 1 :=
  ⟨by rw [Matrix.transpose_one, Matrix.one_mul], fun _ _ h => Matrix.one_apply_ne h.ne, fun i => by rw [Matrix.one_apply_eq]; norm_num⟩

private theorem greatest_two {k : ℝ} (hk : 0 < k) :
    IsGreatest (Spec.Opt.ret (fun i => k * (![1, 0] : Fin 2 → ℝ) i) '' {w | Holding (⟨none, none⟩ : User 2) w}) k := by
  refine ⟨⟨![1, 0], (holding_free _).2 ⟨fun i => by fin_cases i <;> simp, by simp [Fin.sum_univ_two]⟩, by simp [Spec.Opt.ret, Fin.sum_univ_two]⟩, ?_⟩
  rintro _ ⟨w, hw, rfl⟩
  obtain ⟨h0, h1⟩ := (holding_free w).1 hw
  rw [Fin.sum_univ_two] at h1
  have := h0 1
  simp only [Spec.Opt.ret, Fin.sum_univ_two]
  simp
  nlinarith

/-- Two independent assets of unit risk, of which only the first has an expected return, `k`, and the target `k`. -/
private theorem two_units {solver : Opt.Solver} (hsnd : Sound solver) (hcmp : Complete solver) {factor : Bayes.Factor} (hf : CholOk factor) {k : ℝ} (hk : 0 < k) :
    ∃ a res, rrpInit factor (fun i => k * (![1, 0] : Fin 2 → ℝ) i) (k ^ 2 • (1 : Matrix (Fin 2) (Fin 2) ℝ)) ⟨none, none⟩ none = .ok a ∧
      rrpSolve solver a 0 (some k) none = .ok res ∧ 0 ≤ res.w 0 ∧ 0 ≤ res.w 1 ∧ res.w 0 + res.w 1 = 1 ∧
      rrpClip k k none ≤ k * res.w 0 ∧
      (rrpClip k k none ≤ 0 → res.w 0 < 999 / 1000) := by
  have hS : IsChol (k ^ 2 • (1 : Matrix (Fin 2) (Fin 2) ℝ)) (k • 1) := chol_scaled one_chol hk
  obtain ⟨L, hL, hc⟩ := cholSquare_ok hf _ ⟨_, hS⟩
  obtain rfl := isChol_unique hc hS
  have hsym : Bayes.symPart (k ^ 2 • (1 : Matrix (Fin 2) (Fin 2) ℝ)) = k ^ 2 • 1 := by
    unfold Bayes.symPart; rw [Matrix.transpose_smul, Matrix.transpose_one, ← two_smul ℝ, smul_smul]; norm_num
  have hinit : rrpInit factor (fun i => k * (![1, 0] : Fin 2 → ℝ) i) (k ^ 2 • (1 : Matrix (Fin 2) (Fin 2) ℝ)) ⟨none, none⟩ none =
      .ok ⟨fun i => k * (![1, 0] : Fin 2 → ℝ) i, k ^ 2 • 1, k • 1, fun _ => 1 / 2, ⟨none, none⟩⟩ := by
    unfold rrpInit; rw [hsym, hL]; simp [rrpBudgets]
  set a : Rrp 2 := ⟨fun i => k * (![1, 0] : Fin 2 → ℝ) i, k ^ 2 • 1, k • 1, fun _ => 1 / 2, ⟨none, none⟩⟩ with ha
  obtain ⟨res, hres⟩ := (C96_total hsnd hcmp a (by norm_num) (fun i => by norm_num [ha]) 0 le_rfl).2 (fun i j => by
      simp only [ha, Matrix.smul_apply, smul_eq_mul]
      refine mul_nonneg (by positivity) ?_
      rw [Matrix.one_apply]; split_ifs <;> norm_num) (.inl rfl)
    ⟨![1, 0], (holding_free _).2 ⟨fun i => by fin_cases i <;> simp, by simp [Fin.sum_univ_two]⟩⟩ k
  obtain ⟨-, hcd, -, hpsi, hg0, hfl, -, hobj, hopt⟩ := C96_solution hsnd a (by norm_num) (fun i => by norm_num [ha]) 0 _ none res hres
  obtain ⟨w0, w1⟩ := (holding_free _).1 hcd.1
  rw [Fin.sum_univ_two] at w1
  have ht : res.target = some (rrpClip k k none) := by
    rcases target_of hres with ⟨e, -⟩ | ⟨t, r, e, hr, e1, -⟩
    · cases e
    · injection e with e
      subst e
      rw [e1, (maxReturn_greatest hsnd a (.inl rfl) hr).unique (greatest_two hk)]
  have hr := hcd.2.2 _ ht
  have hret : ∀ x : Fin 2 → ℝ, Spec.Opt.ret a.mean x = k * x 0 := by
    intro x; simp [Spec.Opt.ret, Fin.sum_univ_two, ha]
  rw [hret] at hr
  refine ⟨a, res, hinit, hres, w0 0, w0 1, w1, hr, fun hclip => ?_⟩
  by_contra hge
  push Not at hge
  have hrisk : ∀ x : Fin 2 → ℝ, rrpRisk a 0 x = Real.sqrt (k ^ 2 * ((x 0 ^ 2 + x 1 ^ 2) / 2)) := fun x => by
    unfold rrpRisk
    rw [coneNorm_sq]
    congr 1
    simp [ha, Fin.sum_univ_two, Matrix.one_apply]
    ring
  have hcon : ∀ (x : Fin 2 → ℝ) i, contribution a.cov x i = k ^ 2 * x i ^ 2 := fun x i => by
    fin_cases i <;> simp [contribution, ha, Fin.sum_univ_two, Matrix.one_apply] <;> ring
  have hs := Real.sq_sqrt (show (0:ℝ) ≤ 1 / 2 by norm_num)
  have hs0 := Real.sqrt_nonneg (1 / 2 : ℝ)
  have h1 := hopt (fun _ => 1 / 2) (k * Real.sqrt (1 / 2)) ⟨(holding_free _).2 ⟨fun i => by norm_num, by simp⟩, fun i => by
      fin_cases i <;> simp [ha, Fin.sum_univ_two, Matrix.one_apply] <;> positivity, fun t' ht' => by
      rw [ht] at ht'
      injection ht' with ht'
      rw [hret, ← ht']
      have : 0 ≤ k * (1 / 2) := by positivity
      linarith⟩ (by positivity) (fun i => by
      rw [hcon, mul_pow, hs]
      simp only [ha]
      have : 0 ≤ k ^ 2 := by positivity
      linarith)
  have h2 := hfl 1
  rw [hcon] at h2
  simp only [ha] at h2
  rw [hobj, hpsi, hrisk, hrisk, Real.sqrt_mul (by positivity), Real.sqrt_mul (by positivity), Real.sqrt_sq hk.le] at h1
  have h3 : Real.sqrt (((1 / 2 : ℝ) ^ 2 + (1 / 2) ^ 2) / 2) = 1 / 2 := by
    rw [show (((1 / 2 : ℝ) ^ 2 + (1 / 2) ^ 2) / 2) = (1 / 2) ^ 2 by norm_num, Real.sqrt_sq (by norm_num)]
  rw [h3] at h1
  have h4 : (7 / 10 : ℝ) ≤ Real.sqrt ((res.w 0 ^ 2 + res.w 1 ^ 2) / 2) := by
    apply Real.le_sqrt_of_sq_le
    nlinarith [sq_nonneg (res.w 1)]
  have h5 : res.gamma ≤ k * (1 / 100) := by
    have hw : res.w 1 ≤ 1 / 1000 := by linarith
    have hw2 : res.w 1 ^ 2 ≤ (1 / 1000) ^ 2 := pow_le_pow_left₀ (w0 1) hw 2
    have : res.gamma ^ 2 ≤ (k * (1 / 100)) ^ 2 := by
      have := mul_le_mul_of_nonneg_left hw2 (by positivity : (0:ℝ) ≤ k ^ 2)
      have k2 : 0 ≤ k ^ 2 := by positivity
      nlinarith
    exact (pow_le_pow_iff_left₀ hg0 (by positivity) two_ne_zero).1 this
  have h6 : (1 / 2 : ℝ) ≤ Real.sqrt (1 / 2) := by apply Real.le_sqrt_of_sq_le; norm_num
  have h7 := mul_le_mul_of_nonneg_left h4 hk.le
  have h8 := mul_le_mul_of_nonneg_left h6 hk.le
  nlinarith

/-- **C245 is false.** Two independent assets of unit risk; only the first has an expected return, and all of it is asked for.  In one unit the target is
honoured up to a thousandth, in a unit in which the return is `10⁻⁸` it is dropped, because the tolerance `10⁻⁸` is an absolute number. -/
theorem C245_counterexample {solver : Opt.Solver} (hsnd : Sound solver) (hcmp : Complete solver) {factor : Bayes.Factor} (hf : CholOk factor) :
    ∃ a a' res res', rrpInit factor ![1, 0] (1 : Matrix (Fin 2) (Fin 2) ℝ) ⟨none, none⟩ none = .ok a ∧
      rrpInit factor (fun i => 1 / 10 ^ 8 * (![1, 0] : Fin 2 → ℝ) i) ((1 / 10 ^ 8 : ℝ) ^ 2 • (1 : Matrix (Fin 2) (Fin 2) ℝ)) ⟨none, none⟩ none = .ok a' ∧
      rrpSolve solver a 0 (some 1) none = .ok res ∧ rrpSolve solver a' 0 (some (1 / 10 ^ 8 * 1)) none = .ok res' ∧
      999 / 1000 ≤ res.w 0 ∧ res'.w 0 < 999 / 1000 := by
  obtain ⟨a, res, h1, h2, -, -, -, h3, -⟩ := two_units hsnd hcmp hf (k := 1) one_pos
  obtain ⟨a', res', g1, g2, -, -, -, -, g3⟩ := two_units hsnd hcmp hf (k := 1 / 10 ^ 8) (by norm_num)
  refine ⟨a, a', res, res', ?_, g1, h2, by rw [mul_one]; exact g2, ?_, g3 ?_⟩
  · rw [one_pow, one_smul] at h1
    simpa using h1
  · have : rrpClip 1 1 none = 999 / 1000 := by
      unfold rrpClip; norm_num
    rw [this] at h3
    linarith
  · unfold rrpClip
    norm_num

/-- `C245_units_partial` applies: with a second solver, the same two assets measured in half the unit, and the target doubled. -/
example {s1 s2 : Opt.Solver} (hs1 : Sound s1) (hc1 : Complete s1) (hs2 : Sound s2) (hc2 : Complete s2) {factor : Bayes.Factor} (hf : CholOk factor) :
    ∃ a a' res res', rrpInit factor ![1, 0] (1 : Matrix (Fin 2) (Fin 2) ℝ) ⟨none, none⟩ none = .ok a ∧
      rrpInit factor (fun i => 2 * (![1, 0] : Fin 2 → ℝ) i) ((2 : ℝ) ^ 2 • (1 : Matrix (Fin 2) (Fin 2) ℝ)) ⟨none, none⟩ none = .ok a' ∧
      rrpSolve s1 a 0 (some 1) none = .ok res ∧ rrpSolve s2 a' 0 (some (2 * 1)) none = .ok res' ∧
      999 / 1000 ≤ res.w 0 ∧ res'.w = res.w ∧ res'.psi = 2 * res.psi := by
  obtain ⟨a, res, h1, h2, -, -, -, h3, -⟩ := two_units hs1 hc1 hf (k := 1) one_pos
  obtain ⟨a', res', g1, g2, -⟩ := two_units hs2 hc2 hf (k := 2) two_pos
  have h1' : rrpInit factor ![1, 0] (1 : Matrix (Fin 2) (Fin 2) ℝ) ⟨none, none⟩ none = .ok a := by
    rw [one_pow, one_smul] at h1
    simpa using h1
  have g2' : rrpSolve s2 a' 0 (some (2 * 1)) none = .ok res' := by rw [mul_one]; exact g2
  obtain ⟨e1, -, e2, -⟩ := C245_units_partial hs1 hs2 hf hf le_rfl _ _ ⟨1, one_chol⟩ _ none two_pos h1' g1 0 (some 1) none
    (.inr ⟨.inl rfl, 1, by simpa using greatest_two one_pos, by norm_num, by norm_num⟩) h2 g2'
  refine ⟨a, a', res, res', h1', g1, h2, g2', ?_, e1, e2⟩
  have : rrpClip 1 1 none = 999 / 1000 := by unfold rrpClip; norm_num
  rw [this] at h3
  linarith

end PyV.Props
