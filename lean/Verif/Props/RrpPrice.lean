import Verif.Props.RrpUnits

/-! # Property C246: the price of return and of the penalty in relaxed risk parity -/

namespace PyV.Props

open PyV PyV.Opt PyV.Spec.Opt Matrix PyV.Lemmas

variable {n : ℕ}

private theorem floor_mix {b x z y v g h p q : ℝ} (hb : 0 ≤ b) (hx : 0 ≤ x) (hz : 0 ≤ z) (hy : 0 ≤ y) (hv : 0 ≤ v) (hg : 0 ≤ g) (hh : 0 ≤ h)
    (hp : 0 ≤ p) (hq : 0 ≤ q) (h1 : b * g ^ 2 ≤ x * z) (h2 : b * h ^ 2 ≤ y * v) :
    b * (p * g + q * h) ^ 2 ≤ (p * x + q * y) * (p * z + q * v) := by
  have key : 2 * (b * (g * h)) ≤ x * v + y * z := by
    have hsq : (b * (g * h)) ^ 2 ≤ (x * v) * (y * z) := by
      calc (b * (g * h)) ^ 2 = (b * g ^ 2) * (b * h ^ 2) := by ring
        _ ≤ (x * z) * (y * v) := mul_le_mul h1 h2 (by positivity) (by positivity)
        _ = (x * v) * (y * z) := by ring
    have h3 : (2 * (b * (g * h))) ^ 2 ≤ (x * v + y * z) ^ 2 := by nlinarith [sq_nonneg (x * v - y * z)]
    exact (pow_le_pow_iff_left₀ (by positivity) (by positivity) two_ne_zero).1 h3
  have k1 := mul_le_mul_of_nonneg_left h1 (by positivity : (0:ℝ) ≤ p ^ 2)
  have k2 := mul_le_mul_of_nonneg_left h2 (by positivity : (0:ℝ) ≤ q ^ 2)
  have k3 := mul_le_mul_of_nonneg_left key (by positivity : (0:ℝ) ≤ p * q)
  linear_combination k1 + k2 + k3

private theorem sum_mix (r x y : Fin n → ℝ) (p q : ℝ) : ∑ i, r i * (p * x i + q * y i) = p * ∑ i, r i * x i + q * ∑ i, r i * y i := by
  rw [Finset.mul_sum, Finset.mul_sum, ← Finset.sum_add_distrib]
  exact Finset.sum_congr rfl fun i _ => by ring

private theorem holding_mix {u : User n} {x y : Fin n → ℝ} (hx : Holding u x) (hy : Holding u y) {p q : ℝ} (hp : 0 ≤ p) (hq : 0 ≤ q) (hpq : p + q = 1) :
    Holding u (fun i => p * x i + q * y i) := by
  refine ⟨⟨fun r hr => ?_, fun r hr => ?_⟩, fun i => ?_, fun h => ?_⟩
  · rw [sum_mix]
    have h1 := mul_le_mul_of_nonneg_left (hx.1.1 r hr) hp
    have h2 := mul_le_mul_of_nonneg_left (hy.1.1 r hr) hq
    have : p * r.2 + q * r.2 = r.2 := by rw [← add_mul, hpq, one_mul]
    linarith
  · rw [sum_mix, hx.1.2 r hr, hy.1.2 r hr, ← add_mul, hpq, one_mul]
  · exact add_nonneg (mul_nonneg hp (hx.2.1 i)) (mul_nonneg hq (hy.2.1 i))
  · rw [Finset.sum_add_distrib, ← Finset.mul_sum, ← Finset.mul_sum, hx.2.2 h, hy.2.2 h]; linarith

private theorem sqrt_mix {α : Type} [Fintype α] (f g : α → ℝ) {p q : ℝ} (hp : 0 ≤ p) (hq : 0 ≤ q) :
    Real.sqrt (∑ k, (p * f k + q * g k) ^ 2) ≤ p * Real.sqrt (∑ k, f k ^ 2) + q * Real.sqrt (∑ k, g k ^ 2) := by
  have e : ∀ h : α → ℝ, Real.sqrt (∑ k, h k ^ 2) = ‖(WithLp.toLp 2 h : EuclideanSpace ℝ α)‖ := by
    intro h; rw [EuclideanSpace.norm_eq]; simp
  rw [e, e, e]
  calc _ = ‖p • (WithLp.toLp 2 f : EuclideanSpace ℝ α) + q • (WithLp.toLp 2 g : EuclideanSpace ℝ α)‖ := by
        congr 1
    _ ≤ _ := by
        refine (norm_add_le _ _).trans ?_
        rw [norm_smul, norm_smul, Real.norm_of_nonneg hp, Real.norm_of_nonneg hq]

private theorem risk_mix (a : Rrp n) {lam : ℝ} (hl : 0 ≤ lam) (x y : Fin n → ℝ) {p q : ℝ} (hp : 0 ≤ p) (hq : 0 ≤ q) :
    rrpRisk a lam (fun i => p * x i + q * y i) ≤ p * rrpRisk a lam x + q * rrpRisk a lam y := by
  have e : ∀ z : Fin n → ℝ, rrpRisk a lam z = Real.sqrt (∑ k : Fin n ⊕ Fin n,
      (Sum.elim (fun k => (∑ i, a.chol k i * z i) / Real.sqrt n) (fun k => Real.sqrt (lam * max (a.cov k k) 0) * z k) k) ^ 2) := by
    intro z
    unfold rrpRisk
    rw [Fintype.sum_sum_type, coneNorm_sq, Finset.sum_div, Finset.mul_sum]
    simp only [Sum.elim_inl, Sum.elim_inr]
    congr 2
    · exact Finset.sum_congr rfl fun k _ => by rw [div_pow, Real.sq_sqrt (Nat.cast_nonneg n)]
    · exact Finset.sum_congr rfl fun k _ => by rw [mul_pow, Real.sq_sqrt (mul_nonneg hl (le_max_right _ _))]; ring
  rw [e, e, e]
  refine le_trans (le_of_eq ?_) (sqrt_mix _ _ hp hq)
  congr 1
  refine Finset.sum_congr rfl fun k _ => ?_
  rcases k with k | k
  · simp only [Sum.elim_inl]
    rw [sum_mix]; ring
  · simp only [Sum.elim_inr]; ring

/-- What `C96_solution` says of two solves with possibly different targets: more return asked, no better objective. -/
private theorem price_mono {s1 s2 : Opt.Solver} (hs1 : Sound s1) (hs2 : Sound s2) (a : Rrp n) (hn : 0 < n) (hb : ∀ i, 0 ≤ a.budgets i) {l1 l2 : ℝ}
    (hl : l1 ≤ l2) {t1 t2 m1 m2 : Option ℝ} {r1 r2 : RrpResult n} (h1 : rrpSolve s1 a l1 t1 m1 = .ok r1) (h2 : rrpSolve s2 a l2 t2 m2 = .ok r2)
    (ht : ∀ t ∈ r1.target, ∃ t' ∈ r2.target, t ≤ t') : r1.objective ≤ r2.objective := by
  obtain ⟨hl1, -, -, -, -, -, -, -, p8⟩ := C96_solution hs1 a hn hb l1 t1 m1 r1 h1
  obtain ⟨hl2, q1, -, q3, q4, q5, -, q7, -⟩ := C96_solution hs2 a hn hb l2 t2 m2 r2 h2
  refine (p8 r2.w r2.gamma ⟨q1.1, q1.2.1, fun t h => ?_⟩ q4 q5).trans ?_
  · obtain ⟨t', h', hle⟩ := ht t h
    exact hle.trans (q1.2.2 t' h')
  · rw [q7, q3]
    have : rrpRisk a l1 r2.w ≤ rrpRisk a l2 r2.w := by
      unfold rrpRisk
      apply Real.sqrt_le_sqrt
      have : 0 ≤ ∑ k, max (a.cov k k) 0 * r2.w k ^ 2 := Finset.sum_nonneg fun k _ => mul_nonneg (le_max_right _ _) (sq_nonneg _)
      have := mul_le_mul_of_nonneg_right hl this
      linarith
    linarith

private theorem clip_mono {t t' : ℝ} (h : t ≤ t') (r : ℝ) (m : Option ℝ) : rrpClip t r m ≤ rrpClip t' r m := by
  have core : (if r - max (1 / 10 ^ 8) (1 / 10 ^ 3 * |r|) ≤ t then r - max (1 / 10 ^ 8) (1 / 10 ^ 3 * |r|) else t) ≤
      (if r - max (1 / 10 ^ 8) (1 / 10 ^ 3 * |r|) ≤ t' then r - max (1 / 10 ^ 8) (1 / 10 ^ 3 * |r|) else t') := by
    generalize r - max (1 / 10 ^ 8) (1 / 10 ^ 3 * |r|) = c
    split_ifs <;> linarith
  unfold rrpClip
  dsimp only
  cases m with
  | none => simpa using core
  | some m => exact max_le_max (by simpa using core) le_rfl

private theorem solve_target {solver : Opt.Solver} {a : Rrp n} {lam t : ℝ} {minT : Option ℝ} {res : RrpResult n}
    (h : rrpSolve solver a lam (some t) minT = .ok res) :
    ∃ r, rrpMaxReturn solver a = .ok r ∧ res.target = some (rrpClip t r minT) := by
  unfold rrpSolve at h
  split_ifs at h
  dsimp only at h
  split at h
  · cases h
  · rename_i r hr
    obtain ⟨x, -, rfl⟩ := rrpFinish_ok h
    exact ⟨r, hr, rfl⟩

private theorem solve_none {solver : Opt.Solver} {a : Rrp n} {lam : ℝ} {minT : Option ℝ} {res : RrpResult n}
    (h : rrpSolve solver a lam none minT = .ok res) : res.target = none := by
  unfold rrpSolve at h
  split_ifs at h
  obtain ⟨x, -, rfl⟩ := rrpFinish_ok h
  rfl

/-- **C246** Asking `RelaxedRiskParity` for more return never improves the reported objective (average risk less contribution level), and asking for a
return at all never does better than asking for none. -/
theorem C246_target {solver : Opt.Solver} (hs : Sound solver) {factor : Bayes.Factor} (hn : 0 < n) (mean : Fin n → ℝ) (S : Matrix (Fin n) (Fin n) ℝ)
    (u : User n) (rb : Option (Fin n → ℝ)) {a : Rrp n} (ha : rrpInit factor mean S u rb = .ok a) (lam : ℝ) (t t' : ℝ) (minT : Option ℝ) (htt : t ≤ t')
    {res0 res res' : RrpResult n} (h0 : rrpSolve solver a lam none minT = .ok res0) (h : rrpSolve solver a lam (some t) minT = .ok res)
    (h' : rrpSolve solver a lam (some t') minT = .ok res') : res0.objective ≤ res.objective ∧ res.objective ≤ res'.objective := by
  have hb := fun i => ((rrpInit_budgets hn ha).1 i).le
  refine ⟨price_mono hs hs a hn hb le_rfl h0 h fun t ht => ?_, price_mono hs hs a hn hb le_rfl h h' fun x hx => ?_⟩
  · rw [solve_none h0] at ht; cases ht
  · obtain ⟨r, hr, e⟩ := solve_target h
    obtain ⟨r', hr', e'⟩ := solve_target h'
    rw [hr] at hr'; injection hr' with hr'; subst hr'
    rw [e] at hx; injection hx with hx; subst hx
    exact ⟨_, by rw [e']; exact Option.mem_some_self _, clip_mono htt r minT⟩

/-- **C246** A larger penalty never improves the reported objective, at the same target. -/
theorem C246_penalty {solver : Opt.Solver} (hs : Sound solver) {factor : Bayes.Factor} (hn : 0 < n) (mean : Fin n → ℝ) (S : Matrix (Fin n) (Fin n) ℝ)
    (u : User n) (rb : Option (Fin n → ℝ)) {a : Rrp n} (ha : rrpInit factor mean S u rb = .ok a) (lam lam' : ℝ) (hl : lam ≤ lam') (target minT : Option ℝ)
    {res res' : RrpResult n} (h : rrpSolve solver a lam target minT = .ok res) (h' : rrpSolve solver a lam' target minT = .ok res') :
    res.target = res'.target ∧ res.objective ≤ res'.objective := by
  have hb := fun i => ((rrpInit_budgets hn ha).1 i).le
  have e : res.target = res'.target := by
    cases target with
    | none => rw [solve_none h, solve_none h']
    | some t =>
      obtain ⟨r, hr, e⟩ := solve_target h
      obtain ⟨r', hr', e'⟩ := solve_target h'
      rw [hr] at hr'; injection hr' with hr'; subst hr'
      rw [e, e']
  exact ⟨e, price_mono hs hs a hn hb hl h h' fun t ht => ⟨t, by rw [← e]; exact ht, le_rfl⟩⟩

/-- **C246** The price of return is convex: at a target no higher than a mix of two targets in force, the objective is no worse than the mix of theirs. -/
theorem C246_convex {solver : Opt.Solver} (hs : Sound solver) {factor : Bayes.Factor} (hn : 0 < n) (mean : Fin n → ℝ) (S : Matrix (Fin n) (Fin n) ℝ)
    (u : User n) (rb : Option (Fin n → ℝ)) {a : Rrp n} (ha : rrpInit factor mean S u rb = .ok a) (lam : ℝ) (q1 q2 q m1 m2 m : Option ℝ)
    {r1 r2 r : RrpResult n} (h1 : rrpSolve solver a lam q1 m1 = .ok r1) (h2 : rrpSolve solver a lam q2 m2 = .ok r2) (h : rrpSolve solver a lam q m = .ok r)
    (x y : ℝ) (hx : 0 ≤ x) (hy : 0 ≤ y) (hxy : x + y = 1) {t1 t2 : ℝ} (ht1 : r1.target = some t1) (ht2 : r2.target = some t2)
    (ht : ∀ t, r.target = some t → t ≤ x * t1 + y * t2) : r.objective ≤ x * r1.objective + y * r2.objective := by
  have hb := fun i => ((rrpInit_budgets hn ha).1 i).le
  obtain ⟨hl, a1, -, a3, a4, a5, -, a7, -⟩ := C96_solution hs a hn hb lam q1 m1 r1 h1
  obtain ⟨-, b1, -, b3, b4, b5, -, b7, -⟩ := C96_solution hs a hn hb lam q2 m2 r2 h2
  obtain ⟨-, -, -, -, -, -, -, -, c8⟩ := C96_solution hs a hn hb lam q m r h
  have := c8 (fun i => x * r1.w i + y * r2.w i) (x * r1.gamma + y * r2.gamma)
    ⟨holding_mix a1.1 b1.1 hx hy hxy, fun i => by
      rw [sum_mix]
      exact add_nonneg (mul_nonneg hx (a1.2.1 i)) (mul_nonneg hy (b1.2.1 i)), fun t h => by
      have e1 := mul_le_mul_of_nonneg_left (a1.2.2 t1 ht1) hx
      have e2 := mul_le_mul_of_nonneg_left (b1.2.2 t2 ht2) hy
      have e3 := ht t h
      unfold Spec.Opt.ret at *
      rw [sum_mix]; linarith⟩
    (add_nonneg (mul_nonneg hx a4) (mul_nonneg hy b4)) (fun i => by
      unfold contribution at *
      rw [sum_mix]
      exact floor_mix (hb i) (a1.1.2.1 i) (a1.2.1 i) (b1.1.2.1 i) (b1.2.1 i) a4 b4 hx hy (a5 i) (b5 i))
  have hm := risk_mix a hl r1.w r2.w hx hy
  rw [a7, b7, a3, b3]
  linarith

/-- Non-vacuity of C245 and C246: two independent assets, several targets, in two units. -/
example : ∃ (s : Opt.Solver) (f : Bayes.Factor) (a a' : Rrp 2) (r0 r1 r2 r' : RrpResult 2), Sound s ∧ CholOk f ∧
    rrpInit f ![1/10, 1/5] (1 : Matrix (Fin 2) (Fin 2) ℝ) ⟨none, none⟩ none = .ok a ∧
    rrpInit f (fun i => 100 * (![1/10, 1/5] : Fin 2 → ℝ) i) ((100:ℝ) ^ 2 • (1 : Matrix (Fin 2) (Fin 2) ℝ)) ⟨none, none⟩ none = .ok a' ∧
    rrpSolve s a 1 none none = .ok r0 ∧ rrpSolve s a 1 (some (1/10)) none = .ok r1 ∧ rrpSolve s a 1 (some (3/20)) none = .ok r2 ∧
    rrpSolve s a' 1 (some (100 * (3/20))) none = .ok r' ∧ r'.w = r2.w ∧ r'.objective = 100 * r2.objective ∧ r0.objective ≤ r1.objective ∧
    r1.objective ≤ r2.objective := by
  obtain ⟨s, hs, hc⟩ := exists_solver
  obtain ⟨f, hf⟩ := cholOk_exists
  have hch : ∀ k : ℝ, 0 < k → IsChol (k ^ 2 • (1 : Matrix (Fin 2) (Fin 2) ℝ)) (k • 1) := fun k hk => by
    refine ⟨?_, fun i j hij => ?_, fun i => ?_⟩
    · rw [Matrix.transpose_smul, Matrix.transpose_one, Matrix.smul_mul, Matrix.one_mul, smul_smul, pow_two]
    · rw [Matrix.smul_apply, Matrix.one_apply_ne hij.ne, smul_zero]
    · rw [Matrix.smul_apply, Matrix.one_apply_eq, smul_eq_mul, mul_one]; exact hk
  have init : ∀ (m : Fin 2 → ℝ) (k : ℝ), 0 < k → ∃ a, rrpInit f m (k ^ 2 • (1 : Matrix (Fin 2) (Fin 2) ℝ)) ⟨none, none⟩ none = .ok a ∧
      (∀ t, ∃ r, rrpSolve s a 1 (some t) none = .ok r) ∧ ∃ r, rrpSolve s a 1 none none = .ok r := by
    intro m k hk
    obtain ⟨L, hL, -⟩ := cholSquare_ok hf _ ⟨_, hch k hk⟩
    have hsym : Bayes.symPart (k ^ 2 • (1 : Matrix (Fin 2) (Fin 2) ℝ)) = k ^ 2 • 1 := by
      unfold Bayes.symPart; rw [Matrix.transpose_smul, Matrix.transpose_one, ← two_smul ℝ, smul_smul]; norm_num
    have ha : rrpInit f m (k ^ 2 • (1 : Matrix (Fin 2) (Fin 2) ℝ)) ⟨none, none⟩ none = .ok ⟨m, k ^ 2 • 1, L, fun _ => 1 / 2, ⟨none, none⟩⟩ := by
      unfold rrpInit; rw [hsym, hL]; simp [rrpBudgets]
    have hh : Holding (⟨none, none⟩ : User 2) ![1, 0] := (holding_free _).2 ⟨fun i => by fin_cases i <;> simp, by simp [Fin.sum_univ_two]⟩
    have hpos : ∀ i j : Fin 2, 0 ≤ (k ^ 2 • (1 : Matrix (Fin 2) (Fin 2) ℝ)) i j := fun i j => by
      rw [Matrix.smul_apply, smul_eq_mul]
      refine mul_nonneg (by positivity) ?_
      rw [Matrix.one_apply]; split_ifs <;> norm_num
    refine ⟨_, ha, (C96_total hs hc _ (by norm_num) (fun i => by norm_num) 1 zero_le_one).2 hpos (.inl rfl) ⟨_, hh⟩, ?_⟩
    exact (C96_total hs hc _ (by norm_num) (fun i => by norm_num) 1 zero_le_one).1
      ⟨_, hh, fun i => Finset.sum_nonneg fun j _ => mul_nonneg (hpos i j) (hh.2.1 j)⟩ none
  obtain ⟨a, ha, hsol, r0, hr0⟩ := init ![1/10, 1/5] 1 one_pos
  rw [one_pow, one_smul] at ha
  obtain ⟨a', ha', hsol', -⟩ := init (fun i => 100 * (![1/10, 1/5] : Fin 2 → ℝ) i) 100 (by norm_num)
  obtain ⟨r1, hr1⟩ := hsol (1/10)
  obtain ⟨r2, hr2⟩ := hsol (3/20)
  obtain ⟨r', hr'⟩ := hsol' (100 * (3/20))
  have hg : IsGreatest (Spec.Opt.ret ![1/10, 1/5] '' {w | Holding (⟨none, none⟩ : User 2) w}) (1/5) := by
    refine ⟨⟨![0, 1], (holding_free _).2 ⟨fun i => by fin_cases i <;> simp, by simp [Fin.sum_univ_two]⟩, by simp [Spec.Opt.ret, Fin.sum_univ_two]⟩, ?_⟩
    rintro _ ⟨w, hw, rfl⟩
    obtain ⟨h0, h1⟩ := (holding_free w).1 hw
    rw [Fin.sum_univ_two] at h1
    have := h0 0
    simp only [Spec.Opt.ret, Fin.sum_univ_two]
    simp
    linarith
  have hsame := C245_units_partial hs hs hf hf le_rfl ![1/10, 1/5] 1 ⟨1, by have := hch 1 one_pos; rwa [one_pow, one_smul] at this⟩ ⟨none, none⟩ none
    (k := 100) (by norm_num) ha ha' 1 (some (3/20)) none (.inr ⟨.inl rfl, 1/5, hg, by rw [abs_of_pos (by norm_num)]; norm_num, by rw [abs_of_pos (by norm_num)]; norm_num⟩) hr2 hr'
  have hp := C246_target hs (by norm_num) _ _ _ _ ha 1 (1/10) (3/20) none (by norm_num) hr0 hr1 hr2
  exact ⟨s, f, a, a', r0, r1, r2, r', hs, hf, ha, ha', hr0, hr1, hr2, hr', hsame.1, hsame.2.2.2.2.1, hp.1, hp.2⟩

end PyV.Props
