import Verif.Props.OptRrp
import Verif.Props.RobustOrder

/-! # Property C242: relaxed risk parity and the order of the assets -/

namespace PyV.Props

open PyV PyV.Opt PyV.Spec.Opt Matrix

variable {n : ℕ}

/-- The constraint rows written for the assets in the other order: position `i` now holds the former asset `σ i`. -/
def columnsReordered (σ : Equiv.Perm (Fin n)) (u : Opt.User n) : Opt.User n :=
  ⟨u.G.map fun rows => rows.map fun r => (fun i => r.1 (σ i), r.2), u.A.map fun rows => rows.map fun r => (fun i => r.1 (σ i), r.2)⟩

private theorem mem_reordered (σ : Equiv.Perm (Fin n)) (o : Option (List (Opt.Row (Fin n)))) (r : Opt.Row (Fin n)) :
    r ∈ (o.map fun rows => rows.map fun r => ((fun i => r.1 (σ i), r.2) : Opt.Row (Fin n))).getD [] ↔
      ∃ s ∈ o.getD [], r = (fun i => s.1 (σ i), s.2) := by
  cases o with
  | none => simp
  | some l => simp [eq_comm]

private theorem row_sum (σ : Equiv.Perm (Fin n)) (r x : Fin n → ℝ) : ∑ i, r (σ i) * x (σ i) = ∑ i, r i * x i :=
  Equiv.sum_comp σ fun i => r i * x i

private theorem budget_reordered (σ : Equiv.Perm (Fin n)) (u : Opt.User n) :
    (∃ r ∈ (columnsReordered σ u).A.getD [], ∀ i, |r.1 i - 1| ≤ 2 / 10 ^ 8) ↔ ∃ r ∈ u.A.getD [], ∀ i, |r.1 i - 1| ≤ 2 / 10 ^ 8 := by
  constructor
  · rintro ⟨r, hr, h⟩
    obtain ⟨s, hs, rfl⟩ := (mem_reordered σ u.A r).1 hr
    refine ⟨s, hs, fun i => ?_⟩
    have := h (σ.symm i)
    simpa using this
  · rintro ⟨s, hs, h⟩
    exact ⟨_, (mem_reordered σ u.A _).2 ⟨s, hs, rfl⟩, fun i => h (σ i)⟩

theorem holding_reordered (σ : Equiv.Perm (Fin n)) (u : Opt.User n) (x : Fin n → ℝ) :
    Holding (columnsReordered σ u) (fun i => x (σ i)) ↔ Holding u x := by
  unfold Holding Allowed
  rw [budget_reordered, Equiv.sum_comp σ x]
  have h1 : (∀ i, 0 ≤ x (σ i)) ↔ ∀ i, 0 ≤ x i := ⟨fun h i => by simpa using h (σ.symm i), fun h i => h _⟩
  rw [h1]
  refine and_congr (and_congr ⟨fun h r hr => ?_, fun h r hr => ?_⟩ ⟨fun h r hr => ?_, fun h r hr => ?_⟩) Iff.rfl
  · have := h _ ((mem_reordered σ u.G _).2 ⟨r, hr, rfl⟩)
    rwa [row_sum σ r.1 x] at this
  · obtain ⟨s, hs, rfl⟩ := (mem_reordered σ u.G r).1 hr
    have := h s hs
    rw [← row_sum σ s.1 x] at this
    exact this
  · have := h _ ((mem_reordered σ u.A _).2 ⟨r, hr, rfl⟩)
    rwa [row_sum σ r.1 x] at this
  · obtain ⟨s, hs, rfl⟩ := (mem_reordered σ u.A r).1 hr
    have := h s hs
    rw [← row_sum σ s.1 x] at this
    exact this

private theorem holding_mid {u : Opt.User n} {x y : Fin n → ℝ} (hx : Holding u x) (hy : Holding u y) : Holding u (fun i => (x i + y i) / 2) := by
  refine ⟨allowed_mid hx.1 hy.1, fun i => ?_, fun h => ?_⟩
  · have := hx.2.1 i; have := hy.2.1 i; linarith
  · rw [← Finset.sum_div, Finset.sum_add_distrib, hx.2.2 h, hy.2.2 h]; norm_num

private theorem marginal_diagonal (d x : Fin n → ℝ) (i : Fin n) : ∑ j, (Matrix.diagonal d) i j * x j = d i * x i := by
  rw [Finset.sum_eq_single i (fun j _ hj => by rw [Matrix.diagonal_apply_ne _ hj.symm, zero_mul]) (by simp), Matrix.diagonal_apply_eq]

private theorem contribution_diagonal (d x : Fin n → ℝ) (i : Fin n) : contribution (Matrix.diagonal d) x i = d i * x i ^ 2 := by
  unfold contribution
  rw [marginal_diagonal]; ring

private theorem chol_diagonal {d : Fin n → ℝ} (hd : ∀ i, 0 < d i) {L : Matrix (Fin n) (Fin n) ℝ} (hL : IsChol (Matrix.diagonal d) L) :
    L = Matrix.diagonal fun i => Real.sqrt (d i) := by
  refine isChol_unique hL ⟨?_, fun i j h => Matrix.diagonal_apply_ne _ h.ne, fun i => ?_⟩
  · rw [Matrix.diagonal_transpose, Matrix.diagonal_mul_diagonal]
    congr 1
    funext i
    exact Real.mul_self_sqrt (hd i).le
  · rw [Matrix.diagonal_apply_eq]; exact Real.sqrt_pos.2 (hd i)

private theorem risk_diagonal {d : Fin n → ℝ} (hd : ∀ i, 0 < d i) {a : Rrp n} (hcov : a.cov = Matrix.diagonal d)
    (hL : IsChol (Matrix.diagonal d) a.chol) (lam : ℝ) (x : Fin n → ℝ) :
    rrpRisk a lam x = Real.sqrt (∑ i, ((1 / n + lam) * d i) * x i ^ 2) := by
  unfold rrpRisk
  rw [coneNorm_sq, chol_diagonal hd hL, hcov]
  congr 1
  have h1 : ∑ k, (∑ i, (Matrix.diagonal fun i => Real.sqrt (d i)) k i * x i) ^ 2 = ∑ k, d k * x k ^ 2 :=
    Finset.sum_congr rfl fun k _ => by rw [marginal_diagonal, mul_pow, Real.sq_sqrt (hd k).le]
  rw [h1, Finset.sum_div, Finset.mul_sum, ← Finset.sum_add_distrib]
  refine Finset.sum_congr rfl fun k _ => ?_
  rw [Matrix.diagonal_apply_eq, max_eq_left (hd k).le]
  ring

/-- The floors of two holdings carry over to the holding halfway between them, at the average level. -/
private theorem floor_mid {d b x y : ℝ} (hd : 0 < d) (hb : 0 ≤ b) (hx : 0 ≤ x) (hy : 0 ≤ y) {g h : ℝ} (hg : 0 ≤ g) (hh : 0 ≤ h)
    (h1 : b * g ^ 2 ≤ d * x ^ 2) (h2 : b * h ^ 2 ≤ d * y ^ 2) : b * ((g + h) / 2) ^ 2 ≤ d * ((x + y) / 2) ^ 2 := by
  have e : ∀ c z : ℝ, 0 ≤ c → c * z ^ 2 = (Real.sqrt c * z) ^ 2 := fun c z hc => by rw [mul_pow, Real.sq_sqrt hc]
  rw [e b g hb, e d x hd.le] at h1
  rw [e b h hb, e d y hd.le] at h2
  rw [e b _ hb, e d _ hd.le]
  have sb := Real.sqrt_nonneg b
  have sd := Real.sqrt_nonneg d
  have k1 := (pow_le_pow_iff_left₀ (by positivity) (by positivity) two_ne_zero).1 h1
  have k2 := (pow_le_pow_iff_left₀ (by positivity) (by positivity) two_ne_zero).1 h2
  exact pow_le_pow_left₀ (by positivity) (by linarith) 2

private theorem rrp_unique {d b : Fin n → ℝ} (hn : 0 < n) (hd : ∀ i, 0 < d i) (hb : ∀ i, 0 ≤ b i) {C : (Fin n → ℝ) → Prop}
    (hmid : ∀ x y, C x → C y → C (fun i => (x i + y i) / 2)) (h0 : ∀ x, C x → ∀ i, 0 ≤ x i) {c : ℝ} (hc : c ≠ 0) (hsum : ∀ x, C x → ∑ i, x i = c)
    {x y : Fin n → ℝ} {g h : ℝ} (hx : C x) (hy : C y) (hg : 0 ≤ g) (hh : 0 ≤ h)
    (hxf : ∀ i, b i * g ^ 2 ≤ d i * x i ^ 2) (hyf : ∀ i, b i * h ^ 2 ≤ d i * y i ^ 2) {lam : ℝ} (hl : 0 ≤ lam)
    (hmx : ∀ v k, C v → 0 ≤ k → (∀ i, b i * k ^ 2 ≤ d i * v i ^ 2) →
      Real.sqrt (∑ i, ((1 / n + lam) * d i) * x i ^ 2) - g ≤ Real.sqrt (∑ i, ((1 / n + lam) * d i) * v i ^ 2) - k)
    (hmy : ∀ v k, C v → 0 ≤ k → (∀ i, b i * k ^ 2 ≤ d i * v i ^ 2) →
      Real.sqrt (∑ i, ((1 / n + lam) * d i) * y i ^ 2) - h ≤ Real.sqrt (∑ i, ((1 / n + lam) * d i) * v i ^ 2) - k) : x = y := by
  have hn' : (0:ℝ) < n := by exact_mod_cast hn
  have hD : ∀ i, 0 < (1 / n + lam) * d i := fun i => mul_pos (by positivity) (hd i)
  set D : Fin n → ℝ := fun i => (1 / n + lam) * d i with hDdef
  have pos : ∀ z : Fin n → ℝ, 0 ≤ ∑ i, D i * z i ^ 2 := fun z => Finset.sum_nonneg fun i _ => mul_nonneg (hD i).le (sq_nonneg _)
  have hm := hmx _ ((g + h) / 2) (hmid x y hx hy) (by linarith) fun i => floor_mid (hd i) (hb i) (h0 x hx i) (h0 y hy i) hg hh (hxf i) (hyf i)
  have hyx := hmy x g hx hg hxf
  have hc' : Real.sqrt (∑ i, D i * ((x i + y i) / 2) ^ 2) = Real.sqrt (∑ i, D i * (x i + y i) ^ 2) / 2 := by
    rw [show (∑ i, D i * ((x i + y i) / 2) ^ 2) = (∑ i, D i * (x i + y i) ^ 2) / 2 ^ 2 from by
      rw [Finset.sum_div]; exact Finset.sum_congr rfl fun i _ => by ring]
    rw [Real.sqrt_div (pos fun i => x i + y i), Real.sqrt_sq (by norm_num)]
  refine norm_parallel hD hc (hsum x hx) (hsum y hy) ?_
  change _ ≤ Real.sqrt (∑ i, D i * ((x i + y i) / 2) ^ 2) - _ at hm
  rw [hc'] at hm
  change Real.sqrt (∑ i, D i * x i ^ 2) - g ≤ _ at hm
  change Real.sqrt (∑ i, D i * y i ^ 2) - h ≤ Real.sqrt (∑ i, D i * x i ^ 2) - g at hyx
  linarith

private theorem budgets_reordered (σ : Equiv.Perm (Fin n)) (rb : Option (Fin n → ℝ)) {b b' : Fin n → ℝ} (h : rrpBudgets rb = .ok b)
    (h' : rrpBudgets (rb.map fun r i => r (σ i)) = .ok b') : b' = fun i => b (σ i) := by
  cases rb with
  | none =>
    simp only [rrpBudgets, Option.map_none] at h h'
    injection h with h; injection h' with h'
    rw [← h, ← h']
  | some r =>
    have e1 : (∃ i, r (σ i) ≤ 0) ↔ ∃ i, r i ≤ 0 := ⟨fun ⟨i, h⟩ => ⟨_, h⟩, fun ⟨i, h⟩ => ⟨σ.symm i, by simpa using h⟩⟩
    have e2 : ∑ i, r (σ i) = ∑ i, r i := Equiv.sum_comp σ r
    simp only [rrpBudgets, Option.map_some] at h h'
    rw [e2] at h'
    by_cases hp : ∃ i, r i ≤ 0
    · rw [if_pos hp] at h; cases h
    · rw [if_neg hp] at h
      rw [if_neg (fun k => hp (e1.1 k))] at h'
      by_cases hq : isclose (∑ i, r i) 1
      · rw [if_pos hq] at h h'
        injection h with h; injection h' with h'
        rw [← h, ← h']
      · rw [if_neg hq] at h h'
        injection h with h; injection h' with h'
        rw [← h, ← h']

/-- The target a solve reports. -/
private theorem solve_target {solver : Opt.Solver} {a : Rrp n} {lam : ℝ} {target minT : Option ℝ} {res : RrpResult n}
    (h : rrpSolve solver a lam target minT = .ok res) :
    (target = none ∧ res.target = none ∧ res.maxReturn = none) ∨
      ∃ t r, target = some t ∧ rrpMaxReturn solver a = .ok r ∧ res.target = some (rrpClip t r minT) ∧ res.maxReturn = some r := by
  unfold rrpSolve at h
  split_ifs at h
  cases target with
  | none =>
    obtain ⟨x, -, rfl⟩ := rrpFinish_ok h
    exact .inl ⟨rfl, rfl, rfl⟩
  | some t =>
    dsimp only at h
    split at h
    · cases h
    · rename_i r hr
      obtain ⟨x, -, rfl⟩ := rrpFinish_ok h
      exact .inr ⟨t, r, rfl, hr, rfl, rfl⟩

/-- **C242** (partial) For uncorrelated assets and constraints that fix the total weight, listing the assets in another order gives the same relaxed
risk parity portfolio in that order, with the same marginal risks, average risk, contribution level, objective, target and greatest return, whatever
correct solvers are used.  Missing: correlated assets, for which it fails (`C242_counterexample`). -/
theorem C242_diagonal_partial {s1 s2 : Opt.Solver} (hs1 : Sound s1) (hs2 : Sound s2) {f1 f2 : Bayes.Factor} (hf1 : CholOk f1) (hf2 : CholOk f2)
    (hn : 2 ≤ n) (σ : Equiv.Perm (Fin n)) (mean d : Fin n → ℝ) (hd : ∀ i, 0 < d i) (u : Opt.User n)
    (hA : u.A = none ∨ ∃ r ∈ u.A.getD [], ∀ i, |r.1 i - 1| ≤ 2 / 10 ^ 8)
    {c : ℝ} (hc : c ≠ 0) (hsum : ∀ x, Holding u x → ∑ i, x i = c) (rb : Option (Fin n → ℝ)) {a a' : Rrp n}
    (ha : rrpInit f1 mean (Matrix.diagonal d) u rb = .ok a)
    (ha' : rrpInit f2 (fun i => mean (σ i)) (Matrix.diagonal fun i => d (σ i)) (columnsReordered σ u) (rb.map fun r i => r (σ i)) = .ok a')
    (lam : ℝ) (target minT : Option ℝ) {res res' : RrpResult n} (h : rrpSolve s1 a lam target minT = .ok res)
    (h' : rrpSolve s2 a' lam target minT = .ok res') :
    (∀ i, res'.w i = res.w (σ i)) ∧ (∀ i, res'.marginal i = res.marginal (σ i)) ∧ res'.psi = res.psi ∧ res'.gamma = res.gamma ∧
      res'.objective = res.objective ∧ res'.target = res.target ∧ res'.maxReturn = res.maxReturn := by
  have hd' : ∀ i, 0 < d (σ i) := fun i => hd _
  obtain ⟨em, ecov, hL, eu, eb⟩ := rrpInit_ok hf1 (diagonal_chol hd) ha
  obtain ⟨em', ecov', hL', eu', eb'⟩ := rrpInit_ok hf2 (diagonal_chol hd') ha'
  have hbud := budgets_reordered σ rb eb eb'
  have hb := fun i => ((rrpBudgets_ok hn eb).1 i).le
  have hb' := fun i => ((rrpBudgets_ok hn eb').1 i).le
  have hret : ∀ x : Fin n → ℝ, Spec.Opt.ret a'.mean (fun i => x (σ i)) = Spec.Opt.ret a.mean x := by
    intro x; unfold Spec.Opt.ret; rw [em, em']; exact row_sum σ mean x
  -- the targets agree
  have htm : res'.target = res.target ∧ res'.maxReturn = res.maxReturn := by
    rcases solve_target h with ⟨e, e1, e2⟩ | ⟨t, r, e, hr, e1, e2⟩ <;> rcases solve_target h' with ⟨k, k1, k2⟩ | ⟨t', r', k, hr', k1, k2⟩
    · rw [e1, e2, k1, k2]; exact ⟨rfl, rfl⟩
    · rw [e] at k; cases k
    · rw [e] at k; cases k
    · rw [e] at k
      injection k with k
      have g1 := maxReturn_greatest hs1 a (by rw [eu]; exact hA) hr
      have g2 := maxReturn_greatest hs2 a' (by
        rw [eu', budget_reordered]
        rcases hA with h | h
        · left; simp [columnsReordered, h]
        · right; exact h) hr'
      have hset : Spec.Opt.ret a'.mean '' {w | Holding a'.user w} = Spec.Opt.ret a.mean '' {w | Holding a.user w} := by
        ext v
        constructor
        · rintro ⟨w, hw, rfl⟩
          have ew : w = fun i => (fun j => w (σ.symm j)) (σ i) := by funext i; simp
          refine ⟨fun j => w (σ.symm j), ?_, ?_⟩
          · rw [Set.mem_setOf_eq, eu'] at hw
            have hw' := (holding_reordered σ u fun j => w (σ.symm j)).1 (by simpa using hw)
            rw [Set.mem_setOf_eq, eu]; exact hw'
          · rw [← hret]; congr 1; exact ew.symm
        · rintro ⟨w, hw, rfl⟩
          refine ⟨fun i => w (σ i), ?_, hret w⟩
          rw [Set.mem_setOf_eq, eu', holding_reordered, ← eu]; exact hw
      rw [hset] at g2
      have := g1.unique g2
      subst this
      rw [e1, e2, k1, k2, k]; exact ⟨rfl, rfl⟩
  obtain ⟨hl, p1, p2, p3, p4, p5, -, p7, p8⟩ := C96_solution hs1 a (by omega) hb lam target minT res h
  obtain ⟨-, q1, q2, q3, q4, q5, -, q7, q8⟩ := C96_solution hs2 a' (by omega) hb' lam target minT res' h'
  obtain ⟨ht, hmr⟩ := htm
  rw [ht] at q1 q8
  set tg := res.target with htg
  have hcand : ∀ x, Candidate a' tg (fun i => x (σ i)) ↔ Candidate a tg x := by
    intro x
    unfold Candidate
    rw [eu', eu, holding_reordered, hret, ecov, ecov']
    refine and_congr_right fun hh => and_congr_left fun _ => ?_
    simp only [marginal_diagonal]
    exact ⟨fun _ i => mul_nonneg (hd i).le (hh.2.1 i), fun _ i => mul_nonneg (hd' i).le (hh.2.1 _)⟩
  have hrisk := risk_diagonal hd ecov hL lam
  have hrisk' := risk_diagonal hd' ecov' hL' lam
  have hperm : ∀ x : Fin n → ℝ, rrpRisk a' lam (fun i => x (σ i)) = rrpRisk a lam x := by
    intro x
    rw [hrisk, hrisk']
    congr 1
    exact Equiv.sum_comp σ fun i => ((1 / n + lam) * d i) * x i ^ 2
  have hcon' : ∀ (x : Fin n → ℝ) k, (∀ i, a'.budgets i * k ^ 2 ≤ contribution a'.cov (fun i => x (σ i)) i) ↔ ∀ i, a.budgets i * k ^ 2 ≤ d i * x i ^ 2 := by
    intro x k
    rw [ecov', hbud]
    simp only [contribution_diagonal]
    exact ⟨fun h i => by simpa using h (σ.symm i), fun h i => h _⟩
  have hcon : ∀ (x : Fin n → ℝ) k, (∀ i, a.budgets i * k ^ 2 ≤ contribution a.cov x i) ↔ ∀ i, a.budgets i * k ^ 2 ≤ d i * x i ^ 2 := by
    intro x k
    rw [ecov]
    simp only [contribution_diagonal]
  set y : Fin n → ℝ := fun i => res'.w (σ.symm i) with hy
  have ey : res'.w = fun i => y (σ i) := by funext i; simp [hy]
  rw [ey] at q1 q3 q5
  rw [hcand] at q1
  rw [hcon'] at q5
  rw [hcon] at p5
  rw [hperm] at q3
  have q8' : ∀ v k, Candidate a tg v → 0 ≤ k → (∀ i, a.budgets i * k ^ 2 ≤ d i * v i ^ 2) → res'.objective ≤ rrpRisk a lam v - k := by
    intro v k hv hk hvf
    have := q8 (fun i => v (σ i)) k ((hcand v).2 hv) hk ((hcon' v k).2 hvf)
    rwa [hperm] at this
  have p8' : ∀ v k, Candidate a tg v → 0 ≤ k → (∀ i, a.budgets i * k ^ 2 ≤ d i * v i ^ 2) → res.objective ≤ rrpRisk a lam v - k :=
    fun v k hv hk hvf => p8 v k hv hk ((hcon v k).2 hvf)
  have hobj : res'.objective = res.objective := by
    apply le_antisymm
    · have := q8' res.w res.gamma p1 p4 p5
      rw [p7, p3]; exact this
    · have := p8' y res'.gamma q1 q4 q5
      rw [q7, q3]; exact this
  have hw : res.w = y := by
    refine rrp_unique (b := a.budgets) (by omega : 0 < n) hd hb (C := Candidate a tg) (lam := lam) ?_ (fun x hx => hx.1.2.1) hc
      (fun x hx => hsum x (by rw [← eu]; exact hx.1)) p1 q1 p4 q4 p5 q5 hl ?_ ?_
    · rintro x y ⟨x1, x2, x3⟩ ⟨y1, y2, y3⟩
      refine ⟨holding_mid x1 y1, fun i => ?_, fun t ht => ?_⟩
      · have := x2 i; have := y2 i
        rw [ecov, marginal_diagonal] at *
        linarith
      · have h1 := x3 t ht; have h2 := y3 t ht
        have : Spec.Opt.ret a.mean (fun i => (x i + y i) / 2) = (Spec.Opt.ret a.mean x + Spec.Opt.ret a.mean y) / 2 := by
          unfold Spec.Opt.ret
          rw [← Finset.sum_add_distrib, Finset.sum_div]
          exact Finset.sum_congr rfl fun i _ => by ring
        rw [this]; linarith
    · intro v k hv hk hvf
      have := p8' v k hv hk hvf
      rw [p7, p3, hrisk, hrisk] at this
      exact this
    · intro v k hv hk hvf
      have := q8' v k hv hk hvf
      rw [q7, q3, hrisk, hrisk] at this
      exact this
  have hpsi : res'.psi = res.psi := by rw [q3, p3, hw]
  refine ⟨fun i => by rw [ey, hw], fun i => ?_, hpsi, ?_, hobj, ht, hmr⟩
  · rw [q2, p2, ecov, ecov', marginal_diagonal, marginal_diagonal, hw, ey]
  · rw [p7, q7, hpsi] at hobj
    linarith

/-- Non-vacuity: three uncorrelated assets with different risks, returns and budgets, rotated, with a target and a penalty. -/
example : ∃ (s : Opt.Solver) (f : Bayes.Factor) (a a' : Rrp 3) (res res' : RrpResult 3), Sound s ∧ CholOk f ∧
    rrpInit f ![1/10, 1/5, 3/10] (Matrix.diagonal ![1, 4, 9]) ⟨none, none⟩ (some ![1, 2, 3]) = .ok a ∧
    rrpInit f (fun i => (![1/10, 1/5, 3/10] : Fin 3 → ℝ) (finRotate 3 i)) (Matrix.diagonal fun i => (![1, 4, 9] : Fin 3 → ℝ) (finRotate 3 i))
      (columnsReordered (finRotate 3) ⟨none, none⟩) ((some ![1, 2, 3]).map fun (r : Fin 3 → ℝ) i => r (finRotate 3 i)) = .ok a' ∧
    rrpSolve s a (1/2) (some (1/5)) none = .ok res ∧ rrpSolve s a' (1/2) (some (1/5)) none = .ok res' ∧ ∀ i, res'.w i = res.w (finRotate 3 i) := by
  obtain ⟨s, hs, hc⟩ := exists_solver
  obtain ⟨f, hf⟩ := cholOk_exists
  have hd : ∀ i, 0 < (![1, 4, 9] : Fin 3 → ℝ) i := fun i => by fin_cases i <;> norm_num
  have hb : ∀ i, 0 < (![1, 2, 3] : Fin 3 → ℝ) i := fun i => by fin_cases i <;> norm_num
  have init : ∀ (m d : Fin 3 → ℝ) (hd : ∀ i, 0 < d i) (u : Opt.User 3) (b : Fin 3 → ℝ), (∀ i, 0 < b i) →
      ∃ a, rrpInit f m (Matrix.diagonal d) u (some b) = .ok a := by
    intro m d hd u b hb
    obtain ⟨L, hL, -⟩ := cholSquare_ok hf _ (diagonal_chol hd)
    have hsym : Bayes.symPart (Matrix.diagonal d) = Matrix.diagonal d := by
      unfold Bayes.symPart; rw [Matrix.diagonal_transpose, ← two_smul ℝ, smul_smul]; norm_num
    have h1 : ¬ ∃ i, b i ≤ 0 := by rintro ⟨i, hi⟩; exact absurd (hb i) (not_lt.2 hi)
    unfold rrpInit
    rw [hsym, hL]
    simp only [rrpBudgets, if_neg h1]
    by_cases h2 : isclose (∑ i, b i) 1
    · rw [if_pos h2]; exact ⟨_, rfl⟩
    · rw [if_neg h2]; exact ⟨_, rfl⟩
  obtain ⟨a, ha⟩ := init ![1/10, 1/5, 3/10] _ hd ⟨none, none⟩ ![1, 2, 3] hb
  obtain ⟨a', ha'⟩ := init (fun i => (![1/10, 1/5, 3/10] : Fin 3 → ℝ) (finRotate 3 i)) _ (fun i => hd (finRotate 3 i))
    (columnsReordered (finRotate 3) ⟨none, none⟩) (fun i => (![1, 2, 3] : Fin 3 → ℝ) (finRotate 3 i)) (fun i => hb _)
  have hh : Holding (⟨none, none⟩ : Opt.User 3) ![1, 0, 0] :=
    (holding_free _).2 ⟨fun i => by fin_cases i <;> simp, by simp [Fin.sum_univ_three]⟩
  have solve : ∀ (m d : Fin 3 → ℝ) (hd : ∀ i, 0 < d i) (u : Opt.User 3) (b : Fin 3 → ℝ) (a : Rrp 3),
      rrpInit f m (Matrix.diagonal d) u (some b) = .ok a → u.A = none → (∃ v, Holding u v) → ∃ res, rrpSolve s a (1/2) (some (1/5)) none = .ok res := by
    intro m d hd u b a ha hu hv
    obtain ⟨-, e2, -, e4, e5⟩ := rrpInit_ok hf (diagonal_chol hd) ha
    refine (C96_total hs hc a (by norm_num) (rrpBudgets_ok (by norm_num) e5).1 (1/2) (by norm_num)).2 (fun i j => ?_) (.inl (by rw [e4, hu])) (by rw [e4]; exact hv) _
    rw [e2, Matrix.diagonal_apply]
    split_ifs
    · exact (hd i).le
    · exact le_rfl
  obtain ⟨res, hres⟩ := solve _ _ hd _ _ a ha rfl ⟨_, hh⟩
  obtain ⟨res', hres'⟩ := solve _ _ (fun i => hd (finRotate 3 i)) _ _ a' ha' rfl ⟨_, (holding_reordered (finRotate 3) _ _).2 hh⟩
  exact ⟨s, f, a, a', res, res', hs, hf, ha, ha', hres, hres', (C242_diagonal_partial hs hs hf hf (by norm_num) (finRotate 3) _ _ hd ⟨none, none⟩ (.inl rfl)
    one_ne_zero (fun x hx => ((holding_free x).1 hx).2) (some ![1, 2, 3]) ha ha' (1/2) (some (1/5)) none hres hres').1⟩

/-- The covariance matrix of `ercS` with the two assets listed in the other order. -/
noncomputable def ercSwapped : Matrix (Fin 2) (Fin 2) ℝ := !![16, 16/5; 16/5, 1]

theorem ercSwapped_chol (L : Matrix (Fin 2) (Fin 2) ℝ) : IsChol ercSwapped L ↔ L = !![4, 0; 4/5, 3/5] := by
  have hc : IsChol ercSwapped !![4, 0; 4/5, 3/5] := by
    refine ⟨?_, ?_, ?_⟩
    · ext i j; fin_cases i <;> fin_cases j <;> simp [ercSwapped, Matrix.mul_apply, Fin.sum_univ_two] <;> norm_num
    · intro i j h; fin_cases i <;> fin_cases j <;> simp_all
    · intro i; fin_cases i <;> simp
  exact ⟨fun h => isChol_unique h hc, fun h => h ▸ hc⟩

private theorem rrp_two {solver : Opt.Solver} (hsnd : Sound solver) (hcmp : Complete solver) {factor : Bayes.Factor} (hf : CholOk factor)
    (S L : Matrix (Fin 2) (Fin 2) ℝ) (hS : IsChol S L) (hsym : Bayes.symPart S = S) (hp : ∀ i j, 0 ≤ S i j) :
    ∃ a res, rrpInit factor ![0, 0] S ⟨none, none⟩ none = .ok a ∧ rrpSolve solver a 0 none none = .ok res ∧
      0 ≤ res.w 0 ∧ 0 ≤ res.w 1 ∧ res.w 0 + res.w 1 = 1 ∧ 0 ≤ res.gamma ∧
      res.gamma ^ 2 ≤ 2 * (res.w 0 * (S 0 0 * res.w 0 + S 0 1 * res.w 1)) ∧
      res.gamma ^ 2 ≤ 2 * (res.w 1 * (S 1 0 * res.w 0 + S 1 1 * res.w 1)) ∧
      ∀ x y g : ℝ, 0 ≤ x → 0 ≤ y → x + y = 1 → 0 ≤ g → g ^ 2 ≤ 2 * (x * (S 0 0 * x + S 0 1 * y)) → g ^ 2 ≤ 2 * (y * (S 1 0 * x + S 1 1 * y)) →
        Real.sqrt (((L 0 0 * res.w 0 + L 0 1 * res.w 1) ^ 2 + (L 1 0 * res.w 0 + L 1 1 * res.w 1) ^ 2) / 2) - res.gamma ≤
          Real.sqrt (((L 0 0 * x + L 0 1 * y) ^ 2 + (L 1 0 * x + L 1 1 * y) ^ 2) / 2) - g := by
  obtain ⟨L', hL', hc⟩ := cholSquare_ok hf S ⟨L, hS⟩
  obtain rfl := isChol_unique hc hS
  have hinit : rrpInit factor ![0, 0] S ⟨none, none⟩ none = .ok ⟨![0, 0], S, L', fun _ => 1 / 2, ⟨none, none⟩⟩ := by
    unfold rrpInit; rw [hsym, hL']; simp [rrpBudgets]
  set a : Rrp 2 := ⟨![0, 0], S, L', fun _ => 1 / 2, ⟨none, none⟩⟩ with ha
  have hcandidate : ∀ x y : ℝ, 0 ≤ x → 0 ≤ y → x + y = 1 → Holding a.user ![x, y] ∧ ∀ i, 0 ≤ ∑ j, a.cov i j * ![x, y] j := by
    intro x y hx hy hxy
    refine ⟨(holding_free _).2 ⟨fun i => by fin_cases i <;> simp [hx, hy], by simpa [Fin.sum_univ_two] using hxy⟩, fun i => ?_⟩
    rw [Fin.sum_univ_two]
    exact add_nonneg (mul_nonneg (hp _ _) hx) (mul_nonneg (hp _ _) hy)
  obtain ⟨res, hres⟩ := (C96_total hsnd hcmp a (by norm_num) (fun i => by norm_num [ha]) 0 le_rfl).1
    ⟨![1, 0], hcandidate 1 0 (by norm_num) le_rfl (by norm_num)⟩ none
  obtain ⟨-, hcd, -, hpsi, hg0, hfl, -, hobj, hopt⟩ := C96_solution hsnd a (by norm_num) (fun i => by norm_num [ha]) 0 none none res hres
  have ht : res.target = none := by
    rcases solve_target hres with ⟨-, h, -⟩ | ⟨t, r, h, -⟩
    · exact h
    · cases h
  obtain ⟨w0, w1⟩ := (holding_free _).1 hcd.1
  rw [Fin.sum_univ_two] at w1
  have hrisk : ∀ x : Fin 2 → ℝ, rrpRisk a 0 x = Real.sqrt (((L' 0 0 * x 0 + L' 0 1 * x 1) ^ 2 + (L' 1 0 * x 0 + L' 1 1 * x 1) ^ 2) / 2) := fun x => by
    unfold rrpRisk
    rw [coneNorm_sq]
    simp [ha, Fin.sum_univ_two]
  have f0 := hfl 0
  have f1 := hfl 1
  simp only [ha, contribution, Fin.sum_univ_two] at f0 f1
  refine ⟨a, res, hinit, hres, w0 0, w0 1, w1, hg0, by linarith, by linarith, fun x y g hx hy hxy hg h1 h2 => ?_⟩
  obtain ⟨k1, k2⟩ := hcandidate x y hx hy hxy
  have := hopt ![x, y] g ⟨k1, k2, by rw [ht]; simp⟩ hg (fun i => by
    fin_cases i <;> simp [ha, contribution, Fin.sum_univ_two] <;> linarith)
  rw [hobj, hpsi, hrisk, hrisk] at this
  simpa using this

private theorem swapped_core {y s p t g : ℝ} (hlt : 1 / 5 < y) (hs0 : 0 ≤ s) (hs2 : s ^ 2 = 288 / 125) (hp0 : 0 ≤ p)
    (hp2 : p ^ 2 = ((4 * y) ^ 2 + (4/5 * y + 3/5 * (1 - y)) ^ 2) / 2) (ht0 : 0 ≤ t)
    (ht2 : t ^ 2 = ((4 * (1/5)) ^ 2 + (4/5 * (1/5) + 3/5 * (4/5)) ^ 2) / 2) (hcomp : t ≤ s) (g0 : 0 ≤ g)
    (c2 : g ^ 2 ≤ 2 * ((1 - y) * (16/5 * y + (1 - y)))) (hs' : p - g ≤ t - s) : False := by
  have d1 : g ^ 2 - s ^ 2 ≤ 16 / 25 * (y - 1 / 5) := by
    rw [hs2]; nlinarith [mul_pos (sub_pos.2 hlt) (sub_pos.2 hlt)]
  have d2 : 3 * (y - 1 / 5) ≤ p ^ 2 - t ^ 2 := by
    rw [hp2, ht2]; nlinarith [mul_pos (sub_pos.2 hlt) (sub_pos.2 hlt)]
  have hpt : t < p := by
    have : t ^ 2 < p ^ 2 := by linarith
    exact lt_of_pow_lt_pow_left₀ 2 hp0 this
  have e1 : p + t ≤ g + s := by linarith
  have e2 : (p - t) * (p + t) ≤ (p - t) * (g + s) := mul_le_mul_of_nonneg_left e1 (by linarith)
  have e3 : (p - t) * (g + s) ≤ (g - s) * (g + s) := mul_le_mul_of_nonneg_right (by linarith) (by linarith)
  have e4 : p ^ 2 - t ^ 2 ≤ g ^ 2 - s ^ 2 := by linarith [e2, e3, sq_sub_sq p t, sq_sub_sq g s, mul_comm (p - t) (p + t), mul_comm (g - s) (g + s)]
  linarith

/-- **C242 is false.** Two assets with volatilities 1 and 4 and correlation 4/5: whatever correct solvers are used, the portfolio obtained with the
assets listed in one order is not the portfolio obtained with them listed in the other. -/
theorem C242_counterexample {s1 s2 : Opt.Solver} (hs1 : Sound s1) (hc1 : Complete s1) (hs2 : Sound s2) (hc2 : Complete s2) {f1 f2 : Bayes.Factor}
    (hf1 : CholOk f1) (hf2 : CholOk f2) :
    ∃ a a' res res', rrpInit f1 ![0, 0] ercS ⟨none, none⟩ none = .ok a ∧ rrpSolve s1 a 0 none none = .ok res ∧
      rrpInit f2 ![0, 0] ercSwapped ⟨none, none⟩ none = .ok a' ∧ rrpSolve s2 a' 0 none none = .ok res' ∧
      (∀ i j, ercSwapped i j = ercS (Equiv.swap 0 1 i) (Equiv.swap 0 1 j)) ∧ 1 / 5 < res.w 1 ∧ res'.w 0 ≤ 1 / 5 := by
  have hsym : Bayes.symPart ercS = ercS := by
    ext i j; fin_cases i <;> fin_cases j <;> simp [Bayes.symPart, ercS] <;> norm_num
  have hsym' : Bayes.symPart ercSwapped = ercSwapped := by
    ext i j; fin_cases i <;> fin_cases j <;> simp [Bayes.symPart, ercSwapped] <;> norm_num
  obtain ⟨a, res, h1, h2, x0, y0, xy, g0, c1, c2, opt⟩ := rrp_two hs1 hc1 hf1 ercS _ ((ercS_chol _).2 rfl) hsym (by
    intro i j; fin_cases i <;> fin_cases j <;> simp [ercS] <;> norm_num)
  obtain ⟨a', res', h1', h2', x0', y0', xy', g0', c1', c2', opt'⟩ := rrp_two hs2 hc2 hf2 ercSwapped _ ((ercSwapped_chol _).2 rfl) hsym' (by
    intro i j; fin_cases i <;> fin_cases j <;> simp [ercSwapped] <;> norm_num)
  refine ⟨a, a', res, res', h1, h2, h1', h2', ?_, ?_, ?_⟩
  · intro i j; fin_cases i <;> fin_cases j <;> simp [ercSwapped, ercS]
  · by_contra hle
    push Not at hle
    simp [ercS] at c1 c2 opt
    have hx : res.w 0 = 1 - res.w 1 := by linarith
    rw [hx] at c1 c2 opt x0
    set y := res.w 1 with hy
    have hs := opt (3/4) (1/4) (Real.sqrt (93/40)) (by norm_num) (by norm_num) (by norm_num) (Real.sqrt_nonneg _)
      (by rw [Real.sq_sqrt (by norm_num)]; norm_num) (by rw [Real.sq_sqrt (by norm_num)]; norm_num)
    have hg : res.gamma ≤ Real.sqrt (93/40) := by
      apply Real.le_sqrt_of_sq_le
      nlinarith
    have hlt : Real.sqrt (((3/4 : ℝ) ^ 2 + (16/5 * (3/4) + 12/5 * (1/4)) ^ 2) / 2) <
        Real.sqrt (((1 - y) ^ 2 + (16/5 * (1 - y) + 12/5 * y) ^ 2) / 2) := by
      apply Real.sqrt_lt_sqrt (by norm_num)
      nlinarith
    have hs' : Real.sqrt (((1 - y) ^ 2 + (16/5 * (1 - y) + 12/5 * y) ^ 2) / 2) - res.gamma ≤
        Real.sqrt (((3/4 : ℝ) ^ 2 + (16/5 * (3/4) + 12/5 * (1/4)) ^ 2) / 2) - Real.sqrt (93/40) := by
      simpa using hs
    linarith
  · by_contra hlt
    push Not at hlt
    simp [ercSwapped] at c1' c2' opt'
    have hx : res'.w 1 = 1 - res'.w 0 := by linarith
    rw [hx] at c1' c2' opt' y0'
    set y := res'.w 0 with hy
    have hs := opt' (1/5) (4/5) (Real.sqrt (288/125)) (by norm_num) (by norm_num) (by norm_num) (Real.sqrt_nonneg _)
      (by rw [Real.sq_sqrt (by norm_num)]; norm_num) (by rw [Real.sq_sqrt (by norm_num)]; norm_num)
    set s := Real.sqrt (288/125) with hsd
    have hs2 : s ^ 2 = 288 / 125 := Real.sq_sqrt (by norm_num)
    have hs0 : 0 ≤ s := Real.sqrt_nonneg _
    have hp2 := Real.sq_sqrt (show (0:ℝ) ≤ ((4 * y) ^ 2 + (4/5 * y + 3/5 * (1 - y)) ^ 2) / 2 by positivity)
    have hp0 := Real.sqrt_nonneg (((4 * y) ^ 2 + (4/5 * y + 3/5 * (1 - y)) ^ 2) / 2)
    have ht2 := Real.sq_sqrt (show (0:ℝ) ≤ ((4 * (1/5)) ^ 2 + (4/5 * (1/5) + 3/5 * (4/5)) ^ 2) / 2 by positivity)
    have ht0 := Real.sqrt_nonneg (((4 * (1/5 : ℝ)) ^ 2 + (4/5 * (1/5) + 3/5 * (4/5)) ^ 2) / 2)
    have hcomp : Real.sqrt (((4 * (1/5 : ℝ)) ^ 2 + (4/5 * (1/5) + 3/5 * (4/5)) ^ 2) / 2) ≤ s := by
      apply Real.sqrt_le_sqrt; norm_num
    have hs' : Real.sqrt (((4 * y) ^ 2 + (4/5 * y + 3/5 * (1 - y)) ^ 2) / 2) - res'.gamma ≤
        Real.sqrt (((4 * (1/5 : ℝ)) ^ 2 + (4/5 * (1/5) + 3/5 * (4/5)) ^ 2) / 2) - s := by
      simpa using hs
    generalize Real.sqrt (((4 * y) ^ 2 + (4/5 * y + 3/5 * (1 - y)) ^ 2) / 2) = p at *
    generalize Real.sqrt (((4 * (1/5 : ℝ)) ^ 2 + (4/5 * (1/5) + 3/5 * (4/5)) ^ 2) / 2) = t at *
    set g := res'.gamma with hgd
    exact swapped_core hlt hs0 hs2 hp0 hp2 ht0 ht2 hcomp g0' c2' hs'

end PyV.Props
