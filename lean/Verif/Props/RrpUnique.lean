import Verif.Lemmas.NormUnique
import Verif.Lemmas.Cholesky
import Verif.Props.WrapperRrp

/-! # Property C243: relaxed risk parity is determined by its inputs -/

namespace PyV.Props

open PyV PyV.Api PyV.Spec.Api PyV.Opt PyV.Spec.Opt Matrix PyV.Lemmas

variable {n N : ℕ}

/-- The rows whose length is the regulated average risk. -/
private noncomputable def riskRows (a : Rrp n) (lam : ℝ) : Fin n ⊕ Fin n → Fin n → ℝ
  | .inl k, i => a.chol k i / Real.sqrt n
  | .inr k, i => if i = k then Real.sqrt (lam * max (a.cov k k) 0) else 0

private theorem risk_len (a : Rrp n) {lam : ℝ} (hl : 0 ≤ lam) (x : Fin n → ℝ) : rrpRisk a lam x = len (riskRows a lam) x := by
  unfold rrpRisk len
  congr 1
  rw [Fintype.sum_sum_type, coneNorm_sq, Finset.sum_div, Finset.mul_sum]
  congr 1
  · refine Finset.sum_congr rfl fun k _ => ?_
    have : ∑ i, riskRows a lam (.inl k) i * x i = (∑ i, a.chol k i * x i) / Real.sqrt n := by
      rw [Finset.sum_div]
      exact Finset.sum_congr rfl fun i _ => by simp only [riskRows]; ring
    rw [this, div_pow, Real.sq_sqrt (Nat.cast_nonneg n)]
  · refine Finset.sum_congr rfl fun k _ => ?_
    have : ∑ i, riskRows a lam (.inr k) i * x i = Real.sqrt (lam * max (a.cov k k) 0) * x k := by
      rw [Finset.sum_eq_single k (fun i _ hi => by simp only [riskRows, if_neg hi, zero_mul]) (by simp)]
      simp only [riskRows, if_true]
    rw [this, mul_pow, Real.sq_sqrt (mul_nonneg hl (le_max_right _ _))]
    ring

private theorem chol_injective {A L : Matrix (Fin n) (Fin n) ℝ} (hL : IsChol A L) {x : Fin n → ℝ} (h : ∀ k, ∑ i, L k i * x i = 0) : x = 0 := by
  have hdet : L.det ≠ 0 := by
    rw [det_lower hL.2.1]
    exact Finset.prod_ne_zero_iff.mpr fun i _ => (hL.2.2 i).ne'
  exact Matrix.eq_zero_of_mulVec_eq_zero hdet (funext h)

private theorem rows_injective {a : Rrp n} {A : Matrix (Fin n) (Fin n) ℝ} (hL : IsChol A a.chol) (lam : ℝ) (x : Fin n → ℝ)
    (h : ∀ k, ∑ i, riskRows a lam k i * x i = 0) : x = 0 := by
  rcases Nat.eq_zero_or_pos n with h0 | hn
  · subst h0; funext i; exact i.elim0
  · have hs : Real.sqrt n ≠ 0 := (Real.sqrt_pos.2 (by exact_mod_cast hn)).ne'
    refine chol_injective hL fun k => ?_
    have := h (.inl k)
    have e : ∑ i, riskRows a lam (.inl k) i * x i = (∑ i, a.chol k i * x i) / Real.sqrt n := by
      rw [Finset.sum_div]
      exact Finset.sum_congr rfl fun i _ => by simp only [riskRows]; ring
    rw [e] at this
    rcases div_eq_zero_iff.1 this with h | h
    · exact h
    · exact absurd h hs

/-- Some positive combination of the weights is fixed by the constraints. -/
private theorem holding_plane (u : User n) : ∃ (r : Fin n → ℝ) (c : ℝ), (∀ i, 0 < r i) ∧ ∀ x, Holding u x → ∑ i, r i * x i = c := by
  by_cases h : ∃ r ∈ u.A.getD [], ∀ i, |r.1 i - 1| ≤ 2 / 10 ^ 8
  · obtain ⟨r, hr, hi⟩ := h
    refine ⟨r.1, r.2, fun i => ?_, fun x hx => hx.1.2 r hr⟩
    have := (abs_le.1 (hi i)).1
    norm_num at this
    linarith
  · exact ⟨fun _ => 1, 1, fun _ => one_pos, fun x hx => by simpa using hx.2.2 h⟩

private theorem floor_between {b x z y v g h : ℝ} (hb : 0 ≤ b) (hx : 0 ≤ x) (hz : 0 ≤ z) (hy : 0 ≤ y) (hv : 0 ≤ v) (hg : 0 ≤ g) (hh : 0 ≤ h)
    (h1 : b * g ^ 2 ≤ x * z) (h2 : b * h ^ 2 ≤ y * v) : b * ((g + h) / 2) ^ 2 ≤ (x + y) / 2 * ((z + v) / 2) := by
  have key : 2 * (b * (g * h)) ≤ x * v + y * z := by
    have hsq : (b * (g * h)) ^ 2 ≤ (x * v) * (y * z) := by
      calc (b * (g * h)) ^ 2 = (b * g ^ 2) * (b * h ^ 2) := by ring
        _ ≤ (x * z) * (y * v) := mul_le_mul h1 h2 (by positivity) (by positivity)
        _ = (x * v) * (y * z) := by ring
    have h3 : (2 * (b * (g * h))) ^ 2 ≤ (x * v + y * z) ^ 2 := by nlinarith [sq_nonneg (x * v - y * z)]
    exact (pow_le_pow_iff_left₀ (by positivity) (by positivity) two_ne_zero).1 h3
  nlinarith

private theorem holding_between {u : User n} {x y : Fin n → ℝ} (hx : Holding u x) (hy : Holding u y) : Holding u (fun i => (x i + y i) / 2) := by
  have e : ∀ r : Fin n → ℝ, ∑ i, r i * ((x i + y i) / 2) = (∑ i, r i * x i + ∑ i, r i * y i) / 2 := by
    intro r
    rw [← Finset.sum_add_distrib, Finset.sum_div]
    exact Finset.sum_congr rfl fun i _ => by ring
  refine ⟨⟨fun r hr => ?_, fun r hr => ?_⟩, fun i => ?_, fun h => ?_⟩
  · rw [e]; have := hx.1.1 r hr; have := hy.1.1 r hr; linarith
  · rw [e]; have := hx.1.2 r hr; have := hy.1.2 r hr; linarith
  · have := hx.2.1 i; have := hy.2.1 i; linarith
  · rw [← Finset.sum_div, Finset.sum_add_distrib, hx.2.2 h, hy.2.2 h]; norm_num

private theorem sum_between (r x y : Fin n → ℝ) : ∑ i, r i * ((x i + y i) / 2) = (∑ i, r i * x i + ∑ i, r i * y i) / 2 := by
  rw [← Finset.sum_add_distrib, Finset.sum_div]
  exact Finset.sum_congr rfl fun i _ => by ring

/-- The best candidate is unique. -/
theorem rrp_best_unique {a : Rrp n} {A : Matrix (Fin n) (Fin n) ℝ} (hL : IsChol A a.chol) (hb : ∀ i, 0 ≤ a.budgets i) {lam : ℝ} (hl : 0 ≤ lam)
    {target : Option ℝ} {x y : Fin n → ℝ} {g h : ℝ} (hx : Candidate a target x) (hy : Candidate a target y) (hg : 0 ≤ g) (hh : 0 ≤ h)
    (hxf : ∀ i, a.budgets i * g ^ 2 ≤ contribution a.cov x i) (hyf : ∀ i, a.budgets i * h ^ 2 ≤ contribution a.cov y i)
    (hmx : ∀ v k, Candidate a target v → 0 ≤ k → (∀ i, a.budgets i * k ^ 2 ≤ contribution a.cov v i) → rrpRisk a lam x - g ≤ rrpRisk a lam v - k)
    (hmy : ∀ v k, Candidate a target v → 0 ≤ k → (∀ i, a.budgets i * k ^ 2 ≤ contribution a.cov v i) → rrpRisk a lam y - h ≤ rrpRisk a lam v - k) :
    x = y ∧ g = h := by
  have hmid : Candidate a target (fun i => (x i + y i) / 2) := by
    refine ⟨holding_between hx.1 hy.1, fun i => ?_, fun t ht => ?_⟩
    · rw [sum_between]; have := hx.2.1 i; have := hy.2.1 i; linarith
    · have h1 := hx.2.2 t ht; have h2 := hy.2.2 t ht
      unfold Spec.Opt.ret at *
      rw [sum_between]; linarith
  have hm := hmx _ ((g + h) / 2) hmid (by linarith) (fun i => by
    unfold contribution at *
    rw [sum_between]
    exact floor_between (hb i) (hx.1.2.1 i) (hx.2.1 i) (hy.1.2.1 i) (hy.2.1 i) hg hh (hxf i) (hyf i))
  have hyx := hmy x g hx hg hxf
  have hxy := hmx y h hy hh hyf
  rw [risk_len a hl, risk_len a hl, len_half (riskRows a lam) (fun i => x i + y i)] at hm
  rw [risk_len a hl, risk_len a hl] at hyx
  have hw : x = y := by
    obtain ⟨r, c, hr, hc⟩ := holding_plane a.user
    by_cases h0 : c = 0
    · have z : ∀ v, Holding a.user v → v = 0 := by
        intro v hv
        have := hc v hv
        rw [h0, Finset.sum_eq_zero_iff_of_nonneg (fun i _ => mul_nonneg (hr i).le (hv.2.1 i))] at this
        funext i
        rcases mul_eq_zero.1 (this i (Finset.mem_univ i)) with h | h
        · exact absurd h (hr i).ne'
        · exact h
      rw [z x hx.1, z y hy.1]
    · exact len_unique (rows_injective hL lam) h0 (hc x hx.1) (hc y hy.1) (by linarith)
  subst hw
  exact ⟨rfl, by linarith⟩

/-- The penalty reported by a solve. -/
private theorem rrpFinish_rho {solver : Opt.Solver} (hsnd : Sound solver) (a : Rrp n) (hn : 0 < n) (hb : ∀ i, 0 ≤ a.budgets i) {lam : ℝ} (hl : 0 ≤ lam)
    {tgt mr : Option ℝ} {res : RrpResult n} (h : rrpFinish solver a lam tgt mr = .ok res) :
    res.target = tgt ∧ res.maxReturn = mr ∧ Candidate a tgt res.w ∧ (∀ i, res.marginal i = ∑ j, a.cov i j * res.w j) ∧ res.psi = rrpRisk a lam res.w ∧
      res.rho = Real.sqrt (lam * ∑ k, max (a.cov k k) 0 * res.w k ^ 2) ∧ 0 ≤ res.gamma ∧ (∀ i, a.budgets i * res.gamma ^ 2 ≤ contribution a.cov res.w i) ∧
      res.objective = res.psi - res.gamma ∧ ∀ v g, Candidate a tgt v → 0 ≤ g → (∀ i, a.budgets i * g ^ 2 ≤ contribution a.cov v i) →
        rrpRisk a lam res.w - res.gamma ≤ rrpRisk a lam v - g := by
  obtain ⟨x, hx, rfl⟩ := rrpFinish_ok h
  obtain ⟨hf, ho⟩ := hsnd _ _ _ _ (convex_zero _ rfl) hx
  rw [rpoint_eta x, C70_feasible_iff a hb] at hf
  have ho' : ∀ v g, Candidate a tgt v → 0 ≤ g → (∀ i, a.budgets i * g ^ 2 ≤ contribution a.cov v i) →
      x (.inr (.inr .psi)) - x (.inr (.inr .gamma)) ≤ rrpRisk a lam v - g := fun v g hv hg hfl => by
    have := ho _ ((C70_feasible_iff a hb lam tgt _ _ _ _ _ _).2 (candidate_ok a hn hl hv hg hfl))
    rw [rpoint_eta x, value_rrp, value_rrp] at this
    exact this
  have hcand : Candidate a tgt (fun i => x (.inl i)) :=
    ⟨hf.holding, fun i => by rw [← hf.marginal i]; exact hf.nonneg i, hf.ret⟩
  have hfloor : ∀ i, a.budgets i * x (.inr (.inr .gamma)) ^ 2 ≤ contribution a.cov (fun i => x (.inl i)) i := fun i => by
    have := hf.floor i
    rw [hf.marginal i] at this
    exact this
  have hpsi := risk_le_psi a hn hl hf
  have hself := ho' _ _ hcand hf.gamma0 hfloor
  have hpe : x (.inr (.inr .psi)) = rrpRisk a lam (fun i => x (.inl i)) := by linarith
  refine ⟨rfl, rfl, hcand, hf.marginal, hpe, ?_, hf.gamma0, hfloor, rfl, fun v g h1 h2 h3 => by rw [← hpe]; exact ho' v g h1 h2 h3⟩
  -- the penalty
  dsimp only
  have hn' : (0:ℝ) < n := by exact_mod_cast hn
  have hpen0 := pen_nonneg a hl (fun i => x (.inl i))
  have hcn : 0 ≤ coneNorm a.chol (fun i => x (.inl i)) := Real.sqrt_nonneg _
  have h1 : coneNorm a.chol (fun i => x (.inl i)) ^ 2 ≤ x (.inr (.inr .q)) ^ 2 := by have := hf.risk; gcongr
  have h2 : x (.inr (.inr .q)) ^ 2 + n * x (.inr (.inr .rho)) ^ 2 ≤ n * x (.inr (.inr .psi)) ^ 2 := by
    have h := hf.average
    have h' := pow_le_pow_left₀ (Real.sqrt_nonneg _) h 2
    rwa [Real.sq_sqrt (by positivity), mul_pow, Real.sq_sqrt hn'.le] at h'
  have h3 : x (.inr (.inr .psi)) ^ 2 = coneNorm a.chol (fun i => x (.inl i)) ^ 2 / n + lam * ∑ k, max (a.cov k k) 0 * x (.inl k) ^ 2 := by
    rw [hpe]; unfold rrpRisk; rw [Real.sq_sqrt (by positivity)]
  have h4 : x (.inr (.inr .rho)) ^ 2 ≤ lam * ∑ k, max (a.cov k k) 0 * x (.inl k) ^ 2 := by
    have e : n * x (.inr (.inr .psi)) ^ 2 = coneNorm a.chol (fun i => x (.inl i)) ^ 2 + n * (lam * ∑ k, max (a.cov k k) 0 * x (.inl k) ^ 2) := by
      rw [h3]; field_simp
    have : n * x (.inr (.inr .rho)) ^ 2 ≤ n * (lam * ∑ k, max (a.cov k k) 0 * x (.inl k) ^ 2) := by linarith
    exact le_of_mul_le_mul_left this hn'
  apply le_antisymm
  · exact Real.le_sqrt_of_sq_le h4
  · rcases hl.eq_or_lt with h0 | hpos
    · rw [← h0, zero_mul, Real.sqrt_zero]; exact hf.rho0
    · exact hf.penalty hpos

theorem rrpFinish_unique {s1 s2 : Opt.Solver} (hs1 : Sound s1) (hc1 : Complete s1) (hs2 : Sound s2) (hc2 : Complete s2) (a : Rrp n) (hn : 0 < n)
    (hb : ∀ i, 0 < a.budgets i) {A : Matrix (Fin n) (Fin n) ℝ} (hL : IsChol A a.chol) {lam : ℝ} (hl : 0 ≤ lam) (tgt mr : Option ℝ) :
    rrpFinish s1 a lam tgt mr = rrpFinish s2 a lam tgt mr := by
  have hb' := fun i => (hb i).le
  have one : ∀ {s t : Opt.Solver}, Sound s → Complete t → ∀ r, rrpFinish s a lam tgt mr = .ok r → ∃ r', rrpFinish t a lam tgt mr = .ok r' :=
    fun hs ht r hr => rrpFinish_total ht a hn hb hl ⟨_, (rrpFinish_rho hs a hn hb' hl hr).2.2.1⟩
  have err : ∀ {s : Opt.Solver} {e}, rrpFinish s a lam tgt mr = .error e → e = .runtimeError := by
    intro s e h
    unfold rrpFinish at h
    split at h
    · injection h with h; exact h.symm
    · cases h
  cases h1 : rrpFinish s1 a lam tgt mr with
  | error e =>
    cases h2 : rrpFinish s2 a lam tgt mr with
    | error e' => rw [err h1, err h2]
    | ok r => obtain ⟨r', hr'⟩ := one hs2 hc1 r h2; rw [h1] at hr'; cases hr'
  | ok r =>
    obtain ⟨r', h2⟩ := one hs1 hc2 r h1
    rw [h2]
    obtain ⟨a1, a2, a3, a4, a5, a6, a7, a8, a9, a10⟩ := rrpFinish_rho hs1 a hn hb' hl h1
    obtain ⟨b1, b2, b3, b4, b5, b6, b7, b8, b9, b10⟩ := rrpFinish_rho hs2 a hn hb' hl h2
    obtain ⟨hw, hg⟩ := rrp_best_unique hL hb' hl a3 b3 a7 b7 a8 b8 a10 b10
    have hm : r.marginal = r'.marginal := by funext i; rw [a4, b4, hw]
    have hp : r.psi = r'.psi := by rw [a5, b5, hw]
    have hr : r.rho = r'.rho := by rw [a6, b6, hw]
    have ho : r.objective = r'.objective := by rw [a9, b9, hp, hg]
    have ht : r.target = r'.target := by rw [a1, b1]
    have hx : r.maxReturn = r'.maxReturn := by rw [a2, b2]
    cases r; cases r'
    simp only at hw hg hm hp hr ho ht hx
    subst hw hg hm hp hr ho ht hx
    rfl

theorem maxReturn_unique {s1 s2 : Opt.Solver} (hs1 : Sound s1) (hc1 : Complete s1) (hs2 : Sound s2) (hc2 : Complete s2) {V : Type} [Fintype V]
    (m : V → ℝ) (lin eq : List (Row V)) : maxReturn s1 m lin eq = maxReturn s2 m lin eq := by
  unfold maxReturn
  set pr : Prog V := ⟨fun _ _ => 0, fun v => -(m v), lin, [], eq⟩ with hpr
  have hcv : Convex pr := convex_zero _ rfl
  cases h1 : s1 V inferInstance pr with
  | none =>
    cases h2 : s2 V inferInstance pr with
    | none => rfl
    | some y =>
      obtain ⟨x, hx⟩ := hc1 _ _ _ hcv ⟨y, hs2 _ _ _ _ hcv h2⟩
      rw [h1] at hx; cases hx
  | some x =>
    have ox := hs1 _ _ _ _ hcv h1
    obtain ⟨y, hy⟩ := hc2 _ _ _ hcv ⟨x, ox⟩
    have oy := hs2 _ _ _ _ hcv hy
    rw [hy]
    have hv := le_antisymm (ox.2 y oy.1) (oy.2 x ox.1)
    have e : ∀ z, value pr z = dot (fun v => -(m v)) z := by
      intro z; simp [value, hpr, dot]
    rw [e, e] at hv
    dsimp only
    rw [hv]

theorem rrpSolve_unique {s1 s2 : Opt.Solver} (hs1 : Sound s1) (hc1 : Complete s1) (hs2 : Sound s2) (hc2 : Complete s2) (a : Rrp n) (hn : 0 < n)
    (hb : ∀ i, 0 < a.budgets i) {A : Matrix (Fin n) (Fin n) ℝ} (hL : IsChol A a.chol) (lam : ℝ) (target minT : Option ℝ) :
    rrpSolve s1 a lam target minT = rrpSolve s2 a lam target minT := by
  unfold rrpSolve
  by_cases hl : lam < 0
  · rw [if_pos hl, if_pos hl]
  · rw [if_neg hl, if_neg hl]
    have hl' := not_lt.1 hl
    cases target with
    | none => exact rrpFinish_unique hs1 hc1 hs2 hc2 a hn hb hL hl' _ _
    | some t =>
      have e : rrpMaxReturn s1 a = rrpMaxReturn s2 a := by
        unfold rrpMaxReturn; exact maxReturn_unique hs1 hc1 hs2 hc2 _ _ _
      dsimp only
      rw [e]
      cases rrpMaxReturn s2 a with
      | error e => rfl
      | ok r => exact rrpFinish_unique hs1 hc1 hs2 hc2 a hn hb hL hl' _ _

/-- There is only one correct Cholesky routine. -/
theorem cholOk_unique {f1 f2 : Bayes.Factor} (h1 : CholOk f1) (h2 : CholOk f2) : f1 = f2 := by
  funext n A
  cases e1 : f1 n A with
  | none =>
    cases e2 : f2 n A with
    | none => rfl
    | some L =>
      obtain ⟨L', hL'⟩ := (h1 n A).2 ⟨L, (h2 n A).1 L e2⟩
      rw [e1] at hL'; cases hL'
  | some L =>
    have hc := (h1 n A).1 L e1
    obtain ⟨L', hL'⟩ := (h2 n A).2 ⟨L, hc⟩
    rw [hL', isChol_unique ((h2 n A).1 L' hL') hc]

private theorem cholLoop_isChol {f : Bayes.Factor} (hf : CholOk f) {A L : Matrix (Fin n) (Fin n) ℝ} {j : ℝ} :
    ∀ (k : ℕ) (c : ℝ), (Bayes.cholLoop f A j k c).result = .ok L → ∃ B, IsChol B L := by
  intro k
  induction k with
  | zero =>
    intro c h
    unfold Bayes.cholLoop at h
    split at h
    · rename_i L' hL'
      injection h with h; subst h
      exact ⟨_, (hf _ _).1 _ hL'⟩
    · cases h
  | succ k ih =>
    intro c h
    unfold Bayes.cholLoop at h
    split at h
    · rename_i L' hL'
      injection h with h; subst h
      exact ⟨_, (hf _ _).1 _ hL'⟩
    · exact ih _ h

theorem cholSquare_isChol {f : Bayes.Factor} (hf : CholOk f) {S L : Matrix (Fin n) (Fin n) ℝ} (h : (Bayes.cholSquare f S).result = .ok L) :
    ∃ A, IsChol A L := cholLoop_isChol hf _ _ h

theorem rrpInit_chol {f : Bayes.Factor} (hf : CholOk f) {mean : Fin n → ℝ} {S : Matrix (Fin n) (Fin n) ℝ} {u : User n} {rb : Option (Fin n → ℝ)} {a : Rrp n}
    (h : rrpInit f mean S u rb = .ok a) : ∃ A, IsChol A a.chol := by
  unfold rrpInit at h
  split at h
  · cases h
  rename_i L hL
  split at h
  · cases h
  injection h with h; subst h
  exact cholLoop_isChol hf _ _ hL

theorem relaxedLoop_unique {s1 s2 : Opt.Solver} (hs1 : Sound s1) (hc1 : Complete s1) (hs2 : Sound s2) (hc2 : Complete s2) (a : Rrp n) (hn : 0 < n)
    (hb : ∀ i, 0 < a.budgets i) {A : Matrix (Fin n) (Fin n) ℝ} (hL : IsChol A a.chol) (lam lower : ℝ) :
    ∀ (k : ℕ) (t : ℝ), relaxedLoop s1 a lam lower k t = relaxedLoop s2 a lam lower k t := by
  intro k
  induction k with
  | zero =>
    intro t
    unfold relaxedLoop
    rw [rrpSolve_unique hs1 hc1 hs2 hc2 a hn hb hL]
  | succ k ih =>
    intro t
    unfold relaxedLoop
    rw [rrpSolve_unique hs1 hc1 hs2 hc2 a hn hb hL, ih]

/-- **C243** Two correct optimisers (and two correct Cholesky routines) give `RelaxedRiskParity` the same result in every field, or the same error,
whatever the moments, constraints, budgets, penalty and targets. -/
theorem C243_optimiser {s1 s2 : Opt.Solver} (hs1 : Sound s1) (hc1 : Complete s1) (hs2 : Sound s2) (hc2 : Complete s2) {f1 f2 : Bayes.Factor}
    (hf1 : CholOk f1) (hf2 : CholOk f2) (hn : 0 < n) (mean : Fin n → ℝ) (S : Matrix (Fin n) (Fin n) ℝ) (u : User n) (rb : Option (Fin n → ℝ)) (lam : ℝ)
    (target minT : Option ℝ) :
    (rrpInit f1 mean S u rb >>= fun a => rrpSolve s1 a lam target minT) = (rrpInit f2 mean S u rb >>= fun a => rrpSolve s2 a lam target minT) := by
  obtain rfl := cholOk_unique hf1 hf2
  cases h : rrpInit f1 mean S u rb with
  | error e => rfl
  | ok a =>
    obtain ⟨A, hA⟩ := rrpInit_chol hf1 h
    exact rrpSolve_unique hs1 hc1 hs2 hc2 a hn (rrpInit_budgets hn h).1 hA lam target minT

/-- **C243** The relaxed risk parity methods of `PortfolioWrapper` return the same portfolios and diagnostics, or raise the same error, whatever
correct solver and Cholesky routine are used. -/
theorem C243_wrapper {s1 s2 : Opt.Solver} (hs1 : Sound s1) (hc1 : Complete s1) (hs2 : Sound s2) (hc2 : Complete s2) {f1 f2 : Bayes.Factor}
    (hf1 : CholOk f1) (hf2 : CholOk f2) (hN : 0 < N) (w : Wrapper N) (budgets : Option (Fin N → ℝ)) (con : Option (PyV.Con.Spec ℝ)) (lam : ℝ) :
    (∀ mult target, w.relaxed s1 f1 lam mult target budgets con = w.relaxed s2 f2 lam mult target budgets con) ∧
    ∀ num maxMult mults includeRp,
      w.relaxedFrontier s1 f1 num maxMult lam mults includeRp budgets con = w.relaxedFrontier s2 f2 num maxMult lam mults includeRp budgets con := by
  obtain rfl := cholOk_unique hf1 hf2
  constructor
  · intro mult target
    unfold Wrapper.relaxed
    cases w.moments with
    | error e => rfl
    | ok p =>
      obtain ⟨mu, cov⟩ := p
      dsimp only
      cases w.user con with
      | error e => rfl
      | ok u =>
        dsimp only
        cases h : rrpInit f1 mu cov u budgets with
        | error e => rfl
        | ok a =>
          obtain ⟨A, hA⟩ := rrpInit_chol hf1 h
          have hb := (rrpInit_budgets hN h).1
          dsimp only
          rw [rrpSolve_unique hs1 hc1 hs2 hc2 a hN hb hA 0 none none]
          simp only [relaxedLoop_unique hs1 hc1 hs2 hc2 a hN hb hA lam]
  · intro num maxMult mults includeRp
    unfold Wrapper.relaxedFrontier
    cases w.moments with
    | error e => rfl
    | ok p =>
      obtain ⟨mu, cov⟩ := p
      dsimp only
      by_cases hl : lam < 0
      · rw [if_pos hl, if_pos hl]
      · rw [if_neg hl, if_neg hl]
        cases w.user con with
        | error e => rfl
        | ok u =>
          dsimp only
          cases h : rrpInit f1 mu cov u budgets with
          | error e => rfl
          | ok a =>
            obtain ⟨A, hA⟩ := rrpInit_chol hf1 h
            have hb := (rrpInit_budgets hN h).1
            dsimp only
            rw [rrpSolve_unique hs1 hc1 hs2 hc2 a hN hb hA 0 none none]
            simp only [relaxedLoop_unique hs1 hc1 hs2 hc2 a hN hb hA lam]

/-- Non-vacuity: two independent assets; the solve succeeds with every correct solver. -/
example : ∃ (w : Wrapper 2) (solver : Opt.Solver) (factor : Bayes.Factor) (out : RelaxedOut 2), Sound solver ∧ Complete solver ∧ CholOk factor ∧
    w.relaxed solver factor 1 none (some (1 / 20)) none none = .ok out ∧ out.sol.target = some (1 / 10) := by
  obtain ⟨solver, hs, hc⟩ := exists_solver
  obtain ⟨factor, hf⟩ := cholOk_exists
  obtain ⟨w, -, -, h⟩ := C111_counterexample
  obtain ⟨out, ho, -, h2, -⟩ := h solver factor hs hc hf
  exact ⟨w, solver, factor, out, hs, hc, hf, ho, h2⟩

end PyV.Props
