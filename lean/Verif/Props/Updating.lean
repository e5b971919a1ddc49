import Verif.Props.Moments
import Verif.Props.Probabilities

/-! # Property C286: estimates can be updated as observations arrive -/

namespace PyV.Props

open PyV PyV.Mom PyV.Probs PyV.Spec Matrix

variable {T U N : ℕ}

private theorem append_prob {p : Fin T → ℝ} {q : Fin U → ℝ} (hp : IsProb p) (hq : IsProb q) {c : ℝ} (h0 : 0 ≤ c) (h1 : c ≤ 1) :
    IsProb (Fin.append (fun t => (1 - c) * p t) (fun t => c * q t)) := by
  refine ⟨fun t => ?_, ?_⟩
  · refine Fin.addCases (fun t => ?_) (fun t => ?_) t
    · rw [Fin.append_left]; exact mul_nonneg (by linarith) (hp.nonneg t)
    · rw [Fin.append_right]; exact mul_nonneg h0 (hq.nonneg t)
  · rw [Fin.sum_univ_add]
    simp only [Fin.append_left, Fin.append_right, ← Finset.mul_sum, hp.sum, hq.sum]
    ring

private theorem expect_append (p : Fin T → ℝ) (q : Fin U → ℝ) (c : ℝ) (R : Fin T → Fin N → ℝ) (V : Fin U → Fin N → ℝ) (g : (Fin N → ℝ) → ℝ) :
    expect (Fin.append (fun t => (1 - c) * p t) (fun t => c * q t)) (fun t => g (Fin.append R V t)) =
      (1 - c) * expect p (fun t => g (R t)) + c * expect q (fun t => g (V t)) := by
  unfold expect
  rw [Fin.sum_univ_add]
  simp only [Fin.append_left, Fin.append_right, Finset.mul_sum, mul_assoc]

/-- **C286** pooling two samples: the mean of the pooled scenarios is the blend of the two means, and the covariance is the blend of the two
covariances plus the spread between the two means. -/
theorem C286_pooled {p : Fin T → ℝ} {q : Fin U → ℝ} (hp : IsProb p) (hq : IsProb q) {c : ℝ} (h0 : 0 ≤ c) (h1 : c ≤ 1)
    {R : Fin T → Fin N → ℝ} {V : Fin U → Fin N → ℝ} {m1 m2 : Fin N → ℝ} {S1 S2 : Matrix (Fin N) (Fin N) ℝ}
    (h : estimateSampleMoments R p = .ok (m1, S1)) (h' : estimateSampleMoments V q = .ok (m2, S2)) :
    estimateSampleMoments (Fin.append R V) (Fin.append (fun t => (1 - c) * p t) (fun t => c * q t)) =
      .ok ((1 - c) • m1 + c • m2, (1 - c) • S1 + c • S2 + (c * (1 - c)) • vecMulVec (m1 - m2) (m1 - m2)) := by
  obtain ⟨a, A, e, a1, a2, -⟩ := C35_sample_moments R hp
  obtain ⟨b, B, e', b1, b2, -⟩ := C35_sample_moments V hq
  obtain ⟨d, D, e'', d1, d2, -⟩ := C35_sample_moments (Fin.append R V) (append_prob hp hq h0 h1)
  rw [h] at e; injection e with e; injection e with ea eb; subst ea; subst eb
  rw [h'] at e'; injection e' with e'; injection e' with ea eb; subst ea; subst eb
  have hd : d = (1 - c) • m1 + c • m2 := by
    funext i
    have := expect_append p q c R V (fun x => x i)
    rw [← d1, ← a1, ← b1] at this
    simpa using this
  rw [e'', ← hd]
  congr 2
  ext i j
  have := expect_append p q c R V (fun x => x i * x j)
  have hA := a2 i j
  have hB := b2 i j
  have hi : d i = (1 - c) * m1 i + c * m2 i := by rw [hd]; simp
  have hj : d j = (1 - c) * m1 j + c * m2 j := by rw [hd]; simp
  rw [d2, this, hi, hj]
  simp only [Matrix.add_apply, Matrix.smul_apply, smul_eq_mul, vecMulVec_apply, Pi.sub_apply]
  rw [hA, hB]
  ring

/-- The exponential weighting of one more observation keeps the relative weights of the older ones: they are scaled to make room for the newest. -/
theorem C286_exp_decay {hl : ℝ} {p : Fin T → ℝ} {p' : Fin (T + 1) → ℝ} (hT : 0 < T) (h : expDecay T hl = .ok p) (h' : expDecay (T + 1) hl = .ok p') :
    0 < p' (Fin.last T) ∧ p' (Fin.last T) < 1 ∧
    p' = Fin.append (fun t => (1 - p' (Fin.last T)) * p t) (fun _ : Fin 1 => p' (Fin.last T) * 1) := by
  unfold expDecay at h h'
  split at h
  · cases h
  rename_i hpos
  rw [if_neg hpos] at h'
  injection h with h
  injection h' with h'
  set k := Real.log 2 / hl with hk
  have hp : ∀ t, p t = Real.exp (-k * ((T : ℝ) - ((t : ℕ) + 1))) / ∑ s : Fin T, Real.exp (-k * ((T : ℝ) - ((s : ℕ) + 1))) := by
    intro t; rw [← h]; simp only [hk, neg_div]
  set Z := ∑ s : Fin T, Real.exp (-k * ((T : ℝ) - ((s : ℕ) + 1))) with hZ
  have hZp : 0 < Z := by
    haveI : Nonempty (Fin T) := ⟨⟨0, hT⟩⟩
    exact Finset.sum_pos (fun _ _ => Real.exp_pos _) Finset.univ_nonempty
  set g : ℝ := Real.exp (-k) with hg
  have hgp : 0 < g := Real.exp_pos _
  have hsh : ∀ t : Fin T, Real.exp (-k * (((T + 1 : ℕ) : ℝ) - (((Fin.castSucc t : Fin (T + 1)) : ℕ) + 1))) =
      g * Real.exp (-k * ((T : ℝ) - ((t : ℕ) + 1))) := by
    intro t
    rw [hg, ← Real.exp_add]
    congr 1
    push_cast
    rw [Fin.val_castSucc]
    ring
  have hlast : Real.exp (-k * (((T + 1 : ℕ) : ℝ) - (((Fin.last T : Fin (T + 1)) : ℕ) + 1))) = 1 := by
    rw [Fin.val_last]; push_cast; simp
  have hZ' : ∑ s : Fin (T + 1), Real.exp (-k * (((T + 1 : ℕ) : ℝ) - ((s : ℕ) + 1))) = g * Z + 1 := by
    rw [Fin.sum_univ_castSucc, hlast]
    simp only [hsh, ← Finset.mul_sum, ← hZ]
  have hp' : ∀ t, p' t = Real.exp (-k * (((T + 1 : ℕ) : ℝ) - ((t : ℕ) + 1))) / (g * Z + 1) := by
    intro t; rw [← hZ', ← h']; simp only [hk, neg_div]
  have hden : 0 < g * Z + 1 := by positivity
  have hl' : p' (Fin.last T) = 1 / (g * Z + 1) := by rw [hp', hlast]
  refine ⟨by rw [hl']; positivity, by rw [hl', div_lt_one hden]; nlinarith [mul_pos hgp hZp], ?_⟩
  funext t
  refine Fin.addCases (fun t => ?_) (fun t => ?_) t
  · rw [Fin.append_left, hl', hp, show Fin.castAdd 1 t = Fin.castSucc t from rfl, hp', hsh]
    field_simp
    ring
  · rw [Fin.append_right, mul_one]
    congr 1
    ext
    simp

/-- **C286** a new observation `r` under exponential weighting: with `c` the weight of the newest observation, the mean moves the share `c` of the way
to `r`, and the covariance becomes `(1 - c)` times the old one plus `c` times the square of the surprise. -/
theorem C286_new_observation {hl : ℝ} {p : Fin T → ℝ} {p' : Fin (T + 1) → ℝ} (hT : 0 < T) (h : expDecay T hl = .ok p)
    (h' : expDecay (T + 1) hl = .ok p') (R : Fin T → Fin N → ℝ) (r : Fin N → ℝ) {mu : Fin N → ℝ} {S : Matrix (Fin N) (Fin N) ℝ}
    (hm : estimateSampleMoments R p = .ok (mu, S)) :
    0 < p' (Fin.last T) ∧ p' (Fin.last T) < 1 ∧
    estimateSampleMoments (Fin.append R (fun _ : Fin 1 => r)) p' =
      .ok (mu + p' (Fin.last T) • (r - mu), (1 - p' (Fin.last T)) • (S + p' (Fin.last T) • vecMulVec (r - mu) (r - mu))) := by
  obtain ⟨h0, h1, he⟩ := C286_exp_decay hT h h'
  refine ⟨h0, h1, ?_⟩
  set c := p' (Fin.last T) with hc
  have hp : IsProb p := by
    unfold expDecay at h
    split at h
    · cases h
    injection h with h
    have hz : 0 < ∑ s : Fin T, Real.exp (-(Real.log 2) / hl * ((T : ℝ) - ((s : ℕ) + 1))) := by
      haveI : Nonempty (Fin T) := ⟨⟨0, hT⟩⟩
      exact Finset.sum_pos (fun _ _ => Real.exp_pos _) Finset.univ_nonempty
    rw [← h]
    refine ⟨fun t => div_nonneg (Real.exp_pos _).le hz.le, ?_⟩
    rw [← Finset.sum_div]
    exact div_self hz.ne'
  have hq : IsProb (fun _ : Fin 1 => (1 : ℝ)) := ⟨fun _ => zero_le_one, by simp⟩
  obtain ⟨b, B, e', b1, b2, -⟩ := C35_sample_moments (fun _ : Fin 1 => r) hq
  have hb : b = r := funext fun i => by rw [b1]; simp [expect]
  subst hb
  have hB : B = 0 := by
    ext i j
    rw [b2]
    simp [expect]
  subst hB
  rw [he, C286_pooled hp hq h0.le h1.le hm e']
  congr 2
  · ext i; simp; ring
  · ext i j; simp [vecMulVec_apply]; ring

/-- **C286** `covariance_ewma` after one more observation is the old matrix and the square of the new observation, blended by the decay that belongs to
the span. -/
theorem C286_ewma {rows : List (Fin N → ℝ)} {span minPeriods : ℤ} {C : Matrix (Fin N) (Fin N) ℝ} (h : covarianceEwma rows span minPeriods = .ok C)
    (r : Fin N → ℝ) :
    covarianceEwma (rows ++ [r]) span minPeriods = .ok ((1 - 2 / ((span : ℝ) + 1)) • C + (2 / ((span : ℝ) + 1)) • vecMulVec r r) := by
  unfold covarianceEwma at h ⊢
  split at h
  · cases h
  rename_i h1
  split at h
  · cases h
  rename_i h2
  rw [if_neg (by rw [List.length_append]; push_cast; simp only [List.length_singleton]; push_cast; linarith), if_neg h2]
  cases rows with
  | nil => cases h
  | cons r0 rest =>
    dsimp only at h
    injection h with h
    dsimp only [List.cons_append]
    rw [List.foldl_append, List.foldl_cons, List.foldl_nil, ← h]
    congr 1
    unfold ewmaStep ewmaLambda
    ext i j
    simp [vecMulVec_apply]
    ring

/-- Two observations 0 and 3 under half-life one, then a third: the weights are 1/3, 2/3 and then 1/7, 2/7, 4/7. -/
example : ∃ p p', expDecay 2 1 = .ok p ∧ expDecay 3 1 = .ok p' ∧ ∃ mu S, estimateSampleMoments (![![0], ![3]] : Fin 2 → Fin 1 → ℝ) p = .ok (mu, S) := by
  obtain ⟨p, hp⟩ : ∃ p, expDecay 2 1 = .ok p := ⟨_, if_neg (by norm_num)⟩
  obtain ⟨p', hp'⟩ : ∃ p', expDecay 3 1 = .ok p' := ⟨_, if_neg (by norm_num)⟩
  have h := hp
  unfold expDecay at h
  rw [if_neg (by norm_num)] at h
  injection h with h
  have hz : 0 < ∑ s : Fin 2, Real.exp (-(Real.log 2) / 1 * (((2 : ℕ) : ℝ) - ((s : ℕ) + 1))) :=
    Finset.sum_pos (fun _ _ => Real.exp_pos _) Finset.univ_nonempty
  obtain ⟨mu, S, hm, -⟩ := C35_sample_moments (![![0], ![3]] : Fin 2 → Fin 1 → ℝ) (p := p) (by
    rw [← h]
    refine ⟨fun t => div_nonneg (Real.exp_pos _).le hz.le, ?_⟩
    rw [← Finset.sum_div]
    exact div_self hz.ne')
  exact ⟨p, p', hp, hp', mu, S, hm⟩

end PyV.Props
