import Verif.Props.Probabilities
import Verif.Lemmas.Gibbs
import Mathlib.Analysis.Convex.Slope
import Mathlib.Tactic

/-! # Property C236: slower decay and wider kernels keep more scenarios in play -/

namespace PyV.Props

open PyV PyV.Probs PyV.Spec

variable {S : ℕ}

private noncomputable def Z (a : Fin S → ℝ) (l : ℝ) : ℝ := ∑ s, Real.exp (-(l * a s))

/-- The weighting proportional to `exp (- l * a t)`. -/
private noncomputable def fading (a : Fin S → ℝ) (l : ℝ) (t : Fin S) : ℝ := Real.exp (-(l * a t)) / Z a l

private theorem Z_pos (hS : 0 < S) (a : Fin S → ℝ) (l : ℝ) : 0 < Z a l :=
  haveI : Nonempty (Fin S) := ⟨⟨0, hS⟩⟩
  Finset.sum_pos (fun _ _ => Real.exp_pos _) Finset.univ_nonempty

private theorem fading_prob (hS : 0 < S) (l : ℝ) (a : Fin S → ℝ) : IsProb (fading a l) ∧ ∀ t, 0 < fading a l t := by
  have hz := Z_pos hS a l
  have hp : ∀ t, 0 < fading a l t := fun t => div_pos (Real.exp_pos _) hz
  refine ⟨⟨fun t => (hp t).le, ?_⟩, hp⟩
  unfold fading
  rw [← Finset.sum_div]
  exact div_self hz.ne'

/-- `∑ q log p` for such a weighting `p`. -/
private theorem cross (hS : 0 < S) (l : ℝ) (a : Fin S → ℝ) {q : Fin S → ℝ} (hq : IsProb q) :
    ∑ t, q t * Real.log (fading a l t) = -(l * expect q a) - Real.log (Z a l) := by
  have : ∀ t, q t * Real.log (fading a l t) = -(l * (q t * a t)) - q t * Real.log (Z a l) := fun t => by
    unfold fading
    rw [Real.log_div (Real.exp_pos _).ne' (Z_pos hS a l).ne', Real.log_exp]
    ring
  simp only [this, Finset.sum_sub_distrib, ← Finset.sum_mul, hq.sum, one_mul, Finset.sum_neg_distrib, ← Finset.mul_sum]
  rfl

/-- The logarithm of the normaliser lies above its tangents. -/
private theorem tangent (hS : 0 < S) (a : Fin S → ℝ) (l m : ℝ) :
    Real.log (Z a m) + (m - l) * expect (fading a m) a ≤ Real.log (Z a l) := by
  have h1 := fading_prob hS l a
  have h2 := fading_prob hS m a
  have h := gibbs h2.1.nonneg h1.2
  simp only [mul_sub, Finset.sum_sub_distrib, h1.1.sum, h2.1.sum, sub_self] at h
  rw [cross hS l a h2.1, cross hS m a h2.1] at h
  nlinarith

private theorem age_mono (hS : 0 < S) (a : Fin S → ℝ) {l m : ℝ} (h : l ≤ m) : expect (fading a m) a ≤ expect (fading a l) a := by
  rcases h.eq_or_lt with rfl | h
  · exact le_rfl
  have h1 := tangent hS a l m
  have h2 := tangent hS a m l
  nlinarith

private theorem ens_mono (hS : 0 < S) (a : Fin S → ℝ) {l m : ℝ} (h0 : 0 ≤ l) (h : l ≤ m) : ens (fading a m) ≤ ens (fading a l) := by
  have h1 := (fading_prob hS l a).1
  have h2 := (fading_prob hS m a).1
  rw [ens_eq h1, ens_eq h2]
  refine Real.exp_le_exp.2 (neg_le_neg ?_)
  rw [cross hS l a h1, cross hS m a h2]
  have := tangent hS a l m
  have := mul_le_mul_of_nonneg_left (age_mono hS a h) h0
  linarith

private theorem log_convex (hS : 0 < S) (a : Fin S → ℝ) : ConvexOn ℝ Set.univ fun l => Real.log (Z a l) := by
  refine ⟨convex_univ, fun x _ y _ s t hs ht hst => ?_⟩
  simp only [smul_eq_mul]
  set z := s * x + t * y with hz
  have h1 := mul_le_mul_of_nonneg_left (tangent hS a x z) hs
  have h2 := mul_le_mul_of_nonneg_left (tangent hS a y z) ht
  have h3 : s * (z - x) + t * (z - y) = 0 := by
    have : s * (z - x) + t * (z - y) = (s + t) * z - (s * x + t * y) := by ring
    rw [this, hst, ← hz]; ring
  have h4 : Real.log (Z a z) = (s + t) * Real.log (Z a z) := by rw [hst, one_mul]
  have h5 : (s * (z - x) + t * (z - y)) * expect (fading a z) a = 0 := by rw [h3, zero_mul]
  nlinarith

private theorem hhi_eq (hS : 0 < S) (a : Fin S → ℝ) (l : ℝ) : ensHhi (fading a l) = Real.exp (2 * Real.log (Z a l) - Real.log (Z a (2 * l))) := by
  have hz := Z_pos hS a l
  have hz2 := Z_pos hS a (2 * l)
  have : ∑ s, fading a l s ^ 2 = Z a (2 * l) / Z a l ^ 2 := by
    have e : ∀ s, fading a l s ^ 2 = Real.exp (-(2 * l * a s)) / Z a l ^ 2 := fun s => by
      unfold fading
      rw [div_pow, ← Real.exp_nat_mul]
      congr 2
      push_cast
      ring
    simp only [e, ← Finset.sum_div]
    rfl
  unfold ensHhi
  rw [this, Real.exp_sub, Real.exp_log hz2, two_mul (Real.log _), Real.exp_add, Real.exp_log hz, one_div_div, sq]

private theorem hhi_mono (hS : 0 < S) (a : Fin S → ℝ) {l m : ℝ} (h0 : 0 ≤ l) (h : l ≤ m) : ensHhi (fading a m) ≤ ensHhi (fading a l) := by
  rcases h.eq_or_lt with rfl | h
  · exact le_rfl
  rw [hhi_eq hS, hhi_eq hS]
  refine Real.exp_le_exp.2 ?_
  have hc := log_convex hS a
  have h1 := hc.secant_mono (a := l) (x := m) (y := 2 * m) trivial trivial trivial (by linarith) (by linarith) (by linarith)
  have h2 := hc.secant_mono (a := 2 * m) (x := l) (y := 2 * l) trivial trivial trivial (by linarith) (by linarith) (by linarith)

  set A := Real.log (Z a l)
  set B := Real.log (Z a m)
  set C := Real.log (Z a (2 * l))
  set D := Real.log (Z a (2 * m))
  have e : (A - D) / (l - 2 * m) = (D - A) / (2 * m - l) := by
    rw [← neg_sub D A, ← neg_sub (2 * m) l, neg_div_neg_eq]
  have e2 : (C - D) / (2 * l - 2 * m) = (D - C) / (2 * m - 2 * l) := by
    rw [← neg_sub D C, ← neg_sub (2 * m) (2 * l), neg_div_neg_eq]
  rw [e, e2] at h2
  have h3 := h1.trans h2
  rw [div_le_div_iff₀ (by linarith) (by linarith)] at h3
  nlinarith

/-- How long ago each of `T` observations was made: the last one 0 periods ago. -/
def age (T : ℕ) (t : Fin T) : ℝ := ((T - 1 - (t : ℕ) : ℕ) : ℝ)

private theorem expDecay_fading {T : ℕ} {hl : ℝ} (h0 : 0 < hl) {p : Fin T → ℝ} (h : expDecay T hl = .ok p) : p = fading (age T) (Real.log 2 / hl) := by
  unfold expDecay at h
  rw [if_neg (not_le.2 h0)] at h
  injection h with h
  subst h
  have e : ∀ t : Fin T, -(Real.log 2) / hl * ((T : ℝ) - ((t : ℕ) + 1)) = -(Real.log 2 / hl * age T t) := fun t => by
    have : age T t = (T : ℝ) - ((t : ℕ) + 1) := by
      unfold age
      have := t.2
      rw [Nat.sub_sub, Nat.cast_sub (by omega)]
      push_cast
      ring
    rw [this]
    ring
  funext t
  simp only [e]
  rfl

/-- **C236** (exponential decay) A longer half-life keeps at least as many effective scenarios, by either measure, and their average age
is at least as large. -/
theorem C236_half_life {T : ℕ} (hT : 0 < T) {a b : ℝ} (ha : 0 < a) (hab : a ≤ b) {p q : Fin T → ℝ} (hp : expDecay T a = .ok p)
    (hq : expDecay T b = .ok q) : ens p ≤ ens q ∧ ensHhi p ≤ ensHhi q ∧ expect p (age T) ≤ expect q (age T) := by
  have hb : 0 < b := ha.trans_le hab
  rw [expDecay_fading ha hp, expDecay_fading hb hq]
  have h2 : 0 < Real.log 2 := Real.log_pos one_lt_two
  have hl : Real.log 2 / b ≤ Real.log 2 / a := div_le_div_of_nonneg_left h2.le ha hab
  have h0 : 0 ≤ Real.log 2 / b := (div_pos h2 hb).le
  exact ⟨ens_mono hT _ h0 hl, hhi_mono hT _ h0 hl, age_mono hT _ hl⟩

/-- A usable bandwidth: a positive number or infinity. -/
def Wide : PyFloat ℝ → Prop
  | .fin h => 0 < h
  | .posInf => True
  | _ => False

/-- `g` is at least as wide as `h`. -/
def Wider : PyFloat ℝ → PyFloat ℝ → Prop
  | .fin h, .fin g => h ≤ g
  | _, .posInf => True
  | _, _ => False

private noncomputable def rate : PyFloat ℝ → ℝ
  | .fin h => 1 / (2 * h ^ 2)
  | _ => 0

private theorem kernel_fading {n m : ℕ} {x : Fin n → ℝ} {v : Fin m → ℝ} {h : PyFloat ℝ} {c : ℝ} {p : Fin m → ℝ}
    (hp : gaussianKernel x v (some h) (some c) = .ok p) : p = fading (fun t => (v t - c) ^ 2) (rate h) := by
  unfold gaussianKernel at hp
  simp only [reduceCtorEq, false_and, if_false, Option.getD_some] at hp
  split_ifs at hp
  injection hp with hp
  subst hp
  have e : ∀ d, kernel h d = Real.exp (-(rate h * d ^ 2)) := fun d => by
    cases h
    · simp only [kernel, rate]
      congr 1
      ring
    all_goals simp [kernel, rate]
  funext t
  simp only [e]
  rfl

/-- **C236** (Gaussian kernel) A wider kernel keeps at least as many effective scenarios, by either measure, and they are on average at
least as far from the reference point. -/
theorem C236_bandwidth {n m : ℕ} (x : Fin n → ℝ) (v : Fin m → ℝ) (c : ℝ) {g h : PyFloat ℝ} (hg : Wide g) (hh : Wide h) (hgh : Wider g h)
    {p q : Fin m → ℝ} (hp : gaussianKernel x v (some g) (some c) = .ok p) (hq : gaussianKernel x v (some h) (some c) = .ok q) :
    ens p ≤ ens q ∧ ensHhi p ≤ ensHhi q ∧ expect p (fun t => (v t - c) ^ 2) ≤ expect q (fun t => (v t - c) ^ 2) := by
  have hm : 0 < m := card_pos_of_prob (p := p) ⟨fun t => ((((C18_gaussian_kernel x v _ c).1 p hp).1) t).le, ((C18_gaussian_kernel x v _ c).1 p hp).2.1⟩
  rw [kernel_fading hp, kernel_fading hq]
  have h0 : 0 ≤ rate h := by
    cases h <;> simp only [rate] <;> positivity
  have hr : rate h ≤ rate g := by
    cases g <;> cases h <;> simp only [Wide, Wider] at hg hh hgh <;> simp only [rate]
    · rename_i g h
      have : g ^ 2 ≤ h ^ 2 := pow_le_pow_left₀ hg.le hgh 2
      exact one_div_le_one_div_of_le (by positivity) (by linarith)
    · positivity
    · exact le_rfl
  exact ⟨ens_mono hm _ h0 hr, hhi_mono hm _ h0 hr, age_mono hm _ hr⟩

/-- **C236** (extremes) An infinitely wide kernel weighs all scenarios equally, and no half-life or bandwidth keeps more effective
scenarios than there are. -/
theorem C236_equal {n m : ℕ} (x : Fin n → ℝ) (v : Fin m → ℝ) (c : ℝ) {p : Fin m → ℝ} (hp : gaussianKernel x v (some .posInf) (some c) = .ok p) :
    (∀ t, p t = 1 / m) ∧ ens p = m := by
  have hpr := (C18_gaussian_kernel x v _ c).1 p hp
  have e : ∀ t, p t = 1 / m := fun t => by
    rw [kernel_fading hp]
    simp [fading, Z, rate]
  exact ⟨e, ((C19_entropy_bounds p ⟨fun t => (hpr.1 t).le, hpr.2.1⟩).2.2.1).2 e⟩

/-- Half-lives 1 and 2 over three observations: the average age really grows. -/
example : ∃ p q, expDecay 3 1 = .ok p ∧ expDecay 3 2 = .ok q ∧ (0 : ℝ) < 1 ∧ (1 : ℝ) ≤ 2 ∧ p ≠ q := by
  obtain ⟨p, hp, -, -, -, h1, -⟩ := (C17_exp_decay 3 1).2 one_pos
  obtain ⟨q, hq, hq0, -, -, h2, -⟩ := (C17_exp_decay 3 2).2 two_pos
  refine ⟨p, q, hp, hq, one_pos, one_le_two, fun e => ?_⟩
  subst e
  have a := h1 0 2
  have b := h2 0 2
  rw [a] at b
  have := mul_left_cancel₀ (hq0 0).ne' b
  norm_num at this

example : Wide (.fin 1) ∧ Wide .posInf ∧ Wider (.fin 1) .posInf ∧ Wider (.fin 1) (.fin 2) ∧
    ∃ p, gaussianKernel (![0, 1] : Fin 2 → ℝ) ![0, 1] (some (.fin 1)) (some 0) = .ok p :=
  ⟨one_pos, trivial, trivial, one_le_two, (C18_gaussian_kernel _ _ _ _).2.1 1 rfl one_pos (by norm_num)⟩

end PyV.Props
