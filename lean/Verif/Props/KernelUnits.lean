import Verif.Props.Probabilities
import Verif.Model.Performance
import Mathlib.Tactic

/-! # Property C255: conditioning on a state does not depend on how the state variable is measured -/

namespace PyV.Props

open PyV PyV.Probs

variable {n m : ℕ}

/-- A bandwidth measured in another unit. -/
noncomputable def bandwidthTimes (k : ℝ) : PyFloat ℝ → PyFloat ℝ
  | .fin h => .fin (k * h)
  | h => h

private theorem mean_affine (hn : n ≠ 0) (x : Fin n → ℝ) (a b : ℝ) : mean (fun i => a * x i + b) = a * mean x + b := by
  unfold mean
  rw [Finset.sum_add_distrib, ← Finset.mul_sum, Finset.sum_const, Finset.card_univ, Fintype.card_fin, nsmul_eq_mul]
  have : (n : ℝ) ≠ 0 := by exact_mod_cast hn
  field_simp

private theorem silverman_affine (x : Fin n → ℝ) (a b : ℝ) : silverman (fun i => a * x i + b) = bandwidthTimes |a| (silverman x) := by
  unfold silverman
  by_cases hn : n ≤ 1
  · rw [if_pos hn, if_pos hn]; rfl
  rw [if_neg hn, if_neg hn]
  simp only [bandwidthTimes]
  rw [mean_affine (by omega)]
  have e : ∀ i, (a * x i + b - (a * mean x + b)) ^ 2 = a ^ 2 * (x i - mean x) ^ 2 := fun i => by ring
  simp only [e]
  rw [← Finset.mul_sum, mul_div_assoc, Real.sqrt_mul (sq_nonneg a), Real.sqrt_sq_eq_abs]
  congr 1
  ring

/-- **C255** (units) Measuring the state variable in another unit, from another zero point or with the other sign - observations, scenarios, bandwidth and
reference value alike - changes neither the probabilities nor the errors of `generate_gaussian_kernel_probabilities`; in particular the default bandwidth
and reference value adapt by themselves. -/
theorem C255_units (x : Fin n → ℝ) (v : Fin m → ℝ) (h : Option (PyFloat ℝ)) (xT : Option ℝ) {a : ℝ} (ha : a ≠ 0) (b : ℝ) :
    gaussianKernel (fun i => a * x i + b) (fun t => a * v t + b) (h.map (bandwidthTimes |a|)) (xT.map fun c => a * c + b) = gaussianKernel x v h xT := by
  have hpos : 0 < |a| := abs_pos.2 ha
  unfold gaussianKernel
  have hnone : (h.map (bandwidthTimes |a|) = none ∧ n = 0) = (h = none ∧ n = 0) := by simp
  simp only [hnone]
  by_cases hz : h = none ∧ n = 0
  · rw [if_pos hz, if_pos hz]
  rw [if_neg hz, if_neg hz]
  have hh : (h.map (bandwidthTimes |a|)).getD (silverman fun i => a * x i + b) = bandwidthTimes |a| (h.getD (silverman x)) := by
    cases h with
    | none => exact silverman_affine x a b
    | some g => rfl
  simp only [hh]
  generalize h.getD (silverman x) = g
  have hle : (bandwidthTimes |a| g).le (.fin 0) = g.le (.fin 0) := by
    cases g with
    | fin y => simp [bandwidthTimes, PyFloat.le, mul_nonpos_iff, hpos, hpos.le, not_le.2 hpos]
    | _ => rfl
  have hnan : bandwidthTimes |a| g = .nan ↔ g = .nan := by cases g <;> simp [bandwidthTimes]
  have hk : ∀ d, kernel (bandwidthTimes |a| g) (a * d) = kernel g d := by
    intro d
    cases g with
    | fin y =>
      simp only [bandwidthTimes, kernel]
      congr 1
      rw [mul_pow, mul_pow, sq_abs]
      rw [show -(a ^ 2 * d ^ 2) = a ^ 2 * -(d ^ 2) by ring, show 2 * (a ^ 2 * y ^ 2) = a ^ 2 * (2 * y ^ 2) by ring,
        mul_div_mul_left _ _ (pow_ne_zero 2 ha)]
    | _ => rfl
  rw [hle]
  by_cases h0 : g.le (.fin 0)
  · rw [if_pos h0, if_pos h0]
  rw [if_neg h0, if_neg h0]
  have main : ∀ c, (if bandwidthTimes |a| g = .nan then (.error .valueError : Except PyErr (Fin m → ℝ))
      else if ∑ t, kernel (bandwidthTimes |a| g) (a * v t + b - (a * c + b)) ≤ 0 then .error .valueError
      else .ok (fun t => kernel (bandwidthTimes |a| g) (a * v t + b - (a * c + b)) / ∑ s, kernel (bandwidthTimes |a| g) (a * v s + b - (a * c + b)))) =
      if g = .nan then .error .valueError
      else if ∑ t, kernel g (v t - c) ≤ 0 then .error .valueError else .ok (fun t => kernel g (v t - c) / ∑ s, kernel g (v s - c)) := by
    intro c
    have e : ∀ t, kernel (bandwidthTimes |a| g) (a * v t + b - (a * c + b)) = kernel g (v t - c) := fun t => by
      rw [show a * v t + b - (a * c + b) = a * (v t - c) by ring, hk]
    simp only [e]
    by_cases hg : g = .nan
    · rw [if_pos hg, if_pos (hnan.2 hg)]
    · rw [if_neg hg, if_neg (fun q => hg (hnan.1 q))]
  cases xT with
  | some c => exact main c
  | none =>
    by_cases hn : 0 < n
    · simp only [Option.map_none, dif_pos hn]
      exact main _
    · simp only [Option.map_none, dif_neg hn]

/-- **C255** (order) Listing the scenarios in another order lists their probabilities in that order. -/
theorem C255_order (x : Fin n → ℝ) (v : Fin m → ℝ) (h : Option (PyFloat ℝ)) (xT : Option ℝ) (σ : Equiv.Perm (Fin m)) :
    gaussianKernel x (fun t => v (σ t)) h xT = (gaussianKernel x v h xT).map (fun p t => p (σ t)) := by
  have hs : ∀ (g : PyFloat ℝ) c, ∑ t, kernel g (v (σ t) - c) = ∑ t, kernel g (v t - c) := fun g c => Equiv.sum_comp σ fun t => kernel g (v t - c)
  unfold gaussianKernel
  simp only [hs]
  split
  · rfl
  split
  · rfl
  split
  · rfl
  split
  · rfl
  split
  · rfl
  · rfl

/-- Non-vacuity: probabilities for two observations, default bandwidth and reference value. -/
example : ∃ p, gaussianKernel ![0, 1] ![0, 1] none none = .ok p := by
  rw [(C18_defaults (n := 1) ![0, 1] ![0, 1] none).1,
    C18_silverman (le_refl 2) ![0, 1] ![0, 1] _ (1 / 2) (Real.sqrt (1 / 2)) (by norm_num) (Real.sqrt_nonneg _) (by
      rw [Real.sq_sqrt (by norm_num)]; norm_num)]
  exact (C18_gaussian_kernel _ _ _ _).2.1 _ rfl (by positivity) (by norm_num)

private theorem kernel_lists {n n' : ℕ} (e : n' = n) (x : Fin n → ℝ) (x' : Fin n' → ℝ) {a : ℝ} (ha : a ≠ 0) (b : ℝ)
    (hx : ∀ i, x' i = a * x (Fin.cast e i) + b) (h : Option (PyFloat ℝ)) (xT : Option ℝ) :
    (gaussianKernel x' x' (h.map (bandwidthTimes |a|)) (xT.map fun c => a * c + b)).map List.ofFn = (gaussianKernel x x h xT).map List.ofFn := by
  subst e
  have : x' = fun i => a * x i + b := funext hx
  rw [this, C255_units x x h xT ha b]

/-- **C255** (stress test) The same for `kernel_focus_stress`: the stressed report does not depend on how the focus series is measured. -/
theorem C255_stress {T N M : ℕ} (argsort : (Fin T → ℝ) → Equiv.Perm (Fin T)) (w : Perf.Weights M ℝ) (R : Fin T → Fin N → ℝ) (assets : Option (List String))
    (focus : List ℝ) (probabilities : Option (List (PyFloat ℝ))) (bandwidth : Option (PyFloat ℝ)) (target : Option ℝ) (conf : ℝ) (demean : Bool)
    {a : ℝ} (ha : a ≠ 0) (b : ℝ) :
    Perf.kernelFocusStress argsort w R assets (focus.map fun y => a * y + b) probabilities (bandwidth.map (bandwidthTimes |a|))
        (target.map fun c => a * c + b) conf demean =
      Perf.kernelFocusStress argsort w R assets focus probabilities bandwidth target conf demean := by
  have key := kernel_lists (List.length_map (as := focus) fun y => a * y + b) (fun i : Fin focus.length => focus[i])
    (fun i : Fin (focus.map fun y => a * y + b).length => (focus.map fun y => a * y + b)[i]) ha b (fun i => by simp) bandwidth target
  unfold Perf.kernelFocusStress
  have hl : (focus.map fun y => a * y + b).length = focus.length := List.length_map _
  by_cases hT : focus.length ≠ T
  · rw [if_pos hT, if_pos (by rw [hl]; exact hT)]
  rw [if_neg hT, if_neg (by rw [hl]; exact hT)]
  generalize gaussianKernel (fun i : Fin (focus.map fun y => a * y + b).length => (focus.map fun y => a * y + b)[i])
    (fun i : Fin (focus.map fun y => a * y + b).length => (focus.map fun y => a * y + b)[i]) (bandwidth.map (bandwidthTimes |a|))
    (target.map fun c => a * c + b) = k1 at key ⊢
  generalize gaussianKernel (fun i : Fin focus.length => focus[i]) (fun i : Fin focus.length => focus[i]) bandwidth target = k2 at key ⊢
  have conv : ∀ {n : ℕ} (q : Fin n → ℝ), List.ofFn (fun t => PyFloat.fin (q t)) = (List.ofFn q).map PyFloat.fin := fun q => by
    rw [List.map_ofFn]; rfl
  cases k1 <;> cases k2 <;> simp_all [Except.map]

end PyV.Props
