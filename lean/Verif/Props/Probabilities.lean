import Verif.Lemmas.Probabilities

set_option linter.unusedSectionVars false

/-! # Properties C16–C19: scenario probabilities -/

namespace PyV.Props

open PyV PyV.Probs PyV.Spec

section field
variable {K : Type*} [Field K] [LinearOrder K] [IsStrictOrderedRing K]

/-- What a caller may pass: `xs` consists of the finite numbers `vs`, non-empty, with the required sign and a positive
sum. -/
def GoodVector (xs : List (PyFloat K)) (strict : Bool) (vs : List K) : Prop :=
  xs = vs.map PyFloat.fin ∧ vs ≠ [] ∧ (∀ v ∈ vs, 0 ≤ v) ∧ (strict = true → ∀ v ∈ vs, 0 < v) ∧ 0 < vs.sum

theorem good_iff {xs : List (PyFloat K)} {strict : Bool} :
    Acceptable xs strict ↔ ∃ vs, GoodVector xs strict vs := by
  constructor
  · intro h
    have e := map_val_eq h.finite
    refine ⟨xs.map PyFloat.val, e.symm, by simpa using h.ne, ?_, ?_, h.pos⟩
    · intro v hv
      obtain ⟨x, hx, rfl⟩ := List.mem_map.mp hv
      obtain ⟨v, rfl⟩ := h.finite x hx
      exact (h.sign v hx).2
    · intro hs v hv
      obtain ⟨x, hx, rfl⟩ := List.mem_map.mp hv
      obtain ⟨v, rfl⟩ := h.finite x hx
      exact (h.sign v hx).1 hs
  · rintro ⟨vs, rfl, h2, h3, h4, h5⟩
    refine ⟨by simpa using h2, ?_, ?_, ?_⟩
    · intro x hx; obtain ⟨v, -, rfl⟩ := List.mem_map.mp hx; exact ⟨v, rfl⟩
    · intro v hv
      obtain ⟨v', hv', e⟩ := List.mem_map.mp hv
      injection e with e; subst e
      exact ⟨fun hs => h4 hs v' hv', h3 v' hv'⟩
    · rw [List.map_map]
      have : (PyFloat.val ∘ PyFloat.fin : K → K) = id := rfl
      rw [this, List.map_id]; exact h5

/-- **C16** `normalize_probability_vector` raises (`ValueError`) exactly on empty, non-finite, negative (non-positive
when `strictly_positive`) input or a non-positive total; otherwise the result is the input divided by its sum or, when
the sum is within `1e-5 + 1e-8` of one, the input itself. -/
theorem C16_normalize_contract (xs : List (PyFloat K)) (strict : Bool) :
    ((∃ ps, normalize xs strict = .ok ps) ↔ ∃ vs, GoodVector xs strict vs) ∧
    (∀ e, normalize xs strict = .error e → e = .valueError) ∧
    ∀ vs, GoodVector xs strict vs → ∃ ps, normalize xs strict = .ok ps ∧
      ps.length = vs.length ∧ (∀ p ∈ ps, 0 ≤ p) ∧ (strict = true → ∀ p ∈ ps, 0 < p) ∧
      |ps.sum - 1| ≤ 1 / 10 ^ 5 + 1 / 10 ^ 8 ∧
      (1 / 10 ^ 5 + 1 / 10 ^ 8 < |vs.sum - 1| → ps = vs.map (· / vs.sum) ∧ ps.sum = 1) ∧
      (|vs.sum - 1| ≤ 1 / 10 ^ 5 + 1 / 10 ^ 8 → ps = vs) := by
  refine ⟨?_, fun e h => normalize_error h, ?_⟩
  · rw [← good_iff]
    constructor
    · rintro ⟨ps, h⟩; exact (normalize_ok_iff.mp h).1
    · intro h; exact ⟨_, normalize_ok_iff.mpr ⟨h, rfl⟩⟩
  · rintro vs hg
    have hacc := good_iff.mpr ⟨vs, hg⟩
    obtain ⟨rfl, h2, h3, h4, h5⟩ := hg
    have hv : (vs.map PyFloat.fin).map PyFloat.val = vs := by
      rw [List.map_map]
      have : (PyFloat.val ∘ PyFloat.fin : K → K) = id := rfl
      rw [this, List.map_id]
    refine ⟨_, normalize_ok_iff.mpr ⟨hacc, rfl⟩, ?_⟩
    rw [hv]
    have hiff : isclose1 vs.sum = true ↔ |vs.sum - 1| ≤ 1 / 10 ^ 5 + 1 / 10 ^ 8 := by
      unfold isclose1
      rw [decide_eq_true_eq, abs_one, mul_one, add_comm]
    by_cases hc : |vs.sum - 1| ≤ 1 / 10 ^ 5 + 1 / 10 ^ 8
    · rw [if_pos (hiff.mpr hc)]
      exact ⟨rfl, h3, h4, hc, fun h => absurd hc (not_le.mpr h), fun _ => rfl⟩
    · rw [if_neg (fun h => hc (hiff.mp h))]
      have hsum : (vs.map (· / vs.sum)).sum = 1 := by rw [sum_map_div]; exact div_self h5.ne'
      refine ⟨by simp, ?_, ?_, ?_, fun _ => ⟨rfl, hsum⟩, fun h => absurd h hc⟩
      · intro p hp
        obtain ⟨v, hv, rfl⟩ := List.mem_map.mp hp
        exact div_nonneg (h3 v hv) h5.le
      · intro hs p hp
        obtain ⟨v, hv, rfl⟩ := List.mem_map.mp hp
        exact div_pos (h4 hs v hv) h5
      · rw [hsum, sub_self, abs_zero]; positivity

/-- **C16** A NaN, an infinity, or an empty vector is always rejected. -/
theorem C16_rejects_nonfinite (xs : List (PyFloat K)) (strict : Bool)
    (h : xs = [] ∨ PyFloat.nan ∈ xs ∨ PyFloat.posInf ∈ xs ∨ PyFloat.negInf ∈ xs) :
    normalize xs strict = .error .valueError := by
  cases hn : normalize xs strict with
  | error e => rw [normalize_error hn]
  | ok ps =>
    have hacc := (normalize_ok_iff.mp hn).1
    rcases h with h | h | h | h
    · exact absurd h hacc.ne
    all_goals obtain ⟨v, hv⟩ := hacc.finite _ h; cases hv

/-- **C16** `resolve_probabilities`: `None` gives the uniform vector (which sums to one), a vector must have the
expected length. -/
theorem C16_resolve (xs : Option (List (PyFloat K))) (n : ℤ) (strict : Bool) (ps : List K)
    (h : resolve xs n strict = .ok ps) :
    (ps.length : ℤ) = n ∧ (∀ p ∈ ps, 0 ≤ p) ∧ |ps.sum - 1| ≤ 1 / 10 ^ 5 + 1 / 10 ^ 8 ∧
    (xs = none → ps.sum = 1 ∧ ∀ p ∈ ps, p = 1 / n) := by
  unfold resolve at h
  cases xs with
  | none =>
    simp only at h
    unfold uniform at h
    split at h
    · cases h
    · rename_i hn
      injection h with h; subst h
      have hpos : (0:K) < n := by exact_mod_cast not_le.mp hn
      have hcast : ((n.toNat : ℕ) : K) = (n : K) := by
        have : ((n.toNat : ℕ) : ℤ) = n := Int.toNat_of_nonneg (by omega)
        exact_mod_cast congrArg (Int.cast : ℤ → K) this
      have hsum : (List.replicate n.toNat (1 / (n:K))).sum = 1 := by
        rw [List.sum_replicate, nsmul_eq_mul, hcast]; field_simp
      refine ⟨by simp; omega, ?_, ?_, ?_⟩
      · intro p hp
        rw [List.eq_of_mem_replicate hp]; positivity
      · rw [hsum]; simp; positivity
      · intro _
        exact ⟨hsum, fun p hp => List.eq_of_mem_replicate hp⟩
  | some xs =>
    simp only at h
    split at h
    · cases h
    · rename_i qs hq
      split at h
      · cases h
      · rename_i hl
        injection h with h; subst h
        obtain ⟨vs, hg⟩ := ((C16_normalize_contract xs strict).1).mp ⟨_, hq⟩
        obtain ⟨ps', hps, h1, h2, h3, h4, -⟩ := (C16_normalize_contract xs strict).2.2 vs hg
        rw [hq] at hps; injection hps with hps; subst hps
        exact ⟨not_not.mp hl, h2, h4, by intro hc; cases hc⟩

example : GoodVector [PyFloat.fin (2:ℚ), .fin 0, .fin 6] false [2, 0, 6] :=
  ⟨rfl, by simp, by simp, by simp, by norm_num⟩
example : normalize [PyFloat.fin (2:ℚ), .fin 0, .fin 6] false = .ok [1/4, 0, 3/4] := by decide +kernel
example : normalize [PyFloat.fin (2:ℚ), .fin 0, .fin 6] true = .error .valueError := by decide +kernel

end field

/-- **C17** Exponential decay: rejects non-positive half lives; otherwise positive weights, summing to one for a
non-empty sample, strictly increasing in time, the ratio of two weights `k` observations apart being `2^(k/half_life)`,
so the weight doubles every `half_life` observations. -/
theorem C17_exp_decay (T : ℕ) (hl : ℝ) :
    (hl ≤ 0 → expDecay T hl = .error .valueError) ∧
    (0 < hl → ∃ p, expDecay T hl = .ok p ∧ (∀ t, 0 < p t) ∧ (0 < T → ∑ t, p t = 1) ∧ StrictMono p ∧
      (∀ s t : Fin T, p t = p s * (2:ℝ) ^ ((((t : ℕ) : ℝ) - (s : ℕ)) / hl)) ∧
      (∀ s t : Fin T, ((t : ℕ) : ℝ) = (s : ℕ) + hl → p t = 2 * p s)) := by
  constructor
  · intro h; unfold expDecay; rw [if_pos h]
  · intro h
    set q : Fin T → ℝ := fun t => Real.exp (-(Real.log 2) / hl * ((T : ℝ) - ((t : ℕ) + 1))) with hq
    have hqpos : ∀ t, 0 < q t := fun t => Real.exp_pos _
    have hS : ∀ _ : Fin T, 0 < ∑ s, q s := fun t =>
      Finset.sum_pos (fun s _ => hqpos s) ⟨t, Finset.mem_univ t⟩
    have hratio : ∀ s t : Fin T, q t / (∑ u, q u) = q s / (∑ u, q u) *
        (2:ℝ) ^ ((((t : ℕ) : ℝ) - (s : ℕ)) / hl) := by
      intro s t
      have : q t = q s * (2:ℝ) ^ ((((t : ℕ) : ℝ) - (s : ℕ)) / hl) := by
        rw [hq, Real.rpow_def_of_pos (by norm_num : (0:ℝ) < 2)]
        simp only
        rw [← Real.exp_add]
        congr 1
        field_simp
        ring
      rw [this]; ring
    refine ⟨fun t => q t / ∑ s, q s, ?_, ?_, ?_, ?_, hratio, ?_⟩
    · unfold expDecay
      rw [if_neg (not_le.mpr h)]
    · intro t; exact div_pos (hqpos t) (hS t)
    · intro hT
      rw [← Finset.sum_div]
      exact div_self (hS ⟨0, hT⟩).ne'
    · intro s t hst
      simp only
      rw [hratio s t]
      have h1 : 0 < q s / ∑ u, q u := div_pos (hqpos s) (hS s)
      have h2 : (1:ℝ) < (2:ℝ) ^ ((((t : ℕ) : ℝ) - (s : ℕ)) / hl) := by
        apply Real.one_lt_rpow (by norm_num)
        apply div_pos _ h
        have : ((s:ℕ):ℝ) < (t:ℕ) := by exact_mod_cast hst
        linarith
      nlinarith
    · intro s t hst
      simp only
      rw [hratio s t, hst]
      have : (((s:ℕ):ℝ) + hl - (s:ℕ)) / hl = 1 := by
        rw [add_sub_cancel_left]; exact div_self h.ne'
      rw [this, Real.rpow_one]; ring

/-- With half life 3 the last of five weights is twice the second. -/
example : ∃ p, expDecay 5 3 = .ok p ∧ p 4 = 2 * p 1 ∧ ∑ t, p t = 1 := by
  obtain ⟨p, h1, -, h3, -, -, h6⟩ := (C17_exp_decay 5 3).2 (by norm_num)
  exact ⟨p, h1, h6 1 4 (by norm_num), h3 (by norm_num)⟩

/-- **C18** Gaussian kernel weights: on success positive, summing to one, and a scenario at least as close to the
target as another never gets a smaller weight.  With a positive finite bandwidth and something to score the call
succeeds; a non-positive or NaN bandwidth is rejected. -/
theorem C18_gaussian_kernel {n m : ℕ} (x : Fin n → ℝ) (v : Fin m → ℝ) (h : Option (PyFloat ℝ)) (c : ℝ) :
    (∀ p, gaussianKernel x v h (some c) = .ok p → (∀ t, 0 < p t) ∧ ∑ t, p t = 1 ∧
      ∀ s t, |v s - c| ≤ |v t - c| → p t ≤ p s) ∧
    (∀ b, h = some (.fin b) → 0 < b → 0 < m → ∃ p, gaussianKernel x v h (some c) = .ok p) ∧
    (∀ b, h = some b → b.le (.fin 0) = true ∨ b = .nan → gaussianKernel x v h (some c) = .error .valueError) := by
  have hkpos : ∀ (h : PyFloat ℝ) d, 0 < kernel h d := by
    intro h d; unfold kernel; split
    · exact Real.exp_pos _
    · norm_num
  refine ⟨?_, ?_, ?_⟩
  · intro p hp
    unfold gaussianKernel at hp
    simp only at hp
    split at hp
    · cases hp
    split at hp
    · cases hp
    rename_i hle
    split at hp
    · cases hp
    rename_i hnan
    split at hp
    · cases hp
    rename_i hsum
    injection hp with hp
    subst hp
    have hS := not_le.mp hsum
    refine ⟨fun t => div_pos (hkpos _ _) hS, ?_, ?_⟩
    · rw [← Finset.sum_div]; exact div_self hS.ne'
    · intro s t hst
      apply div_le_div_of_nonneg_right _ hS.le
      unfold kernel
      split
      · rename_i b hb
        apply Real.exp_le_exp.mpr
        rw [neg_div, neg_div, neg_le_neg_iff]
        apply div_le_div_of_nonneg_right _ (by positivity)
        exact sq_le_sq.mpr hst
      · exact le_refl _
  · rintro b rfl hb hm
    have hS : 0 < ∑ t, kernel (.fin b) (v t - c) :=
      Finset.sum_pos (fun s _ => hkpos _ _) ⟨⟨0, hm⟩, Finset.mem_univ _⟩
    unfold gaussianKernel
    rw [if_neg (by simp)]
    simp only [Option.getD_some]
    rw [if_neg (by simp [PyFloat.le, hb]), if_neg (by simp), if_neg (not_le.mpr hS)]
    exact ⟨_, rfl⟩
  · rintro b rfl hb
    unfold gaussianKernel
    rw [if_neg (by simp)]
    simp only [Option.getD_some]
    rcases hb with hb | rfl
    · rw [if_pos hb]
    · split
      · rfl
      · simp

/-- **C18** Defaults: without `x_T` the target is the last observation; a series without dispersion (Silverman
bandwidth zero) is rejected. -/
theorem C18_defaults {n m : ℕ} (x : Fin (n + 1) → ℝ) (v : Fin m → ℝ) (h : Option (PyFloat ℝ)) :
    gaussianKernel x v h none = gaussianKernel x v h (some (x (Fin.last n))) ∧
    (∀ c, 1 ≤ n → (∀ i, x i = x 0) → gaussianKernel x v none c = .error .valueError) := by
  constructor
  · unfold gaussianKernel
    rw [if_neg (show ¬ (h = none ∧ n + 1 = 0) by simp)]
    rw [if_neg (show ¬ (h = none ∧ n + 1 = 0) by simp)]
    simp only [Nat.succ_pos, dif_pos]
    rfl
  · intro c hn hconst
    have hs : silverman x = .fin 0 := by
      unfold silverman
      rw [if_neg (by omega)]
      have hm : mean x = x 0 := by
        unfold mean
        rw [Finset.sum_congr rfl (fun i _ => hconst i)]
        simp only [Finset.sum_const, Finset.card_univ, Fintype.card_fin, nsmul_eq_mul]
        have : ((n + 1 : ℕ) : ℝ) ≠ 0 := by positivity
        field_simp
      simp [hm, hconst]
    unfold gaussianKernel
    rw [if_neg (by simp)]
    simp only [Option.getD_none, hs]
    rw [if_pos (by simp [PyFloat.le])]

example : ∃ p, gaussianKernel (![0, 1, 5] : Fin 3 → ℝ) ![0, 1, 5] (some (.fin 2)) (some 4) = .ok p ∧ p 1 ≤ p 2 := by
  obtain ⟨p, hp⟩ := (C18_gaussian_kernel (![0, 1, 5] : Fin 3 → ℝ) ![0, 1, 5] (some (.fin 2)) 4).2.1 2 rfl
    (by norm_num) (by norm_num)
  refine ⟨p, hp, ((C18_gaussian_kernel _ _ _ _).1 p hp).2.2 2 1 ?_⟩
  simp; norm_num

/-- **C18** The weights are Gaussian with the bandwidth as standard deviation: the ratio of two probabilities is the ratio of the
two normal densities centred on the target. -/
theorem C18_normal_ratio {n m : ℕ} (x : Fin n → ℝ) (v : Fin m → ℝ) (b c : ℝ) (p : Fin m → ℝ)
    (h : gaussianKernel x v (some (.fin b)) (some c) = .ok p) (s t : Fin m) :
    p s = p t * Real.exp (((v t - c) ^ 2 - (v s - c) ^ 2) / (2 * b ^ 2)) := by
  unfold gaussianKernel at h
  rw [if_neg (by simp)] at h
  simp only [Option.getD_some] at h
  split at h
  · cases h
  split at h
  · cases h
  split at h
  · cases h
  injection h with h
  subst h
  simp only [kernel]
  rw [div_mul_eq_mul_div, ← Real.exp_add]
  congr 2
  ring

/-- **C18** The default bandwidth is Silverman's rule `1.06 sd n^(-1/5)` with the unbiased standard deviation `sd` of the series. -/
theorem C18_silverman {n m : ℕ} (hn : 2 ≤ n) (x : Fin n → ℝ) (v : Fin m → ℝ) (c : Option ℝ) (avg sd : ℝ) (havg : n * avg = ∑ i, x i)
    (hsd : 0 ≤ sd) (hvar : (n - 1) * sd ^ 2 = ∑ i, (x i - avg) ^ 2) :
    gaussianKernel x v none c = gaussianKernel x v (some (.fin (106 / 100 * sd / (n : ℝ) ^ ((1 : ℝ) / 5)))) c := by
  have h0 : (0 : ℝ) < n := by exact_mod_cast (by omega : 0 < n)
  have h1 : (0 : ℝ) < (n : ℝ) - 1 := by
    have : (1 : ℝ) < n := by exact_mod_cast (by omega : 1 < n)
    linarith
  have hm : mean x = avg := by unfold mean; rw [← havg]; field_simp
  have hs : silverman x = .fin (106 / 100 * sd / (n : ℝ) ^ ((1 : ℝ) / 5)) := by
    unfold silverman
    rw [if_neg (by omega), hm, ← hvar, mul_div_cancel_left₀ _ h1.ne', Real.sqrt_sq hsd, neg_div, Real.rpow_neg h0.le,
      div_eq_mul_inv (106 / 100 * sd)]
  unfold gaussianKernel
  have e1 : n ≠ 0 := by omega
  simp only [e1, and_false, if_false, Option.getD_none, Option.getD_some, hs]

/-- **C18** Too little data for a default bandwidth: one observation is rejected with `ValueError`; no observation at all ends in
`ZeroDivisionError`, with a bandwidth but no target in `IndexError`. -/
theorem C18_little_data {m : ℕ} (v : Fin m → ℝ) (y : ℝ) (c : Option ℝ) (b : ℝ) (hb : 0 < b) :
    gaussianKernel (fun _ : Fin 1 => y) v none c = .error .valueError ∧
    gaussianKernel (fun i : Fin 0 => i.elim0) v none c = .error .zeroDivision ∧
    gaussianKernel (fun i : Fin 0 => i.elim0) v (some (.fin b)) none = .error .indexError := by
  refine ⟨?_, ?_, ?_⟩
  · cases c <;> simp [gaussianKernel, silverman, PyFloat.le]
  · simp [gaussianKernel]
  · simp [gaussianKernel, PyFloat.le, hb]

example : (((2 : ℕ) : ℝ) - 1) * (Real.sqrt 2) ^ 2 = ∑ i, ((![1, 3] : Fin 2 → ℝ) i - 2) ^ 2 ∧
    ((2 : ℕ) : ℝ) * 2 = ∑ i, (![1, 3] : Fin 2 → ℝ) i := by
  simp [Fin.sum_univ_two]; norm_num

/-! ### Effective number of scenarios -/

theorem ens_eq {S : ℕ} {p : Fin S → ℝ} (hp : IsProb p) : ens p = Real.exp (-(∑ s, p s * Real.log (p s))) := by
  unfold ens
  congr 2
  apply Finset.sum_congr rfl
  intro s _
  split
  · rfl
  · rename_i h
    have : p s = 0 := le_antisymm (not_lt.mp h) (hp.nonneg s)
    simp [this]

theorem prob_le_one {S : ℕ} {p : Fin S → ℝ} (hp : IsProb p) (s : Fin S) : p s ≤ 1 := by
  rw [← hp.sum]; exact Finset.single_le_sum (fun t _ => hp.nonneg t) (Finset.mem_univ s)

theorem card_pos_of_prob {S : ℕ} {p : Fin S → ℝ} (hp : IsProb p) : 0 < S := by
  rcases Nat.eq_zero_or_pos S with rfl | h
  · have := hp.sum; simp at this
  · exact h

/-- **C19** Entropy version: between 1 and the number of scenarios; the maximum exactly for uniform probabilities, the
minimum exactly for a point mass. -/
theorem C19_entropy_bounds {S : ℕ} (p : Fin S → ℝ) (hp : IsProb p) :
    1 ≤ ens p ∧ ens p ≤ S ∧ (ens p = S ↔ ∀ s, p s = 1 / S) ∧ (ens p = 1 ↔ ∃ s, p s = 1) := by
  have hS := card_pos_of_prob hp
  have hSr : (0:ℝ) < S := by exact_mod_cast hS
  rw [ens_eq hp]
  have hterm : ∀ s, p s * Real.log (p s) ≤ 0 := fun s =>
    mul_nonpos_of_nonneg_of_nonpos (hp.nonneg s) (Real.log_nonpos (hp.nonneg s) (prob_le_one hp s))
  have hq : ∀ _ : Fin S, (0:ℝ) < 1 / S := fun _ => by positivity
  have hqs : ∑ _s : Fin S, (1:ℝ) / S = 1 := by simp [hS.ne']
  have hkl : ∑ s, p s * (Real.log (p s) - Real.log (1 / S)) = (∑ s, p s * Real.log (p s)) + Real.log S := by
    simp only [mul_sub, Finset.sum_sub_distrib]
    rw [← Finset.sum_mul, hp.sum, one_mul, one_div, Real.log_inv]; ring
  have hle := gibbs hp.nonneg hq
  rw [hp.sum, hqs, sub_self, hkl] at hle
  have hsum : ∑ s, p s * Real.log (p s) ≤ 0 := Finset.sum_nonpos fun s _ => hterm s
  refine ⟨?_, ?_, ?_, ?_⟩
  · rw [Real.one_le_exp_iff]; linarith
  · rw [← Real.exp_log hSr]; exact Real.exp_le_exp.mpr (by linarith)
  · constructor
    · intro h
      have h2 : -(∑ s, p s * Real.log (p s)) = Real.log S := by rw [← h, Real.log_exp]
      have := gibbs_eq hp.nonneg hq (by rw [hp.sum, hqs, hkl]; linarith)
      intro s; exact congrFun this s
    · intro h
      have : ∑ s, p s * Real.log (p s) = -Real.log S := by
        simp only [h]
        rw [← Finset.sum_mul, hqs, one_mul, one_div, Real.log_inv]
      rw [this, neg_neg, Real.exp_log hSr]
  · constructor
    · intro h
      have h0 : ∑ s, p s * Real.log (p s) = 0 := by
        have := Real.exp_eq_one_iff _ |>.mp h; linarith
      have hall := (Finset.sum_eq_zero_iff_of_nonpos (fun s _ => hterm s)).mp h0
      by_contra hno
      push Not at hno
      have hz : ∀ s, p s = 0 := by
        intro s
        have := hall s (Finset.mem_univ s)
        rcases mul_eq_zero.mp this with h | h
        · exact h
        · rcases Real.log_eq_zero.mp h with h | h | h
          · exact h
          · exact absurd h (hno s)
          · linarith [hp.nonneg s]
      have := hp.sum
      simp [hz] at this
    · rintro ⟨s, hs⟩
      have hz : ∀ t, t ≠ s → p t = 0 := by
        intro t ht
        have h2 : p s + p t ≤ 1 := by
          rw [← hp.sum, ← Finset.sum_pair (Ne.symm ht)]
          exact Finset.sum_le_univ_sum_of_nonneg hp.nonneg
        linarith [hp.nonneg t]
      rw [Finset.sum_eq_zero, neg_zero, Real.exp_zero]
      intro t _
      by_cases h : t = s
      · rw [h, hs, Real.log_one, mul_zero]
      · rw [hz t h, zero_mul]

/-- **C19** Herfindahl version: between 1 and the number of scenarios, and never above the entropy version. -/
theorem C19_hhi_bounds {S : ℕ} (p : Fin S → ℝ) (hp : IsProb p) :
    1 ≤ ensHhi p ∧ ensHhi p ≤ ens p ∧ ensHhi p ≤ S := by
  have hent := (C19_entropy_bounds p hp).2.1
  have hsq : ∑ s, p s ^ 2 ≤ 1 := by
    rw [← hp.sum]
    apply Finset.sum_le_sum
    intro s _
    have := prob_le_one hp s
    have := hp.nonneg s
    nlinarith
  have hpos : 0 < ∑ s, p s ^ 2 := by
    rcases (Finset.sum_nonneg (fun s (_ : s ∈ Finset.univ) => sq_nonneg (p s))).eq_or_lt with h | h
    · have hz := (Finset.sum_eq_zero_iff_of_nonneg (fun s _ => sq_nonneg (p s))).mp h.symm
      have := hp.sum
      have h0 : ∀ s, p s = 0 := fun s => by
        have := hz s (Finset.mem_univ s); exact pow_eq_zero_iff (two_ne_zero) |>.mp this
      simp [h0] at this
    · exact h
  have hle : ensHhi p ≤ ens p := by
    unfold ensHhi
    rw [ens_eq hp, one_div, ← Real.exp_log (inv_pos.mpr hpos), Real.log_inv]
    apply Real.exp_le_exp.mpr
    apply neg_le_neg
    -- Σ p log p ≤ log Σ p²
    have : ∀ s, p s * Real.log (p s) - p s * Real.log (∑ t, p t ^ 2) ≤ p s ^ 2 / (∑ t, p t ^ 2) - p s := by
      intro s
      rcases (hp.nonneg s).eq_or_lt with h | h
      · rw [← h]; simp
      · have := Real.log_le_sub_one_of_pos (div_pos h hpos)
        rw [Real.log_div h.ne' hpos.ne'] at this
        have := mul_le_mul_of_nonneg_left this h.le
        have e : p s * (p s / (∑ t, p t ^ 2) - 1) = p s ^ 2 / (∑ t, p t ^ 2) - p s := by ring
        rw [e] at this
        linarith
    have hs := Finset.sum_le_sum (fun s (_ : s ∈ Finset.univ) => this s)
    rw [Finset.sum_sub_distrib, Finset.sum_sub_distrib, ← Finset.sum_mul, ← Finset.sum_div, hp.sum,
      div_self hpos.ne', one_mul] at hs
    linarith
  refine ⟨?_, hle, hle.trans hent⟩
  unfold ensHhi
  rw [le_div_iff₀ hpos]; linarith

example : IsProb (fun _ : Fin 4 => (1:ℝ) / 4) := ⟨fun _ => by norm_num, by simp⟩

end PyV.Props
