import Verif.Model.Bayesian
import Verif.Spec.Bayesian
import Verif.Lemmas.Psd
import Mathlib.Analysis.Matrix.Order
import Mathlib.Algebra.Order.Star.Real
import Mathlib.Tactic.Linarith
import Mathlib.Tactic.FieldSimp

/-! # C63-C65: the conjugate update, its life cycle and the jittered Cholesky factorisation -/

namespace PyV.Props

open PyV PyV.Bayes PyV.Spec.Bayes Matrix
open scoped MatrixOrder

set_option linter.unusedSectionVars false

/-! ## C65 -/

/-- The k-th diagonal adjustment of the documented schedule: none, then `j, 10 j, 100 j, ...`. -/
noncomputable def jitterAt (j : ℝ) : ℕ → ℝ
  | 0 => 0
  | k + 1 => j * 10 ^ k

theorem cholLoop_spec {n : ℕ} (factor : Factor) (A : Matrix (Fin n) (Fin n) ℝ) {j : ℝ} (hj : 0 < j) :
    ∀ (left k : ℕ),
      let r := cholLoop factor A j left (jitterAt j k)
      (∃ m ≤ left, ∃ L, r.result = .ok L ∧ factor n (A + jitterAt j (k + m) • 1) = some L ∧
          (∀ i < m, factor n (A + jitterAt j (k + i) • 1) = none) ∧
          r.tried = (List.range (m + 1)).map (fun i => jitterAt j (k + i))) ∨
      (r.result = .error .runtimeError ∧ (∀ i ≤ left, factor n (A + jitterAt j (k + i) • 1) = none) ∧
          r.tried = (List.range (left + 1)).map (fun i => jitterAt j (k + i))) := by
  intro left
  induction left with
  | zero =>
    intro k
    dsimp only
    rw [cholLoop]
    cases hf : factor n (A + jitterAt j k • 1) with
    | some L => left; exact ⟨0, le_rfl, L, rfl, by simpa using hf, by simp, by simp⟩
    | none =>
      right
      refine ⟨rfl, ?_, by simp⟩
      intro i hi
      have : i = 0 := by omega
      subst this; simpa using hf
  | succ left ih =>
    intro k
    dsimp only
    rw [cholLoop]
    have hnext : (if jitterAt j k = 0 then j else jitterAt j k * 10) = jitterAt j (k + 1) := by
      cases k with
      | zero => simp [jitterAt]
      | succ k =>
        have : jitterAt j (k + 1) ≠ 0 := by simp only [jitterAt]; positivity
        rw [if_neg this]; simp only [jitterAt, pow_succ]; ring
    cases hf : factor n (A + jitterAt j k • 1) with
    | some L => left; exact ⟨0, Nat.zero_le _, L, rfl, by simpa using hf, by simp, by simp⟩
    | none =>
      dsimp only
      rw [hnext]
      have hr : ∀ m, jitterAt j k :: (List.range m).map (fun i => jitterAt j (k + 1 + i)) =
          (List.range (m + 1)).map (fun i => jitterAt j (k + i)) := by
        intro m
        rw [List.range_succ_eq_map]
        simp [Function.comp_def, add_assoc, add_comm 1]
      rcases ih (k + 1) with ⟨m, hm, L, h1, h2, h3, h4⟩ | ⟨h1, h2, h3⟩
      · left
        refine ⟨m + 1, by omega, L, h1, by rw [← h2]; congr 4; omega, ?_, ?_⟩
        · intro i hi
          cases i with
          | zero => simpa using hf
          | succ i => have := h3 i (by omega); rw [← this]; congr 4; omega
        · rw [h4, hr]
      · right
        refine ⟨h1, ?_, ?_⟩
        · intro i hi
          cases i with
          | zero => simpa using hf
          | succ i => have := h2 i (by omega); rw [← this]; congr 4; omega
        · rw [h3, hr]

/-- **C65.** The factorisation is called at most seven times, on the symmetrised matrix plus 0, 1e-12, 1e-11, ... 1e-7
times the identity, in this order, stopping at the first success: the returned factor is the factorisation of the first
of these matrices that factors, and `RuntimeError` is raised exactly when all seven fail. -/
theorem C65_retry_bounded {n : ℕ} (factor : Factor) (A : Matrix (Fin n) (Fin n) ℝ) :
    let r := cholSquare factor A
    let jit : ℕ → ℝ := fun k => if k = 0 then 0 else 10 ^ (k - 1) / 10 ^ 12
    let M : ℕ → Matrix (Fin n) (Fin n) ℝ := fun k => (1 / 2 : ℝ) • (A + Aᵀ) + jit k • 1
    r.tried.length ≤ 7 ∧
    (∀ L, r.result = .ok L ↔ ∃ k ≤ 6, factor n (M k) = some L ∧ ∀ i < k, factor n (M i) = none) ∧
    (∀ e, r.result = .error e ↔ e = .runtimeError ∧ ∀ k ≤ 6, factor n (M k) = none) ∧
    (∀ L, factor n ((1 / 2 : ℝ) • (A + Aᵀ)) = some L → r.result = .ok L ∧ r.tried = [0]) := by
  intro r jit M
  have hj : (0 : ℝ) < 1 / 10 ^ 12 := by positivity
  have hjit : ∀ k, jitterAt (1 / 10 ^ 12) k = jit k := by
    intro k; cases k with
    | zero => simp [jitterAt, jit]
    | succ k => simp only [jitterAt, jit, Nat.add_sub_cancel, Nat.succ_ne_zero, if_false]; ring
  have hr : r = cholLoop factor (symPart A) (1 / 10 ^ 12) 6 (jitterAt (1 / 10 ^ 12) 0) := by
    simp only [r, cholSquare, jitterAt]; rw [if_pos hj]
  have hs := cholLoop_spec factor (symPart A) hj 6 0
  dsimp only at hs
  rw [← hr] at hs
  simp only [hjit, zero_add] at hs
  have hM : ∀ k, symPart A + jit k • 1 = M k := fun k => rfl
  simp only [hM] at hs
  have huniq : ∀ k L k' L', factor n (M k) = some L → (∀ i < k, factor n (M i) = none) →
      factor n (M k') = some L' → (∀ i < k', factor n (M i) = none) → k = k' := by
    intro k L k' L' h1 h2 h3 h4
    rcases lt_trichotomy k k' with h | h | h
    · rw [h4 k h] at h1; cases h1
    · exact h
    · rw [h2 k' h] at h3; cases h3
  have h0 : M 0 = (1 / 2 : ℝ) • (A + Aᵀ) := by simp [M, jit]
  rcases hs with ⟨m, hm, L, h1, h2, h3, h4⟩ | ⟨h1, h2, h3⟩
  · refine ⟨by rw [h4]; simp; omega, ?_, ?_, ?_⟩
    · intro L'
      constructor
      · intro h; rw [h1] at h; injection h with h; subst h; exact ⟨m, hm, h2, h3⟩
      · rintro ⟨k, _, h5, h6⟩
        have := huniq _ _ _ _ h2 h3 h5 h6
        subst this; rw [h2] at h5; injection h5 with h5; rw [h1, h5]
    · intro e
      constructor
      · intro h; rw [h1] at h; cases h
      · rintro ⟨_, h⟩; rw [h m hm] at h2; cases h2
    · intro L' hL'
      rw [← h0] at hL'
      have := huniq _ _ 0 L' h2 h3 hL' (by simp)
      subst this
      rw [h2] at hL'; injection hL' with hL'
      refine ⟨by rw [h1, hL'], by rw [h4]; simp [jit]⟩
  · refine ⟨by rw [h3]; simp, ?_, ?_, ?_⟩
    · intro L'
      constructor
      · intro h; rw [h1] at h; cases h
      · rintro ⟨k, hk, h5, _⟩; rw [h2 k hk] at h5; cases h5
    · intro e
      constructor
      · intro h; rw [h1] at h; injection h with h; exact ⟨h.symm, h2⟩
      · rintro ⟨rfl, _⟩; exact h1
    · intro L' hL'
      rw [← h0, h2 0 (by omega)] at hL'; cases hL'

/-- A correct factorisation routine: what it returns is a factor, and it succeeds on positive-definite input. -/
structure FactorOk (factor : Factor) : Prop where
  sound : ∀ n A L, factor n A = some L → L * Lᵀ = A
  complete : ∀ n (A : Matrix (Fin n) (Fin n) ℝ), A.PosDef → ∃ L, factor n A = some L

/-- Correct factorisation routines exist. -/
theorem factorOk_exists : ∃ factor : Factor, FactorOk factor := by
  classical
  have h : ∀ n (A : Matrix (Fin n) (Fin n) ℝ), A.PosDef → ∃ L : Matrix (Fin n) (Fin n) ℝ, L * Lᵀ = A := by
    intro n A hA
    obtain ⟨B, hB⟩ := CStarAlgebra.nonneg_iff_eq_star_mul_self.mp hA.posSemidef.nonneg
    exact ⟨Bᵀ, by rw [transpose_transpose, hB, star_eq_conjTranspose, conjTranspose_eq_transpose_of_trivial]⟩
  refine ⟨fun n A => if hA : A.PosDef then some (h n A hA).choose else none, ?_, ?_⟩
  · intro n A L hL
    split at hL
    · rename_i hA; injection hL with hL; rw [← hL]; exact (h n A hA).choose_spec
    · cases hL
  · intro n A hA; exact ⟨_, dif_pos hA⟩

/-- **C65 (meaning).** With a correct routine the returned factor satisfies `L L' = A_sym + c I` with `c = 0` or
`1e-12 ≤ c ≤ 1e-7`, and `c = 0` for positive-definite input, so an accepted matrix is positive semidefinite up to 1e-7. -/
theorem C65_factor_meaning {n : ℕ} {factor : Factor} (hf : FactorOk factor) (A L : Matrix (Fin n) (Fin n) ℝ)
    (h : (cholSquare factor A).result = .ok L) :
    ∃ c : ℝ, (c = 0 ∨ 1 / 10 ^ 12 ≤ c ∧ c ≤ 1 / 10 ^ 7) ∧ L * Lᵀ = (1 / 2 : ℝ) • (A + Aᵀ) + c • 1 ∧
      (((1 / 2 : ℝ) • (A + Aᵀ)).PosDef → c = 0) ∧
      (∀ x : Fin n → ℝ, -(1 / 10 ^ 7) * (x ⬝ᵥ x) ≤ quad A x) := by
  obtain ⟨-, h1, -, h3⟩ := C65_retry_bounded factor A
  obtain ⟨k, hk, hL, hmin⟩ := (h1 L).mp h
  have hc : (if k = 0 then 0 else 10 ^ (k - 1) / 10 ^ 12 : ℝ) ≤ 1 / 10 ^ 7 := by
    interval_cases k <;> norm_num
  have hL' := hf.sound _ _ _ hL
  refine ⟨_, ?_, hL', ?_, ?_⟩
  · interval_cases k <;> norm_num
  · intro hp
    obtain ⟨L0, hL0⟩ := hf.complete n _ hp
    by_contra hne
    have hk0 : k ≠ 0 := by rintro rfl; simp at hne
    have := hmin 0 (Nat.pos_of_ne_zero hk0)
    simp only [if_true, zero_smul, add_zero] at this
    rw [hL0] at this; cases this
  · intro x
    have e1 : quad (L * Lᵀ) x = (Lᵀ *ᵥ x) ⬝ᵥ (Lᵀ *ᵥ x) := by
      rw [quad, ← mulVec_mulVec, dotProduct_mulVec, ← mulVec_transpose]
    have e2 : 0 ≤ quad (L * Lᵀ) x := by
      rw [e1, dotProduct]; exact Finset.sum_nonneg (fun i _ => mul_self_nonneg _)
    rw [hL'] at e2
    have e3 : quad ((1 / 2 : ℝ) • (A + Aᵀ)) x = quad A x := by
      simp only [quad, smul_mulVec, add_mulVec, dotProduct_smul, dotProduct_add, smul_eq_mul]
      have : x ⬝ᵥ (Aᵀ *ᵥ x) = x ⬝ᵥ (A *ᵥ x) := by
        rw [mulVec_transpose, dotProduct_comm, ← dotProduct_mulVec]
      rw [this]; ring
    have e4 : quad ((1 / 2 : ℝ) • (A + Aᵀ) + (if k = 0 then 0 else 10 ^ (k - 1) / 10 ^ 12 : ℝ) • 1) x =
        quad A x + (if k = 0 then 0 else 10 ^ (k - 1) / 10 ^ 12 : ℝ) * (x ⬝ᵥ x) := by
      rw [← e3]
      simp only [quad, add_mulVec, dotProduct_add, smul_mulVec, one_mulVec, dotProduct_smul, smul_eq_mul]
    rw [e4] at e2
    have e5 : 0 ≤ x ⬝ᵥ x := by rw [dotProduct]; exact Finset.sum_nonneg (fun i _ => mul_self_nonneg _)
    have := mul_le_mul_of_nonneg_right hc e5
    linarith

/-- **C65 (shape).** A non-square argument raises `ValueError`; a square one gives a factor exactly when one of the seven attempts on its entries does, and
`RuntimeError` otherwise. -/
theorem C65_shape (factor : Factor) :
    (∀ A : Arr2, A.rows ≠ A.cols → choleskyPd factor A = .error .valueError) ∧
    (∀ (n : ℕ) (v : Fin n → Fin n → ℝ) (l : Option (List String × List String)), choleskyPd factor ⟨n, n, v, l⟩ = (cholSquare factor (Matrix.of v)).result) ∧
    (∀ (n : ℕ) (v : Fin n → Fin n → ℝ) (l : Option (List String × List String)), FactorOk factor → (Matrix.of v).PosDef →
      ∃ L, choleskyPd factor ⟨n, n, v, l⟩ = .ok L ∧ L * Lᵀ = Matrix.of v) := by
  have hsq : ∀ (n : ℕ) (v : Fin n → Fin n → ℝ) (l : Option (List String × List String)), choleskyPd factor ⟨n, n, v, l⟩ = (cholSquare factor (Matrix.of v)).result := by
    intro n v l
    unfold choleskyPd
    rw [dif_pos rfl]
    rfl
  refine ⟨fun A h => dif_neg h, hsq, fun n v l hf hp => ?_⟩
  obtain ⟨-, -, -, h3⟩ := C65_retry_bounded factor (Matrix.of v)
  have hsym : (1 / 2 : ℝ) • (Matrix.of v + (Matrix.of v)ᵀ) = Matrix.of v := by
    have : (Matrix.of v)ᵀ = Matrix.of v := by
      have := hp.isHermitian
      rwa [IsHermitian, conjTranspose_eq_transpose_of_trivial] at this
    rw [this, ← two_smul ℝ, smul_smul]
    norm_num
  obtain ⟨L, hL⟩ := hf.complete _ _ hp
  rw [hsym] at h3
  exact ⟨L, by rw [hsq]; exact (h3 L hL).1, hf.sound _ _ _ hL⟩

/-- A positive-definite matrix with a diagonal is accepted without jitter by a correct routine. -/
example {factor : Factor} (hf : FactorOk factor) :
    ∃ L, (cholSquare factor (Matrix.diagonal ![1, 2] : Matrix (Fin 2) (Fin 2) ℝ)).result = .ok L ∧
      L * Lᵀ = Matrix.diagonal ![1, 2] := by
  have hp : (Matrix.diagonal ![1, 2] : Matrix (Fin 2) (Fin 2) ℝ).PosDef :=
    Matrix.PosDef.diagonal (fun i => by fin_cases i <;> norm_num)
  have hs : (1 / 2 : ℝ) • (Matrix.diagonal ![1, 2] + (Matrix.diagonal ![1, 2])ᵀ : Matrix (Fin 2) (Fin 2) ℝ) =
      Matrix.diagonal ![1, 2] := by
    rw [diagonal_transpose, ← two_smul ℝ, smul_smul]; norm_num
  obtain ⟨L, hL⟩ := hf.complete _ _ hp
  exact ⟨L, ((C65_retry_bounded factor _).2.2.2 L (by rw [hs]; exact hL)).1, hf.sound _ _ _ hL⟩

/-! ## C63 -/

/-- The user's programme: build the object from the prior, update it with the sample statistics. -/
noncomputable def niwFit (factor : Factor) (mu : Arr1) (sigma : Arr2) (t0 nu0 : ℝ) (smu : Arr1) (ssigma : Arr2) (nObs : ℝ) :
    Except PyErr (Σ n, Params n) :=
  match init factor mu sigma t0 nu0 with
  | .error e => .error e
  | .ok o =>
    match update factor o smu ssigma nObs with
    | .error e => .error e
    | .ok p => .ok ⟨o.n, p⟩

theorem pyInt_natCast (k : ℕ) : pyInt (k : ℝ) = (k : ℤ) := by
  simp [pyInt]

theorem mkNiw_ok {factor : Factor} {n : ℕ} {m : Fin n → ℝ} {S : Fin n → Fin n → ℝ} {l l' idx} {t0 nu0 : ℝ} {o : Niw}
    (h : mkNiw factor ⟨n, m, l⟩ ⟨n, n, S, l'⟩ t0 nu0 idx = .ok o) :
    0 < t0 ∧ 0 ≤ nu0 ∧ (∃ L, (cholSquare factor (Matrix.of S)).result = .ok L) ∧
      o = ⟨n, m, Matrix.of S, pyInt t0, pyInt nu0, idx, none⟩ := by
  unfold mkNiw at h
  rw [dif_pos ⟨rfl, rfl⟩] at h
  split at h; · cases h
  split at h; · cases h
  rename_i h1 h2
  dsimp only at h
  split at h; · cases h
  rename_i L hL
  injection h with h
  exact ⟨not_le.mp h1, not_lt.mp h2, ⟨L, hL⟩, h.symm⟩

theorem init_ok {factor : Factor} {n : ℕ} {m : Fin n → ℝ} {S : Fin n → Fin n → ℝ} {l l'} {t0 nu0 : ℝ} {o : Niw}
    (h : init factor ⟨n, m, l⟩ ⟨n, n, S, l'⟩ t0 nu0 = .ok o) :
    0 < t0 ∧ 0 ≤ nu0 ∧ (∃ L, (cholSquare factor (Matrix.of S)).result = .ok L) ∧
      ∃ idx, mergeIndex ⟨n, m, l⟩ ⟨n, n, S, l'⟩ = .ok idx ∧
      o = ⟨n, m, Matrix.of S, pyInt t0, pyInt nu0, idx, none⟩ := by
  unfold init at h
  split at h; · cases h
  split at h; · cases h
  rename_i idx hidx
  obtain ⟨h1, h2, h3, h4⟩ := mkNiw_ok h
  exact ⟨h1, h2, h3, idx, hidx, h4⟩

theorem update_ok {factor : Factor} {n : ℕ} {o : Niw} (hn : o.n = n) {sm : Fin n → ℝ} {Ss : Fin n → Fin n → ℝ} {l l'} {nObs : ℝ}
    {P : Params o.n} (h : update factor o ⟨n, sm, l⟩ ⟨n, n, Ss, l'⟩ nObs = .ok P) :
    o.post = none ∧ 0 < nObs ∧ o.t0 ≠ 0 ∧ 0 < (o.nu0 : ℝ) + nObs ∧
      (∃ L, (cholSquare factor (Matrix.of Ss)).result = .ok L) ∧
      P = ⟨o.t0 + nObs, mu1Of o.t0 nObs o.mu (sm ∘ Fin.cast hn), o.nu0 + nObs,
        sigma1Of o.t0 o.nu0 nObs o.mu (sm ∘ Fin.cast hn) o.sigma
          (Matrix.of fun i j => Ss (Fin.cast hn i) (Fin.cast hn j))⟩ ∧
      ∃ L, (cholSquare factor P.sigma1).result = .ok L := by
  subst hn
  unfold update at h
  split at h; · cases h
  rename_i hp
  rw [dif_pos rfl] at h
  split at h; · cases h
  rename_i hN
  rw [dif_pos ⟨rfl, rfl⟩] at h
  dsimp only at h
  split at h; · cases h
  rename_i L hL
  unfold posterior at h
  split at h; · cases h
  rename_i ht
  split at h; · cases h
  rename_i hv
  split at h; · cases h
  rename_i L2 hL2
  injection h with h
  refine ⟨?_, not_le.mp hN, ht, not_le.mp hv, ⟨L, hL⟩, h.symm, L2, ?_⟩
  · cases hq : o.post with
    | none => rfl
    | some p => rw [hq] at hp; simp at hp
  · rw [← h]; exact hL2

/-- What a successful fit with integer pseudo-counts contains. -/
theorem niwFit_ok {factor : Factor} {n : ℕ} {m sm : Fin n → ℝ} {S Ss : Matrix (Fin n) (Fin n) ℝ} {l l' k k'} {t0 nu0 : ℕ} {nObs : ℝ}
    {P : Params n} (h : niwFit factor ⟨n, m, l⟩ ⟨n, n, S, l'⟩ t0 nu0 ⟨n, sm, k⟩ ⟨n, n, Ss, k'⟩ nObs = .ok ⟨n, P⟩) :
    0 < t0 ∧ 0 < nObs ∧
      P = ⟨t0 + nObs, mu1Of t0 nObs m sm, nu0 + nObs, sigma1Of t0 nu0 nObs m sm S Ss⟩ := by
  unfold niwFit at h
  split at h; · cases h
  rename_i o ho
  obtain ⟨h1, h2, -, idx, -, rfl⟩ := init_ok ho
  split at h; · cases h
  rename_i p hp
  injection h with h
  injection h with h3 h4
  obtain ⟨-, h5, h6, h7, -, h8, -⟩ := update_ok (n := n) rfl hp
  have : p = P := h4
  subst this
  refine ⟨by exact_mod_cast h1, h5, ?_⟩
  rw [h8]
  simp only [pyInt_natCast, Int.cast_natCast, Fin.cast_refl, Function.comp_id, id_eq]
  rfl

theorem quad_eq_trace {n : ℕ} (A : Matrix (Fin n) (Fin n) ℝ) (x : Fin n → ℝ) :
    quad A x = (Matrix.of (fun i j => x i * x j) * A).trace := by
  simp only [quad, dotProduct, mulVec, trace, diag_apply, mul_apply, of_apply, Finset.mul_sum]
  rw [Finset.sum_comm]
  refine Finset.sum_congr rfl (fun i _ => Finset.sum_congr rfl (fun j _ => by ring))

/-- The scatter around any point splits into sample covariance and squared distance of the mean. -/
theorem scatter_split {n T : ℕ} (hT : 0 < T) (X : Fin T → Fin n → ℝ) (mu : Fin n → ℝ) (i j : Fin n) :
    ∑ t, (X t i - mu i) * (X t j - mu j) =
      T * sampleCov X i j + T * ((sampleMean X i - mu i) * (sampleMean X j - mu j)) := by
  have hT' : (T : ℝ) ≠ 0 := by exact_mod_cast hT.ne'
  have e : ∀ i, ∑ t, X t i = T * sampleMean X i := by intro i; simp only [sampleMean]; field_simp
  have e2 : (T : ℝ) * sampleCov X i j = ∑ t, (X t i - sampleMean X i) * (X t j - sampleMean X j) := by
    simp only [sampleCov, of_apply]; field_simp
  rw [e2]
  simp only [sub_mul, mul_sub, Finset.sum_sub_distrib, ← Finset.mul_sum, ← Finset.sum_mul, e, Finset.sum_const,
    Finset.card_univ, Fintype.card_fin, nsmul_eq_mul]
  ring

/-- **C63 (conjugacy).** Whenever the update succeeds on the mean and covariance of a data set, the posterior it
returns is the Bayes posterior: for every mean `mu` and precision matrix `Q`, prior density times likelihood of the data
equals the density with the returned parameters, up to a constant that does not depend on `mu` and `Q`. -/
theorem C63_conjugate {factor : Factor} {n T : ℕ} {m : Fin n → ℝ} {S : Matrix (Fin n) (Fin n) ℝ} {l l' k k'} {t0 nu0 : ℕ}
    (X : Fin T → Fin n → ℝ) {P : Params n}
    (h : niwFit factor ⟨n, m, l⟩ ⟨n, n, S, l'⟩ t0 nu0 ⟨n, sampleMean X, k⟩ ⟨n, n, sampleCov X, k'⟩ T = .ok ⟨n, P⟩)
    (mu : Fin n → ℝ) (Q : Matrix (Fin n) (Fin n) ℝ) (hQ : Q.PosDef) :
    niwKernel t0 nu0 m S mu Q * ∏ t, normalDensity mu Q (X t) =
      ((2 * Real.pi) ^ (-(n : ℝ) / 2)) ^ T * niwKernel P.T1 P.nu1 P.mu1 P.sigma1 mu Q := by
  obtain ⟨ht, hn, rfl⟩ := niwFit_ok h
  have hT : 0 < T := by exact_mod_cast hn
  have hT' : (0 : ℝ) < T := hn
  have ht' : (0 : ℝ) < t0 := by exact_mod_cast ht
  have hv : (0 : ℝ) ≤ nu0 := by positivity
  have hd := hQ.det_pos
  -- the exponents
  have key : (t0 : ℝ) * quad Q (mu - m) + nu0 * (S * Q).trace + ∑ t, quad Q (X t - mu) =
      ((t0 : ℝ) + T) * quad Q (mu - mu1Of t0 T m (sampleMean X)) +
        ((nu0 : ℝ) + T) * (sigma1Of t0 nu0 T m (sampleMean X) S (sampleCov X) * Q).trace := by
    have hM : (t0 : ℝ) • Matrix.of (fun i j => (mu - m) i * (mu - m) j) + (nu0 : ℝ) • S +
          ∑ t, Matrix.of (fun i j => (X t - mu) i * (X t - mu) j) =
        ((t0 : ℝ) + T) • Matrix.of (fun i j => (mu - mu1Of t0 T m (sampleMean X)) i * (mu - mu1Of t0 T m (sampleMean X)) j) +
          ((nu0 : ℝ) + T) • sigma1Of t0 nu0 T m (sampleMean X) S (sampleCov X) := by
      ext i j
      simp only [Matrix.add_apply, Matrix.smul_apply, of_apply, smul_eq_mul, Pi.sub_apply, Matrix.sum_apply]
      rw [scatter_split hT X mu i j]
      simp only [mu1Of, sigma1Of, of_apply]
      have h1 : (t0 : ℝ) + T ≠ 0 := by positivity
      have h2 : (nu0 : ℝ) + T ≠ 0 := by positivity
      have h3 : (1 : ℝ) / T + 1 / t0 ≠ 0 := by positivity
      field_simp
      ring
    have := congrArg (fun M => (M * Q).trace) hM
    simp only [Matrix.add_mul, Matrix.trace_add, Matrix.smul_mul, Matrix.trace_smul, smul_eq_mul, Matrix.sum_mul,
      Matrix.trace_sum, ← quad_eq_trace] at this
    exact this
  simp only [niwKernel, normalDensity, Finset.prod_mul_distrib, Finset.prod_const, Finset.card_univ, Fintype.card_fin,
    ← Real.exp_sum]
  have hdet : Q.det ^ (((nu0 : ℝ) - n - 1) / 2) * (Q.det ^ (1 / 2 : ℝ)) ^ T = Q.det ^ (((nu0 : ℝ) + T - n - 1) / 2) := by
    rw [← Real.rpow_natCast, ← Real.rpow_mul hd.le, ← Real.rpow_add hd]
    congr 1; ring
  have hexp : Real.exp (-((t0 : ℝ) / 2) * quad Q (mu - m)) * Real.exp (-((nu0 : ℝ) / 2) * (S * Q).trace) *
      Real.exp (∑ t, -(quad Q (X t - mu)) / 2) =
      Real.exp (-(((t0 : ℝ) + T) / 2) * quad Q (mu - mu1Of t0 T m (sampleMean X))) *
        Real.exp (-(((nu0 : ℝ) + T) / 2) *
          (sigma1Of t0 nu0 T m (sampleMean X) S (sampleCov X) * Q).trace) := by
    rw [← Real.exp_add, ← Real.exp_add, ← Real.exp_add]
    congr 1
    rw [← Finset.sum_div, Finset.sum_neg_distrib]
    linarith
  rw [← hdet]
  linear_combination (Q.det ^ (1 / 2 : ℝ) * Q.det ^ (((nu0 : ℝ) - n - 1) / 2) *
    ((2 * Real.pi) ^ (-(n : ℝ) / 2)) ^ T * (Q.det ^ (1 / 2 : ℝ)) ^ T) * hexp

theorem outer_psd {n : ℕ} (d : Fin n → ℝ) : (Matrix.of (fun i j => d i * d j) : Matrix (Fin n) (Fin n) ℝ).PosSemidef := by
  have := posSemidef_vecMulVec_self_star (R := ℝ) d
  convert this using 1
  ext i j
  simp [vecMulVec_apply]

theorem sigma1Of_eq {n : ℕ} (t0 nu0 nObs : ℝ) (m sm : Fin n → ℝ) (S Ss : Matrix (Fin n) (Fin n) ℝ) :
    sigma1Of t0 nu0 nObs m sm S Ss =
      (nu0 / (nu0 + nObs)) • S + (nObs / (nu0 + nObs)) • Ss +
        (1 / ((1 / nObs + 1 / t0) * (nu0 + nObs))) • Matrix.of (fun i j => (m - sm) i * (m - sm) j) := by
  ext i j
  simp only [sigma1Of, of_apply, Matrix.add_apply, Matrix.smul_apply, smul_eq_mul, Pi.sub_apply, mul_inv, div_eq_mul_inv]
  ring

theorem sigma1Of_psd {n : ℕ} {t0 nu0 nObs : ℝ} (ht : 0 < t0) (hv : 0 ≤ nu0) (hn : 0 < nObs) {m sm : Fin n → ℝ}
    {S Ss : Matrix (Fin n) (Fin n) ℝ} (hS : S.PosSemidef) (hSs : Ss.PosSemidef) :
    (sigma1Of t0 nu0 nObs m sm S Ss).PosSemidef := by
  rw [sigma1Of_eq]
  exact ((hS.smul (by positivity)).add (hSs.smul (by positivity))).add ((outer_psd _).smul (by positivity))

theorem sigma1Of_posDef {n : ℕ} {t0 nu0 nObs : ℝ} (ht : 0 < t0) (hv : 0 ≤ nu0) (hn : 0 < nObs) {m sm : Fin n → ℝ}
    {S Ss : Matrix (Fin n) (Fin n) ℝ} (hS : S.PosSemidef) (hSs : Ss.PosDef) :
    (sigma1Of t0 nu0 nObs m sm S Ss).PosDef := by
  rw [sigma1Of_eq, add_assoc]
  exact .posSemidef_add (hS.smul (by positivity))
    (.add_posSemidef (hSs.smul (by positivity)) ((outer_psd _).smul (by positivity)))

/-- **C63.** The posterior counts are sums, the posterior mean is the count-weighted average of prior and sample mean (so
lies between them asset by asset), and the posterior scale matrix is symmetric positive semidefinite whenever prior and
sample covariance are. -/
theorem C63_update {factor : Factor} {n : ℕ} {m sm : Fin n → ℝ} {S Ss : Matrix (Fin n) (Fin n) ℝ} {l l' k k'} {t0 nu0 : ℕ}
    {nObs : ℝ} {P : Params n}
    (h : niwFit factor ⟨n, m, l⟩ ⟨n, n, S, l'⟩ t0 nu0 ⟨n, sm, k⟩ ⟨n, n, Ss, k'⟩ nObs = .ok ⟨n, P⟩) :
    P.T1 = t0 + nObs ∧ P.nu1 = nu0 + nObs ∧
    (∀ i, P.T1 * P.mu1 i = t0 * m i + nObs * sm i) ∧
    (∀ i, min (m i) (sm i) ≤ P.mu1 i ∧ P.mu1 i ≤ max (m i) (sm i)) ∧
    (S.PosSemidef → Ss.PosSemidef → P.sigma1.PosSemidef) ∧
    (Sᵀ = S → Ssᵀ = Ss → P.sigma1ᵀ = P.sigma1) := by
  obtain ⟨ht, hn, rfl⟩ := niwFit_ok h
  have ht' : (0 : ℝ) < t0 := by exact_mod_cast ht
  have hT : (0 : ℝ) < t0 + nObs := by positivity
  refine ⟨rfl, rfl, ?_, ?_, ?_, ?_⟩
  · intro i; simp only [mu1Of]; field_simp
  · intro i
    simp only [mu1Of]
    constructor
    · rw [le_div_iff₀ hT]
      nlinarith [mul_le_mul_of_nonneg_left (min_le_left (m i) (sm i)) ht'.le,
        mul_le_mul_of_nonneg_left (min_le_right (m i) (sm i)) hn.le]
    · rw [div_le_iff₀ hT]
      nlinarith [mul_le_mul_of_nonneg_left (le_max_left (m i) (sm i)) ht'.le,
        mul_le_mul_of_nonneg_left (le_max_right (m i) (sm i)) hn.le]
  · exact fun h1 h2 => sigma1Of_psd ht' (by positivity) hn h1 h2
  · intro h1 h2
    ext i j
    have e1 := congrFun (congrFun h1 i) j
    have e2 := congrFun (congrFun h2 i) j
    simp only [transpose_apply] at e1 e2
    simp only [transpose_apply, sigma1Of, of_apply, e1, e2]
    ring

/-- **C63 (totality).** With a correct factorisation routine every positive-definite prior and sample covariance with
positive integer confidence, at least one asset, consistent labels and a positive number of observations is accepted. -/
theorem C63_total {factor : Factor} (hf : FactorOk factor) {n : ℕ} (hn0 : 0 < n) (m sm : Fin n → ℝ)
    {S Ss : Matrix (Fin n) (Fin n) ℝ} (hS : S.PosDef) (hSs : Ss.PosDef) (l l' k k' idx)
    (hl : mergeIndex ⟨n, m, l⟩ ⟨n, n, S, l'⟩ = .ok idx) {t0 : ℕ} (ht : 0 < t0) (nu0 : ℕ) {nObs : ℝ} (hn : 0 < nObs) :
    ∃ P, niwFit factor ⟨n, m, l⟩ ⟨n, n, S, l'⟩ t0 nu0 ⟨n, sm, k⟩ ⟨n, n, Ss, k'⟩ nObs = .ok ⟨n, P⟩ := by
  have ht' : (0 : ℝ) < t0 := by exact_mod_cast ht
  have acc : ∀ {A : Matrix (Fin n) (Fin n) ℝ}, A.PosDef → ∃ L, (cholSquare factor A).result = .ok L := by
    intro A hA
    have e : (1 / 2 : ℝ) • (A + Aᵀ) = A := by
      rw [PyV.Psd.symm_of_psd hA.posSemidef, ← two_smul ℝ, smul_smul]; norm_num
    obtain ⟨L, hL⟩ := hf.complete _ _ hA
    exact ⟨L, ((C65_retry_bounded factor A).2.2.2 L (by rw [e]; exact hL)).1⟩
  obtain ⟨L1, h1⟩ := acc hS
  obtain ⟨L2, h2⟩ := acc hSs
  obtain ⟨L3, h3⟩ := acc (sigma1Of_posDef (m := m) (sm := sm) ht' (by positivity : (0:ℝ) ≤ nu0) hn hS.posSemidef hSs)
  have hi : init factor ⟨n, m, l⟩ ⟨n, n, S, l'⟩ t0 nu0 = .ok ⟨n, m, S, t0, nu0, idx, none⟩ := by
    unfold init
    rw [if_neg hn0.ne', hl]
    simp only [mkNiw]
    rw [dif_pos ⟨trivial, trivial⟩, if_neg (not_le.mpr ht'), if_neg (not_lt.mpr (by positivity))]
    simp only [Fin.cast_refl, id_eq, pyInt_natCast]
    have : (cholSquare factor (Matrix.of fun i j => S i j)).result = .ok L1 := h1
    rw [this]; rfl
  refine ⟨⟨t0 + nObs, mu1Of t0 nObs m sm, nu0 + nObs, sigma1Of t0 nu0 nObs m sm S Ss⟩, ?_⟩
  unfold niwFit
  rw [hi]
  dsimp only
  have hu : update factor ⟨n, m, S, t0, nu0, idx, none⟩ ⟨n, sm, k⟩ ⟨n, n, Ss, k'⟩ nObs =
      .ok ⟨t0 + nObs, mu1Of t0 nObs m sm, nu0 + nObs, sigma1Of t0 nu0 nObs m sm S Ss⟩ := by
    unfold update
    rw [if_neg (by simp), dif_pos rfl, if_neg (not_le.mpr hn), dif_pos ⟨rfl, rfl⟩]
    simp only [Fin.cast_refl, id_eq]
    have : (cholSquare factor (Matrix.of fun i j => Ss i j)).result = .ok L2 := h2
    rw [this]
    dsimp only
    unfold posterior
    rw [if_neg (by exact_mod_cast ht.ne'), if_neg (not_le.mpr (by simp only [Int.cast_natCast]; positivity))]
    have e : (cholSquare factor (sigma1Of ((t0 : ℤ) : ℝ) ((nu0 : ℤ) : ℝ) nObs m (fun i => sm i) S (Matrix.of fun i j => Ss i j))).result = .ok L3 := by
      simp only [Int.cast_natCast]; exact h3
    rw [e]
    simp only [Int.cast_natCast]
    rfl
  rw [hu]

/-- **C63 (boundary, false of the code).** The constructor documents and tests `t0 > 0`, but truncates: an accepted
`0 < t0 < 1` makes every otherwise valid update raise `ZeroDivisionError`. -/
theorem C63_fractional_t0 {factor : Factor} {n : ℕ} {m sm : Fin n → ℝ} {S Ss : Fin n → Fin n → ℝ} {l l' k k'} {t0 nu0 nObs : ℝ}
    (h0 : 0 < t0) (h1 : t0 < 1) {o : Niw} (ho : init factor ⟨n, m, l⟩ ⟨n, n, S, l'⟩ t0 nu0 = .ok o) (hn : 0 < nObs)
    (hs : ∃ L, (cholSquare factor (Matrix.of Ss)).result = .ok L) :
    update factor o ⟨n, sm, k⟩ ⟨n, n, Ss, k'⟩ nObs = .error .zeroDivision := by
  obtain ⟨-, -, -, idx, -, rfl⟩ := init_ok ho
  obtain ⟨L, hL⟩ := hs
  have e : pyInt t0 = 0 := by
    simp only [pyInt, if_pos h0.le]
    exact Int.floor_eq_zero_iff.mpr ⟨h0.le, h1⟩
  unfold update
  rw [if_neg (by simp), dif_pos rfl, if_neg (not_le.mpr hn), dif_pos ⟨rfl, rfl⟩]
  have : (cholSquare factor (Matrix.of fun i j => Ss (Fin.cast rfl i) (Fin.cast rfl j))).result = .ok L := hL
  dsimp only
  rw [this]
  dsimp only
  unfold posterior
  rw [if_pos e]

/-! ## C64 -/

/-- The getters, as calls. -/
inductive Getter where
  | mu | sMu | sigma | radMu (p : ℝ) | radSigma (p : ℝ)

/-- What a getter answers: a labelled vector, a labelled matrix or a number. -/
inductive Answer where
  | vec (n : ℕ) (v : OutVec n) | mat (n : ℕ) (M : OutMat n) | num (x : ℝ)

/-- Call a getter. -/
noncomputable def ask (ppf : ℝ → ℕ → ℝ) (o : Niw) : Getter → Except PyErr Answer
  | .mu => (getMuCe o).map (.vec o.n)
  | .sMu => (getSMu o).map (.mat o.n)
  | .sigma => (getSigmaCe o).map (.mat o.n)
  | .radMu p => (credRadiusMu ppf o p).map .num
  | .radSigma p => (credRadiusSigma ppf o p).map .num

/-- The operation does not write to a returned array. -/
def _root_.PyV.Bayes.Op.isCall : Op → Prop
  | .writeMu _ _ => False
  | _ => True

theorem step_of_post {factor : Factor} {o : Niw} {P : Params o.n} (h : o.post = some P) {a : Op} (ha : a.isCall) :
    step factor o a = o := by
  cases a with
  | update smu ss nObs =>
    have : update factor o smu ss nObs = .error .runtimeError := by
      unfold update; rw [if_pos (by rw [h]; rfl)]
    simp only [step, this]
  | writeMu i x => exact ha.elim
  | _ => rfl

theorem run_of_post {factor : Factor} {o : Niw} {P : Params o.n} (h : o.post = some P) (ops : List Op)
    (hc : ∀ a ∈ ops, a.isCall) : run factor o ops = o := by
  induction ops with
  | nil => rfl
  | cons a ops ih =>
    simp only [run, List.foldl_cons, step_of_post h (hc a List.mem_cons_self)]
    exact ih (fun b hb => hc b (List.mem_cons_of_mem _ hb))

theorem init_post {factor : Factor} {mu sigma t0 nu0} {o : Niw} (ho : init factor mu sigma t0 nu0 = .ok o) : o.post = none := by
  unfold init at ho
  split at ho; · cases ho
  split at ho; · cases ho
  unfold mkNiw at ho
  split at ho
  · split at ho; · cases ho
    split at ho; · cases ho
    dsimp only at ho
    split at ho; · cases ho
    injection ho with ho; subst ho; rfl
  · cases ho

theorem ask_none {ppf : ℝ → ℕ → ℝ} {o : Niw} (h : o.post = none) (g : Getter) : ask ppf o g = .error .runtimeError := by
  cases g <;> simp [ask, getMuCe, getSMu, getSigmaCe, credRadiusMu, credRadiusSigma, h, Except.map]

theorem step_fail {factor : Factor} {o : Niw} (h : o.post = none) {a : Op}
    (hf : ∀ smu ss nObs, a = .update smu ss nObs → ∃ e, update factor o smu ss nObs = .error e) : step factor o a = o := by
  cases a with
  | update smu ss nObs => obtain ⟨e, he⟩ := hf _ _ _ rfl; simp only [step, he]
  | writeMu i x => simp only [step, h]
  | _ => rfl

theorem run_fail {factor : Factor} {o : Niw} (h : o.post = none) (ops : List Op)
    (hf : ∀ smu ss nObs, Op.update smu ss nObs ∈ ops → ∃ e, update factor o smu ss nObs = .error e) :
    run factor o ops = o := by
  induction ops with
  | nil => rfl
  | cons a ops ih =>
    have := step_fail h (a := a) (fun smu ss nObs e => hf smu ss nObs (by rw [e]; exact List.mem_cons_self))
    simp only [run, List.foldl_cons, this]
    exact ih (fun smu ss nObs hm => hf smu ss nObs (List.mem_cons_of_mem _ hm))

/-- **C64 (before).** As long as every update attempted so far has failed, the object is unchanged and every getter raises
`RuntimeError`, whatever was called before. -/
theorem C64_before {factor : Factor} (ppf : ℝ → ℕ → ℝ) {mu sigma t0 nu0} {o : Niw} (ho : init factor mu sigma t0 nu0 = .ok o)
    (ops : List Op) (hf : ∀ smu ss nObs, Op.update smu ss nObs ∈ ops → ∃ e, update factor o smu ss nObs = .error e)
    (g : Getter) : run factor o ops = o ∧ ask ppf (run factor o ops) g = .error .runtimeError := by
  have h := run_fail (init_post ho) ops hf
  exact ⟨h, by rw [h]; exact ask_none (init_post ho) g⟩

/-- **C64 (after), partial.** Once an update has succeeded, whatever is called before (failed updates, getters) and
after it, the object holds exactly that posterior: getters answer as they would directly after the update, and a further
update raises `RuntimeError`.  Missing: histories in which the caller writes into the array `get_mu_ce` returned
(`C64_counterexample`). -/
theorem C64_after_partial {factor : Factor} (ppf : ℝ → ℕ → ℝ) {mu sigma t0 nu0} {o : Niw}
    (ho : init factor mu sigma t0 nu0 = .ok o) (before after : List Op)
    (hf : ∀ smu ss nObs, Op.update smu ss nObs ∈ before → ∃ e, update factor o smu ss nObs = .error e)
    {smu ssigma nObs} {P : Params o.n} (hu : update factor o smu ssigma nObs = .ok P)
    (hc : ∀ a ∈ after, a.isCall) :
    run factor o (before ++ .update smu ssigma nObs :: after) = { o with post := some P } ∧
    (∀ g, ask ppf (run factor { o with post := some P } after) g = ask ppf { o with post := some P } g) ∧
    (∀ smu' ss' n', update factor { o with post := some P } smu' ss' n' = .error .runtimeError) := by
  have h1 := run_fail (init_post ho) before hf
  have h2 := run_of_post (factor := factor) (o := { o with post := some P }) (P := P) rfl after hc
  refine ⟨?_, fun g => by rw [h2], fun smu' ss' n' => ?_⟩
  · rw [run, List.foldl_append, List.foldl_cons]
    have e : List.foldl (step factor) o before = o := h1
    rw [e]
    have e2 : step factor o (.update smu ssigma nObs) = { o with post := some P } := by simp only [step, hu]
    rw [e2]; exact h2
  · simp [update]

/-- Every getter answers after a successful update with more than two posterior degrees of freedom (levels in (0,1)). -/
theorem C64_getters_answer (ppf : ℝ → ℕ → ℝ) {o : Niw} {P : Params o.n} (hp : o.post = some P) (hv : 2 < P.nu1) {p : ℝ}
    (h0 : 0 < p) (h1 : p < 1) :
    getMuCe o = .ok ⟨P.mu1, o.index⟩ ∧
    getSMu o = .ok ⟨(P.nu1 / (P.T1 * (P.nu1 - 2))) • P.sigma1, o.index⟩ ∧
    getSigmaCe o = .ok ⟨(P.nu1 / (P.nu1 + o.n + 1)) • P.sigma1, o.index⟩ ∧
    (∃ x, credRadiusMu ppf o p = .ok x) ∧ ∃ x, credRadiusSigma ppf o p = .ok x := by
  have hd : (0 : ℝ) < P.nu1 + o.n + 1 := by positivity
  refine ⟨by simp [getMuCe, hp], ?_, ?_, ?_, ?_⟩
  · simp only [getSMu, hp]; rw [if_neg (not_le.mpr hv)]
  · simp only [getSigmaCe, hp]; rw [if_neg hd.ne']
  · simp only [credRadiusMu, hp, chi2Quantile]
    rw [if_neg (not_le.mpr hv), if_neg (by simp [h0, h1])]
    simp [h0, h1]
  · simp only [credRadiusSigma, hp, chi2Quantile]
    rw [if_neg (by simp [h0, h1]), if_neg (not_le.mpr hd)]
    simp [h0, h1]

/-- **C64 (false of the code for NumPy posteriors).** `get_mu_ce` hands out the stored array: after a write to the
returned array the next `get_mu_ce` answers differently although no method changed the posterior. -/
theorem C64_counterexample {factor : Factor} (hf : FactorOk factor) :
    ∃ (o : Niw) (P : Params o.n), init factor ⟨1, ![0], none⟩ ⟨1, 1, fun _ _ => 1, none⟩ 1 1 = .ok o ∧
      update factor o ⟨1, ![0], none⟩ ⟨1, 1, fun _ _ => 1, none⟩ 1 = .ok P ∧
      ∀ ppf, ask ppf (run factor { o with post := some P } [.getMuCe, .writeMu 0 7]) .mu ≠
        ask ppf { o with post := some P } .mu := by
  have hone : (1 : Matrix (Fin 1) (Fin 1) ℝ) = (fun _ _ => 1 : Fin 1 → Fin 1 → ℝ) := by
    ext i j; have : i = j := Subsingleton.elim _ _; subst this; rw [Matrix.one_apply_eq]
  have hp : (1 : Matrix (Fin 1) (Fin 1) ℝ).PosDef := Matrix.PosDef.one
  obtain ⟨Q, hQ⟩ := C63_total hf (n := 1) one_pos ![0] ![0] hp hp none none none none none rfl (t0 := 1) one_pos 1
    (nObs := 1) one_pos
  obtain ⟨-, -, hQ'⟩ := niwFit_ok hQ
  unfold niwFit at hQ
  split at hQ; · cases hQ
  rename_i o ho
  split at hQ; · cases hQ
  rename_i P hP
  rw [hone] at ho hP
  simp only [Nat.cast_one] at ho
  obtain ⟨-, -, -, idx, hidx, rfl⟩ := init_ok ho
  simp only [mergeIndex, Except.ok.injEq] at hidx
  subst hidx
  injection hQ with hQ
  injection hQ with h3 h4
  have h4 : P = Q := h4
  refine ⟨_, P, ho, hP, ?_⟩
  subst h4
  intro ppf h
  simp only [ask, Except.map, Answer.vec.injEq, heq_eq_eq, true_and, run, List.foldl_cons, List.foldl_nil, step, getMuCe, Except.ok.injEq, OutVec.mk.injEq, and_true] at h
  have := congrFun h 0
  rw [hQ'] at this
  simp [mu1Of] at this

end PyV.Props
