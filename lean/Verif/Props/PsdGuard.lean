import Verif.Props.Validation
import Mathlib.Tactic

/-! # Property C271: the positive-semidefinite guard is idempotent and changes as little as needed -/

namespace PyV.Props

open Matrix PyV PyV.Valid PyV.Psd

variable {N : ℕ}

/-- **C271** The guard never lowers the variance of a portfolio, raises every variance by one common multiple `k` of the sum of squared weights, and `k` is at
most `jitter` above every amount that would have made all variances non-negative. -/
theorem C271_risk (A : Matrix (Fin N) (Fin N) ℝ) {jitter : ℝ} (hj : 0 ≤ jitter) {C : Matrix (Fin N) (Fin N) ℝ} (h : ensurePsd A jitter = .ok C) :
    ∃ k : ℝ, 0 ≤ k ∧ (∀ x : Fin N → ℝ, x ⬝ᵥ (C *ᵥ x) = x ⬝ᵥ (A *ᵥ x) + k * ∑ i, x i ^ 2) ∧
      ∀ enough : ℝ, 0 ≤ enough → (∀ x : Fin N → ℝ, 0 ≤ x ⬝ᵥ (A *ᵥ x) + enough * ∑ i, x i ^ 2) → k ≤ enough + jitter := by
  obtain ⟨k, hk, e, hc⟩ := ensurePsd_spec A hj
  rw [h] at e
  injection e with e
  subst e
  have hq : ∀ x : Fin N → ℝ, x ⬝ᵥ (((1 / 2 : ℝ) • (A + Aᵀ)) *ᵥ x) = x ⬝ᵥ (A *ᵥ x) := by
    intro x
    have ht : x ⬝ᵥ (Aᵀ *ᵥ x) = x ⬝ᵥ (A *ᵥ x) := by
      rw [mulVec_transpose, dotProduct_comm, ← dotProduct_mulVec]
    rw [smul_mulVec, add_mulVec, dotProduct_smul, dotProduct_add, ht, smul_eq_mul]
    ring
  have hsq : ∀ x : Fin N → ℝ, x ⬝ᵥ x = ∑ i, x i ^ 2 := fun x => Finset.sum_congr rfl fun i _ => by ring
  refine ⟨k, hk, fun x => by rw [quad_add_smul_one, hq, hsq], fun m hm hall => ?_⟩
  rcases hc with ⟨rfl, -⟩ | ⟨rfl, hnot, -⟩
  · linarith
  · have hN : Nonempty (Fin N) := by
      by_contra hne
      refine hnot fun x => ?_
      have : x = 0 := funext fun i => absurd ⟨i⟩ hne
      subst this
      simp
    have hmin : -m ≤ minEig ((1 / 2 : ℝ) • (A + Aᵀ)) := by
      unfold minEig
      refine le_ciInf ((eigvalsh_ge_iff (half_symm A) (-m)).mpr fun x => ?_)
      rw [hq, hsq]
      linarith [hall x]
    have : max 0 (-minEig ((1 / 2 : ℝ) • (A + Aᵀ))) ≤ m := max_le hm (by linarith)
    linarith

/-- **C271** Applying the guard to its own result changes nothing. -/
theorem C271_idempotent (A : Matrix (Fin N) (Fin N) ℝ) {jitter : ℝ} (hj : 0 ≤ jitter) {C : Matrix (Fin N) (Fin N) ℝ}
    (h : ensurePsd A jitter = .ok C) : ensurePsd C jitter = .ok C := by
  obtain ⟨C', e, hs, hlow, -⟩ := C45_guard_result A hj
  rw [h] at e
  injection e with e
  subst e
  obtain ⟨k, -, e', hc⟩ := ensurePsd_spec C hj
  rw [half_of_symm hs] at e' hc
  rcases hc with ⟨rfl, -⟩ | ⟨-, hnot, -⟩
  · rw [e', zero_smul, add_zero]
  · exact absurd hlow hnot

/-- **C271** Only the symmetric part of the input matters. -/
theorem C271_symmetric_part {A B : Matrix (Fin N) (Fin N) ℝ} (h : ∀ i j, A i j + A j i = B i j + B j i) (jitter : ℝ) :
    ensurePsd A jitter = ensurePsd B jitter := by
  have : A + Aᵀ = B + Bᵀ := by
    ext i j
    exact h i j
  unfold ensurePsd
  rw [this]

/-- An indefinite matrix is repaired by a shift between the least sufficient amount and that amount plus the jitter. -/
example : ∃ C, ensurePsd (!![0, 1; 1, 0] : Matrix (Fin 2) (Fin 2) ℝ) defaultJitter = .ok C ∧ ensurePsd C defaultJitter = .ok C ∧
    C 0 0 ≤ 1 + defaultJitter := by
  have hj : (0:ℝ) ≤ defaultJitter := by norm_num [defaultJitter]
  obtain ⟨C, h, -⟩ := C45_guard_result (!![0, 1; 1, 0] : Matrix (Fin 2) (Fin 2) ℝ) hj
  obtain ⟨k, -, hx, hm⟩ := C271_risk _ hj h
  refine ⟨C, h, C271_idempotent _ hj h, ?_⟩
  have h1 := hx ![1, 0]
  have h2 := hm 1 (by norm_num) (fun x => by
    have : (0:ℝ) ≤ (x 0 + x 1) ^ 2 := sq_nonneg _
    simp [Matrix.mulVec, dotProduct, Fin.sum_univ_two]
    nlinarith)
  simp [Matrix.mulVec, dotProduct, Fin.sum_univ_two] at h1
  linarith

end PyV.Props
