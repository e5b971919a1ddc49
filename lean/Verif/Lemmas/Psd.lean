import Verif.Model.Validation
import Mathlib.Analysis.Matrix.PosDef
import Mathlib.Algebra.Order.Star.Real

namespace PyV.Psd

open Matrix PyV.Valid

variable {N : ℕ}

theorem quad_nonneg {A : Matrix (Fin N) (Fin N) ℝ} (h : A.PosSemidef) (x : Fin N → ℝ) : 0 ≤ x ⬝ᵥ (A *ᵥ x) := by
  simpa using h.dotProduct_mulVec_nonneg x

theorem symm_of_psd {A : Matrix (Fin N) (Fin N) ℝ} (h : A.PosSemidef) : Aᵀ = A := by
  have := h.isHermitian
  rw [IsHermitian, conjTranspose_eq_transpose_of_trivial] at this
  exact this

theorem herm_of_symm {A : Matrix (Fin N) (Fin N) ℝ} (h : Aᵀ = A) : A.IsHermitian := by
  rw [IsHermitian, conjTranspose_eq_transpose_of_trivial]; exact h

theorem psd_of {A : Matrix (Fin N) (Fin N) ℝ} (hs : Aᵀ = A) (h : ∀ x : Fin N → ℝ, 0 ≤ x ⬝ᵥ (A *ᵥ x)) : A.PosSemidef :=
  .of_dotProduct_mulVec_nonneg (herm_of_symm hs) (fun x => by simpa using h x)

theorem eigen_ge_iff {A : Matrix (Fin N) (Fin N) ℝ} (hA : A.IsHermitian) (c : ℝ) :
    (∀ i, c ≤ hA.eigenvalues i) ↔ (A - c • (1 : Matrix (Fin N) (Fin N) ℝ)).PosSemidef := by
  have hs : Aᵀ = A := by
    rw [IsHermitian, conjTranspose_eq_transpose_of_trivial] at hA; exact hA
  have hB : (A - c • (1 : Matrix (Fin N) (Fin N) ℝ)).IsHermitian := herm_of_symm (by simp [hs])
  constructor
  · intro h
    rw [hB.posSemidef_iff_eigenvalues_nonneg]
    intro i
    have h1 := hB.eigenvalues_mem_spectrum_real i
    have h2 : hB.eigenvalues i + c ∈ spectrum ℝ A := by
      have e : A - c • (1 : Matrix (Fin N) (Fin N) ℝ) = -(algebraMap ℝ _ c - A) := by
        rw [Algebra.algebraMap_eq_smul_one]; abel
      rw [spectrum.mem_iff] at h1 ⊢
      intro hu; apply h1
      convert hu using 1
      rw [map_add, Algebra.algebraMap_eq_smul_one c]; abel
    rw [hA.spectrum_real_eq_range_eigenvalues] at h2
    obtain ⟨j, hj⟩ := h2
    have := h j
    show (0:ℝ) ≤ _
    linarith
  · intro h i
    have h1 := hA.eigenvalues_mem_spectrum_real i
    have h2 : hA.eigenvalues i - c ∈ spectrum ℝ (A - c • (1 : Matrix (Fin N) (Fin N) ℝ)) := by
      rw [spectrum.mem_iff] at h1 ⊢
      intro hu; apply h1
      convert hu using 1
      rw [map_sub, Algebra.algebraMap_eq_smul_one c]; abel
    rw [hB.spectrum_real_eq_range_eigenvalues] at h2
    obtain ⟨j, hj⟩ := h2
    have := h.eigenvalues_nonneg j
    have e : h.1.eigenvalues j = hB.eigenvalues j := rfl
    rw [e, hj] at this
    linarith

theorem lowerSym_of_symm {A : Matrix (Fin N) (Fin N) ℝ} (h : Aᵀ = A) : lowerSym A = A := by
  ext i j
  simp only [lowerSym, of_apply]
  split
  · rfl
  · have := congrFun (congrFun h i) j
    simpa [transpose_apply] using this

theorem eigvalsh_ge_iff {A : Matrix (Fin N) (Fin N) ℝ} (h : Aᵀ = A) (c : ℝ) :
    (∀ i, c ≤ eigvalsh A i) ↔ ∀ x : Fin N → ℝ, c * (x ⬝ᵥ x) ≤ x ⬝ᵥ (A *ᵥ x) := by
  unfold eigvalsh
  rw [eigen_ge_iff (lowerSym_isHermitian A) c, lowerSym_of_symm h]
  have e : ∀ x : Fin N → ℝ, x ⬝ᵥ ((A - c • (1 : Matrix (Fin N) (Fin N) ℝ)) *ᵥ x) = x ⬝ᵥ (A *ᵥ x) - c * (x ⬝ᵥ x) := by
    intro x
    rw [sub_mulVec, dotProduct_sub, smul_mulVec, one_mulVec, dotProduct_smul, smul_eq_mul]
  constructor
  · intro hp x
    have := quad_nonneg hp x
    rw [e] at this; linarith
  · intro hx
    refine psd_of (by simp [h]) (fun x => ?_)
    rw [e]; have := hx x; linarith

theorem isPsd_of_symm {A : Matrix (Fin N) (Fin N) ℝ} (h : Aᵀ = A) {tol : ℝ} (ht : 0 ≤ tol) :
    isPsd A tol ↔ ∀ x : Fin N → ℝ, -tol * (x ⬝ᵥ x) ≤ x ⬝ᵥ (A *ᵥ x) := by
  unfold isPsd
  rw [eigvalsh_ge_iff h]
  constructor
  · exact fun h => h.2
  · intro hx
    refine ⟨fun i j => ?_, hx⟩
    have : A j i = A i j := by
      have := congrFun (congrFun h i) j
      simpa [transpose_apply] using this
    rw [this, sub_self, abs_zero]
    positivity

theorem half_symm (A : Matrix (Fin N) (Fin N) ℝ) : ((1 / 2 : ℝ) • (A + Aᵀ))ᵀ = (1 / 2 : ℝ) • (A + Aᵀ) := by
  rw [transpose_smul, transpose_add, transpose_transpose, add_comm]

theorem half_of_symm {A : Matrix (Fin N) (Fin N) ℝ} (h : Aᵀ = A) : (1 / 2 : ℝ) • (A + Aᵀ) = A := by
  rw [h, ← two_smul ℝ A, smul_smul]; norm_num

theorem minEig_le (A : Matrix (Fin N) (Fin N) ℝ) (i : Fin N) : minEig A ≤ eigvalsh A i :=
  ciInf_le (Set.finite_range _).bddBelow i

theorem quad_add_smul_one (A : Matrix (Fin N) (Fin N) ℝ) (k : ℝ) (x : Fin N → ℝ) :
    x ⬝ᵥ ((A + k • (1 : Matrix (Fin N) (Fin N) ℝ)) *ᵥ x) = x ⬝ᵥ (A *ᵥ x) + k * (x ⬝ᵥ x) := by
  rw [add_mulVec, dotProduct_add, smul_mulVec, one_mulVec, dotProduct_smul, smul_eq_mul]

theorem dot_self_nonneg (x : Fin N → ℝ) : 0 ≤ x ⬝ᵥ x := Finset.sum_nonneg (fun _ _ => mul_self_nonneg _)

/-- Complete description of the guard. -/
theorem ensurePsd_spec (A : Matrix (Fin N) (Fin N) ℝ) {jitter : ℝ} (hj : 0 ≤ jitter) :
    ∃ k : ℝ, 0 ≤ k ∧ ensurePsd A jitter = .ok ((1 / 2 : ℝ) • (A + Aᵀ) + k • 1) ∧
      ((k = 0 ∧ ∀ x : Fin N → ℝ, -jitter * (x ⬝ᵥ x) ≤ x ⬝ᵥ (((1 / 2 : ℝ) • (A + Aᵀ)) *ᵥ x)) ∨
       (k = max 0 (-(minEig ((1 / 2 : ℝ) • (A + Aᵀ)))) + jitter ∧
        (¬ ∀ x : Fin N → ℝ, -jitter * (x ⬝ᵥ x) ≤ x ⬝ᵥ (((1 / 2 : ℝ) • (A + Aᵀ)) *ᵥ x)) ∧
        ∀ x : Fin N → ℝ, jitter * (x ⬝ᵥ x) ≤ x ⬝ᵥ (((1 / 2 : ℝ) • (A + Aᵀ) + k • 1) *ᵥ x))) := by
  unfold ensurePsd
  set M := (1 / 2 : ℝ) • (A + Aᵀ) with hM
  have hs : Mᵀ = M := half_symm A
  simp only
  by_cases h1 : isPsd M jitter
  · rw [if_pos h1]
    exact ⟨0, le_rfl, by simp, Or.inl ⟨rfl, (isPsd_of_symm hs hj).mp h1⟩⟩
  · rw [if_neg h1]
    set k := max 0 (-(minEig M)) + jitter with hk
    have hk0 : 0 ≤ k := add_nonneg (le_max_left _ _) hj
    have hq : ∀ x : Fin N → ℝ, jitter * (x ⬝ᵥ x) ≤ x ⬝ᵥ ((M + k • 1) *ᵥ x) := by
      intro x
      have := (eigvalsh_ge_iff hs (minEig M)).mp (minEig_le M) x
      rw [quad_add_smul_one]
      have hm : -(minEig M) ≤ max 0 (-(minEig M)) := le_max_right _ _
      have := mul_le_mul_of_nonneg_right hm (dot_self_nonneg x)
      rw [hk]; nlinarith
    have h2 : isPsd (M + k • 1) jitter := by
      rw [isPsd_of_symm (by simp [hs]) hj]
      intro x
      have := hq x
      have := mul_nonneg hj (dot_self_nonneg x)
      linarith
    rw [if_pos h2]
    refine ⟨k, hk0, rfl, Or.inr ⟨rfl, ?_, hq⟩⟩
    rwa [← isPsd_of_symm hs hj]

/-- The guard is the identity on PSD matrices. -/
theorem ensurePsd_of_psd {A : Matrix (Fin N) (Fin N) ℝ} (h : A.PosSemidef) {jitter : ℝ} (hj : 0 ≤ jitter) :
    ensurePsd A jitter = .ok A := by
  obtain ⟨k, -, e, hc⟩ := ensurePsd_spec A hj
  have hs := symm_of_psd h
  rw [half_of_symm hs] at *
  have hall : ∀ x : Fin N → ℝ, -jitter * (x ⬝ᵥ x) ≤ x ⬝ᵥ (A *ᵥ x) := by
    intro x
    have := quad_nonneg h x
    have := mul_nonneg hj (dot_self_nonneg x)
    linarith
  rcases hc with ⟨rfl, -⟩ | ⟨-, hn, -⟩
  · rw [e]; simp
  · exact absurd hall hn

end PyV.Psd
