import Verif.Lemmas.Psd

/-! # Property C45: the PSD guard -/

namespace PyV.Props

open Matrix PyV PyV.Valid PyV.Psd

variable {N : ℕ}

/-- **C45** For every square matrix and every tolerance `jitter ≥ 0` the guard succeeds; its result is symmetric, PSD up
to the tolerance (`x'Cx ≥ -jitter·x'x` for every `x`), and is the symmetrised input plus a non-negative multiple of the
identity (off-diagonal entries are those of the symmetrised input; all variances move up by the same amount). -/
theorem C45_guard_result (A : Matrix (Fin N) (Fin N) ℝ) {jitter : ℝ} (hj : 0 ≤ jitter) :
    ∃ C, ensurePsd A jitter = .ok C ∧ Cᵀ = C ∧ (∀ x : Fin N → ℝ, -jitter * (x ⬝ᵥ x) ≤ x ⬝ᵥ (C *ᵥ x)) ∧
      ∃ k : ℝ, 0 ≤ k ∧ ∀ i j, C i j = (A i j + A j i) / 2 + (if i = j then k else 0) := by
  obtain ⟨k, hk, e, hc⟩ := ensurePsd_spec A hj
  refine ⟨_, e, ?_, ?_, k, hk, ?_⟩
  · rw [transpose_add, half_symm, transpose_smul, transpose_one]
  · intro x
    rcases hc with ⟨rfl, h⟩ | ⟨-, -, h⟩
    · simpa using h x
    · have := h x
      have := mul_nonneg hj (dot_self_nonneg x)
      linarith
  · intro i j
    simp only [Matrix.add_apply, Matrix.smul_apply, transpose_apply, smul_eq_mul, Matrix.one_apply, mul_ite, mul_one,
      mul_zero]
    ring

/-- **C45** A symmetric PSD input is returned unchanged. -/
theorem C45_guard_identity {A : Matrix (Fin N) (Fin N) ℝ} (h : A.PosSemidef) {jitter : ℝ} (hj : 0 ≤ jitter) :
    ensurePsd A jitter = .ok A := ensurePsd_of_psd h hj

/-- **C45** Any input that is changed beyond symmetrisation comes out positive definite by a margin `jitter`. -/
theorem C45_guard_repair (A : Matrix (Fin N) (Fin N) ℝ) {jitter : ℝ} (hj : 0 < jitter) {C : Matrix (Fin N) (Fin N) ℝ}
    (h : ensurePsd A jitter = .ok C) (hne : C ≠ (1 / 2 : ℝ) • (A + Aᵀ)) : C.PosDef := by
  obtain ⟨k, hk, e, hc⟩ := ensurePsd_spec A hj.le
  rw [h] at e
  injection e with e
  rcases hc with ⟨rfl, -⟩ | ⟨-, -, hq⟩
  · exact absurd (by rw [e]; simp) hne
  · rw [e]
    refine .of_dotProduct_mulVec_pos (herm_of_symm ?_) (fun x hx => ?_)
    · rw [transpose_add, half_symm, transpose_smul, transpose_one]
    · have h1 := hq x
      have h2 : 0 < x ⬝ᵥ x := by
        refine lt_of_le_of_ne (dot_self_nonneg x) (fun hc => hx ?_)
        exact dotProduct_self_eq_zero.mp hc.symm
      have h3 := mul_pos hj h2
      simpa using lt_of_lt_of_le h3 h1

/-- **C45** (sharpness) The guard's tolerance is real: with the default jitter the 1×1 matrix `[-1e-9]` is returned as is,
so the result need not be PSD exactly. -/
theorem C45_tolerance_gap : ensurePsd (Matrix.of (fun _ _ : Fin 1 => (-1 / 10 ^ 9 : ℝ))) defaultJitter =
      .ok (Matrix.of (fun _ _ => -1 / 10 ^ 9)) ∧
    ¬ (Matrix.of (fun _ _ : Fin 1 => (-1 / 10 ^ 9 : ℝ))).PosSemidef := by
  set A : Matrix (Fin 1) (Fin 1) ℝ := Matrix.of (fun _ _ : Fin 1 => (-1 / 10 ^ 9 : ℝ)) with hA
  have hs : Aᵀ = A := by ext i j; rfl
  constructor
  · obtain ⟨k, -, e, hc⟩ := ensurePsd_spec A (jitter := defaultJitter) (by norm_num [defaultJitter])
    rw [half_of_symm hs] at *
    rcases hc with ⟨rfl, -⟩ | ⟨-, hn, -⟩
    · rw [e]; simp
    · refine absurd (fun x => ?_) hn
      have : x ⬝ᵥ (A *ᵥ x) = -1 / 10 ^ 9 * (x ⬝ᵥ x) := by
        simp [dotProduct, mulVec, hA]; ring
      rw [this]
      apply mul_le_mul_of_nonneg_right _ (dot_self_nonneg x)
      norm_num [defaultJitter]
  · intro h
    have := quad_nonneg h (fun _ => 1)
    simp [dotProduct, mulVec, hA] at this
    norm_num at this

/-- Non-vacuity of `C45_guard_repair`: the indefinite matrix `[-1]` is repaired to a positive definite one. -/
example : ∃ C, ensurePsd (Matrix.of (fun _ _ : Fin 1 => (-1 : ℝ))) defaultJitter = .ok C ∧ C.PosDef := by
  obtain ⟨C, hC, hs, hq, -⟩ := C45_guard_result (Matrix.of (fun _ _ : Fin 1 => (-1 : ℝ))) (jitter := defaultJitter)
    (by norm_num [defaultJitter])
  refine ⟨C, hC, C45_guard_repair _ (by norm_num [defaultJitter]) hC ?_⟩
  rintro rfl
  have := hq (fun _ => 1)
  simp [dotProduct, mulVec, defaultJitter] at this
  norm_num at this

end PyV.Props
