import Verif.Model.Py
import Mathlib.Analysis.Matrix.Spectrum

/-! # Model of `pyvallocation/utils/validation.py`

Eigenvalues are the exact ones (Mathlib's spectral theorem); `LinAlgError` from a non-converging `eigvalsh` is not modelled. -/

namespace PyV.Valid

open PyV Matrix

variable {N : ℕ}

/-- `la.eigvalsh(A)` reads only the lower triangle: the symmetric matrix it actually diagonalises. -/
def lowerSym (A : Matrix (Fin N) (Fin N) ℝ) : Matrix (Fin N) (Fin N) ℝ :=
  Matrix.of (fun i j => if j ≤ i then A i j else A j i)

theorem lowerSym_isHermitian (A : Matrix (Fin N) (Fin N) ℝ) : (lowerSym A).IsHermitian := by
  ext i j
  rw [conjTranspose_apply, star_trivial]
  simp only [lowerSym, of_apply]
  rcases lt_trichotomy i j with h | h | h
  · rw [if_pos h.le, if_neg (not_le.mpr h)]
  · subst h; rfl
  · rw [if_neg (not_le.mpr h), if_pos h.le]

/-- `la.eigvalsh` (validation.py:24, 47); the order of the eigenvalues is irrelevant to the code. -/
noncomputable def eigvalsh (A : Matrix (Fin N) (Fin N) ℝ) : Fin N → ℝ := (lowerSym_isHermitian A).eigenvalues

/-- `is_psd` (validation.py:9-27): `np.allclose(A, A.T, atol=tol)` (`rtol = 1e-5`) and `eigvalsh(A) >= -tol`. -/
def isPsd (A : Matrix (Fin N) (Fin N) ℝ) (tol : ℝ) : Prop :=
  (∀ i j, |A i j - A j i| ≤ tol + 1 / 10 ^ 5 * |A j i|) ∧ ∀ i, -tol ≤ eigvalsh A i

/-- `np.min(eigenvalues)` (validation.py:48). -/
noncomputable def minEig (A : Matrix (Fin N) (Fin N) ℝ) : ℝ := ⨅ i, eigvalsh A i

/-- `ensure_psd_matrix` (validation.py:30-62) for a square two-dimensional array; `jitter = 1e-8` by default. -/
noncomputable def ensurePsd (A : Matrix (Fin N) (Fin N) ℝ) (jitter : ℝ) : Except PyErr (Matrix (Fin N) (Fin N) ℝ) := by
  classical
  exact
    let M : Matrix (Fin N) (Fin N) ℝ := (1 / 2 : ℝ) • (A + Aᵀ)
    if isPsd M jitter then .ok M
    else
      let k := max 0 (-(minEig M)) + jitter
      let P := M + k • (1 : Matrix (Fin N) (Fin N) ℝ)
      if isPsd P jitter then .ok P
      else
        let P2 := M + (|minEig M| + 1 / 10 ^ 6) • (1 : Matrix (Fin N) (Fin N) ℝ)
        if isPsd P2 jitter then .ok P2 else .error .valueError

/-- `jitter: float = 1e-8` (validation.py:30). -/
noncomputable def defaultJitter : ℝ := 1 / 10 ^ 8

/-- `check_weights_sum_to_one` (validation.py:65-75): `np.isclose(sum, 1.0, atol=tol)` with `rtol = 1e-5`. -/
def sumToOne {T : ℕ} (w : Fin T → ℝ) (tol : ℝ) : Prop := |∑ t, w t - 1| ≤ tol + 1 / 10 ^ 5 * |1|

/-- `check_non_negativity` (validation.py:78-88). -/
def nonNeg {T : ℕ} (w : Fin T → ℝ) (tol : ℝ) : Prop := ∀ t, -tol ≤ w t

end PyV.Valid
