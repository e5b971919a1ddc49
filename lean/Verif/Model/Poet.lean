import Verif.Model.Glasso

/-! # Model of the factor decomposition of `factor_covariance_poet` (`return_decomp=True`) -/

namespace PyV.Mom

open PyV PyV.Valid Matrix

variable {N T : ℕ}

/-- `order = np.argsort(eigvals)[::-1]` applied to eigenvalues and eigenvector columns (moments.py:523-526). -/
def descending (argsort : (Fin N → ℝ) → Equiv.Perm (Fin N)) (eigh : Eigh N) : Eigh N := fun A =>
  (fun l => (eigh A).1 (argsort (eigh A).1 (Fin.rev l)), Matrix.of (fun i l => (eigh A).2 i (argsort (eigh A).1 (Fin.rev l))))

/-- `X_scaled` (moments.py:515-521). -/
noncomputable def poetScaled (standardize : Bool) (R : Fin T → Fin N → ℝ) : Fin T → Fin N → ℝ := fun t i =>
  centred R t i / poetScale standardize (centred R) i

/-- Column `l` of the eigenvector matrix, or eigenvalue `l`, for `l` below the number of assets. -/
def atCol {α : Type} (z : α) (f : Fin N → α) (l : ℕ) : α := if h : l < N then f ⟨l, h⟩ else z

/-- The three outputs: the covariance, the loadings `B_out` and the factor scores `F_out`, with `k` columns each. -/
structure PoetOut (T N : ℕ) where
  k : ℕ
  cov : Matrix (Fin N) (Fin N) ℝ
  loadings : Matrix (Fin N) (Fin k) ℝ
  scores : Matrix (Fin T) (Fin k) ℝ

/-- `B_out = scale_diag @ B_scaled` (moments.py:546-548, 570). -/
noncomputable def poetLoadings (k : ℕ) (scale vals : Fin N → ℝ) (vecs : Matrix (Fin N) (Fin N) ℝ) : Matrix (Fin N) (Fin k) ℝ :=
  Matrix.of (fun i l => scale i * (atCol 0 (vecs i) l * Real.sqrt (max (atCol 0 vals l) 0)))

/-- `F_out = X_scaled @ loadings` (moments.py:571). -/
noncomputable def poetScores (k : ℕ) (X : Fin T → Fin N → ℝ) (vecs : Matrix (Fin N) (Fin N) ℝ) : Matrix (Fin T) (Fin k) ℝ :=
  Matrix.of (fun t l => ∑ i, X t i * atCol 0 (vecs i) l)

/-- `factor_covariance_poet(..., return_decomp=True)` (moments.py:508-615), without the labels of the frames. -/
noncomputable def poetDecomp (eigh : Eigh N) (argsort : (Fin N → ℝ) → Equiv.Perm (Fin N)) (R : Fin T → Fin N → ℝ) (k : PoetK)
    (thresh : PoetThresh) (standardize : Bool) : Except PyErr (PoetOut T N) :=
  let X := poetScaled standardize R
  let e := descending argsort eigh (npCov1 X)
  match poetSelect e.1 k with
  | .error err => .error err
  | .ok ks =>
    match poet (descending argsort eigh) R k thresh standardize with
    | .error err => .error err
    | .ok cov => .ok ⟨ks, cov, poetLoadings ks (poetScale standardize (centred R)) e.1 e.2, poetScores ks X e.2⟩

end PyV.Mom
