import Mathlib.LinearAlgebra.Matrix.PosDef
import Mathlib.LinearAlgebra.Matrix.Trace
import Mathlib.Analysis.SpecialFunctions.Exp
import Mathlib.Analysis.SpecialFunctions.Pow.Real
import Mathlib.Analysis.SpecialFunctions.Trigonometric.Basic

/-! # Specification vocabulary for the Bayesian module, independent of the model -/

namespace PyV.Spec.Bayes

open Matrix

variable {n T : ℕ}

/-- `x' A x`. -/
def quad (A : Matrix (Fin n) (Fin n) ℝ) (x : Fin n → ℝ) : ℝ := x ⬝ᵥ (A *ᵥ x)

/-- Sample mean of `T` rows. -/
noncomputable def sampleMean (X : Fin T → Fin n → ℝ) : Fin n → ℝ := fun i => (∑ t, X t i) / T

/-- Sample covariance with divisor `T`. -/
noncomputable def sampleCov (X : Fin T → Fin n → ℝ) : Matrix (Fin n) (Fin n) ℝ :=
  Matrix.of (fun i j => (∑ t, (X t i - sampleMean X i) * (X t j - sampleMean X j)) / T)

/-- Density at `x` of the normal law with mean `mu` and precision matrix `P` (inverse covariance). -/
noncomputable def normalDensity (mu : Fin n → ℝ) (P : Matrix (Fin n) (Fin n) ℝ) (x : Fin n → ℝ) : ℝ :=
  (2 * Real.pi) ^ (-(n : ℝ) / 2) * P.det ^ (1 / 2 : ℝ) * Real.exp (-(quad P (x - mu)) / 2)

/-- Un-normalised normal-inverse-Wishart density at mean `mu` and precision `P`:
`mu | Sigma ~ N(m, Sigma/t)` and `Sigma⁻¹ ~ Wishart(nu, S⁻¹/nu)`, that is
`|P|^(1/2) exp(-t/2 (mu-m)'P(mu-m)) * |P|^((nu-n-1)/2) exp(-nu/2 tr(S P))`. -/
noncomputable def niwKernel (t nu : ℝ) (m : Fin n → ℝ) (S : Matrix (Fin n) (Fin n) ℝ) (mu : Fin n → ℝ)
    (P : Matrix (Fin n) (Fin n) ℝ) : ℝ :=
  (P.det ^ (1 / 2 : ℝ) * Real.exp (-(t / 2) * quad P (mu - m))) *
    (P.det ^ ((nu - n - 1) / 2) * Real.exp (-(nu / 2) * (S * P).trace))

end PyV.Spec.Bayes
