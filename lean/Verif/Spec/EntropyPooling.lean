import Verif.Spec.Prob
import Mathlib.Analysis.SpecialFunctions.Log.Basic

/-! # Relative entropy and what it means to satisfy views -/

namespace PyV.Spec

variable {S : ℕ}

/-- Kullback–Leibler divergence (with `0 log 0 = 0`). -/
noncomputable def kl (q p : Fin S → ℝ) : ℝ := ∑ s, q s * (Real.log (q s) - Real.log (p s))

/-- `q` meets the equality views `A q = b` and the inequality views `G q ≤ h`. -/
def MeetsViews {Ke Ki : ℕ} (A : Fin Ke → Fin S → ℝ) (b : Fin Ke → ℝ) (G : Fin Ki → Fin S → ℝ) (h : Fin Ki → ℝ)
    (q : Fin S → ℝ) : Prop :=
  (∀ k, ∑ s, A k s * q s = b k) ∧ (∀ k, ∑ s, G k s * q s ≤ h k)

/-- A feasible set for multipliers: coordinates flagged by `lb` are non-negative. -/
def box {κ : Type} (lb : κ → Bool) : Set (κ → ℝ) := {l | ∀ k, lb k = true → 0 ≤ l k}

end PyV.Spec
