import Verif.Model.Wrapper
import Verif.Spec.Optimization
import Verif.Spec.Constraints

/-! # What the methods of `PortfolioWrapper` are asked to do -/

namespace PyV.Spec.Api

open PyV PyV.Api

/-- The specification a call of a wrapper's method has to respect: the one passed to the method, or else the one the wrapper was
built with (which, by C56, must exclude at least one weight vector). -/
def InForce {N : ℕ} (w : Wrapper N) (perCall : Option (Con.Spec ℝ)) (c : Con.Spec ℝ) : Prop :=
  (perCall = some c ∧ Spec.Con.Valid (N : ℤ) c) ∨
    (perCall = none ∧ Con.build (N : ℤ) c = .ok w.mats ∧ ∃ x : Fin N → ℝ, ¬ Spec.Con.Satisfies c x)

/-- The initial weights, impact costs and proportional costs of a call, with one entry per asset: those passed to the method, or
else those of the wrapper. -/
def Trading {N : ℕ} (w : Wrapper N) (perCall : Option Costs) (w0 imp prop : Option (Fin N → ℝ)) : Prop :=
  (∃ c v, perCall = some c ∧ w0 = some v ∧ c = ⟨List.ofFn v, imp.map List.ofFn, prop.map List.ofFn⟩) ∨
    (perCall = none ∧ w.costs = ⟨w0.map List.ofFn, imp.map List.ofFn, prop.map List.ofFn⟩)

/-- Variance, plus the quadratic impact of trading when initial weights and impact costs are both given. -/
def varianceCost {N : ℕ} (C : Fin N → Fin N → ℝ) (w0 imp : Option (Fin N → ℝ)) (x : Fin N → ℝ) : ℝ :=
  Opt.quad C x + ∑ i, (imp.getD 0) i * (x i - (w0.getD x) i) ^ 2

/-- A risk measure, plus the proportional cost of trading when initial weights and proportional costs are both given. -/
def turnoverCost {N : ℕ} (risk : (Fin N → ℝ) → ℝ) (w0 prop : Option (Fin N → ℝ)) (x : Fin N → ℝ) : ℝ :=
  risk x + ∑ i, (prop.getD 0) i * |x i - (w0.getD x) i|

end PyV.Spec.Api
