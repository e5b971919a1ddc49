import Mathlib.Algebra.BigOperators.Fin
import Mathlib.Algebra.Order.Field.Basic
import Mathlib.Algebra.Order.BigOperators.Group.Finset

/-! # Probability vectors on finitely many scenarios -/

namespace PyV.Spec

variable {K : Type*} [Field K] [LinearOrder K] [IsStrictOrderedRing K] {T : ℕ}

/-- A probability vector. -/
structure IsProb (p : Fin T → K) : Prop where
  nonneg : ∀ t, 0 ≤ p t
  sum : ∑ t, p t = 1

/-- Probability of a set of scenarios. -/
def prob (p : Fin T → K) (E : Fin T → Prop) [DecidablePred E] : K := ∑ t, if E t then p t else 0

/-- Expectation. -/
def expect (p : Fin T → K) (x : Fin T → K) : K := ∑ t, p t * x t

end PyV.Spec
