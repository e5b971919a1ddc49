import Mathlib.Data.Rat.Floor
import Mathlib.Algebra.Order.Field.Basic
import Mathlib.Data.Fintype.Basic
import Mathlib.Algebra.BigOperators.Fin

/-!
# Python conventions shared by all model files

Exceptions are values (`Except PyErr α`).  Only the exception *class* is kept; messages are not modelled.
-/

namespace PyV

/-- The exception classes raised by the modelled code. -/
inductive PyErr where
  | valueError
  | typeError
  | keyError
  | indexError
  | runtimeError
  | zeroDivision
  | attributeError
  /-- `InfeasibleOptimizationError`, a subclass of `RuntimeError` (optimization.py:87). -/
  | infeasible
  | other
  deriving DecidableEq, Repr

/-- `np.isclose(x, 0.0)` on finite floats: `|x - 0| <= atol + rtol*|0|` with the default `atol = 1e-8`
(numpy default arguments; used at discrete_allocation.py:105). -/
def isclose0 {K : Type*} [Field K] [LinearOrder K] (x : K) : Bool := decide (|x| ≤ 1 / 10 ^ 8)

/-- `s.idxmax()` / `np.argmax(f)`: the first position whose value is maximal (`none` only for an empty vector). -/
def firstArgmax {n : ℕ} {K : Type*} [LinearOrder K] (f : Fin n → K) : Option (Fin n) :=
  (List.finRange n).find? (fun i => decide (∀ j, f j ≤ f i))

/-- `np.argmin(f)`: the first position whose value is minimal (`none` only for an empty vector). -/
def firstArgmin {n : ℕ} {K : Type*} [LinearOrder K] (f : Fin n → K) : Option (Fin n) :=
  (List.finRange n).find? (fun i => decide (∀ j, f i ≤ f j))

end PyV
