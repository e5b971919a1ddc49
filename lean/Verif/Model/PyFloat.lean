import Verif.Model.Py
import Mathlib.Algebra.Order.Field.Basic

/-!
# Python floats with NaN and infinities

Used for the functions that test finiteness.  `K` is the exact arithmetic standing for finite floats.
-/

namespace PyV

/-- A Python/NumPy float: a finite value, NaN, or an infinity. -/
inductive PyFloat (K : Type*) where
  | fin (x : K)
  | nan
  | posInf
  | negInf
  deriving DecidableEq

namespace PyFloat

variable {K : Type*}

/-- `np.isfinite`. -/
def isFinite : PyFloat K → Bool
  | .fin _ => true
  | _ => false

/-- IEEE `<`: false whenever an operand is NaN. -/
def lt [LinearOrder K] : PyFloat K → PyFloat K → Bool
  | .fin x, .fin y => decide (x < y)
  | .fin _, .posInf => true
  | .negInf, .fin _ => true
  | .negInf, .posInf => true
  | _, _ => false

/-- IEEE `<=`: false whenever an operand is NaN. -/
def le [LinearOrder K] : PyFloat K → PyFloat K → Bool
  | .fin x, .fin y => decide (x ≤ y)
  | .fin _, .posInf => true
  | .negInf, .fin _ => true
  | .negInf, .posInf => true
  | .posInf, .posInf => true
  | .negInf, .negInf => true
  | _, _ => false

/-- The finite value, `0` for the others (only used after a finiteness test). -/
def val [Zero K] : PyFloat K → K
  | .fin x => x
  | _ => 0

end PyFloat

/-- Run a fallible function over a list, stopping at the first exception (a Python `for` loop that appends). -/
def mapE {α β : Type*} (f : α → Except PyErr β) : List α → Except PyErr (List β)
  | [] => .ok []
  | a :: l =>
    match f a with
    | .error e => .error e
    | .ok b =>
      match mapE f l with
      | .error e => .error e
      | .ok bs => .ok (b :: bs)

end PyV
