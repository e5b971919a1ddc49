import Verif.Model.Constraints

/-!
# Model of `Constraints.from_dict` and `Constraints.to_matrices` (`pyvallocation/utils/constraints.py`)
-/

namespace PyV.Con

open PyV

variable {K : Type*} [Field K] [LinearOrder K] [IsStrictOrderedRing K]

/-- One item of the dictionary, with a value of the kind its key calls for; `other` is any unrecognised key. -/
inductive Item (K : Type*) where
  | longOnly (b : Bool)
  | totalWeight (t : Option (PyFloat K))
  | bounds (b : Option (Bounds K))
  | relative (l : List (ℤ × ℤ × PyFloat K))
  | groups (l : List (String × List ℤ × PyFloat K × PyFloat K))
  | ineqRows (l : List (List K × PyFloat K))
  | eqRows (l : List (List K × PyFloat K))
  | other (key : String)

/-- The key of an item; field names of `Constraints` (constraints.py:46-52). -/
def Item.key : Item K → String
  | .longOnly _ => "long_only"
  | .totalWeight _ => "total_weight"
  | .bounds _ => "bounds"
  | .relative _ => "relative_bounds"
  | .groups _ => "group_constraints"
  | .ineqRows _ => "additional_G_h"
  | .eqRows _ => "additional_A_b"
  | .other k => k

/-- One keyword argument of `cls(**filtered)` set over what is there; an unrecognised key was filtered out. -/
def setItem (c : Spec K) : Item K → Spec K
  | .longOnly b => { c with longOnly := b }
  | .totalWeight t => { c with totalWeight := t }
  | .bounds b => { c with bounds := b }
  | .relative l => { c with relative := l }
  | .groups l => { c with groups := l }
  | .ineqRows l => { c with ineqRows := l }
  | .eqRows l => { c with eqRows := l }
  | .other _ => c

/-- `Constraints.from_dict` (constraints.py:54-63): defaults of the dataclass (constraints.py:46-52) overridden by the recognised
items. -/
def fromDict (d : List (Item K)) : Spec K := d.foldl setItem defaultSpec

/-- `Constraints.to_matrices` (constraints.py:65-86). -/
def toMatrices (nAssets : ℤ) (c : Spec K) : Except PyErr (Matrices nAssets.toNat K) := build nAssets c

end PyV.Con
