import Verif.Model.Discrete
import Verif.Model.PyFloat

/-!
# Validation of `DiscreteAllocationInput` on floats that need not be finite

The constructor of `Verif/Model/Discrete.lean` again, now with NaN and infinities among weights, prices and the amount.
-/

namespace PyV.Discrete

open PyV

variable {K : Type*} [Field K] [LinearOrder K]

/-- One aligned row of the kept assets. -/
structure RowF (K : Type*) where
  name : String
  w : PyFloat K
  price : PyFloat K
  lot : ℤ
  deriving DecidableEq

/-- `np.isclose(x, 0.0)`: false for NaN and infinities (discrete_allocation.py:105). -/
def isclose0F : PyFloat K → Bool
  | .fin x => isclose0 x
  | _ => false

/-- IEEE addition. -/
def addF : PyFloat K → PyFloat K → PyFloat K
  | .fin x, .fin y => .fin (x + y)
  | .nan, _ => .nan
  | _, .nan => .nan
  | .posInf, .negInf => .nan
  | .negInf, .posInf => .nan
  | .posInf, _ => .posInf
  | _, .posInf => .posInf
  | .negInf, _ => .negInf
  | _, .negInf => .negInf

/-- `Series.sum()` skips NaN entries (discrete_allocation.py:120). -/
def sumF (l : List (PyFloat K)) : PyFloat K := (l.filter (fun x => decide (x ≠ .nan))).foldr addF (.fin 0)

/-- `w / total_weight` for a finite non-zero total (discrete_allocation.py:123). -/
def divF (x : PyFloat K) (t : K) : PyFloat K :=
  match x with
  | .fin y => .fin (y / t)
  | .nan => .nan
  | .posInf => if 0 < t then .posInf else .negInf
  | .negInf => if 0 < t then .negInf else .posInf

/-- Alignment of prices and lot sizes (discrete_allocation.py:111, 118). -/
def alignF (kept prices : List (String × PyFloat K)) (lots : Option (List (String × ℤ))) : List (RowF K) :=
  kept.map fun p => ⟨p.1, p.2, (prices.lookup p.1).getD .nan, lotOf lots p.1⟩

/-- Check of the total weight and normalisation (discrete_allocation.py:120-128): the rows stored in the instance, and `_has_shorts`. -/
def normaliseF (rows : List (RowF K)) (hs : Bool) : Except PyErr (List (RowF K) × Bool) :=
  match sumF (rows.map RowF.w) with
  | .fin t => if t ≤ 0 then .error .valueError else .ok (rows.map (fun r => { r with w := divF r.w t }), hs)
  | _ => .error .valueError

/-- `DiscreteAllocationInput.__post_init__` (discrete_allocation.py:91-128), in source order; comparisons with NaN are false. Lot sizes are
integers. -/
def validateF (weights prices : List (String × PyFloat K)) (total : PyFloat K) (lots : Option (List (String × ℤ))) :
    Except PyErr (List (RowF K) × Bool) :=
  if weights.isEmpty then .error .valueError
  else if prices.isEmpty then .error .valueError
  else if weights.any (fun p => (prices.lookup p.1).isNone) then .error .valueError
  else
    let kept := weights.filter (fun p => !isclose0F p.2)
    if kept.isEmpty then .error .valueError
    else
      let rows := alignF kept prices lots
      if rows.any (fun r => PyFloat.le r.price (.fin 0)) then .error .valueError
      else if PyFloat.le total (.fin 0) then .error .valueError
      else if rows.any (fun r => decide (r.lot ≤ 0)) then .error .valueError
      else normaliseF rows (kept.any (fun p => PyFloat.lt p.2 (.fin 0)))

end PyV.Discrete
