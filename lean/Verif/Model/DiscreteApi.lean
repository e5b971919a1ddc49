import Verif.Model.Discrete

/-! # Model of the keyword options of `discretize_weights` (`pyvallocation/discrete_allocation.py`) -/

namespace PyV.Discrete

open PyV

variable {K : Type*} [Field K] [LinearOrder K] [IsStrictOrderedRing K] [FloorRing K]

/-- Keyword arguments handed to `allocate_mip` (discrete_allocation.py:333-338): those of its signature that are given, and the names of
others.  Values of the wrong type are outside the types; `solver_options` is only passed on to SciPy. -/
structure MipOptions (K : Type*) where
  cashPenalty : Option K := none
  maxCash : Option (Option K) := none
  solverOptions : Bool := false
  others : List String := []

/-- Keyword arguments of `discretize_weights` beyond its own (`**kwargs`, discrete_allocation.py:460): the options of `allocate_greedy`
(discrete_allocation.py:201-207), those of `allocate_mip`, and other names. -/
structure Options (K : Type*) where
  maxIterations : Option (Option ℤ) := none
  fallbackMode : Option (Option String) := none
  fallbackKwargs : Option (Option (MipOptions K)) := none
  mip : MipOptions K := {}

/-- `mode = (fallback_mode or "none").lower()` and its test (discrete_allocation.py:216-218). -/
def parseFallback (s : Option String) : Except PyErr Mode :=
  let t := (if s.getD "" = "" then "none" else s.getD "").toLower
  if t = "auto" then .ok .auto
  else if t = "milp" then .ok .milp
  else if t = "none" then .ok .none
  else .error .valueError

/-- `allocate_mip(inputs, **kwargs)` (discrete_allocation.py:333-338, 356-450): unknown keyword names are a `TypeError`.  `solve` is SciPy's
answer for a cash penalty and a cash limit. -/
def callMip (solve : (inp : Input K) → K → Option K → Option (MipPoint K inp.n)) (inp : Input K) (o : MipOptions K) : Except PyErr (Result K) :=
  if o.others ≠ [] then .error .typeError
  else allocateMip inp (solve inp (o.cashPenalty.getD 1) (o.maxCash.getD none))

/-- `allocate_greedy(inputs, **kwargs)` (discrete_allocation.py:201-330): unknown keyword names are a `TypeError`. -/
def callGreedy (sortBy : (inp : Input K) → Equiv.Perm (Fin inp.n)) (solve : (inp : Input K) → K → Option K → Option (MipPoint K inp.n)) (inp : Input K)
    (o : Options K) : Except PyErr (Result K) :=
  if o.mip.cashPenalty.isSome ∨ o.mip.maxCash.isSome ∨ o.mip.solverOptions = true ∨ o.mip.others ≠ [] then .error .typeError
  else
    match parseFallback (o.fallbackMode.getD (some "auto")) with
    | .error e => .error e
    | .ok mode => allocateGreedy inp (sortBy inp) (o.maxIterations.getD none) mode (callMip solve inp ((o.fallbackKwargs.getD none).getD {}))

/-- `discretize_weights(…, **kwargs)` (discrete_allocation.py:453-488). -/
def discretizeWith (weights prices : List (String × K)) (total : K) (lots : Option (List (String × ℤ))) (method : String) (o : Options K)
    (sortBy : (inp : Input K) → Equiv.Perm (Fin inp.n)) (solve : (inp : Input K) → K → Option K → Option (MipPoint K inp.n)) : Except PyErr (Result K) :=
  match mkInput weights prices total lots with
  | .error e => .error e
  | .ok inp =>
    match parseMethod method with
    | .error e => .error e
    | .ok .greedy => callGreedy sortBy solve inp o
    | .ok .milp =>
      if o.maxIterations.isSome ∨ o.fallbackMode.isSome ∨ o.fallbackKwargs.isSome then .error .typeError
      else callMip solve inp o.mip

end PyV.Discrete
