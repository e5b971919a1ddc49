import Verif.Model.Performance

/-!
# Model of the storage type of simulated paths (`simulate_paths`, `drawdown_quantile`)

`simulate_paths` stores repriced values in `np.empty_like(cumulative)`, an array of the type of the drivers.  Integer overflow is not
modelled.
-/

namespace PyV.Perf

open PyV

variable {K : Type*} [Field K] [LinearOrder K] [IsStrictOrderedRing K] [FloorRing K] {T N : ℕ}

/-- The element type of the driver array (`_to_numpy` does not convert, projection.py:64-73). -/
inductive Dtype where
  | integer
  | floating
  deriving DecidableEq

/-- Assignment of a number to an element of the array (projection.py:305-307): NumPy truncates toward zero into integer arrays. -/
def store : Dtype → K → K
  | .floating, x => x
  | .integer, x => if 0 ≤ x then (⌊x⌋ : K) else (⌈x⌉ : K)

/-- Repriced values as they are kept: `out[:, t, :] = reprice(cumulative[:, t, :])` (projection.py:303-308). -/
def stored {n N' : ℕ} (d : Dtype) (reprice : (Fin n → Fin N → K) → Fin n → Fin N' → K) : (Fin n → Fin N → K) → Fin n → Fin N' → K :=
  fun c a i => store d (reprice c a i)

/-- `simulate_paths` with its repricing step (projection.py:261-310) for drivers of type `d`. -/
def simulateRepriced {N' : ℕ} (d : Dtype) (R : Fin T → Fin N → K) (horizon n : ℤ) (p : Option (List (PyFloat K)))
    (reprice : Option ((Fin n.toNat → Fin N → K) → Fin n.toNat → Fin N' → K)) (u : Fin n.toNat → Fin horizon.toNat → K) :
    Except PyErr (Fin n.toNat → Fin horizon.toNat → Fin N → K) :=
  match Proj.simulatePaths R horizon n p u with
  | .error e => .error e
  | .ok cum =>
    match reprice with
    | none => .ok cum
    | some f => repriceSteps (stored d f) cum

/-- `drawdown_quantile` (performance.py:262-318) for drivers of type `d`. -/
def drawdownTyped {N' : ℕ} (d : Dtype) (w : Weights 1 K) (R : Fin T → Fin N → K) (horizon n : ℤ)
    (p : Option (List (PyFloat K))) (reprice : (Fin n.toNat → Fin N → K) → Fin n.toNat → Fin N' → K)
    (u : Fin n.toNat → Fin horizon.toNat → K) (confidence : K) : Except PyErr (DdReport K) :=
  drawdownQuantile w R horizon n p (stored d reprice) u confidence

end PyV.Perf
