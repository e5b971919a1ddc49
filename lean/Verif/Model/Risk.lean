import Verif.Model.Py
import Mathlib.Algebra.Order.Field.Basic

/-!
# Model of `pyvallocation/utils/functions.py`

One portfolio column (the code treats the columns of a weight matrix independently along axis 0).
`argsort` is the sorting routine: its tie order is unspecified, so it is a parameter.
-/

namespace PyV.Risk

open PyV

variable {K : Type*} [Field K] [LinearOrder K] [IsStrictOrderedRing K] {T N : ℕ}

/-- `1.0/T` for every scenario when `p is None` (functions.py:82, 143). -/
def scenarioProbs (p : Option (Fin T → K)) : Fin T → K := p.getD (fun _ => 1 / (T : K))

/-- `R_arr - p.T @ R_arr` when `demean` (functions.py:84-85, 145-146). -/
def maybeDemean (demean : Bool) (p : Fin T → K) (R : Fin T → Fin N → K) : Fin T → Fin N → K :=
  if demean then fun t i => R t i - ∑ s, p s * R s i else R

/-- `pf_pnl = R_arr @ W` (functions.py:89, 149). -/
def pnl (R : Fin T → Fin N → K) (w : Fin N → K) : Fin T → K := fun t => ∑ i, R t i * w i

/-- `np.cumsum(sorted_p)` at position `k` (functions.py:96, 156). -/
def cumProb (p : Fin T → K) (σ : Equiv.Perm (Fin T)) (k : Fin T) : K := ∑ j, if j ≤ k then p (σ j) else 0

/-- `(mask).argmax(axis=0)` on a Boolean column: the first `True`, or position 0 when there is none; an empty column
is an error (functions.py:96, 156). -/
def boolArgmax {T : ℕ} (f : Fin T → Bool) : Option (Fin T) :=
  match (List.finRange T).find? f with
  | some k => some k
  | none => (List.finRange T).head?

/-- `var_indices` (functions.py:96, 156). -/
def varIndex (p : Fin T → K) (σ : Equiv.Perm (Fin T)) (conf : K) : Option (Fin T) :=
  boolArgmax (fun k => decide (cumProb p σ k ≥ 1 - conf))

/-- `conf = 0.95 if confidence is None else float(confidence)` and its range test (functions.py:73-75, 134-136). -/
def checkConf (confidence : Option K) : Except PyErr K :=
  let conf := confidence.getD (95 / 100)
  if 0 < conf ∧ conf < 1 then .ok conf else .error .valueError

/-- `portfolio_var` (functions.py:113-160). -/
def portfolioVar (argsort : (Fin T → K) → Equiv.Perm (Fin T)) (w : Fin N → K) (R : Fin T → Fin N → K)
    (p : Option (Fin T → K)) (confidence : Option K) (demean : Bool) : Except PyErr K :=
  match checkConf confidence with
  | .error e => .error e
  | .ok conf =>
    let p := scenarioProbs p
    let x := pnl (maybeDemean demean p R) w
    let σ := argsort x
    match varIndex p σ conf with
    | none => .error .valueError
    | some k => .ok (-(x (σ k)))

/-- `portfolio_cvar` (functions.py:52-110). -/
def portfolioCvar (argsort : (Fin T → K) → Equiv.Perm (Fin T)) (w : Fin N → K) (R : Fin T → Fin N → K)
    (p : Option (Fin T → K)) (confidence : Option K) (demean : Bool) : Except PyErr K :=
  match checkConf confidence with
  | .error e => .error e
  | .ok conf =>
    let p := scenarioProbs p
    let x := pnl (maybeDemean demean p R) w
    let σ := argsort x
    match varIndex p σ conf with
    | none => .error .valueError
    | some k =>
      let v := x (σ k)
      let alpha := 1 - conf
      let strictProb := ∑ t, p t * (if x t < v then 1 else 0)
      let strictSum := ∑ t, p t * x t * (if x t < v then 1 else 0)
      let cvar := (strictSum + v * (alpha - strictProb)) / alpha
      .ok (-cvar)

end PyV.Risk
