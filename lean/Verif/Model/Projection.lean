import Verif.Model.PyFloat
import Verif.Model.Probabilities
import Mathlib.Analysis.SpecialFunctions.Exp
import Mathlib.Analysis.SpecialFunctions.Log.Basic

/-!
# Model of `pyvallocation/utils/projection.py`

Scenario matrices are `Fin T → Fin N → K` with finite entries.  The random generator is represented by the uniform numbers in
`[0, 1)` it produces: NumPy's `Generator.choice` turns them into row numbers by inverting the cumulative distribution, and that
inversion is modelled.  pandas wrapping (labels in, labels out) is in `Model/LabelledMoments`.
-/

namespace PyV.Proj

open PyV

/-! ## Conversions -/

section Conversions

variable {K : Type*} [Field K] {N : ℕ} {ι : Type*}

/-- `project_mean_covariance` (projection.py:10-26). -/
def projectMeanCov (mu : Fin N → K) (cov : Fin N → Fin N → K) (f : K) : (Fin N → K) × (Fin N → Fin N → K) :=
  (fun i => mu i * f, fun i j => cov i j * f)

/-- `convert_scenarios_compound_to_simple` (projection.py:29-39), elementwise on arrays of any shape. -/
noncomputable def compoundToSimple (x : ι → ℝ) : ι → ℝ := fun t => Real.exp (x t) - 1

/-- `convert_scenarios_simple_to_compound` (projection.py:42-61). -/
noncomputable def simpleToCompound (x : ι → ℝ) : Except PyErr (ι → ℝ) := by
  classical
  exact if ∃ t, x t ≤ -1 then .error .valueError else .ok (fun t => Real.log (1 + x t))

/-- `log2simple` (projection.py:110-132). -/
noncomputable def log2simple (mu : Fin N → ℝ) (cov : Fin N → Fin N → ℝ) : (Fin N → ℝ) × (Fin N → Fin N → ℝ) :=
  let d := fun i => cov i i
  let e := fun i => Real.exp (mu i + 1 / 2 * d i)
  (fun i => e i - 1, fun i j => Real.exp (mu i + mu j + 1 / 2 * (d i + d j + 2 * cov i j)) - e i * e j)

/-- `simple2log` (projection.py:135-160). `log1p(x)` is `log (1 + x)`; NumPy yields NaN for `x < -1` where this model has Lean's
default value, so statements about the covariance carry that domain. -/
noncomputable def simple2log (mu : Fin N → ℝ) (cov : Fin N → Fin N → ℝ) :
    Except PyErr ((Fin N → ℝ) × (Fin N → Fin N → ℝ)) := by
  classical
  exact
    let m := fun i => mu i + 1
    if ∃ i, m i ≤ 0 then .error .valueError
    else
      let varg := fun i => Real.log (1 + cov i i / m i ^ 2)
      .ok (fun i => Real.log (m i) - 1 / 2 * varg i,
        fun i j => if i = j then varg i else Real.log (1 + cov i j / (m i * m j)))

end Conversions

/-! ## Sampling -/

section Sampling

variable {K : Type*} [Field K] [LinearOrder K] [IsStrictOrderedRing K] {T N : ℕ}

/-- Scenario weights of `project_scenarios` (projection.py:227-239): uniform (dividing by the number of rows), or the given ones
checked and normalised only when their sum is not `isclose` to one. -/
def projWeights (T : ℕ) (p : Option (List (PyFloat K))) : Except PyErr (List K) :=
  match p with
  | none => if T = 0 then .error .zeroDivision else .ok (List.replicate T (1 / (T : K)))
  | some v =>
    if v.length ≠ T then .error .valueError
    else if v.any (fun x => x.lt (.fin 0)) then .error .valueError
    else if v.all PyFloat.isFinite = false then .error .valueError
    else
      let x := v.map PyFloat.val
      if x.sum ≤ 0 then .error .valueError
      else if Probs.isclose1 x.sum then .ok x
      else .ok (x.map (· / x.sum))

/-- Scenario weights of `simulate_paths` (projection.py:295-296): always divided by their sum; a zero or non-finite sum gives NaN,
which `choice` rejects with a `ValueError`. -/
def pathWeights (T : ℕ) (p : Option (List (PyFloat K))) : Except PyErr (List K) :=
  match p with
  | none => if T = 0 then .error .zeroDivision else .ok (List.replicate T (1 / (T : K)))
  | some v =>
    if v.all PyFloat.isFinite = false then .error .valueError
    else
      let x := v.map PyFloat.val
      if x.sum = 0 then .error .valueError else .ok (x.map (· / x.sum))

/-- `cdf = p.cumsum(); cdf /= cdf[-1]` inside `Generator.choice`. -/
def cdf (w : List K) (t : ℕ) : K := (w.take (t + 1)).sum / w.sum

/-- `cdf.searchsorted(u, side="right")`: the number of entries `<= u`. -/
def searchRight (w : List K) (u : K) : ℕ := ((List.range w.length).filter (fun t => decide (cdf w t ≤ u))).length

/-- NumPy's `Generator.choice(T, size, p=w)` on the uniform numbers `u` (projection.py:242, 299): the size test, the sign test, the
test `|sum(p) - 1| <= sqrt(eps)` with `eps = 2^-52`, then inversion of the cumulative distribution. -/
def choice {n h : ℕ} (T : ℕ) (w : List K) (u : Fin n → Fin h → K) : Except PyErr (Fin n → Fin h → ℕ) :=
  if w.length ≠ T then .error .valueError
  else if w.any (fun x => decide (x < 0)) then .error .valueError
  else if 1 / 2 ^ 26 < |w.sum - 1| then .error .valueError
  else .ok (fun a b => searchRight w (u a b))

/-- Row `k` of the scenario matrix (`R_np[idx]`); a row number out of range never gets here. -/
def row (R : Fin T → Fin N → K) (k : ℕ) (i : Fin N) : K := if h : k < T then R ⟨k, h⟩ i else 0

/-- `R_np[idx]`: an index out of range raises. -/
def gather {n h : ℕ} (R : Fin T → Fin N → K) (idx : Fin n → Fin h → ℕ) : Except PyErr (Fin n → Fin h → Fin N → K) :=
  if ∀ a b, idx a b < T then .ok (fun a b i => row R (idx a b) i) else .error .indexError

/-- `project_scenarios` (projection.py:163-256) up to repricing, which is applied to the whole returned matrix. `u` are the uniform
numbers drawn by the generator for the shape `(n_simulations, investment_horizon)`. -/
def projectScenarios (R : Fin T → Fin N → K) (horizon : ℤ) (p : Option (List (PyFloat K))) (n : ℤ)
    (u : Fin n.toNat → Fin horizon.toNat → K) : Except PyErr (Fin n.toNat → Fin N → K) :=
  if horizon ≤ 0 then .error .valueError
  else if n ≤ 0 then .error .valueError
  else
    match projWeights T p with
    | .error e => .error e
    | .ok w =>
      match choice T w u with
      | .error e => .error e
      | .ok idx =>
        match gather R idx with
        | .error e => .error e
        | .ok s => .ok (fun a i => ∑ b, s a b i)

/-- `simulate_paths` (projection.py:261-310) up to repricing; negative sizes are rejected by the generator. -/
def simulatePaths (R : Fin T → Fin N → K) (horizon n : ℤ) (p : Option (List (PyFloat K)))
    (u : Fin n.toNat → Fin horizon.toNat → K) : Except PyErr (Fin n.toNat → Fin horizon.toNat → Fin N → K) :=
  match pathWeights T p with
  | .error e => .error e
  | .ok w =>
    if horizon < 0 ∨ n < 0 then .error .valueError
    else
      match choice T w u with
      | .error e => .error e
      | .ok idx =>
        match gather R idx with
        | .error e => .error e
        | .ok s => .ok (fun a t i => ∑ b, if b ≤ t then s a b i else 0)

end Sampling

/-! ## Repricing -/

section Repricing

variable {K : Type*} [Field K]

/-- `reprice_exp` (projection.py:317-332), elementwise. -/
noncomputable def repriceExp (dy : ℝ) : ℝ := Real.exp dy - 1

/-- `reprice_taylor` (projection.py:335-378), elementwise, with scalar sensitivities. -/
def repriceTaylor (theta delta gamma : Option K) (tau dy : K) : K :=
  let pnl : K := 0
  let pnl := match theta with
    | some th => pnl + th * tau
    | none => pnl
  let pnl := match delta with
    | some de => pnl + de * dy
    | none => pnl
  match gamma with
  | some ga => pnl + 1 / 2 * ga * dy ^ 2
  | none => pnl

/-- `make_repricing_fn` (projection.py:381-417); the pricing function works row by row, as the documentation requires. -/
def makeRepricing {n k m : ℕ} (price : (Fin k → K) → Fin m → K) (y0 : Fin k → K) (dy : Fin n → Fin k → K) : Fin n → Fin m → K :=
  fun a j => price (fun d => y0 d + dy a d) j - price y0 j

/-- An instrument's function for `n` simulations: it receives the columns of its drivers. -/
abbrev Pricer (n : ℕ) (K : Type*) := List (Fin n → K) → Fin n → K

/-- The accepted and rejected forms of a repricing specification. -/
inductive RSpec (n : ℕ) (K : Type*) where
  | plain (f : Pricer n K)
  | drivers (ds : List String) (f : Pricer n K)
  | badPair
  | other

/-- `inv_idx[name]`: a repeated column name keeps its last position (projection.py:458). -/
def colIndex (cols : List String) (name : String) : Option ℕ :=
  (((List.range cols.length).filter (fun i => cols[i]? == some name)).getLast?)

/-- Column numbers of a list of drivers; a missing one is a `KeyError` (projection.py:477-481). -/
def driverCols (cols : List String) : List String → Except PyErr (List ℕ)
  | [] => .ok []
  | d :: ds =>
    match colIndex cols d with
    | none => .error .keyError
    | some i =>
      match driverCols cols ds with
      | .error e => .error e
      | .ok is => .ok (i :: is)

/-- One instrument of the parsing loop (projection.py:462-487). -/
def parseSpec {n : ℕ} (cols : List String) (e : String × RSpec n K) : Except PyErr (List ℕ × Pricer n K) :=
  match e.2 with
  | .plain f =>
    match colIndex cols e.1 with
    | none => .error .keyError
    | some i => .ok ([i], f)
  | .drivers ds f =>
    match driverCols cols ds with
    | .error e => .error e
    | .ok is => .ok (is, f)
  | .badPair => .error .typeError
  | .other => .error .typeError

/-- Column `k` of the invariant moves. -/
def moveCol {n k : ℕ} (dy : Fin n → Fin k → K) (c : ℕ) : Fin n → K := fun a => if h : c < k then dy a ⟨c, h⟩ else 0

/-- `compose_repricers` (projection.py:420-501) for two-dimensional moves: the combined function and the instrument names. -/
def composeRepricers {n : ℕ} (instruments : List (String × RSpec n K)) (cols : List String) :
    Except PyErr (((Fin n → Fin cols.length → K) → Fin n → List K) × List String) :=
  match mapE (parseSpec cols) instruments with
  | .error e => .error e
  | .ok parsed => .ok (fun dy a => parsed.map (fun q => q.2 (q.1.map (moveCol dy)) a), instruments.map Prod.fst)

end Repricing

end PyV.Proj
