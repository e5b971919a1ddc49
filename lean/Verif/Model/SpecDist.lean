import Verif.Model.EnsembleSpec
import Verif.Model.Validation
import Verif.Model.Probabilities

/-! # Model of `_build_distribution` and `_apply_projection` (ensembles.py)

The estimator is a parameter (its parts are modelled in `Model/Moments`, `Model/MomentsRobust`): it returns finite moments labelled
by the columns of its data, or raises. The transforms of pandas objects keep their labels. -/

namespace PyV.Api

open PyV Matrix

/-- A mean vector and a covariance matrix. -/
abbrev Mom2 (N : ℕ) := (Fin N → ℝ) × (Fin N → Fin N → ℝ)

/-- The `projection` dictionary: the entries present in it; `unknown` says whether it has any other key. -/
structure ProjOptions (N : ℕ) where
  annualizationFactor : Option ℝ := none
  logToSimple : Option Bool := none
  toSimple : Option Bool := none
  transform : Option (Mom2 N → Except PyErr (Mom2 N)) := none
  unknown : Bool := false

/-- The annualisation step (ensembles.py:1209-1211). -/
noncomputable def annualise {N : ℕ} (x : Mom2 N) (o : ProjOptions N) : Mom2 N :=
  match o.annualizationFactor with
  | none => x
  | some f => Proj.projectMeanCov x.1 x.2 f

/-- `_apply_projection` (ensembles.py:1191-1219). `log_to_simple` being true short-circuits the `or` on line 1212, so that a
`to_simple` entry is then not popped and makes the final test fail. `transform: None` is the same as no entry. -/
noncomputable def applyProjection {N : ℕ} (x : Mom2 N) (o : ProjOptions N) : Except PyErr (Mom2 N) :=
  let a : Mom2 N := annualise x o
  let first : Bool := o.logToSimple.getD false
  let second : Bool := if first then false else o.toSimple.getD false
  let left : Bool := if first then o.toSimple.isSome else false
  let b : Mom2 N := if first || second then Proj.log2simple a.1 a.2 else a
  let c : Except PyErr (Mom2 N) := match o.transform with
    | none => .ok b
    | some f => f b
  match c with
  | .error e => .error e
  | .ok y => if left || o.unknown then .error .valueError else .ok y

/-- A DataFrame of returns. -/
structure Frame where
  T : ℕ
  N : ℕ
  x : Fin T → Fin N → PyFloat ℝ
  index : Fin T → String
  columns : Fin N → String

/-- `probabilities`: a Series or a sequence. -/
inductive ProbArg where
  | series (l : List (String × PyFloat ℝ))
  | seq (l : List (PyFloat ℝ))

/-- `probabilities.reindex(data.index)` (ensembles.py:1146), for a Series with distinct labels. -/
def reindexProbs {T : ℕ} (l : List (String × PyFloat ℝ)) (index : Fin T → String) : List (PyFloat ℝ) :=
  (List.finRange T).map (fun t : Fin T => (l.lookup (index t)).getD .nan)

/-- The scenario probabilities (ensembles.py:1144-1164). -/
noncomputable def specProbs (f : Frame) (p : Option ProbArg) : Except PyErr (Option (List ℝ)) :=
  match p with
  | none => .ok none
  | some (.series l) =>
    if (reindexProbs l f.index).any isNan then .error .valueError
    else
      match Probs.resolve (some (reindexProbs l f.index)) (f.T : ℤ) false with
      | .error e => .error e
      | .ok q => .ok (some q)
  | some (.seq l) =>
    match Probs.resolve (some l) (f.T : ℤ) false with
    | .error e => .error e
    | .ok q => .ok (some q)

/-- The rows of a frame as a matrix argument. -/
def Frame.grid (f : Frame) : GridArg := .frame ⟨f.T, f.N, f.x⟩ f.index f.columns

/-- Moments labelled by the columns of the data, as constructor arguments. -/
def momArgs {N : ℕ} (columns : Fin N → String) (mu : Fin N → ℝ) (C : Matrix (Fin N) (Fin N) ℝ) : DistArgs :=
  { mu := some (.series ((List.finRange N).map (fun i : Fin N => (columns i, PyFloat.fin (mu i))))),
    cov := some (.frame ⟨N, N, fun i j => .fin (C i j)⟩ columns columns) }

/-- The moments branch (ensembles.py:1182-1188): the covariance goes through the PSD guard and gets `1e-10` on its diagonal. -/
noncomputable def momentDist {N : ℕ} (columns : Fin N → String) (x : Mom2 N) : Except PyErr Dist :=
  match Valid.ensurePsd (Matrix.of x.2) Valid.defaultJitter with
  | .error e => .error e
  | .ok P => mkDist (momArgs columns x.1 (P + (1 / 10 ^ 10 : ℝ) • (1 : Matrix (Fin N) (Fin N) ℝ)))

/-- The preprocessing step (ensembles.py:1140-1142). -/
def preprocessed (f0 : Frame) : Option (Frame → Except PyErr Frame) → Except PyErr Frame
  | none => .ok f0
  | some g => g f0

/-- The projection step (ensembles.py:1180-1181). -/
noncomputable def projected {N : ℕ} (m : Mom2 N) : Option (ProjOptions N) → Except PyErr (Mom2 N)
  | none => .ok m
  | some o => applyProjection m o

/-- `_build_distribution` (ensembles.py:1110-1188). -/
noncomputable def buildDistribution (factory : Option (Except PyErr Dist)) (distribution : Option Dist) (returns : Option Frame)
    (preprocess : Option (Frame → Except PyErr Frame)) (probabilities : Option ProbArg)
    (projection : (N : ℕ) → Option (ProjOptions N)) (useScenarios : Bool)
    (estimator : (f : Frame) → Option (List ℝ) → Except PyErr (Mom2 f.N)) : Except PyErr Dist :=
  match factory with
  | some r => r
  | none =>
    match distribution with
    | some d => .ok d
    | none =>
      match returns with
      | none => .error .valueError
      | some f0 =>
        match preprocessed f0 preprocess with
        | .error e => .error e
        | .ok f =>
          match specProbs f probabilities with
          | .error e => .error e
          | .ok q =>
            if useScenarios then
              mkDist { scenarios := some f.grid, probabilities := q.map (fun l : List ℝ => l.map PyFloat.fin) }
            else
              match estimator f q with
              | .error e => .error e
              | .ok m =>
                match projected m (projection f.N) with
                | .error e => .error e
                | .ok m => momentDist f.columns m

end PyV.Api
