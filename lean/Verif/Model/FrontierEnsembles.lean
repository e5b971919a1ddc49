import Verif.Model.Samples

/-!
# Model of `average_frontiers`, `exposure_stack_frontiers`, `stack_portfolios` and `risk_percentile_selections`
(`pyvallocation/ensembles.py`)

The name of the returned Series is not modelled.  Weights of a returned portfolio are listed in asset order together with the
labels (`none`: default integer index).
-/

namespace PyV.Ens

open PyV PyV.Fr

variable {K : Type*} [Field K] [LinearOrder K] [IsStrictOrderedRing K] {A : Type*} [DecidableEq A] {L : Type*} [DecidableEq L]

/-- The number of rows of the stacked matrix: that of the first entry. -/
def rowCount : List (Entry A K) → ℕ
  | [] => 0
  | e :: _ => e.set.n

/-- `np.hstack(stacked)` (ensembles.py:328) as a matrix with `n` rows. -/
def hstack (n : ℕ) (cols : List (List K)) : Fin n → Fin cols.length → K := fun i k => (cols.get k).getD i 0

/-- `_series_from_vector` (ensembles.py:347-363): pandas rejects an index of another length; an empty list of names is no index. -/
def seriesFromVector (v : List K) (names : Option (List A)) : Except PyErr (List K × Option (List A)) :=
  match names with
  | none => .ok (v, none)
  | some [] => .ok (v, none)
  | some l => if l.length = v.length then .ok (v, some l) else .error .valueError

/-- `average_frontiers` (ensembles.py:366-390): the averaged samples are a bare matrix, so Series weights are taken by position. -/
def averageFrontiers {B : Type*} [DecidableEq B] (frontiers : List (Entry A K)) (selections : Option (List (Option (List ℤ))))
    (w : WeightsArg B K) : Except PyErr (List K × Option (List A)) :=
  match collectSamples frontiers selections with
  | .error e => .error e
  | .ok (cols, names) =>
    match averageExposures (hstack (rowCount frontiers) cols) none w with
    | .error e => .error e
    | .ok v => seriesFromVector (List.ofFn v) names

/-- A QP solver for every number of samples. -/
abbrev StackSolver (K V : Type*) := ∀ S : ℕ, QpSolver S S 1 K V

/-- `exposure_stack_frontiers` (ensembles.py:393-420) and `stack_portfolios` (ensembles.py:225-244), as transformers of the global
solver options. The two differ only in where the labels are attached (before or after `exposure_stacking`). -/
def exposureStackFrontiers {V : Type*} (solve : StackSolver K V) (showOff : V) (frontiers : List (Entry A K)) (L : ℤ)
    (selections : Option (List (Option (List ℤ)))) (opts : Option (List (String × V))) (g : List (String × V)) :
    Except PyErr (List K × Option (List A)) × List (String × V) :=
  match collectSamples frontiers selections with
  | .error e => (.error e, g)
  | .ok (cols, names) =>
    match exposureStacking (solve cols.length) showOff (hstack (rowCount frontiers) cols) L opts g with
    | (.error e, g') => (.error e, g')
    | (.ok v, g') => (seriesFromVector (List.ofFn v) names, g')

/-- A frontier of any size with its asset labels (portfolioapi.py:244-274). -/
structure Held (A L K : Type*) where
  n : ℕ
  m : ℕ
  names : Option (List A)
  f : Frontier L K n m

/-- What `_collect_samples` reads of a frontier: `to_samples` and `risks` (ensembles.py:305-321). -/
def Held.entry (h : Held A L K) : Entry A K := .frontier ⟨h.names, h.n, h.m, h.f.weights⟩ h.f.risks

/-- A sorting routine for every length. -/
abbrev AnySort (K : Type*) := ∀ M : ℕ, (Fin M → K) → Equiv.Perm (Fin M)

/-- One round of the loop of `risk_percentile_selections` (ensembles.py:439-442). -/
def percentileSelection (argsort : AnySort K) (pct : PyFloat K) (label : Option L) (h : Held A L K) :
    Except PyErr (Option (List ℤ)) :=
  match h.f.indexAtPercentile (argsort h.m) pct label with
  | .error e => .error e
  | .ok i => .ok (some [(i : ℤ)])

/-- `risk_percentile_selections` (ensembles.py:423-443). -/
def riskPercentileSelections (argsort : AnySort K) (frontiers : List (Held A L K)) (pct : PyFloat K) (label : Option L) :
    Except PyErr (List (Option (List ℤ))) :=
  mapE (percentileSelection argsort pct label) frontiers

end PyV.Ens
