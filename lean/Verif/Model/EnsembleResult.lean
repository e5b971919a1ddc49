import Verif.Model.Ensembles

/-!
# Model of the request and the result of `assemble_portfolio_ensemble`, and of specification metadata (ensembles.py)

Strings are lists of characters; `strip` knows blanks, tabs and line ends, and `lower` the ASCII letters.
-/

namespace PyV.Ens

open PyV PyV.Fr

variable {K : Type*} [Field K] [LinearOrder K] [IsStrictOrderedRing K] {N : ℕ}

/-! ## The `ensemble` argument -/

/-- The `ensemble` argument: `None`, a string, or a sequence of strings (possibly `None`). -/
inductive EnsArg where
  | none
  | str (s : String)
  | seq (l : List (Option String))

/-- `str.strip()`. -/
def strip (s : List Char) : List Char := ((s.dropWhile Char.isWhitespace).reverse.dropWhile Char.isWhitespace).reverse

/-- `s.strip().lower()`. -/
def normKey (s : String) : String := String.ofList ((strip s.toList).map Char.toLower)

/-- One item of the generator in `_normalise_ensemble_argument` (ensembles.py:816): missing, empty and blank items are dropped. -/
def normItem : Option String → Option String
  | none => none
  | some s => if strip s.toList = [] then none else some (normKey s)

/-- `_normalise_ensemble_argument` (ensembles.py:798-816). -/
def normaliseEnsemble : EnsArg → List String
  | .none => []
  | .str s => if normKey s = "" ∨ normKey s = "none" then [] else [normKey s]
  | .seq l => l.filterMap normItem

/-! ## Metadata -/

/-- A metadata value: a string, a Boolean, or anything the user supplies. -/
inductive MetaVal (V : Type*) where
  | str (s : String)
  | bool (b : Bool)
  | user (v : V)
  deriving DecidableEq

/-- `d.setdefault(k, v)`. -/
def setDefault {V : Type*} (d : List (String × V)) (k : String) (v : V) : List (String × V) :=
  if d.any (fun e => e.1 == k) then d else d ++ [(k, v)]

/-- `spec_metadata` of `make_portfolio_spec` (ensembles.py:752-756); `optimiser` is the key or the name of the callable. -/
def specMetadata {V : Type*} (user : List (String × MetaVal V)) (optimiser mean cov : String) (useScenarios : Bool) :
    List (String × MetaVal V) :=
  setDefault (setDefault (setDefault (setDefault user "optimiser" (.str optimiser)) "mean_estimator" (.str mean)) "cov_estimator" (.str cov))
    "use_scenarios" (.bool useScenarios)

/-! ## The result -/

/-- `EnsembleSpec` with its metadata (ensembles.py:451-467). -/
structure MetaSpec (K V : Type*) (N : ℕ) where
  spec : EnsSpec K N
  metadata : List (String × V) := []

/-- `EnsembleResult` (ensembles.py:470-484); `selections` are the columns of the DataFrame. -/
structure EnsResult (K V : Type*) (N : ℕ) where
  frontiers : List (String × AnyFrontier K N)
  selections : List (String × (Fin N → K))
  ensembles : List (String × (Fin N → K))
  metadata : List (String × List (String × V))

/-- `assemble_portfolio_ensemble` (ensembles.py:517-636) with the whole result. `combine.lower()` is not stripped. -/
def assembleResult {V W : Type*} (solve : ∀ S, QpSolver S S 1 K V) (showOff : V) (g : List (String × V)) (specs : List (MetaSpec K W N))
    (arg : EnsArg) (combine : String) (stackFolds : Option ℤ) (w : WeightsArg String K) (kw : Option (List (String × V))) :
    Except PyErr (EnsResult K W N) :=
  match mapE runSpec (specs.map MetaSpec.spec) with
  | .error e => .error e
  | .ok rs =>
    match assemble solve showOff g (specs.map MetaSpec.spec) (normaliseEnsemble arg) (String.ofList (combine.toList.map Char.toLower))
        stackFolds w kw with
    | .error e => .error e
    | .ok ens => .ok
      { frontiers := dictUpdate [] (rs.map (fun r => (r.1, r.2.1)))
        selections := rs.map (fun r => (r.1, r.2.2))
        ensembles := ens
        metadata := dictUpdate [] (specs.map (fun s => (s.spec.name, s.metadata))) }

/-- `EnsembleResult.get` (ensembles.py:486-496). -/
def EnsResult.get {V : Type*} (r : EnsResult K V N) (name : String) (default : Option (Fin N → K)) : Option (Fin N → K) :=
  match r.ensembles.lookup name with
  | some v => some v
  | none => default

/-- `EnsembleResult.average` (ensembles.py:498-505). -/
def EnsResult.average {V : Type*} (r : EnsResult K V N) : Option (Fin N → K) := r.ensembles.lookup "average"

/-- `EnsembleResult.stacked` (ensembles.py:507-514). -/
def EnsResult.stacked {V : Type*} (r : EnsResult K V N) : Option (Fin N → K) := r.ensembles.lookup "stack"

end PyV.Ens
