import Verif.Model.SpecDist
import Verif.Model.Ensembles

/-! # Model of what objects keep of the caller's arrays and dictionaries

Python passes references: an object that stores an argument without copying it sees every later in-place change of that argument.
The caller's memory is a map from object identities to contents; the contents at a later time may be different. -/

namespace PyV.Api

open PyV Matrix

/-! ## `AssetsDistribution` -/

/-- The caller's arrays by identity. -/
structure Mem where
  vec : ℕ → List (PyFloat ℝ)
  grid : ℕ → Grid

/-- An argument that is an array object of floats (`np.asarray(x, dtype=float)` returns the object itself, `reshape(-1)` of a
one-dimensional array a view of it), or one whose contents no one changes in place: a list or an array of another type, which
`np.asarray` copies, or a pandas object the caller leaves alone (what `to_numpy` shares depends on the version of pandas and is not
modelled). -/
inductive ArrArg (α : Type) where
  | object (r : ℕ)
  | value (x : α)

/-- The arguments of `AssetsDistribution` as references. -/
structure LiveArgs where
  mu : Option (ArrArg VecArg) := none
  cov : Option (ArrArg GridArg) := none
  scenarios : Option (ArrArg GridArg) := none
  probabilities : Option (ArrArg (List (PyFloat ℝ))) := none
  assetNames : Option (List String) := none

/-- Contents of a vector argument. -/
def Mem.vecArg (m : Mem) : ArrArg VecArg → VecArg
  | .object r => .array (m.vec r)
  | .value x => x

/-- Contents of a matrix argument. -/
def Mem.gridArg (m : Mem) : ArrArg GridArg → GridArg
  | .object r => .array (m.grid r)
  | .value x => x

/-- Contents of the probabilities. -/
def Mem.listArg (m : Mem) : ArrArg (List (PyFloat ℝ)) → List (PyFloat ℝ)
  | .object r => m.vec r
  | .value x => x

/-- The contents of all arguments at one time. -/
def LiveArgs.now (a : LiveArgs) (m : Mem) : DistArgs :=
  { mu := a.mu.map m.vecArg, cov := a.cov.map m.gridArg, scenarios := a.scenarios.map m.gridArg,
    probabilities := a.probabilities.map m.listArg, assetNames := a.assetNames }

/-- What a field of the object refers to: an array of its own or the caller's. -/
inductive Slot (α : Type) where
  | own (x : α)
  | shared (r : ℕ)

/-- The fields of the object (portfolioapi.py:196-202). `probabilities` come from the division in line 159 and the names from `list`
(89, 103), so both are always its own; moments estimated from scenarios are new arrays (165-168). -/
structure LiveDist where
  N : ℕ
  mu : Option (Slot (List (PyFloat ℝ)))
  cov : Option (Slot Grid)
  scenarios : Option (Slot Grid)
  probabilities : Option (List (PyFloat ℝ))
  names : Option (List String)

/-- A vector of numbers as an array. -/
def vecList {n : ℕ} (v : Fin n → ℝ) : List (PyFloat ℝ) := List.ofFn (fun i => PyFloat.fin (v i))

/-- A matrix of numbers as an array. -/
def matGrid {r c : ℕ} (v : Fin r → Fin c → ℝ) : Grid := ⟨r, c, fun i j => .fin (v i j)⟩

/-- `np.asarray(arg, dtype=float)` stored in a field; `own` is what is stored when the argument is not such an array
(portfolioapi.py:110-128, 165-185). -/
def slotOf {α β : Type} (own : β) : Option (ArrArg α) → Slot β
  | some (.object r) => .shared r
  | _ => .own own

/-- `AssetsDistribution.__post_init__` (portfolioapi.py:73-228): the tests see the contents at the time of the call. -/
noncomputable def liveDist (a : LiveArgs) (m : Mem) : Except PyErr LiveDist :=
  match mkDist (a.now m) with
  | .error e => .error e
  | .ok d => .ok
    { N := d.N
      mu := d.mu.map (fun v => slotOf (vecList v) a.mu)
      cov := d.cov.map (fun v => slotOf (matGrid fun i j => v i j) a.cov)
      scenarios := d.scen.map (fun s => slotOf (matGrid s.R) a.scenarios)
      probabilities := d.scen.map (fun s => vecList s.p)
      names := d.names }

/-- The values of the fields, as anyone reading them sees them. -/
structure Fields where
  mu : Option (List (PyFloat ℝ))
  cov : Option Grid
  scenarios : Option Grid
  probabilities : Option (List (PyFloat ℝ))
  names : Option (List String)

/-- Reading a vector field. -/
def Mem.readVec (m : Mem) : Slot (List (PyFloat ℝ)) → List (PyFloat ℝ)
  | .own x => x
  | .shared r => m.vec r

/-- Reading a matrix field. -/
def Mem.readGrid (m : Mem) : Slot Grid → Grid
  | .own x => x
  | .shared r => m.grid r

/-- Reading the fields at some time (attribute access on the frozen dataclass, portfolioapi.py:66-72). -/
def LiveDist.read (d : LiveDist) (m : Mem) : Fields :=
  { mu := d.mu.map m.readVec, cov := d.cov.map m.readGrid, scenarios := d.scenarios.map m.readGrid,
    probabilities := d.probabilities, names := d.names }

/-! ## `make_portfolio_spec` -/

/-- `optimiser_kwargs`: the `constraints` entry is a dictionary, by identity; the rest are plain values. -/
structure OptKw (ρ : Type) where
  constraints : Option ℕ
  rest : ρ

/-- The caller's mutable objects that `make_portfolio_spec` is given, by identity. -/
structure SpecMem (κ ρ V : Type) where
  returns : ℕ → Frame
  probabilities : ℕ → ProbArg
  projection : ℕ → (N : ℕ) → ProjOptions N
  constraints : ℕ → Con.Spec ℝ
  estimatorKw : ℕ → κ
  optimiserKw : ℕ → OptKw ρ
  selectorKw : ℕ → Ens.SelKw ℝ
  metadata : ℕ → List (String × V)

/-- The arguments of `make_portfolio_spec` (ensembles.py:639-668) as references; `estimatorKw` stands for the pair `mean_kwargs`,
`cov_kwargs`. A given distribution or factory is left out (`C121_priority`). -/
structure SpecArgs where
  returns : Option ℕ
  probabilities : Option ℕ
  preprocess : Option (Frame → Except PyErr Frame)
  projection : Option ℕ
  useScenarios : Bool
  estimatorKw : ℕ
  optimiser : String
  optimiserKw : ℕ
  selector : String
  selectorKw : ℕ
  metadata : ℕ

/-- What the made specification holds: the dictionaries copied in lines 707-710 and 752, the rest captured by the closure as
references (716-733). -/
structure MadeSpec (κ ρ V : Type) where
  returns : Option ℕ
  probabilities : Option ℕ
  preprocess : Option (Frame → Except PyErr Frame)
  projection : Option ℕ
  useScenarios : Bool
  estimatorKw : κ
  optimiser : String
  optimiserKw : OptKw ρ
  selector : Ens.Sel ℝ × Ens.SelKw ℝ
  metadata : List (String × V)

/-- `make_portfolio_spec` (ensembles.py:707-764); only an unknown selector raises (750). The default metadata entries of lines 753-756
are modelled by `specMetadata`. -/
noncomputable def makeSpec {κ ρ V : Type} (a : SpecArgs) (m : SpecMem κ ρ V) : Except PyErr (MadeSpec κ ρ V) :=
  match Ens.buildSelector a.selector (m.selectorKw a.selectorKw) with
  | .error e => .error e
  | .ok s => .ok
    { returns := a.returns, probabilities := a.probabilities, preprocess := a.preprocess, projection := a.projection,
      useScenarios := a.useScenarios, estimatorKw := m.estimatorKw a.estimatorKw, optimiser := a.optimiser,
      optimiserKw := m.optimiserKw a.optimiserKw, selector := s, metadata := m.metadata a.metadata }

/-- `spec.frontier_factory()` (ensembles.py:716-748), run when the caller's objects have the contents `m`. -/
noncomputable def MadeSpec.frontier {κ ρ V α : Type} (estimator : κ → (f : Frame) → Option (List ℝ) → Except PyErr (Mom2 f.N))
    (call : ρ → Method → (N : ℕ) → Wrapper N → Except PyErr α) (s : MadeSpec κ ρ V) (m : SpecMem κ ρ V) : Except PyErr α :=
  match buildDistribution none none (s.returns.map m.returns) s.preprocess (s.probabilities.map m.probabilities)
      (fun N => s.projection.map (fun r => m.projection r N)) s.useScenarios (estimator s.estimatorKw) with
  | .error e => .error e
  | .ok d => specFactory (call s.optimiserKw.rest) d s.optimiser (s.optimiserKw.constraints.map m.constraints)

end PyV.Api
