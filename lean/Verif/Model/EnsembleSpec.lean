import Verif.Model.Wrapper

/-!
# Model of `make_portfolio_spec` and `make_ensemble_spec`

The frontier a specification builds. Distribution labels, metadata and callables are not modelled.
-/

namespace PyV.Api

open PyV

/-- The distribution stored in a wrapper (portfolioapi.py:736); its labels are not kept here. -/
def Wrapper.dist {N : ℕ} (w : Wrapper N) : Dist := ⟨N, w.mu, w.cov, w.scen, none⟩

/-- The wrapper a specification works on (ensembles.py:735-746): built from the distribution alone; `optimiser_kwargs["constraints"]`,
when present, replaces its matrices. -/
noncomputable def specWrapper (d : Dist) (constraints : Option (Con.Spec ℝ)) : Except PyErr (Wrapper d.N) :=
  match mkWrapper d none none true (some (.fin 1)) none with
  | .error e => .error e
  | .ok w =>
    match constraints with
    | none => .ok w
    | some c =>
      match Con.build (d.N : ℤ) c with
      | .error e => .error e
      | .ok m => .ok { w with mats := m }

/-- The frontier methods a specification can use. -/
inductive Method where
  | variance
  | cvar
  | relaxed
  | robust
  deriving DecidableEq

/-- The table of `_resolve_optimiser` (ensembles.py:917-930). -/
def optimiserFor (key : String) : Except PyErr Method :=
  if key = "mean_variance" ∨ key = "mv" then .ok .variance
  else if key = "mean-cvar" ∨ key = "cvar" then .ok .cvar
  else if key = "rrp" ∨ key = "relaxed_risk_parity" then .ok .relaxed
  else if key = "robust" then .ok .robust
  else .error .valueError

/-- `_resolve_optimiser` for string keys (ensembles.py:852-931): the key is lowered first (869). `String.toLower` lowers ASCII letters
only, Python all letters: the two differ only on names with other letters. -/
def resolveOptimiser (key : String) : Except PyErr Method := optimiserFor key.toLower

/-- `frontier_factory` (ensembles.py:716-748): `call` applies a method with the remaining optimiser arguments to a wrapper. -/
noncomputable def specFactory {α : Type*} (call : Method → (N : ℕ) → Wrapper N → Except PyErr α) (d : Dist) (key : String)
    (constraints : Option (Con.Spec ℝ)) : Except PyErr α :=
  match specWrapper d constraints with
  | .error e => .error e
  | .ok w =>
    match resolveOptimiser key with
    | .error e => .error e
    | .ok m => call m d.N w

/-- `PortfolioWrapper.make_ensemble_spec(...).frontier_factory()` (portfolioapi.py:2043-2087): the distribution is deep-copied. -/
noncomputable def Wrapper.specFrontier {α : Type*} (call : Method → (N : ℕ) → Wrapper N → Except PyErr α) {N : ℕ} (w : Wrapper N)
    (key : String) (constraints : Option (Con.Spec ℝ)) : Except PyErr α :=
  specFactory call w.dist key constraints

end PyV.Api
