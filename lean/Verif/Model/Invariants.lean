import Verif.Model.Projection
import Verif.Model.Distribution

/-!
# Model of `PortfolioWrapper.from_invariants` (portfolioapi.py:1022-1112)

The invariants are two-dimensional and finite.  A repricing function returns one finite row per simulation.
-/

namespace PyV.Api

open PyV PyV.Proj

/-- The invariants: an array, or a DataFrame with its columns (portfolioapi.py:1025). -/
inductive InvArg where
  | array (T k : ℕ) (x : Fin T → Fin k → ℝ)
  | frame (T : ℕ) (cols : List String) (x : Fin T → Fin cols.length → ℝ)

/-- Number of risk drivers. -/
def InvArg.drivers : InvArg → ℕ
  | .array _ k _ => k
  | .frame _ cols _ => cols.length

/-- Number of historical rows. -/
def InvArg.length : InvArg → ℕ
  | .array T _ _ => T
  | .frame T _ _ => T

/-- The values, without labels (`_to_numpy`, projection.py:64-73; `invariants.to_numpy`, portfolioapi.py:1092). -/
def InvArg.values : (v : InvArg) → Fin v.length → Fin v.drivers → ℝ
  | .array _ _ x => x
  | .frame _ _ x => x

/-- The `reprice` argument (portfolioapi.py:1053-1058): absent, one function of the whole projected matrix (with its own number of
output columns), or a dict by instrument. -/
inductive Reprice (n k : ℕ) where
  | default
  | fn (m : ℕ) (f : (Fin n → Fin k → ℝ) → Fin n → Fin m → ℝ)
  | dict (instruments : List (String × RSpec n ℝ))

/-- A finite matrix as an array. -/
def simGrid {r c : ℕ} (x : Fin r → Fin c → ℝ) : Grid := ⟨r, c, fun t i => .fin (x t i)⟩

/-- `_wrap_matrix` on the repriced matrix (projection.py:90-108, 253-256): a DataFrame input gives its columns to the output, which
pandas refuses when the number of columns differs. -/
def wrapLike (v : InvArg) {n m : ℕ} (x : Fin n → Fin m → ℝ) : Except PyErr GridArg :=
  match v with
  | .array _ _ _ => .ok (.array (simGrid x))
  | .frame _ cols _ =>
    if h : m = cols.length then .ok (.frame (simGrid x) (fun t => toString t.val) (fun i => cols.get (i.cast h)))
    else .error .valueError

/-- The dict branch (portfolioapi.py:1083-1100): DataFrame invariants are required, the functions are composed before projecting,
and the result is a DataFrame whose columns are the instruments. -/
noncomputable def instrumentScenarios {horizon n : ℤ} (u : Fin n.toNat → Fin horizon.toNat → ℝ) (p : Option (List (PyFloat ℝ)))
    (instruments : List (String × RSpec n.toNat ℝ)) : InvArg → Except PyErr GridArg
  | .array _ _ _ => .error .typeError
  | .frame _ cols x =>
    match composeRepricers instruments cols with
    | .error e => .error e
    | .ok (f, names) =>
      match projectScenarios x horizon p n u with
      | .error e => .error e
      | .ok s => .ok (.frame (simGrid (fun a (j : Fin names.length) => (f s a).getD j 0)) (fun t => toString t.val) names.get)

/-- The branch of one function (portfolioapi.py:1101-1105). -/
noncomputable def plainScenarios {horizon n : ℤ} (u : Fin n.toNat → Fin horizon.toNat → ℝ) (p : Option (List (PyFloat ℝ)))
    (v : InvArg) {m : ℕ} (f : (Fin n.toNat → Fin v.drivers → ℝ) → Fin n.toNat → Fin m → ℝ) : Except PyErr GridArg :=
  match projectScenarios v.values horizon p n u with
  | .error e => .error e
  | .ok s => wrapLike v (f s)

/-- The projected and repriced scenarios (portfolioapi.py:1081-1105); `u` are the uniform numbers of the generator. -/
noncomputable def invariantScenarios {horizon n : ℤ} (u : Fin n.toNat → Fin horizon.toNat → ℝ) (p : Option (List (PyFloat ℝ)))
    (v : InvArg) : Reprice n.toNat v.drivers → Except PyErr GridArg
  | .default => plainScenarios u p v (fun s a i => repriceExp (s a i))
  | .fn _ f => plainScenarios u p v f
  | .dict instruments => instrumentScenarios u p instruments v

/-- `PortfolioWrapper.from_invariants` up to the distribution (portfolioapi.py:1022-1112). -/
noncomputable def fromInvariants {horizon n : ℤ} (u : Fin n.toNat → Fin horizon.toNat → ℝ) (p : Option (List (PyFloat ℝ)))
    (v : InvArg) (r : Reprice n.toNat v.drivers) : Except PyErr Dist :=
  match invariantScenarios u p v r with
  | .error e => .error e
  | .ok s => fromScenarios s none "simple"

end PyV.Api
