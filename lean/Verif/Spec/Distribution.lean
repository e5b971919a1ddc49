import Verif.Model.Distribution

/-! # What a valid description of the assets is

Written over the constructor arguments only. -/

namespace PyV.Api

open PyV

/-- Every list of asset labels the caller supplied. -/
def labelLists (a : DistArgs) : List (List String) :=
  (match a.assetNames with | some l => [l] | none => []) ++
  (match a.mu with | some (.series l) => [l.map Prod.fst] | _ => []) ++
  (match a.cov with | some (.frame _ i c) => [List.ofFn i, List.ofFn c] | _ => []) ++
  (match a.scenarios with | some (.frame _ _ c) => [List.ofFn c] | _ => [])

/-- The argument is a matrix with the given number of rows and columns holding exactly the finite numbers `v`. -/
def GridArg.Holds {r c : ℕ} (arg : GridArg) (v : Fin r → Fin c → ℝ) : Prop :=
  ∃ g : Grid, (arg = .array g ∨ ∃ i k, arg = .frame g i k) ∧ ∃ (hr : g.rows = r) (hc : g.cols = c),
    ∀ i j, g.e i j = .fin (v (i.cast hr) (j.cast hc))

/-- The argument is a vector holding exactly the finite numbers `v`. -/
def VecArg.Holds {n : ℕ} (arg : VecArg) (v : Fin n → ℝ) : Prop := arg.vals = List.ofFn (fun i => PyFloat.fin (v i))

/-- Admissible scenario probabilities: omitted, or one non-negative finite weight per scenario, not all zero. -/
def ProbsOk (T : ℕ) (p : Option (List (PyFloat ℝ))) : Prop :=
  ∀ l, p = some l → ∃ w : Fin T → ℝ, l = List.ofFn (fun t => PyFloat.fin (w t)) ∧ (∀ t, 0 ≤ w t) ∧ 0 < ∑ t, w t

/-- A consistent description of `N ≥ 1` assets: some information is present, every numeric input is finite and has the right shape,
every label list has one entry per asset and all label lists agree. -/
structure ValidInputs (a : DistArgs) (N : ℕ) : Prop where
  pos : 0 < N
  some_input : a.mu.isSome ∨ a.cov.isSome ∨ a.scenarios.isSome
  mu : ∀ m, a.mu = some m → ∃ v : Fin N → ℝ, m.Holds v
  cov : ∀ c, a.cov = some c → ∃ v : Fin N → Fin N → ℝ, c.Holds v
  scen : ∀ s, a.scenarios = some s → ∃ (T : ℕ) (v : Fin T → Fin N → ℝ), 0 < T ∧ s.Holds v ∧ ProbsOk T a.probabilities
  agree : ∀ l ∈ labelLists a, ∀ l' ∈ labelLists a, l = l'
  count : ∀ l ∈ labelLists a, l.length = N

end PyV.Api
