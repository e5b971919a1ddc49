import Verif.Model.Performance
import Verif.Model.Invariants
import Verif.Model.ViewsApi

/-!
# Model of `stress_invariants` (stress.py:431-542)

The invariants are two-dimensional and finite, a repricing function returns one finite row per simulation, seeds are natural numbers. The generator is
a parameter: the uniform numbers of a seed, and those of the first and second unseeded generator of a call.
-/

namespace PyV.Perf

open PyV PyV.Proj PyV.Api

/-- The numbers a call may draw. -/
structure Rng (n h : ℕ) where
  seeded : ℕ → Fin n → Fin h → ℝ
  fresh : ℕ → Fin n → Fin h → ℝ

/-- The numbers of the `k`-th projection of a call: `seed`, then `seed + 1` (stress.py:487-488, 495-497). -/
def Rng.draws {n h : ℕ} (g : Rng n h) (seed : Option ℕ) (k : ℕ) : Fin n → Fin h → ℝ :=
  match seed with
  | some s => g.seeded (s + k)
  | none => g.fresh k

/-- `combined` and `inst_names` (stress.py:474-480). -/
structure Combined (n k : ℕ) where
  m : ℕ
  f : (Fin n → Fin k → ℝ) → Fin n → Fin m → ℝ
  names : Option (List String)

/-- A dict of instruments needs a DataFrame (stress.py:474-477). -/
noncomputable def combineDict {n : ℕ} (instruments : List (String × RSpec n ℝ)) : (v : InvArg) → Except PyErr (Combined n v.drivers)
  | .array _ _ _ => .error .typeError
  | .frame _ cols _ =>
    match composeRepricers instruments cols with
    | .error e => .error e
    | .ok (f, names) => .ok ⟨names.length, fun s a j => (f s a).getD j 0, some names⟩

/-- The repricing function (stress.py:474-480). -/
noncomputable def combine {n : ℕ} (v : InvArg) : Reprice n v.drivers → Except PyErr (Combined n v.drivers)
  | .default => .ok ⟨v.drivers, fun s a i => repriceExp (s a i), none⟩
  | .fn m f => .ok ⟨m, f, none⟩
  | .dict instruments => combineDict instruments v

/-- Column names of the P&L (stress.py:502-508): the instruments, the drivers of a DataFrame (which pandas refuses for another number of
columns), or none. -/
def pnlNames {n : ℕ} (v : InvArg) (c : Combined n v.drivers) : Except PyErr (Option (List String)) :=
  match c.names, v with
  | some l, _ => .ok (some l)
  | none, .array _ _ _ => .ok none
  | none, .frame _ cols _ => if c.m = cols.length then .ok (some cols) else .error .valueError

/-- The invariants as prior scenarios of a views processor (stress.py:493). -/
def asDrivers (v : InvArg) : FV.Drivers :=
  ⟨v.length, v.drivers, v.values,
    match v with
    | .array _ _ _ => none
    | .frame _ cols _ => some (fun i => FV.Label.str (cols.get i))⟩

/-- `FlexibleViewsProcessor(prior_risk_drivers=invariants, mean_views=stress_views)` (stress.py:493). -/
noncomputable def stressProcessor (ep : (S : ℕ) → FV.Ep S) (sort : (S : ℕ) → (Fin S → ℝ) → Equiv.Perm (Fin S)) (round : ℝ → ℤ) (v : InvArg)
    (views : List (FV.MKey × FV.ViewVal)) : Except PyErr FV.Processor :=
  match FV.fromDrivers (asDrivers v) none with
  | .error e => .error e
  | .ok src => FV.process ep sort round src { mean := .dict views }

/-- `np.asarray(weights, float).ravel()` or `weights.values` (stress.py:531): the values row by row, whatever the labels. -/
def ravel {M : ℕ} (w : Weights M ℝ) : List ℝ := (positional w).flatMap List.ofFn

/-- The two metric rows (stress.py:514-540) of one weight vector on the nominal and on the stressed scenarios, all equally likely. -/
noncomputable def compareOn {S N : ℕ} (argsort : (Fin S → ℝ) → Equiv.Perm (Fin S)) (w : List ℝ) (nom str : Fin S → Fin N → ℝ) (conf : ℝ)
    (demean : Bool) : Except PyErr StressReport :=
  match Probs.resolve (none : Option (List (PyFloat ℝ))) S false with
  | .error e => .error e
  | .ok p =>
    if w.length ≠ N then .error .valueError
    else
      match metrics argsort nom p conf demean (fun (_ : Fin 1) => toVec N w) with
      | .error e => .error e
      | .ok a =>
        match metrics argsort str p conf demean (fun (_ : Fin 1) => toVec N w) with
        | .error e => .error e
        | .ok b => .ok { nominal := a, stressed := some b, kl := none }

/-- `stress_invariants` (stress.py:431-542). `mapping` says that the weights are a dict, which `np.asarray(·, float)` does not accept
(stress.py:531), while `stress_test` does. -/
noncomputable def stressInvariants {M : ℕ} {horizon n : ℤ} (ep : (S : ℕ) → FV.Ep S) (sort : (S : ℕ) → (Fin S → ℝ) → Equiv.Perm (Fin S))
    (round : ℝ → ℤ) (rng : Rng n.toNat horizon.toNat) (v : InvArg) (w : Weights M ℝ) (mapping : Bool) (reprice : Reprice n.toNat v.drivers)
    (views : List (FV.MKey × FV.ViewVal)) (seed : Option ℕ) (conf : ℝ) (demean : Bool) : Except PyErr StressReport :=
  match combine v reprice with
  | .error e => .error e
  | .ok c =>
    match projectScenarios v.values horizon none n (rng.draws seed 0) with
    | .error e => .error e
    | .ok moves =>
      if views.isEmpty then
        match pnlNames v c with
        | .error e => .error e
        | .ok names => stressTest (sort n.toNat) w (c.f moves) names none none none conf demean
      else
        match stressProcessor ep sort round v views with
        | .error e => .error e
        | .ok P =>
          match projectScenarios v.values horizon (some P.probabilities) n (rng.draws seed 1) with
          | .error e => .error e
          | .ok stressed =>
            match pnlNames v c with
            | .error e => .error e
            | .ok _ =>
              if mapping then .error .typeError else compareOn (sort n.toNat) (ravel w) (c.f moves) (c.f stressed) conf demean

end PyV.Perf
