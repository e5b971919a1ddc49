import Verif.Model.Ensembles

/-! # Vocabulary for ensembles -/

namespace PyV.Spec.Ens

open PyV PyV.Ens

variable {K : Type*} [Field K] [LinearOrder K] [IsStrictOrderedRing K] {N S : ℕ} {A : Type*} [DecidableEq A]

/-- `raw k` is the weight the caller gave sample `k`: all equal when no weights are given, by position for a sequence or when the
samples carry no labels, by label otherwise. -/
def Requested (names : Option (List A)) (w : WeightsArg A K) (raw : Fin S → K) : Prop :=
  match w with
  | .none => ∀ k, raw k = 1
  | .array l => l = List.ofFn (fun k => PyFloat.fin (raw k))
  | .series l =>
    match names with
    | none => l.map Prod.snd = List.ofFn (fun k => PyFloat.fin (raw k))
    | some ns => (l.map Prod.fst).Nodup ∧ ns.length = S ∧ ∀ k : Fin S, ∃ a, ns[(k : ℕ)]? = some a ∧ (a, PyFloat.fin (raw k)) ∈ l

/-- The weights form a convex combination. -/
def Simplex (x : Fin S → K) : Prop := (∀ k, 0 ≤ x k) ∧ ∑ k, x k = 1

/-- Mean exposure of a fold. -/
def foldMean (E : Fin N → Fin S → K) (F : Finset (Fin S)) (i : Fin N) : K := (∑ k ∈ F, E i k) / F.card

/-- Squared distance between the fold's mean exposure and the combination, with coefficients `x`, of the samples outside the fold. -/
def foldLoss (E : Fin N → Fin S → K) (x : Fin S → K) (F : Finset (Fin S)) : K :=
  ∑ i, (foldMean E F i - ∑ k ∈ Fᶜ, x k * E i k) ^ 2

/-- Cross-validation loss over a list of folds. -/
def cvLoss (E : Fin N → Fin S → K) (Fs : List (Finset (Fin S))) (x : Fin S → K) : K := (Fs.map (foldLoss E x)).sum

/-- Objective value `x'Px/2 + q'x`. -/
def qpValue {n m k : ℕ} (q : Qp n m k K) (x : Fin n → K) : K := (∑ a, ∑ b, x a * q.P a b * x b) / 2 + ∑ a, q.q a * x a

/-- Feasibility `Gx <= h`, `Ax = b`. -/
def qpFeasible {n m k : ℕ} (q : Qp n m k K) (x : Fin n → K) : Prop :=
  (∀ r, ∑ a, q.G r a * x a ≤ q.h r) ∧ ∀ r, ∑ a, q.A r a * x a = q.b r

/-- `x` solves the programme. -/
def QpOptimal {n m k : ℕ} (q : Qp n m k K) (x : Fin n → K) : Prop :=
  qpFeasible q x ∧ ∀ y, qpFeasible q y → qpValue q x ≤ qpValue q y

/-- Whatever options it is run with, the solver only reports a point as optimal when it is. -/
def SolverSound {n m k : ℕ} {V : Type*} (solve : QpSolver n m k K V) : Prop :=
  ∀ q g x, (solve q g).1 = .ok (some x) → QpOptimal q x

end PyV.Spec.Ens
