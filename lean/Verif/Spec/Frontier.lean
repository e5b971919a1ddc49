import Verif.Model.Frontier

/-! # Vocabulary for frontier selection -/

namespace PyV.Spec.Frontier

open PyV PyV.Fr

variable {K : Type*} [Field K] [LinearOrder K] [IsStrictOrderedRing K] {N M : ℕ} {L : Type*} [DecidableEq L]

/-- `i` is the first of the positions in `S` with the smallest value. -/
def FirstMin {V : Type*} [LT V] [LE V] (S : Fin M → Prop) (v : Fin M → V) (i : Fin M) : Prop :=
  S i ∧ (∀ j, S j → v i ≤ v j) ∧ ∀ j, j < i → S j → v i < v j

/-- `i` is the first of the positions in `S` with the largest value. -/
def FirstMax {V : Type*} [LT V] [LE V] (S : Fin M → Prop) (v : Fin M → V) (i : Fin M) : Prop :=
  S i ∧ (∀ j, S j → v j ≤ v i) ∧ ∀ j, j < i → S j → v j < v i

/-- `r` is the risk vector the frontier carries under a label (no label: the primary one). -/
def RiskUnder (f : Frontier L K N M) (label : Option L) (r : Fin M → K) : Prop :=
  ((label = none ∨ label = some f.riskMeasure) ∧ r = f.risks) ∨
    ∃ l, label = some l ∧ l ≠ f.riskMeasure ∧ f.alternates.lookup l = some r

/-- The triple reports column `i` with risk vector `r`: that portfolio's weights, return and risk. -/
def Reports (f : Frontier L K N M) (r : Fin M → K) (i : Fin M) (p : Pick K N) : Prop :=
  (∀ a, p.w a = f.weights a i) ∧ p.ret = f.returns i ∧ p.risk = r i

end PyV.Spec.Frontier
