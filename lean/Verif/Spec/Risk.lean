import Verif.Spec.Prob
import Mathlib.Order.Bounds.Basic

/-! # Risk measures, defined without sorting -/

namespace PyV.Spec

variable {K : Type*} [Field K] [LinearOrder K] [IsStrictOrderedRing K] {T : ℕ}

/-- Rockafellar–Uryasev objective: threshold plus expected excess loss over `1 - confidence` (loss = minus P&L). -/
def ru (p x : Fin T → K) (conf c : K) : K := c + expect p (fun t => max (-(x t) - c) 0) / (1 - conf)

/-- `r` is the CVaR of the P&L `x`: the minimum of the RU objective over all thresholds. -/
def IsCvar (p x : Fin T → K) (conf r : K) : Prop := IsLeast (Set.range (ru p x conf)) r

/-- `r` is the VaR of the P&L `x`: `-r` is the (lower) `1 - confidence` quantile. -/
def IsVar (p x : Fin T → K) (conf r : K) : Prop :=
  prob p (fun t => x t < -r) < 1 - conf ∧ 1 - conf ≤ prob p (fun t => x t ≤ -r)

end PyV.Spec
