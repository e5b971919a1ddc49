import Verif.Spec.Views
import Verif.Spec.EntropyPooling

/-! # What is assumed of the entropy-pooling oracle -/

namespace PyV.Spec

open PyV.FV

variable {S : ℕ}

/-- `q` is the minimum-KL distribution (relative to `prior`) meeting the rows: strictly positive, and every other
distribution meeting the rows is strictly further from the prior. -/
def IsKlPosterior (prior : Fin S → ℝ) (r : Rows S) (q : Fin S → ℝ) : Prop :=
  (∀ s, 0 < q s) ∧ IsProb q ∧ MeetsRows r q ∧
    ∀ q', IsProb q' → MeetsRows r q' → kl q prior ≤ kl q' prior ∧ (kl q' prior ≤ kl q prior → q' = q)

/-- Whatever the oracle returns on rows containing the sum-to-one row meets the rows and is a distribution. -/
def EpSound (ep : Ep S) : Prop :=
  ∀ prior r q, ((fun _ => 1, 1) : (Fin S → ℝ) × ℝ) ∈ r.eq → ep prior r = .ok q → IsProb q ∧ MeetsRows r q

/-- The oracle returns exactly the minimum-KL distribution, when there is one. -/
noncomputable def optimalEp : Ep S := by
  classical
  exact fun prior r => if h : ∃ q, IsKlPosterior prior r q then .ok h.choose else .error .runtimeError

/-- The oracle is exact: it returns a distribution precisely when that is the minimum-KL distribution meeting the rows. -/
def EpExact (ep : Ep S) : Prop := ∀ prior r q, ep prior r = .ok q ↔ IsKlPosterior prior r q

end PyV.Spec
