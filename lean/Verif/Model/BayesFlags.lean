import Verif.Model.Bayesian

/-! # Model of the two small public helpers of `bayesian.py` left out of `Verif.Model.Bayesian` -/

namespace PyV.Bayes

open PyV

/-- `NIWPosterior.is_updated` (bayesian.py:292-295). -/
def isUpdated (o : Niw) : Bool := o.post.isSome

/-- `chi2_quantile(p, dof, sqrt=True)` (bayesian.py:109-147): the root of the quantile.  `np.sqrt` of a negative number is NaN; quantiles are not
negative (the parameter `ppf`), so this does not arise. -/
noncomputable def chi2Root (ppf : ℝ → ℕ → ℝ) (p : ℝ) (dof : ℕ) : Except PyErr ℝ := by
  classical
  exact if ¬ (0 < p ∧ p < 1) then .error .valueError else .ok (Real.sqrt (ppf p dof))

end PyV.Bayes
