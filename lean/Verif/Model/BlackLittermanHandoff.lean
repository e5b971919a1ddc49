import Verif.Model.BlackLittermanApi
import Verif.Model.Wrapper

/-!
# The posterior of `BlackLittermanProcessor.get_posterior` as arguments of `PortfolioWrapper.from_moments`
-/

namespace PyV.BL

open PyV PyV.FV

/-- The posterior mean as returned: a Series over the labels of the prior covariance when that is a DataFrame, else an array
(views.py:1391-1395). `name` renders labels as strings, as in `ViewsApi`. -/
def Post.meanArg {N : ℕ} (p : Post N) (name : Label → String) : Api.VecArg :=
  match p.labels with
  | some l => .series ((List.ofFn (fun i => name (l i))).zip (p.mu.map PyFloat.fin))
  | none => .array (p.mu.map PyFloat.fin)

/-- The posterior covariance as returned (views.py:1391-1395). -/
def Post.covArg {N : ℕ} (p : Post N) (name : Label → String) : Api.GridArg :=
  let g : Api.Grid := ⟨N, N, fun i j => .fin (p.cov i j)⟩
  match p.labels with
  | some l => .frame g (fun i => name (l i)) (fun i => name (l i))
  | none => .array g

end PyV.BL
