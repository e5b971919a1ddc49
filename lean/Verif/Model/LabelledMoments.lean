import Verif.Model.Projection
import Verif.Model.Bayesian

/-!
# Containers of moments: the pandas side of `utils/projection.py` and of `RobustBayesPosterior`

Moments arrive as NumPy arrays or as pandas objects; the functions below strip the labels (`to_numpy`), compute on positions and put labels back.
The numbers are those of `Proj.log2simple`, `Proj.simple2log`, `Proj.projectMeanCov` and of the robust posterior; only agreeing lengths are modelled here
(`Api.logArgs` models broadcasting), and the pandas object keeps a string label per position.
-/

namespace PyV.Boxed

open PyV Matrix

variable {n : ℕ}

/-- A vector: a 1-D array, or a `pd.Series` with its index and name. -/
inductive Vec (n : ℕ) where
  | array (v : Fin n → ℝ)
  | series (index : Fin n → String) (name : Option String) (v : Fin n → ℝ)

/-- A square matrix: a 2-D array, or a `pd.DataFrame` with its index and columns. -/
inductive Mat (n : ℕ) where
  | array (A : Fin n → Fin n → ℝ)
  | frame (index columns : Fin n → String) (A : Fin n → Fin n → ℝ)

/-- `_to_numpy` on a vector (projection.py:64-73, bayesian.py:14-23). -/
def Vec.toNumpy : Vec n → Fin n → ℝ
  | .array v => v
  | .series _ _ v => v

/-- `_to_numpy` on a matrix (projection.py:64-73, bayesian.py:14-23). -/
def Mat.toNumpy : Mat n → Fin n → Fin n → ℝ
  | .array A => A
  | .frame _ _ A => A

/-- `_wrap_vector` (projection.py:76-90). -/
def wrapVector (x : Fin n → ℝ) : Vec n → Vec n
  | .series index name _ => .series index name x
  | .array _ => .array x

/-- `_wrap_matrix` (projection.py:93-107) and `_wrap_matrix_like` (bayesian.py:26-40). -/
def wrapMatrix (x : Fin n → Fin n → ℝ) : Mat n → Mat n
  | .frame index columns _ => .frame index columns x
  | .array _ => .array x

/-- `log2simple` (projection.py:110-132). -/
noncomputable def log2simple (mu : Vec n) (cov : Mat n) : Vec n × Mat n :=
  let r := Proj.log2simple mu.toNumpy cov.toNumpy
  (wrapVector r.1 mu, wrapMatrix r.2 cov)

/-- `simple2log` (projection.py:135-160). -/
noncomputable def simple2log (mu : Vec n) (cov : Mat n) : Except PyErr (Vec n × Mat n) :=
  match Proj.simple2log mu.toNumpy cov.toNumpy with
  | .error e => .error e
  | .ok r => .ok (wrapVector r.1 mu, wrapMatrix r.2 cov)

/-- `project_mean_covariance` (projection.py:10-26): pandas multiplies by a scalar entry by entry and keeps index, columns and name. -/
noncomputable def projectMeanCov (mu : Vec n) (cov : Mat n) (f : ℝ) : Vec n × Mat n :=
  let r := Proj.projectMeanCov mu.toNumpy cov.toNumpy f
  (wrapVector r.1 mu, wrapMatrix r.2 cov)

/-- `RobustBayesPosterior` with its containers (bayesian.py:579-606). -/
structure Posterior (n : ℕ) where
  mu : Vec n
  sigma : Mat n
  sMu : Mat n
  nu1 : Option ℝ
  nAssets : Option ℕ
  T1 : Option ℝ

/-- The numbers of a posterior. -/
def Posterior.numbers (r : Posterior n) : Bayes.Robust :=
  ⟨n, r.mu.toNumpy, Matrix.of r.sigma.toNumpy, Matrix.of r.sMu.toNumpy, r.nu1, r.nAssets, r.T1⟩

/-- `mean_uncertainty_cov_log` (bayesian.py:649-664). -/
noncomputable def covLog (r : Posterior n) (h : ℝ) : Mat n := wrapMatrix (fun i j => Bayes.covLog r.numbers h i j) r.sMu

/-- `sigma1` (bayesian.py:666-685). -/
noncomputable def sigma1 (r : Posterior n) : Except PyErr (Mat n) :=
  match Bayes.sigma1 r.numbers with
  | .error e => .error e
  | .ok A => .ok (wrapMatrix (fun i j => A i j) r.sigma)

/-- `mean_uncertainty_cov_simple` (bayesian.py:731-766). -/
noncomputable def covSimple (r : Posterior n) (h : ℝ) (exact_ : Bool) : Mat n :=
  wrapMatrix (fun i j => Bayes.covSimple r.numbers h exact_ i j) r.sMu

end PyV.Boxed
