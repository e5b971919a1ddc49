import Verif.Model.Poet

/-!
# Model of the data shown by `plot_assumptions_3d`

Projection to three dimensions, the ellipsoid mesh, the principal axes, the percentages of the axis labels and the thinning of scenarios.
Arithmetic over ℝ; `eigh` and `argsort` are arbitrary functions.
-/

namespace PyV.Plot3d

open PyV PyV.Mom Matrix

variable {N T : ℕ}

/-- `0.5 * (cov + cov.T)` (plotting.py:109, 155, 780). -/
noncomputable def sym (C : Matrix (Fin N) (Fin N) ℝ) : Matrix (Fin N) (Fin N) ℝ := Matrix.of (fun i j => (C i j + C j i) / 2)

/-- `components` (plotting.py:111-116, 134): the first three eigenvectors by descending eigenvalue, or `np.eye(n, 3)` below three assets. -/
noncomputable def components (argsort : (Fin N → ℝ) → Equiv.Perm (Fin N)) (eigh : Eigh N) (C : Matrix (Fin N) (Fin N) ℝ) :
    Matrix (Fin N) (Fin 3) ℝ :=
  if h : 3 ≤ N then Matrix.of (fun i l => (descending argsort eigh (sym C)).2 i (Fin.castLE h l))
  else Matrix.of (fun i l => if (i : ℕ) = l then 1 else 0)

/-- `x[:n] = v` on three zeros (plotting.py:126-127). -/
def pad (v : Fin N → ℝ) (l : Fin 3) : ℝ := if h : (l : ℕ) < N then v ⟨l, h⟩ else 0

/-- `mean_3d` (plotting.py:117, 126-127). -/
def mean3 (B : Matrix (Fin N) (Fin 3) ℝ) (m : Fin N → ℝ) : Fin 3 → ℝ := if 3 ≤ N then fun l => ∑ i, B i l * m i else pad m

/-- `cov_3d` (plotting.py:118, 128-129). -/
noncomputable def cov3 (B : Matrix (Fin N) (Fin 3) ℝ) (C : Matrix (Fin N) (Fin N) ℝ) : Matrix (Fin 3) (Fin 3) ℝ :=
  if 3 ≤ N then Bᵀ * sym C * B else Matrix.of (fun k l => pad (fun i => pad (fun j => sym C i j) l) k)

/-- `scen_3d` (plotting.py:119-121, 131-133). -/
def scen3 (B : Matrix (Fin N) (Fin 3) ℝ) (R : Fin T → Fin N → ℝ) (t : Fin T) : Fin 3 → ℝ := if 3 ≤ N then fun l => ∑ i, R t i * B i l else pad (R t)

/-- `radii` (plotting.py:157-158). -/
noncomputable def radius (nStd x : ℝ) : ℝ := nStd * Real.sqrt (max x 0 + 1 / 10 ^ 16)

/-- `np.linspace(0, stop, n)[k]`. -/
noncomputable def angle (stop : ℝ) (n k : ℕ) : ℝ := stop * (k : ℝ) / ((n : ℝ) - 1)

/-- Entry `(a, b)` of the mesh of `_ellipsoid_mesh` (plotting.py:138-170). -/
noncomputable def mesh (eigh : Eigh 3) (C : Matrix (Fin 3) (Fin 3) ℝ) (nStd : ℝ) (n a b : ℕ) : Fin 3 → ℝ :=
  let e := eigh (sym C)
  let u := angle (2 * Real.pi) n a
  let v := angle Real.pi n b
  e.2 *ᵥ ![radius nStd (e.1 0) * (Real.cos u * Real.sin v), radius nStd (e.1 1) * (Real.sin u * Real.sin v), radius nStd (e.1 2) * (1 * Real.cos v)]

/-- The half-axis `vec` of `_plot_principal_axes` (plotting.py:780-787); the line is drawn from `mean - vec` to `mean + vec`. -/
noncomputable def halfAxis (argsort : (Fin 3 → ℝ) → Equiv.Perm (Fin 3)) (eigh : Eigh 3) (C : Matrix (Fin 3) (Fin 3) ℝ) (k : Fin 3) : Fin 3 → ℝ :=
  fun i => (descending argsort eigh (sym C)).2 i k * Real.sqrt (max ((descending argsort eigh (sym C)).1 k) 0 + 1 / 10 ^ 16)

/-- The matrix `np.linalg.eigvalsh` reads: the lower triangle. -/
def lower (C : Matrix (Fin N) (Fin N) ℝ) : Matrix (Fin N) (Fin N) ℝ := Matrix.of (fun i j => if j ≤ i then C i j else C j i)

/-- The clipped eigenvalues (plotting.py:847-848). -/
noncomputable def clipped (eigh : Eigh N) (C : Matrix (Fin N) (Fin N) ℝ) (i : Fin N) : ℝ := max ((eigh (lower C)).1 i) 0

/-- `total` (plotting.py:851). -/
noncomputable def total (eigh : Eigh N) (C : Matrix (Fin N) (Fin N) ℝ) : ℝ :=
  if 0 < ∑ i, clipped eigh C i then ∑ i, clipped eigh C i else 1

/-- `explained` (plotting.py:849-854): the shares in the labels of the three axes. -/
noncomputable def explained (argsort : (Fin N → ℝ) → Equiv.Perm (Fin N)) (eigh : Eigh N) (C : Matrix (Fin N) (Fin N) ℝ) : Fin 3 → ℝ :=
  pad (fun l => clipped eigh C (argsort (clipped eigh C) (Fin.rev l)) / total eigh C)

/-- The scenarios drawn (plotting.py:734-736): all when there are at most `max_points`, else those at the integer parts of
`np.linspace(0, T - 1, max_points)`. -/
def thinned (T maxPoints : ℕ) : List ℕ :=
  if maxPoints < T then (List.range maxPoints).map (fun k : ℕ => k * (T - 1) / (maxPoints - 1)) else List.range T

end PyV.Plot3d
