import Verif.Model.Optimization
import Verif.Spec.Risk
import Mathlib.Order.Bounds.Basic

/-! # Optimality, stated without reference to how a programme was assembled

`Allowed` is the user's feasible set; `Feasible`, `value` and `Optimal` give the meaning of a CVXOPT call. -/

namespace PyV.Spec.Opt

variable {V : Type} [Fintype V]

/-- `w` satisfies the user's `G w <= h` and `A w = b`. -/
def Allowed {N : ℕ} (u : Opt.User N) (w : Fin N → ℝ) : Prop :=
  (∀ r ∈ u.G.getD [], ∑ i, r.1 i * w i ≤ r.2) ∧ (∀ r ∈ u.A.getD [], ∑ i, r.1 i * w i = r.2)

/-- `w` is allowed and its expected return reaches the target, if there is one. -/
def Reaches {N : ℕ} (u : Opt.User N) (mean : Fin N → ℝ) (target : Option ℝ) (w : Fin N → ℝ) : Prop :=
  Allowed u w ∧ ∀ t, target = some t → t ≤ ∑ i, mean i * w i

/-- `h - g x`. -/
def slack (x : V → ℝ) (r : (V → ℝ) × ℝ) : ℝ := r.2 - ∑ v, r.1 v * x v

/-- Membership of a vector in the second-order cone: the first entry bounds the Euclidean norm of the others. -/
def InCone : List ℝ → Prop
  | [] => True
  | s :: l => Real.sqrt (l.map (fun y => y ^ 2)).sum ≤ s

/-- The constraints of a programme hold at `x`. -/
structure Feasible (pr : Opt.Prog V) (x : V → ℝ) : Prop where
  lin : ∀ r ∈ pr.lin, 0 ≤ slack x r
  soc : ∀ b ∈ pr.soc, InCone (b.map (slack x))
  eq : ∀ r ∈ pr.eq, slack x r = 0

/-- `1/2 x'Px + c'x`. -/
noncomputable def value (pr : Opt.Prog V) (x : V → ℝ) : ℝ :=
  1 / 2 * ∑ u, ∑ v, x u * pr.P u v * x v + ∑ v, pr.c v * x v

/-- `x` solves the programme. -/
def Optimal (pr : Opt.Prog V) (x : V → ℝ) : Prop := Feasible pr x ∧ ∀ y, Feasible pr y → value pr x ≤ value pr y

/-- The programmes CVXOPT is documented for: `P` symmetric and positive semidefinite. -/
def Convex (pr : Opt.Prog V) : Prop := (∀ u v, pr.P u v = pr.P v u) ∧ ∀ x : V → ℝ, 0 ≤ ∑ u, ∑ v, x u * pr.P u v * x v

/-- On convex programmes the solver only reports `"optimal"` for optimal points. -/
def Sound (s : Opt.Solver) : Prop :=
  ∀ (V : Type) (i : Fintype V) (pr : Opt.Prog V) (x : V → ℝ), Convex pr → s V i pr = some x → Optimal pr x

/-- On convex programmes the solver reports `"optimal"` whenever there is an optimal point. -/
def Complete (s : Opt.Solver) : Prop :=
  ∀ (V : Type) (i : Fintype V) (pr : Opt.Prog V), Convex pr → (∃ x, Optimal pr x) → ∃ x, s V i pr = some x

/-- A covariance matrix: symmetric, and no portfolio has negative variance. -/
def IsCov {N : ℕ} (S : Fin N → Fin N → ℝ) : Prop :=
  (∀ i j, S i j = S j i) ∧ ∀ w : Fin N → ℝ, 0 ≤ ∑ i, ∑ j, w i * S i j * w j

/-- `w' S w`. -/
def quad {N : ℕ} (S : Fin N → Fin N → ℝ) (w : Fin N → ℝ) : ℝ := ∑ i, ∑ j, w i * S i j * w j

/-- Expected return `m . w`. -/
def ret {N : ℕ} (m w : Fin N → ℝ) : ℝ := ∑ i, m i * w i

/-- Proportional cost of trading from `w0` to `w`. -/
def turnover {N : ℕ} (c w0 w : Fin N → ℝ) : ℝ := ∑ i, c i * |w i - w0 i|

/-- Quadratic impact of trading from `w0` to `w`. -/
def impact {N : ℕ} (l w0 w : Fin N → ℝ) : ℝ := ∑ i, l i * (w i - w0 i) ^ 2

/-- The columns of an efficient frontier over the set `allowed`, for a risk function and expected returns:
every column is allowed and no allowed portfolio with at least its return has less risk; the first has least risk of all;
risk never decreases from column to column; the `k`-th column reaches the `k`-th point of the equally spaced grid from the
return of the first column to the largest attainable return, and has least risk among the allowed portfolios that do; and there are `num` columns, or a
single one exactly when `num` is 0 or 1 or the returns span no more than the tolerance of `np.isclose`. -/
structure IsFrontier {N : ℕ} (allowed : Set (Fin N → ℝ)) (ret risk : (Fin N → ℝ) → ℝ) (num : ℕ) (cols : List (Fin N → ℝ)) : Prop where
  inside : ∀ w ∈ cols, w ∈ allowed
  efficient : ∀ w ∈ cols, ∀ v ∈ allowed, ret w ≤ ret v → risk w ≤ risk v
  first : ∀ w, cols.head? = some w → ∀ v ∈ allowed, risk w ≤ risk v
  mono : cols.Pairwise (fun v w => risk v ≤ risk w)
  grid : ∀ (k : ℕ) w, cols[k]? = some w → ∀ v, cols.head? = some v → ∀ r, IsGreatest (ret '' allowed) r →
    1 < cols.length → ret v + k * ((r - ret v) / (num - 1)) ≤ ret w
  least : ∀ (k : ℕ) w, cols[k]? = some w → ∀ v, cols.head? = some v → ∀ r, IsGreatest (ret '' allowed) r →
    1 < cols.length → ∀ u ∈ allowed, ret v + k * ((r - ret v) / (num - 1)) ≤ ret u → risk w ≤ risk u
  flat : ∀ w, cols.head? = some w → ∀ r, IsGreatest (ret '' allowed) r → |ret w - r| ≤ 1 / 10 ^ 8 + 1 / 10 ^ 5 * |r| → cols.length = 1
  nonempty : cols ≠ []
  len : cols.length = num ∨ (cols.length = 1 ∧ (num = 0 ∨ ∀ w, cols.head? = some w → ∀ r, IsGreatest (ret '' allowed) r →
    |ret w - r| ≤ 1 / 10 ^ 8 + 1 / 10 ^ 5 * |r|))
  top : ∀ w, cols.getLast? = some w → 1 < cols.length → ∀ v ∈ allowed, ret v ≤ ret w

/-- Long-only holdings satisfying the user's constraints and, unless one of the user's equality rows already fixes the sum of
the weights, fully invested. -/
def Holding {n : ℕ} (u : Opt.User n) (w : Fin n → ℝ) : Prop :=
  Allowed u w ∧ (∀ i, 0 ≤ w i) ∧ ((¬ ∃ r ∈ u.A.getD [], ∀ i, |r.1 i - 1| ≤ 2 / 10 ^ 8) → ∑ i, w i = 1)

/-- Contribution `w_i (S w)_i` of asset `i` to the variance. -/
def contribution {n : ℕ} (S : Fin n → Fin n → ℝ) (w : Fin n → ℝ) (i : Fin n) : ℝ := w i * ∑ j, S i j * w j

/-- Equal risk contributions: a long-only fully invested portfolio whose assets all contribute equally. -/
def IsErc {n : ℕ} (S : Fin n → Fin n → ℝ) (w : Fin n → ℝ) : Prop :=
  (∀ i, 0 ≤ w i) ∧ ∑ i, w i = 1 ∧ ∀ i j, contribution S w i = contribution S w j

/-- Risk budgeting: a long-only fully invested portfolio whose contributions are in the ratio of the budgets. -/
def IsRiskBudgeting {n : ℕ} (S : Fin n → Fin n → ℝ) (b w : Fin n → ℝ) : Prop :=
  (∀ i, 0 ≤ w i) ∧ ∑ i, w i = 1 ∧ ∀ i j, b j * contribution S w i = b i * contribution S w j

end PyV.Spec.Opt
