import Verif.Model.Optimization

/-!
# Model of the argument handling of `MeanVariance` and `RelaxedRiskParity` (`pyvallocation/optimization.py`)

The optimiser classes take raw matrices of any shape.  Matrices hold floats (an integer matrix makes CVXOPT raise `TypeError`).
-/

namespace PyV.Opt

open PyV Matrix

/-- A matrix with `r` rows and `c` columns. -/
structure RawMat where
  r : ℕ
  c : ℕ
  f : Fin r → Fin c → ℝ

/-- A constraint matrix as the caller writes it: a NumPy array, or a list of `outer` lists of `inner` numbers. -/
inductive MatArg where
  | array (m : RawMat)
  | nested (outer inner : ℕ) (f : Fin outer → Fin inner → ℝ)

/-- `cvxopt.matrix(x)` (optimization.py:258-261): an array keeps its shape, the inner lists of a nested list are *columns*. -/
def cvxMatrix : MatArg → RawMat
  | .array m => m
  | .nested outer inner f => ⟨inner, outer, fun i j => f j i⟩

/-- Rows of a matrix with their right-hand sides. -/
def zipRows {α : Type} (m : RawMat) (h : List α) : List ((Fin m.c → ℝ) × α) := (List.ofFn (fun i => m.f i)).zip h

/-- The rows of `G`, `h` where the number of columns is known to be `n`. -/
def rowsFor {α : Type} {n : ℕ} (m : RawMat) (hc : m.c = n) (h : List α) : List ((Fin n → ℝ) × α) :=
  (zipRows m h).map (fun p => (fun i => p.1 (Fin.cast hc.symm i), p.2))

/-- One half of `_extract_user_constraints` (optimization.py:1237-1247, 1249-1259): `np.asarray(None, dtype=float).ravel()` is the
one-element vector `[nan]`. A CVXOPT matrix has two dimensions, so the `ndim` test never fires. -/
def extractRows {n : ℕ} (m : Option RawMat) (h : Option (List ℝ)) : Except PyErr (Option (List ((Fin n → ℝ) × PyFloat ℝ))) :=
  match m with
  | none => .ok none
  | some m =>
    if hc : m.c = n then
      if (match h with | none => [PyFloat.nan] | some l => l.map PyFloat.fin).length = m.r then
        .ok (some (rowsFor m hc (match h with | none => [PyFloat.nan] | some l => l.map PyFloat.fin)))
      else .error .valueError
    else .error .valueError

/-- Constraint arguments of an optimiser (optimization.py:241-261). -/
structure RawUser where
  G : Option MatArg := none
  h : Option (List ℝ) := none
  A : Option MatArg := none
  b : Option (List ℝ) := none

/-- `_extract_user_constraints` (optimization.py:1223-1261). -/
def extractUser {n : ℕ} (u : RawUser) :
    Except PyErr (Option (List ((Fin n → ℝ) × PyFloat ℝ)) × Option (List ((Fin n → ℝ) × PyFloat ℝ))) :=
  match extractRows (u.G.map cvxMatrix) u.h with
  | .error e => .error e
  | .ok g =>
    match extractRows (u.A.map cvxMatrix) u.b with
    | .error e => .error e
    | .ok a => .ok (g, a)

/-- `RelaxedRiskParity.__init__` (optimization.py:970-1020) on raw arguments: the shape tests in program order. -/
noncomputable def rrpRaw (factor : Bayes.Factor) (mean : List ℝ) (cov : RawMat) (u : RawUser) (rb : Option (List ℝ)) :
    Except PyErr (Rrp mean.length × RawUser) :=
  if hs : cov.r = cov.c then
    if hm : cov.r = mean.length then
      match rrpInit factor (fun i => mean.get i)
          (fun i j => cov.f (Fin.cast hm.symm i) (Fin.cast (hm.symm.trans hs) j)) ⟨none, none⟩ none with
      | .error e => .error e
      | .ok a =>
        match rb with
        | none => .ok (a, u)
        | some l =>
          if hl : l.length = mean.length then
            match rrpBudgets (some (fun i => l.get (Fin.cast hl.symm i))) with
            | .error e => .error e
            | .ok b => .ok ({ a with budgets := b }, u)
          else .error .valueError
    else .error .valueError
  else .error .valueError

/-- The shape tests of `cvxopt.solvers.qp` for one pair of constraint arguments: a missing matrix has no rows, a missing vector no
entries. -/
def cvxRows {n : ℕ} (m : Option RawMat) (h : Option (List ℝ)) : Except PyErr (Option (List (Row (Fin n)))) :=
  match m with
  | none => if (h.getD []).length = 0 then .ok none else .error .typeError
  | some m =>
    if hc : m.c = n then
      if (h.getD []).length = m.r then .ok (some (rowsFor m hc (h.getD []))) else .error .typeError
    else .error .typeError

/-- The QP solved by `MeanVariance(mean, covariance, G, h, A, b)` without a return target (optimization.py:369-416). -/
def mvRaw (mean : List ℝ) (cov : RawMat) (u : RawUser) : Except PyErr (MV mean.length) :=
  if hr : cov.r = mean.length then
    if hc : cov.c = mean.length then
      match cvxRows (u.G.map cvxMatrix) u.h with
      | .error e => .error e
      | .ok g =>
        match cvxRows (u.A.map cvxMatrix) u.b with
        | .error e => .error e
        | .ok a => .ok (mvInit (fun i => mean.get i) (fun i j => cov.f (Fin.cast hr.symm i) (Fin.cast hc.symm j)) ⟨g, a⟩ none none)
    else .error .typeError
  else .error .typeError

end PyV.Opt
