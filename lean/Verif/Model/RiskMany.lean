import Verif.Model.Risk
import Verif.Model.PyFloat
import Verif.Model.Wrapper
import Mathlib.Analysis.Real.Sqrt

/-!
# The risk functions on one or many portfolios

`portfolio_variance`, `portfolio_volatility`, `portfolio_var` and `portfolio_cvar` of `pyvallocation/utils/functions.py` on arrays of any shape: a
weight vector or matrix, a two-dimensional covariance or scenario matrix of any size, and a probability vector of any length.  Entries are finite
(reals or elements of an ordered field); a Series or DataFrame is the array of its values (`np.asarray`; `portfolio_var` is documented for ndarray
weights only).  The `axis=0` operations are written entry by entry; `argsort` of a column is a parameter because NumPy leaves the order of ties open.
-/

namespace PyV.Risk

open PyV

variable {K : Type*} [Field K] [LinearOrder K] [IsStrictOrderedRing K]

/-- The weights argument: `(N,)` or `(N, M)` (functions.py:7, 20-22, 39-41, 53, 114). -/
inductive WeightsArg (K : Type*) where
  | vector (n : ℕ) (w : Fin n → K)
  | matrix (n m : ℕ) (W : Fin n → Fin m → K)

/-- Number of instruments. -/
def WeightsArg.n : WeightsArg K → ℕ
  | .vector n _ => n
  | .matrix n _ _ => n

/-- Number of columns of `_ensure_weights_matrix(w)` (functions.py:16-17). -/
def WeightsArg.m : WeightsArg K → ℕ
  | .vector _ _ => 1
  | .matrix _ m _ => m

/-- Entries of `_ensure_weights_matrix(w)` (functions.py:16-17): a vector becomes one column. -/
def WeightsArg.val : (w : WeightsArg K) → Fin w.n → Fin w.m → K
  | .vector _ w, i, _ => w i
  | .matrix _ _ W, i, j => W i j

/-- What a risk function returns: `x.item()` when there is one entry, otherwise an array of shape `(M,)` or `(1, M)`. -/
inductive Answer (α : Type*) where
  | number (x : α)
  | array (xs : List α)
  | row (xs : List α)

/-- `quad.item() if quad.size == 1 else quad` (functions.py:36, 110). -/
def itemOrArray {α : Type*} (xs : List α) : Answer α :=
  match xs with
  | [x] => .number x
  | xs => .array xs

/-- `risk.item() if risk.size == 1 else risk` for the two-dimensional `risk` of `portfolio_var` (functions.py:159-160). -/
def itemOrRow {α : Type*} (xs : List α) : Answer α :=
  match xs with
  | [x] => .number x
  | xs => .row xs

/-- Entry `k` (along the broadcast axis) of `(W.T @ cov_np) * W.T` for portfolio `j` (functions.py:35): both factors are broadcast when they have a single
column. -/
def quadTerm (w : WeightsArg K) {r c : ℕ} (h : w.n = r) (C : Fin r → Fin c → K) (j : Fin w.m) (k : ℕ) : K :=
  (if hk : Api.bidx c k < c then ∑ i : Fin w.n, w.val i j * C (Fin.cast h i) ⟨_, hk⟩ else 0) *
    (if hk : Api.bidx w.n k < w.n then w.val ⟨_, hk⟩ j else 0)

/-- `portfolio_variance(w, cov)` (functions.py:20-36) for a covariance array of shape `(r, c)`: the matrix product needs as many rows as instruments,
the elementwise product broadcasts the columns. -/
def portfolioVariance (w : WeightsArg K) {r c : ℕ} (C : Fin r → Fin c → K) : Except PyErr (Answer K) :=
  if h : w.n = r then
    match Api.broadcast c w.n with
    | none => .error .valueError
    | some width => .ok (itemOrArray (List.ofFn fun j : Fin w.m => ∑ k : Fin width, quadTerm w h C j k))
  else .error .valueError

/-- `np.sqrt`: NaN for a negative number (functions.py:50). -/
noncomputable def npSqrt (x : ℝ) : PyFloat ℝ := if x < 0 then .nan else .fin (Real.sqrt x)

/-- `portfolio_volatility(w, cov)` (functions.py:38-50). -/
noncomputable def portfolioVolatility (w : WeightsArg ℝ) {r c : ℕ} (C : Fin r → Fin c → ℝ) : Except PyErr (Answer (PyFloat ℝ)) :=
  match portfolioVariance w C with
  | .error e => .error e
  | .ok (.number x) => .ok (.number (npSqrt x))
  | .ok (.array xs) => .ok (.array (xs.map npSqrt))
  | .ok (.row xs) => .ok (.row (xs.map npSqrt))

/-- The probabilities as a column over the scenarios (functions.py:82, 95, 143, 155): uniform when absent (`1.0 / 0` raises for no scenarios); otherwise
`broadcast_to` accepts one entry per scenario, or a single entry for all scenarios. -/
def probColumn (T : ℕ) (p : Option (List K)) : Except PyErr (Fin T → K) :=
  match p with
  | none => if T = 0 then .error .zeroDivision else .ok (fun _ => 1 / (T : K))
  | some l =>
    if h : l.length = T then .ok (fun t => l.get (Fin.cast h.symm t))
    else if h1 : l.length = 1 then .ok (fun _ => l.get ⟨0, by omega⟩)
    else .error .valueError

/-- `p.T @ R_arr` needs one probability per scenario (functions.py:84-85, 145-146). -/
def demeanFits (T : ℕ) (p : Option (List K)) : Bool :=
  match p with
  | none => true
  | some l => decide (l.length = T)

/-- `pf_pnl = R_arr @ W` (functions.py:89, 149), entry `(t, j)`. -/
def pnlMatrix {T n m : ℕ} (R : Fin T → Fin n → K) (W : Fin n → Fin m → K) (t : Fin T) (j : Fin m) : K := ∑ i, R t i * W i j

/-- `np.argsort(pf_pnl, axis=0)` (functions.py:93, 153): every column sorted on its own. -/
def orderMatrix {T m : ℕ} (argsort : (Fin T → K) → Equiv.Perm (Fin T)) (X : Fin T → Fin m → K) (t : Fin T) (j : Fin m) : Fin T :=
  argsort (fun s => X s j) t

/-- `np.take_along_axis(X, order, axis=0)` (functions.py:94-95, 154-155). -/
def takeAlong {T m : ℕ} (X : Fin T → Fin m → K) (order : Fin T → Fin m → Fin T) (t : Fin T) (j : Fin m) : K := X (order t j) j

/-- `np.cumsum(sorted_p, axis=0)` (functions.py:96, 156). -/
def cumsum0 {T m : ℕ} (X : Fin T → Fin m → K) (t : Fin T) (j : Fin m) : K := ∑ s, if s ≤ t then X s j else 0

/-- `(cumsum >= 1 - conf).argmax(axis=0)` (functions.py:96, 156) for scenarios numbered from a first one `z`: the first `True` in the column, else 0. -/
def varRow {T m : ℕ} (z : Fin T) (S : Fin T → Fin m → K) (conf : K) (j : Fin m) : Fin T :=
  ((List.finRange T).find? (fun t => decide (S t j ≥ 1 - conf))).getD z

/-- The `(T, M)` matrix of profits and losses and the column of probabilities from which both functions start (functions.py:73-91, 134-151).  `argmax`
of an empty axis raises (functions.py:96, 156); that test is made here. -/
def prepare {T n : ℕ} (w : WeightsArg K) (R : Fin T → Fin n → K) (p : Option (List K)) (confidence : Option K) (demean : Bool) :
    Except PyErr (K × (Fin T → K) × (Fin T → Fin w.m → K)) :=
  match checkConf confidence with
  | .error e => .error e
  | .ok conf =>
    match probColumn T p with
    | .error e => .error e
    | .ok q =>
      if demean && !demeanFits T p then .error .valueError
      else if h : n = w.n then
        if T = 0 then .error .valueError
        else .ok (conf, q, pnlMatrix (maybeDemean demean q R) (fun i j => w.val (Fin.cast h i) j))
      else .error .valueError

/-- `portfolio_var` on any number of portfolios (functions.py:113-160). -/
def portfolioVarMany (argsort : (T : ℕ) → (Fin T → K) → Equiv.Perm (Fin T)) {T n : ℕ} (w : WeightsArg K) (R : Fin T → Fin n → K)
    (p : Option (List K)) (confidence : Option K) (demean : Bool) : Except PyErr (Answer K) :=
  match prepare w R p confidence demean with
  | .error e => .error e
  | .ok (conf, q, X) =>
    if hT : 0 < T then
      let order := orderMatrix (argsort T) X
      let sortedPnl := takeAlong X order
      let sortedP := takeAlong (fun t (_ : Fin w.m) => q t) order
      let idx := varRow ⟨0, hT⟩ (cumsum0 sortedP) conf
      .ok (itemOrRow (List.ofFn fun j => -sortedPnl (idx j) j))
    else .error .valueError

/-- `portfolio_cvar` on any number of portfolios (functions.py:52-110). -/
def portfolioCvarMany (argsort : (T : ℕ) → (Fin T → K) → Equiv.Perm (Fin T)) {T n : ℕ} (w : WeightsArg K) (R : Fin T → Fin n → K)
    (p : Option (List K)) (confidence : Option K) (demean : Bool) : Except PyErr (Answer K) :=
  match prepare w R p confidence demean with
  | .error e => .error e
  | .ok (conf, q, X) =>
    if hT : 0 < T then
      let order := orderMatrix (argsort T) X
      let sortedPnl := takeAlong X order
      let sortedP := takeAlong (fun t (_ : Fin w.m) => q t) order
      let idx := varRow ⟨0, hT⟩ (cumsum0 sortedP) conf
      let var := fun j => sortedPnl (idx j) j
      let tailAlpha := 1 - conf
      let mask := fun (t : Fin T) (j : Fin w.m) => if X t j < var j then (1 : K) else 0
      let strictProb := fun j => ∑ t, q t * mask t j
      let strictSum := fun j => ∑ t, q t * X t j * mask t j
      let cvar := fun j => (strictSum j + var j * (tailAlpha - strictProb j)) / tailAlpha
      .ok (itemOrArray (List.ofFn fun j => -cvar j))
    else .error .valueError

end PyV.Risk
