import Verif.Model.PyFloat
import Mathlib.Analysis.SpecialFunctions.Log.Basic

/-!
# Model of `pyvallocation/utils/data_helpers.py`

Prices are floats with NaN (missing) and infinities; finite values are exact reals. Signed zeros are not modelled (`x / -0.0`).
-/

namespace PyV.Data

open PyV

/-- IEEE division (`x / x.shift(1)`, data_helpers.py:65-66). -/
noncomputable def fdiv : PyFloat ℝ → PyFloat ℝ → PyFloat ℝ
  | .fin x, .fin y => if y ≠ 0 then .fin (x / y) else if x = 0 then .nan else if 0 < x then .posInf else .negInf
  | .fin _, .posInf => .fin 0
  | .fin _, .negInf => .fin 0
  | .posInf, .fin y => if 0 ≤ y then .posInf else .negInf
  | .negInf, .fin y => if 0 ≤ y then .negInf else .posInf
  | _, _ => .nan

/-- `np.log` (data_helpers.py:65): NaN for negative numbers, minus infinity at zero. -/
noncomputable def flog : PyFloat ℝ → PyFloat ℝ
  | .fin x => if 0 < x then .fin (Real.log x) else if x = 0 then .negInf else .nan
  | .posInf => .posInf
  | _ => .nan

/-- `x - 1` (inside `pct_change`, data_helpers.py:66). -/
noncomputable def fpred : PyFloat ℝ → PyFloat ℝ
  | .fin x => .fin (x - 1)
  | x => x

/-- `return_calculation_method` (data_helpers.py:64-73). -/
inductive Method where
  | log | simple
  deriving DecidableEq

/-- `calc_map` lookup; other names are a `ValueError` (data_helpers.py:64-73). -/
def method? (s : String) : Option Method := if s = "log" then some .log else if s = "simple" then some .simple else none

/-- One return from two consecutive prices (data_helpers.py:65-66; `pct_change(fill_method=None)` is `x / x.shift(1) - 1`). -/
noncomputable def ret (m : Method) (before after : PyFloat ℝ) : PyFloat ℝ :=
  match m with
  | .log => flog (fdiv after before)
  | .simple => fpred (fdiv after before)

/-- `returns.iloc[1:]` (data_helpers.py:68-75): one row for every pair of consecutive price rows. -/
noncomputable def returnRows {N : ℕ} (m : Method) : List (Fin N → PyFloat ℝ) → List (Fin N → PyFloat ℝ)
  | p :: q :: rest => (fun i => ret m (p i) (q i)) :: returnRows m (q :: rest)
  | _ => []

/-- `Series.isna`. -/
def isNan : PyFloat ℝ → Bool
  | .nan => true
  | _ => false

/-- `DataFrame.ffill()`, with the last valid observation of each column carried along (data_helpers.py:78). -/
def ffill {N : ℕ} : (Fin N → PyFloat ℝ) → List (Fin N → PyFloat ℝ) → List (Fin N → PyFloat ℝ)
  | _, [] => []
  | last, r :: rest =>
    let r' := fun i => if isNan (r i) then last i else r i
    r' :: ffill r' rest

/-- `fill_na_method` (data_helpers.py:77-88). -/
inductive Fill where
  | ffill | bfill | zero | drop
  deriving DecidableEq

/-- `fill_map` lookup; other names are a `ValueError` (data_helpers.py:77-88). -/
def fill? (s : String) : Option Fill :=
  if s = "ffill" then some .ffill else if s = "bfill" then some .bfill else if s = "zero" then some .zero else if s = "drop" then some .drop
  else none

/-- `fillna(0)` (data_helpers.py:80, 90). -/
def fillZero {N : ℕ} (rows : List (Fin N → PyFloat ℝ)) : List (Fin N → PyFloat ℝ) :=
  rows.map (fun r i => if isNan (r i) then .fin 0 else r i)

/-- The chosen filling followed by `fillna(0)` (data_helpers.py:77-90). -/
def fillRows {N : ℕ} (f : Fill) (rows : List (Fin N → PyFloat ℝ)) : List (Fin N → PyFloat ℝ) :=
  match f with
  | .ffill => fillZero (ffill (fun _ => .nan) rows)
  | .bfill => fillZero (ffill (fun _ => .nan) rows.reverse).reverse
  | .zero => fillZero (fillZero rows)
  | .drop => fillZero (rows.filter (fun r => decide (∀ i, isNan (r i) = false)))

/-- A DataFrame with `T` rows: distinct column names, whether the column is numeric, and its values; the name of its (single) index;
`dates c`: `pd.to_datetime` accepts column `c`. Row labels play no role. MultiIndex levels are only dropped (data_helpers.py:51-52). -/
structure PriceFrame (T : ℕ) where
  cols : List (String × Bool × (Fin T → PyFloat ℝ))
  indexName : Option String
  dates : String → Bool

/-- `date_column` handling (data_helpers.py:35-49): the column becomes the index and is no longer a column. -/
def dropDate {T : ℕ} (f : PriceFrame T) (date : Option String) : Except PyErr (List (String × Bool × (Fin T → PyFloat ℝ))) :=
  match date with
  | none => .ok f.cols
  | some d =>
    if d = "" ∨ f.indexName = some d then .ok f.cols
    else if d ∈ f.cols.map Prod.fst then
      (if f.dates d then .ok (f.cols.filter (fun c => decide (c.1 ≠ d))) else .error .valueError)
    else .error .valueError

/-- `df[price_columns]` for one name (data_helpers.py:58): whether the column is numeric, and its values. -/
def pickCol {T : ℕ} (cols : List (String × Bool × (Fin T → PyFloat ℝ))) (name : String) : Except PyErr (Bool × (Fin T → PyFloat ℝ)) :=
  match cols.find? (fun c => decide (c.1 = name)) with
  | some c => .ok c.2
  | none => .error .valueError

/-- Column selection (data_helpers.py:54-62): the named columns, all of which must exist; or all numeric columns (none, or no rows at all, is a
`ValueError`). -/
def priceCols {T : ℕ} (cols : List (String × Bool × (Fin T → PyFloat ℝ))) (names : Option (List String)) :
    Except PyErr (List (Bool × (Fin T → PyFloat ℝ))) :=
  match names with
  | some (n :: ns) => mapE (pickCol cols) (n :: ns)
  | _ =>
    if T = 0 ∨ cols.filter (fun c => c.2.1) = [] then .error .valueError else .ok ((cols.filter (fun c => c.2.1)).map (fun c => c.2))

/-- The price matrix row by row. -/
def rowsOf {T : ℕ} (cols : List (Fin T → PyFloat ℝ)) : List (Fin cols.length → PyFloat ℝ) :=
  List.ofFn (fun t : Fin T => fun i : Fin cols.length => cols.get i t)

/-- `pandas_to_numpy_returns` (data_helpers.py:11-92). Arithmetic on a non-numeric column is a `TypeError` (data_helpers.py:65-66, 69). -/
noncomputable def toReturns {T : ℕ} (f : PriceFrame T) (names : Option (List String)) (date : Option String) (method fillM : String) :
    Except PyErr (Σ N, List (Fin N → PyFloat ℝ)) :=
  match dropDate f date with
  | .error e => .error e
  | .ok cols =>
    match priceCols cols names with
    | .error e => .error e
    | .ok data =>
      match method? method with
      | none => .error .valueError
      | some m =>
        if data.all (fun c => c.1) then
          match fill? fillM with
          | none => .error .valueError
          | some g => .ok ⟨(data.map Prod.snd).length, fillRows g (returnRows m (rowsOf (data.map Prod.snd)))⟩
        else .error .typeError

/-- The `weights` argument of `numpy_weights_to_pandas_series`: a 1-d array, or something else. -/
inductive WeightsIn where
  | array1 (w : List ℝ)
  | other

/-- The `asset_names` argument: a list of strings, or something else. -/
inductive NamesIn where
  | strings (l : List String)
  | other

/-- `numpy_weights_to_pandas_series` (data_helpers.py:95-116): a Series is its list of (label, value) pairs. -/
def weightsSeries : WeightsIn → NamesIn → Except PyErr (List (String × ℝ))
  | .array1 w, .strings l => if w.length = l.length then .ok (l.zip w) else .error .valueError
  | _, _ => .error .valueError

end PyV.Data
