import Verif.Model.Ensembles

/-!
# Model of the label handling in `pyvallocation/ensembles.py`

Asset labels of a labelled sample matrix or Series are distinct.
-/

namespace PyV.Ens

open PyV PyV.Fr

variable {K : Type*} [Field K] [LinearOrder K] [IsStrictOrderedRing K] {A : Type*} [DecidableEq A]

/-! ## `_collect_samples` -/

/-- A sample matrix of `n` assets and `m` portfolios with optional asset labels (the result of `ensure_samples_matrix`,
weights.py:26-61, or the weights of a frontier). -/
structure SampleSet (A K : Type*) where
  names : Option (List A)
  n : ℕ
  m : ℕ
  w : Fin n → Fin m → K

/-- An element of `entries`: a vector, Series or matrix of portfolios, or an object with `to_samples` (a frontier). -/
inductive Entry (A K : Type*) where
  | samples (s : SampleSet A K)
  | frontier (s : SampleSet A K) (risks : Fin s.m → K)

/-- The matrix carried by an entry. -/
def Entry.set : Entry A K → SampleSet A K
  | .samples s => s
  | .frontier s _ => s

/-- Column `k` of a sample matrix. -/
def SampleSet.col (s : SampleSet A K) (k : Fin s.m) : List K := List.ofFn (fun i => s.w i k)

/-- The columns contributed by one entry (ensembles.py:304-326): one column of a frontier, by default the first of smallest risk; all
columns of anything else, whose selection is ignored. -/
def entryCols (e : Entry A K) (sel : Option (List ℤ)) : Except PyErr (List (List K)) :=
  match e with
  | .samples s => if s.m = 0 then .error .valueError else .ok ((List.finRange s.m).map s.col)
  | .frontier s risks =>
    match sel with
    | none =>
      match firstArgmin risks with
      | none => .error .valueError
      | some k => .ok [s.col k]
    | some [i] =>
      match pyIndex s.m i with
      | .error x => .error x
      | .ok k => .ok [s.col k]
    | some _ => .error .valueError

/-- `_merge_asset_names` (ensembles.py:247-274); an empty label list counts as no labels. -/
def mergeNames (existing candidate : Option (List A)) (dim : ℕ) : Except PyErr (Option (List A)) :=
  match candidate with
  | some (a :: l) =>
    match existing with
    | none => .ok (some (a :: l))
    | some e => if e = a :: l then .ok (some e) else .error .valueError
  | _ =>
    match existing with
    | none => .ok none
    | some e => if e.length = dim then .ok (some e) else .error .valueError

/-- The loop of `_collect_samples` (ensembles.py:304-326): collected columns and labels so far. -/
def collectLoop : List (Entry A K × Option (List ℤ)) → List (List K) → Option (List A) →
    Except PyErr (List (List K) × Option (List A))
  | [], cols, names => .ok (cols, names)
  | (e, sel) :: rest, cols, names =>
    match entryCols e sel with
    | .error x => .error x
    | .ok c =>
      match mergeNames names e.set.names e.set.n with
      | .error x => .error x
      | .ok names' => collectLoop rest (cols ++ c) names'

/-- `_collect_samples` (ensembles.py:277-331): `np.hstack` needs equal numbers of rows; an empty matrix is rejected. -/
def collectSamples (entries : List (Entry A K)) (selections : Option (List (Option (List ℤ)))) :
    Except PyErr (List (List K) × Option (List A)) :=
  match entries with
  | [] => .error .valueError
  | first :: _ =>
    let sels := selections.getD (List.replicate entries.length none)
    if sels.length ≠ entries.length then .error .valueError
    else
      match collectLoop (entries.zip sels) [] none with
      | .error x => .error x
      | .ok r =>
        if ∀ e ∈ entries, e.set.n = first.set.n then
          if first.set.n = 0 then .error .valueError else .ok r
        else .error .valueError

/-! ## `pd.concat` of the selected portfolios -/

/-- Row labels of `pd.concat(selections, axis=1)` (ensembles.py:565): outer join, labels in order of appearance. -/
def unionLabels : List (List (A × K)) → List A
  | [] => []
  | s :: rest => s.map Prod.fst ++ (unionLabels rest).filter (fun a => a ∉ s.map Prod.fst)

/-- One cell: the portfolio's weight at the label, NaN when it has none. -/
def concatCell (s : List (A × K)) (a : A) : PyFloat K :=
  match s.lookup a with
  | some x => .fin x
  | none => .nan

/-- `x * y` with a finite `y`: NaN is absorbing (also for `y = 0`). -/
def nanMul (x : PyFloat K) (y : K) : PyFloat K :=
  match x with
  | .fin a => .fin (a * y)
  | _ => .nan

/-- `x + y` where both are finite or NaN. -/
def nanAdd (x y : PyFloat K) : PyFloat K :=
  match x, y with
  | .fin a, .fin b => .fin (a + b)
  | _, _ => .nan

/-- One row of `arr @ weights_vector` (ensembles.py:117). -/
def nanDot (row : List (PyFloat K)) (w : List K) : PyFloat K :=
  (List.zipWith nanMul row w).foldr nanAdd (.fin 0)

/-- `average_exposures(selection_df, weights)` (ensembles.py:565-566, 582): the selected portfolios are labelled Series of finite
weights, one per specification name. -/
def averageSelected {B : Type*} [DecidableEq B] (sel : List (List (A × K))) (names : List B) (w : WeightsArg B K) :
    Except PyErr (List (A × PyFloat K)) :=
  if sel = [] then .error .valueError
  else
    match normalizeWeights w sel.length (some names) with
    | .error e => .error e
    | .ok v => .ok ((unionLabels sel).map (fun a => (a, nanDot (sel.map (fun s => concatCell s a)) v)))

end PyV.Ens
