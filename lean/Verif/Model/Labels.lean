import Verif.Model.FrontierEnsembles

/-!
# Model of the construction of a `PortfolioFrontier` and of the labels its selections carry
(`pyvallocation/portfolioapi.py`, `utils/weights.py`, `ensembles.py`)

A pandas Series is the list of its labelled cells together with its name; without labels pandas numbers the cells from 0.
Per-portfolio `metadata` of a frontier is not modelled: no check looks at it.
-/

namespace PyV.Fr

open PyV PyV.Ens

variable {K : Type*} [Field K] [LinearOrder K] [IsStrictOrderedRing K] {A : Type*} [DecidableEq A] {L : Type*} [DecidableEq L]

/-- A row label: an asset name, or a position of the default index. -/
inductive Key (A : Type*) where
  | named (a : A)
  | pos (i : ℕ)
  deriving DecidableEq

/-- A pandas Series. -/
structure Series (A K : Type*) where
  cells : List (Key A × K)
  name : String

/-- `Series.rename(label)`. -/
def Series.rename (s : Series A K) (label : String) : Series A K := { s with name := label }

/-- The arguments of `PortfolioFrontier(...)` (portfolioapi.py:268-274): a matrix with `n` rows and `m` columns, vectors of any length. -/
structure FrontierArgs (A L K : Type*) where
  n : ℕ
  m : ℕ
  weights : Fin n → Fin m → K
  returns : List K
  risks : List K
  riskMeasure : L
  names : Option (List A)
  alternates : List (L × List K)

/-- `PortfolioFrontier.__post_init__` (portfolioapi.py:276-287). -/
def mkFrontier (x : FrontierArgs A L K) : Except PyErr (Held A L K) :=
  if hm : x.m ≠ x.returns.length then .error .valueError
  else if hr : x.risks.length ≠ x.returns.length then .error .valueError
  else if x.names.any (fun l => decide (l.length ≠ x.n)) then .error .valueError
  else if x.alternates.any (fun e => decide (e.2.length ≠ x.returns.length)) then .error .valueError
  else .ok
    { n := x.n
      m := x.m
      names := x.names
      f :=
        { weights := x.weights
          returns := fun k => x.returns.get (Fin.cast (by omega) k)
          risks := fun k => x.risks.get (Fin.cast (by omega) k)
          riskMeasure := x.riskMeasure
          alternates := x.alternates.map (fun e => (e.1, fun k : Fin x.m => e.2.getD k 0)) } }

/-- `available_risk_measures` (portfolioapi.py:291-297). -/
def Frontier.available {N M : ℕ} (f : Frontier L K N M) : List L := f.riskMeasure :: f.alternates.map Prod.fst

/-- `pd.Series(array, name=label)`: default index. -/
def numbered (v : List K) (label : String) : Series A K := ⟨v.zipIdx.map (fun p => (Key.pos p.2, p.1)), label⟩

/-- `pd.Series(array, index=names, name=label)`: pandas rejects an index of another length. -/
def labelledSeries (v : List K) (names : List A) (label : String) : Except PyErr (Series A K) :=
  if names.length = v.length then .ok ⟨(names.map Key.named).zip v, label⟩ else .error .valueError

/-- `wrap_exposure_vector` (utils/weights.py:65-84): a bare array without names, otherwise a Series. -/
def wrapExposure (v : List K) (names : Option (List A)) (label : String) : Except PyErr (List K ⊕ Series A K) :=
  match names with
  | none => .ok (.inl v)
  | some l =>
    match labelledSeries v l label with
    | .error e => .error e
    | .ok s => .ok (.inr s)

/-- `_to_pandas` (portfolioapi.py:318-331). -/
def toPandas (names : Option (List A)) (v : List K) (name : String) : Except PyErr (Series A K) :=
  match wrapExposure v names name with
  | .error e => .error e
  | .ok (.inl a) => .ok (numbered a name)
  | .ok (.inr s) => .ok s

/-- The value returned by a selection method (portfolioapi.py:428, 443, 471, 510, 550, 569, 647): the Series, the return and the risk.
`name` is the text the method composes; it carries no other information. -/
def reportOf (h : Held A L K) (name : String) (r : Except PyErr (Pick K h.n)) : Except PyErr (Series A K × K × K) :=
  match r with
  | .error e => .error e
  | .ok p =>
    match toPandas h.names (List.ofFn p.w) name with
    | .error e => .error e
    | .ok s => .ok (s, p.ret, p.risk)

/-! ## Selections inside an ensemble -/

/-- What a selector may return: a Series, an array (or sequence), or a tuple whose first element is one of them. -/
inductive SelOut (A K : Type*) where
  | series (s : Series A K)
  | array (v : List K)
  | tupleSeries (s : Series A K)
  | tupleArray (v : List K)

/-- The part of `_coerce_weights_series` after the tuple has been opened (ensembles.py:789-795), on an array: labels that are
missing or empty give the default index. -/
def coerceArray (h : Held A L K) (v : List K) (label : String) : Except PyErr (Series A K) :=
  match h.names with
  | none => .ok (numbered v label)
  | some [] => .ok (numbered v label)
  | some l => labelledSeries v l label

/-- `_coerce_weights_series` (ensembles.py:772-795): a Series keeps its own labels. -/
def coerceWeights (h : Held A L K) (out : SelOut A K) (label : String) : Except PyErr (Series A K) :=
  match out with
  | .series s => .ok (s.rename label)
  | .tupleSeries s => .ok (s.rename label)
  | .array v => coerceArray h v label
  | .tupleArray v => coerceArray h v label

/-- `_series_from_vector` (ensembles.py:347-363) with its label. -/
def seriesOf (v : List K) (names : Option (List A)) (label : String) : Except PyErr (Series A K) :=
  match names with
  | none => .ok (numbered v label)
  | some [] => .ok (numbered v label)
  | some l => labelledSeries v l label

/-- The Series returned by the closure of a built-in selector (ensembles.py:935-1107): the selection methods return a Series that is
renamed to the specification's name; `column` slices the matrix and labels the slice. -/
def selectedSeries (argsort : AnySort K) (h : Held A String K) (s : Sel K) (kw : SelKw K) (label : String) : Except PyErr (Series A K) :=
  match s with
  | .column _ =>
    match (callSelector (argsort h.m) s kw h.f).1 with
    | .error e => .error e
    | .ok w => seriesOf (List.ofFn w) h.names label
  | _ =>
    match (callSelector (argsort h.m) s kw h.f).1 with
    | .error e => .error e
    | .ok w =>
      match toPandas h.names (List.ofFn w) "" with
      | .error e => .error e
      | .ok r => .ok (r.rename label)

/-- The column of the selection table for one specification (ensembles.py:561). -/
def selectionColumn (argsort : AnySort K) (h : Held A String K) (s : Sel K) (kw : SelKw K) (label : String) : Except PyErr (Series A K) :=
  match selectedSeries argsort h s kw label with
  | .error e => .error e
  | .ok r => coerceWeights h (.series r) label

/-- `_frontier_selection_size` (ensembles.py:837-849). -/
def selectionSize (h : Held A L K) (selection : Option (List ℤ)) : ℕ :=
  match selection with
  | none => h.m
  | some l => l.length

end PyV.Fr
