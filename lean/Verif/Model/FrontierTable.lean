import Verif.Model.FrontierEnsembles
import Verif.Model.Discrete

/-!
# Model of the tabular views of `PortfolioFrontier` and of `as_discrete_allocation` (`pyvallocation/portfolioapi.py`)
-/

namespace PyV.Fr

open PyV PyV.Ens

variable {K : Type*} [Field K] [LinearOrder K] [IsStrictOrderedRing K] {A : Type*} [DecidableEq A] {L : Type*} [DecidableEq L]

/-- A column label of the returned frame: a position, or a label chosen by the caller. -/
inductive ColLabel (C : Type*) where
  | pos (i : ℤ)
  | named (c : C)
  deriving DecidableEq

/-- `_select_weights` (portfolioapi.py:334-346): the selected columns, in the requested order; NumPy indexing accepts negative
positions and raises `IndexError` out of range. -/
def selectWeights (h : Held A L K) (columns : Option (List ℤ)) : Except PyErr (List (Fin h.m)) :=
  match columns with
  | none => .ok (List.finRange h.m)
  | some l => mapE (pyIndex h.m) l

/-- The labels of the frame (portfolioapi.py:374-382). -/
def frameLabels {C : Type*} (count : ℕ) (columns : Option (List ℤ)) (labels : Option (List C)) : Except PyErr (List (ColLabel C)) :=
  match labels with
  | some l => if l.length ≠ count then .error .valueError else .ok (l.map ColLabel.named)
  | none =>
    match columns with
    | some s => .ok (s.map ColLabel.pos)
    | none => .ok ((List.range count).map (fun i : ℕ => ColLabel.pos i))

/-- `to_frame` (portfolioapi.py:348-383): asset labels (`none`: default index) and the labelled columns. -/
def toFrame {C : Type*} (h : Held A L K) (columns : Option (List ℤ)) (labels : Option (List C)) :
    Except PyErr (Option (List A) × List (ColLabel C × List K)) :=
  match selectWeights h columns with
  | .error e => .error e
  | .ok ks =>
    match frameLabels ks.length columns labels with
    | .error e => .error e
    | .ok ls => .ok (h.names, ls.zip (ks.map (fun k => List.ofFn (fun i => h.f.weights i k))))

/-- Asset labels used for discretisation (portfolioapi.py:677-682). -/
def assetLabels (n : ℕ) (names : Option (List String)) : List String :=
  match names with
  | some l => l
  | none => (List.range n).map (fun i : ℕ => "Asset_" ++ i.repr)

/-- `as_discrete_allocation` (portfolioapi.py:649-692): negative columns are rejected as well. Names of another length than the column
are rejected by pandas with a `ValueError`. -/
def asDiscrete [FloorRing K] (h : Held String L K) (column : ℤ) (prices : List (String × K)) (total : K) (method : String)
    (lots : Option (List (String × ℤ))) (maxIter : Option ℤ) (mode : Discrete.Mode)
    (sortBy : (inp : Discrete.Input K) → Equiv.Perm (Fin inp.n)) (solve : (inp : Discrete.Input K) → Option (Discrete.MipPoint K inp.n)) :
    Except PyErr (Discrete.Result K) :=
  if hc : column < 0 ∨ (h.m : ℤ) ≤ column then .error .indexError
  else
    let k : Fin h.m := ⟨column.toNat, by omega⟩
    if (assetLabels h.n h.names).length ≠ h.n then .error .valueError
    else Discrete.discretize ((assetLabels h.n h.names).zip (List.ofFn (fun i => h.f.weights i k))) prices total lots method maxIter
      mode sortBy solve

end PyV.Fr
