import Verif.Model.PyFloat

/-!
# Model of `pyvallocation/utils/constraints.py`

Type errors (non-numeric values, tuples of the wrong length) are outside the types; entries of user supplied rows
are finite.  Warnings and logging are not modelled.
-/

namespace PyV.Con

open PyV

variable {K : Type*} [Field K] [LinearOrder K] [IsStrictOrderedRing K]

/-- The three accepted shapes of `bounds` (constraints.py:22-26): one pair for all assets, a mapping from asset
index to pair, a sequence of pairs. `none` is Python `None`. -/
inductive Bounds (K : Type*) where
  | pair (lo hi : Option (PyFloat K))
  | dict (l : List (ℤ × Option (PyFloat K) × Option (PyFloat K)))
  | seq (l : List (Option (PyFloat K) × Option (PyFloat K)))

/-- The fields of `Constraints` (constraints.py:31-53); `None` sequences are the empty list. -/
structure Spec (K : Type*) where
  longOnly : Bool
  totalWeight : Option (PyFloat K)
  bounds : Option (Bounds K)
  relative : List (ℤ × ℤ × PyFloat K)
  groups : List (String × List ℤ × PyFloat K × PyFloat K)
  ineqRows : List (List K × PyFloat K)
  eqRows : List (List K × PyFloat K)

/-- A stack of rows and the list of right-hand sides, accumulated separately as in `G_rows`/`h_vals`
(constraints.py:162-165). -/
structure Block (n : ℕ) (K : Type*) where
  rows : List (Fin n → K)
  rhs : List K

/-- Appending to `G_rows` and `h_vals`. -/
def Block.append {n : ℕ} (a b : Block n K) : Block n K := ⟨a.rows ++ b.rows, a.rhs ++ b.rhs⟩

/-- Concatenation of the contributions of a loop. -/
def Block.join {n : ℕ} (l : List (Block n K)) : Block n K :=
  l.foldr Block.append ⟨[], []⟩

/-- `_check_number` (constraints.py:89-105) on real numbers: `ValueError` unless finite. -/
def checkNumber : PyFloat K → Except PyErr K
  | .fin x => .ok x
  | _ => .error .valueError

/-- `if x is not None: _check_number(x, …)`. -/
def checkOpt : Option (PyFloat K) → Except PyErr (Option K)
  | none => .ok none
  | some x =>
    match checkNumber x with
    | .ok v => .ok (some v)
    | .error e => .error e

/-- Finite check of both ends and the `lower > upper` test (constraints.py:180-187, 213-222, 250-259). -/
def checkPair (lo hi : Option (PyFloat K)) : Except PyErr (Option K × Option K) :=
  match checkOpt lo with
  | .error e => .error e
  | .ok l =>
    match checkOpt hi with
    | .error e => .error e
    | .ok u =>
      match l, u with
      | some a, some b => if a > b then .error .valueError else .ok (l, u)
      | _, _ => .ok (l, u)

/-- `s * np.eye(n)`. -/
def eyeRows (n : ℕ) (s : K) : List (Fin n → K) :=
  (List.finRange n).map (fun i => Pi.single i s)

/-- `row = np.zeros(n); row[idx] = s` for an index already checked to be in range. -/
def unitRow (n : ℕ) (idx : ℤ) (s : K) : Fin n → K := fun k => if (k : ℤ) = idx then s else 0

/-- `long_only` block (constraints.py:167-169). -/
def longBlock (n : ℕ) (longOnly : Bool) : Block n K :=
  if longOnly then ⟨eyeRows n (-1), List.replicate n 0⟩ else ⟨[], []⟩

/-- Rows for one pair applied to all assets (constraints.py:189-194). -/
def pairBlock (n : ℕ) (l u : Option K) : Block n K :=
  Block.append
    (match l with | some a => ⟨eyeRows n (-1), List.replicate n (-a)⟩ | none => ⟨[], []⟩)
    (match u with | some b => ⟨eyeRows n 1, List.replicate n b⟩ | none => ⟨[], []⟩)

/-- Rows for one asset's pair (constraints.py:223-233, 260-269). -/
def assetBlock (n : ℕ) (idx : ℤ) (l u : Option K) : Block n K :=
  Block.append
    (match l with | some a => ⟨[unitRow n idx (-1)], [-a]⟩ | none => ⟨[], []⟩)
    (match u with | some b => ⟨[unitRow n idx 1], [b]⟩ | none => ⟨[], []⟩)

/-- One entry of a bounds mapping (constraints.py:196-233). -/
def dictEntry (n : ℕ) (e : ℤ × Option (PyFloat K) × Option (PyFloat K)) : Except PyErr (Block n K) :=
  if ¬ (0 ≤ e.1 ∧ e.1 < n) then .error .indexError
  else
    match checkPair e.2.1 e.2.2 with
    | .error err => .error err
    | .ok (l, u) => .ok (assetBlock n e.1 l u)

/-- One entry of a bounds sequence (constraints.py:244-269); no index test, `idx` comes from `enumerate`. -/
def seqEntry (n : ℕ) (e : (Option (PyFloat K) × Option (PyFloat K)) × ℕ) : Except PyErr (Block n K) :=
  match checkPair e.1.1 e.1.2 with
  | .error err => .error err
  | .ok (l, u) => .ok (assetBlock n e.2 l u)

/-- The loop result, concatenated. -/
def joinE {n : ℕ} (r : Except PyErr (List (Block n K))) : Except PyErr (Block n K) :=
  match r with
  | .error e => .error e
  | .ok l => .ok (Block.join l)

/-- `bounds` (constraints.py:171-269). -/
def boundsBlock (n : ℕ) (b : Option (Bounds K)) : Except PyErr (Block n K) :=
  match b with
  | none => .ok ⟨[], []⟩
  | some (.pair lo hi) =>
    match checkPair lo hi with
    | .error e => .error e
    | .ok (l, u) => .ok (pairBlock n l u)
  | some (.dict l) => joinE (mapE (dictEntry n) l)
  | some (.seq l) =>
    if l.length ≠ n then .error .valueError
    else joinE (mapE (seqEntry n) l.zipIdx)

/-- One relative bound (constraints.py:272-292): `row[i] = 1`, then `row[j] = -1`. -/
def relEntry (n : ℕ) (e : ℤ × ℤ × PyFloat K) : Except PyErr (Block n K) :=
  if ¬ ((0 ≤ e.1 ∧ e.1 < n) ∧ (0 ≤ e.2.1 ∧ e.2.1 < n)) then .error .indexError
  else if e.1 = e.2.1 then .error .valueError
  else
    match checkNumber e.2.2 with
    | .error err => .error err
    | .ok k => .ok ⟨[fun m => if (m : ℤ) = e.2.1 then -1 else if (m : ℤ) = e.1 then 1 else 0], [k]⟩

/-- One group (constraints.py:295-312): fancy assignment `row[idx] = ±1.0`, so repeated indices count once. -/
def groupEntry (n : ℕ) (e : String × List ℤ × PyFloat K × PyFloat K) : Except PyErr (Block n K) :=
  if ¬ (∀ i ∈ e.2.1, 0 ≤ i ∧ i < n) then .error .indexError
  else
    match checkNumber e.2.2.1 with
    | .error err => .error err
    | .ok lo =>
      match checkNumber e.2.2.2 with
      | .error err => .error err
      | .ok hi =>
        if lo > hi then .error .valueError
        else .ok ⟨[fun m => if (m : ℤ) ∈ e.2.1 then 1 else 0, fun m => if (m : ℤ) ∈ e.2.1 then -1 else 0],
          [hi, -lo]⟩

/-- One user supplied row (constraints.py:315-322 and 330-336). -/
def rowEntry (n : ℕ) (e : List K × PyFloat K) : Except PyErr (Block n K) :=
  if e.1.length ≠ n then .error .valueError
  else
    match checkNumber e.2 with
    | .error err => .error err
    | .ok r => .ok ⟨[fun m => e.1.getD m 0], [r]⟩

/-- `total_weight` row (constraints.py:157-160 for the check, 324-326 for the row). -/
def totalBlock (n : ℕ) (t : Option K) : Block n K :=
  match t with
  | none => ⟨[], []⟩
  | some v => ⟨[fun _ => 1], [v]⟩

/-- The four returned arrays; `none` is Python `None` (constraints.py:361-376). -/
structure Matrices (n : ℕ) (K : Type*) where
  G : Option (List (Fin n → K))
  h : Option (List K)
  A : Option (List (Fin n → K))
  b : Option (List K)

/-- `_stack` and the `if h_vals` tests (constraints.py:346-375); `keep = not return_none_if_empty`. -/
def orNone {α : Type*} (keep : Bool) (l : List α) : Option (List α) :=
  if l.isEmpty then (if keep then some [] else none) else some l

/-- `build_G_h_A_b` (constraints.py:108-376) with the checks in source order. -/
def build (nAssets : ℤ) (c : Spec K) (returnNoneIfEmpty : Bool := true) :
    Except PyErr (Matrices nAssets.toNat K) :=
  if nAssets ≤ 0 then .error .valueError
  else
    let n := nAssets.toNat
    match checkOpt c.totalWeight with
    | .error e => .error e
    | .ok t =>
    match boundsBlock n c.bounds with
    | .error e => .error e
    | .ok bb =>
    match joinE (mapE (relEntry n) c.relative) with
    | .error e => .error e
    | .ok rb =>
    match joinE (mapE (groupEntry n) c.groups) with
    | .error e => .error e
    | .ok gb =>
    match joinE (mapE (rowEntry n) c.ineqRows) with
    | .error e => .error e
    | .ok ib =>
    match joinE (mapE (rowEntry n) c.eqRows) with
    | .error e => .error e
    | .ok eb =>
      let g := (longBlock n c.longOnly).append (bb.append (rb.append (gb.append ib)))
      let a := (totalBlock n t).append eb
      .ok { G := orNone (!returnNoneIfEmpty) g.rows, h := orNone (!returnNoneIfEmpty) g.rhs,
            A := orNone (!returnNoneIfEmpty) a.rows, b := orNone (!returnNoneIfEmpty) a.rhs }

/-- `Constraints()` defaults (constraints.py:47-53). -/
def defaultSpec : Spec K := ⟨true, some (.fin 1), none, [], [], [], []⟩

end PyV.Con
