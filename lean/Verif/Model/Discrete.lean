import Verif.Model.Py

/-!
# Model of `pyvallocation/discrete_allocation.py`

Finite floats are exact elements of an ordered field `K` with a floor (ℚ, ℝ).  A labelled pandas Series is an association list on input and a
`Fin n`-indexed vector (position in the validated index) afterwards.  Labels are assumed distinct.
-/

namespace PyV.Discrete

open PyV

variable {K : Type*} [Field K] [LinearOrder K] [IsStrictOrderedRing K] [FloorRing K]

/-- Validated inputs: the attributes of `DiscreteAllocationInput` after `__post_init__`
(discrete_allocation.py:74-128).  Position `i` is the `i`-th label of `self.weights.index`. -/
structure Input (K : Type*) where
  n : ℕ
  name : Fin n → String
  w : Fin n → K
  price : Fin n → K
  lot : Fin n → ℤ
  total : K
  hasShorts : Bool

/-- One aligned row (label, raw weight, price, lot size) of the kept assets. -/
structure Row (K : Type*) where
  name : String
  w : K
  price : K
  lot : ℤ
  deriving DecidableEq

/-- `_lot_sizes_to_series` (discrete_allocation.py:47-72), the value at one label: `None` or a missing label
gives 1 (`reindex(index).fillna(1)`). -/
def lotOf (lots : Option (List (String × ℤ))) (k : String) : ℤ :=
  match lots with
  | none => 1
  | some l => (l.lookup k).getD 1

/-- Alignment of prices and lot sizes to the kept weights: `latest_prices.reindex(weights.index)` and
`_lot_sizes_to_series(self.lot_sizes, weights.index)` (discrete_allocation.py:118). The default price is
never used: missing labels were rejected at lines 100-103. -/
def alignRows (kept : List (String × K)) (prices : List (String × K)) (lots : Option (List (String × ℤ))) :
    List (Row K) :=
  kept.map fun p => ⟨p.1, p.2, (prices.lookup p.1).getD 0, lotOf lots p.1⟩

/-- Assemble the record from aligned rows, dividing each weight by `total_weight`
(discrete_allocation.py:120-128). -/
def ofRows (rows : List (Row K)) (tw total : K) (hs : Bool) : Input K where
  n := rows.length
  name i := (rows.get i).name
  w i := (rows.get i).w / tw
  price i := (rows.get i).price
  lot i := (rows.get i).lot
  total := total
  hasShorts := hs

/-- `_to_series` on both arguments (discrete_allocation.py:22-45) followed by
`DiscreteAllocationInput.__post_init__` (discrete_allocation.py:91-128), in source order.
Simplification: finite floats only; non-Series/non-Mapping arguments (`TypeError`) are outside the type. -/
def mkInput (weights prices : List (String × K)) (total : K) (lots : Option (List (String × ℤ))) :
    Except PyErr (Input K) :=
  if weights.isEmpty then .error .valueError
  else if prices.isEmpty then .error .valueError
  else if weights.any (fun p => (prices.lookup p.1).isNone) then .error .valueError
  else
    let kept := weights.filter (fun p => !isclose0 p.2)
    if kept.isEmpty then .error .valueError
    else
      let hs := kept.any (fun p => decide (p.2 < 0))
      let rows := alignRows kept prices lots
      if rows.any (fun r => decide (r.price ≤ 0)) then .error .valueError
      else if total ≤ 0 then .error .valueError
      else if rows.any (fun r => decide (r.lot ≤ 0)) then .error .valueError
      else
        let tw := (rows.map Row.w).sum
        if tw ≤ 0 then .error .valueError
        else .ok (ofRows rows tw total hs)

/-- `DiscreteAllocationResult` (discrete_allocation.py:140-156). -/
structure Result (K : Type*) where
  shares : List (String × ℤ)
  leftover : K
  achieved : List (String × K)
  trackingError : K
  deriving DecidableEq

/-- `_build_result` (discrete_allocation.py:165-198). `raw` is already label-aligned with the inputs and
integer, so `astype(int)` and the `reindex` are the identity.  The order of the keys of the `shares` dictionary (index order here, order of
decreasing weight after the greedy allocator) is not modelled. -/
def buildResult (inp : Input K) (raw : Fin inp.n → ℤ) : Except PyErr (Result K) :=
  let values : Fin inp.n → K := fun i => raw i * inp.price i
  let leftover := inp.total - ∑ i, values i
  let achieved : Fin inp.n → K := fun i => values i / inp.total
  let te := ∑ i, |inp.w i - achieved i|
  let dict := ((List.finRange inp.n).filter (fun i => raw i ≠ 0)).map (fun i => (inp.name i, raw i))
  let ach := (List.finRange inp.n).map (fun i => (inp.name i, achieved i))
  if leftover < 0 ∧ |leftover| < 1 / 10 ^ 8 then .ok ⟨dict, 0, ach, te⟩
  else if leftover < 0 then .error .runtimeError
  else .ok ⟨dict, leftover, ach, te⟩

/-- `tolerance = 1e-12` (discrete_allocation.py:229). -/
def tol : K := 1 / 10 ^ 12

/-- The sorted view used by the greedy allocator (discrete_allocation.py:225-228): weights, prices, lot sizes
re-indexed by the label order of `sort_values(ascending=False)`; `n > 0` is guaranteed by validation. -/
structure Sorted (K : Type*) (n : ℕ) where
  w : Fin n → K
  price : Fin n → K
  lot : Fin n → ℤ
  total : K

/-- `cost_per_lot = prices * lot_sizes` (discrete_allocation.py:228). -/
def Sorted.cost {n : ℕ} (s : Sorted K n) (i : Fin n) : K := s.price i * s.lot i

/-- Loop state of `allocate_greedy`: `shares`, `available_cash`, `iteration`, `unaffordable`,
`last_deficits`, `terminated_via_break` (discrete_allocation.py:231-263). -/
structure GState (K : Type*) (n : ℕ) where
  shares : Fin n → ℤ
  cash : K
  iter : ℕ
  unaff : Finset (Fin n)
  lastDef : Fin n → K
  broke : Bool

/-- One iteration of the floor pass, `for asset, weight in weights.items()`
(discrete_allocation.py:235-247). -/
def floorStep {n : ℕ} (s : Sorted K n) (st : (Fin n → ℤ) × K) (i : Fin n) : (Fin n → ℤ) × K :=
  let lotCost := s.price i * s.lot i
  if lotCost > st.2 then st
  else
    let targetCash := s.w i * s.total
    let lots : ℤ := ⌊targetCash / lotCost⌋
    if lots ≤ 0 then st
    else (Function.update st.1 i (st.1 i + lots * s.lot i), st.2 - lots * lotCost)

/-- The whole floor pass in index order from zero shares and full cash (discrete_allocation.py:231-247). -/
def floorPass {n : ℕ} (s : Sorted K n) : (Fin n → ℤ) × K :=
  (List.finRange n).foldl (floorStep s) (fun _ => 0, s.total)

/-- `min_cost = float(cost_per_lot.min())` (discrete_allocation.py:256): the cost at the first minimal position
(`0` for an empty vector, which validation excludes). -/
def minCost {n : ℕ} (s : Sorted K n) : K :=
  match firstArgmin s.cost with
  | some i => s.cost i
  | none => 0

/-- `deficits` inside the loop: target minus current weight, clipped at 0, zero on `unaffordable`
(discrete_allocation.py:267-273). -/
def deficits {n : ℕ} (s : Sorted K n) (st : GState K n) (i : Fin n) : K :=
  if i ∈ st.unaff then 0
  else
    let d := s.w i - (st.shares i * s.price i) / s.total
    if d < 0 then 0 else d

/-- Control flow of one loop iteration. -/
inductive Out (K : Type*) (n : ℕ) where
  | stop (st : GState K n)
  | next (st : GState K n)

/-- `unaffordable.add(candidate)` and the break test that follows it (discrete_allocation.py:284-288 and
296-300). -/
def markUnaffordable {n : ℕ} (st : GState K n) (c : Fin n) : Out K n :=
  let u := insert c st.unaff
  if u.card = n then .stop { st with unaff := u, broke := true }
  else .next { st with unaff := u }

/-- One evaluation of the `while` condition and body (discrete_allocation.py:265-306). -/
def step {n : ℕ} (s : Sorted K n) (maxIter : ℤ) (st : GState K n) : Out K n :=
  if ¬ (st.cash + tol ≥ minCost s ∧ (st.iter : ℤ) < maxIter) then .stop st
  else
    let d := deficits s st
    let st := { st with lastDef := d }
    match firstArgmax d with
    | none => .stop st            -- empty index: excluded by validation (`deficits.max()` would be NaN)
    | some c =>
      if d c ≤ tol then .stop { st with broke := true }
      else
        let cost := s.cost c
        if cost > st.cash + tol then markUnaffordable st c
        else
          let desired := d c * s.total
          let possible : ℤ := ⌊(st.cash + tol) / cost⌋
          let target : ℤ := if cost > 0 then ⌊desired / cost⌋ else 0
          let buy := min possible (max target 1)
          if buy ≤ 0 then markUnaffordable st c
          else .next { st with
            shares := Function.update st.shares c (st.shares c + buy * s.lot c)
            cash := st.cash - buy * cost
            iter := st.iter + 1
            unaff := st.unaff.erase c }

/-- The `while` loop (discrete_allocation.py:265-306) with an explicit bound on the number of evaluations;
`none` means the bound ran out (termination is a theorem, not an assumption). -/
def loop {n : ℕ} (s : Sorted K n) (maxIter : ℤ) : ℕ → GState K n → Option (GState K n)
  | 0, _ => none
  | k + 1, st =>
    match step s maxIter st with
    | .stop st' => some st'
    | .next st' => loop s maxIter k st'

/-- State at loop entry (discrete_allocation.py:261-264). -/
def initState {n : ℕ} (s : Sorted K n) : GState K n :=
  { shares := (floorPass s).1, cash := (floorPass s).2, iter := 0, unaff := ∅, lastDef := s.w, broke := false }

/-- `max_iterations = max(len(weights) * 100, 1)` when `None` (discrete_allocation.py:258-259). -/
def resolveMaxIter (n : ℕ) : Option ℤ → ℤ
  | none => max ((n : ℤ) * 100) 1
  | some m => m

/-- A number of loop evaluations that always suffices (theorem `C01_greedy_terminates`). -/
def enoughFuel (n : ℕ) (maxIter : ℤ) : ℕ := maxIter.toNat + n + 1

/-- The decision to call the MILP allocator after the loop, for modes `auto` and `milp`
(discrete_allocation.py:308-318). -/
def shouldFallback {n : ℕ} (s : Sorted K n) (maxIter : ℤ) (st : GState K n) : Bool :=
  let exhausted := decide ((st.iter : ℤ) ≥ maxIter) && !st.broke
  let stillCash := decide (st.cash + tol ≥ minCost s)
  let largeDeficit := match firstArgmax st.lastDef with
    | some i => decide (st.lastDef i > 1 / 10 ^ 6)
    | none => false
  let nothing := decide (∑ i, st.shares i = 0) && decide (s.total + tol ≥ minCost s)
  exhausted || (stillCash && largeDeficit) || nothing

/-- `fallback_mode` after `(fallback_mode or "none").lower()` (discrete_allocation.py:216-218). -/
inductive Mode where
  | auto | milp | none
  deriving DecidableEq, Repr

/-- The sorted view of validated inputs for a label order `σ` (discrete_allocation.py:225-227). -/
def Input.sorted (inp : Input K) (σ : Equiv.Perm (Fin inp.n)) : Sorted K inp.n where
  w i := inp.w (σ i)
  price i := inp.price (σ i)
  lot i := inp.lot (σ i)
  total := inp.total

/-- `allocate_greedy` (discrete_allocation.py:201-330). `σ` is the label order produced by
`sort_values(ascending=False)` (order of ties unspecified), `mip` the MILP allocator called with the fallback
arguments. The result of the loop is re-aligned by label (`σ.symm`) inside `_build_result`. -/
def allocateGreedy (inp : Input K) (σ : Equiv.Perm (Fin inp.n)) (maxIter : Option ℤ) (mode : Mode)
    (mip : Except PyErr (Result K)) : Except PyErr (Result K) :=
  if inp.hasShorts then mip
  else
    let s := inp.sorted σ
    let m := resolveMaxIter inp.n maxIter
    match loop s m (enoughFuel inp.n m) (initState s) with
    | none => .error .other      -- unreachable: `C01_greedy_terminates`
    | some st =>
      let here := buildResult inp (fun i => st.shares (σ.symm i))
      if mode ≠ .none ∧ shouldFallback s m st then
        match mip with
        | .ok r => .ok r
        | .error e => if mode = .milp then .error e else here
      else here

/-! ### MILP allocator -/

/-- `price_per_lot` (discrete_allocation.py:364). -/
def Input.ppl (inp : Input K) (i : Fin inp.n) : K := inp.price i * inp.lot i

/-- `target_values` (discrete_allocation.py:365). -/
def Input.target (inp : Input K) (i : Fin inp.n) : K := inp.w i * inp.total

/-- `max_shares_per_lot` after clipping (discrete_allocation.py:375-376). -/
def Input.maxLots (inp : Input K) (i : Fin inp.n) : ℤ :=
  max ((if inp.ppl i > 0 then ⌊inp.total / inp.ppl i⌋ else 0) + 1) 0

/-- `upper_cash` (discrete_allocation.py:381-385). -/
def Input.upperCash (inp : Input K) (maxCash : Option K) : K :=
  let eff := inp.total + ∑ i, (if inp.w i < 0 then (inp.maxLots i : K) * inp.ppl i else 0)
  match maxCash with
  | none => eff
  | some c => min c eff

/-- Lower lot bound (discrete_allocation.py:388-390). -/
def Input.lotLb (inp : Input K) (i : Fin inp.n) : ℤ := if inp.w i ≥ 0 then 0 else - inp.maxLots i

/-- A point of the mixed-integer programme: integer lots `x`, errors `u`, cash `r`. -/
structure MipPoint (K : Type*) (n : ℕ) where
  x : Fin n → ℤ
  u : Fin n → K
  r : K

/-- Bounds, equality and inequality blocks handed to `scipy.optimize.milp`
(discrete_allocation.py:391-434). Integrality of `x` is in the type. -/
structure MipFeasible (inp : Input K) (maxCash : Option K) (p : MipPoint K inp.n) : Prop where
  xlb : ∀ i, inp.lotLb i ≤ p.x i
  xub : ∀ i, p.x i ≤ inp.maxLots i
  ulb : ∀ i, 0 ≤ p.u i
  uub : ∀ i, p.u i ≤ inp.total
  rlb : 0 ≤ p.r
  rub : p.r ≤ inp.upperCash maxCash
  budget : ∑ i, inp.ppl i * p.x i + p.r = inp.total
  upper : ∀ i, inp.ppl i * p.x i - p.u i ≤ inp.target i
  lower : ∀ i, -(inp.ppl i * p.x i) - p.u i ≤ -inp.target i

/-- Objective vector `c` (discrete_allocation.py:367-371) at a point. -/
def mipObj {n : ℕ} (cashPenalty : K) (p : MipPoint K n) : K := ∑ i, p.u i + cashPenalty * p.r

/-- `allocate_mip` (discrete_allocation.py:333-456). `solve` is the result of `scipy.optimize.milp` on the
programme above (`none` = `not result.success`); its `x` part is taken as exactly integral so `np.rint` is the
identity. -/
def allocateMip (inp : Input K) (solve : Option (MipPoint K inp.n)) : Except PyErr (Result K) :=
  if inp.n = 0 then .error .valueError
  else
    match solve with
    | none => .error .runtimeError
    | some p => buildResult inp (fun i => p.x i * inp.lot i)

/-- The two allocators `discretize_weights` can call (discrete_allocation.py:483-488). -/
inductive Method where
  | greedy | milp
  deriving DecidableEq, Repr

/-- `method.lower()` and the choice of the allocator (discrete_allocation.py:483-488). `String.toLower` lowers ASCII letters only, Python
all letters: the two differ only on names with other letters. -/
def parseMethod (m : String) : Except PyErr Method :=
  if m.toLower = "greedy" ∨ m.toLower = "rounddown" then .ok .greedy
  else if m.toLower = "milp" ∨ m.toLower = "mip" ∨ m.toLower = "integer" ∨ m.toLower = "lp" then .ok .milp
  else .error .valueError

theorem lower_greedy : "greedy".toLower = "greedy" := by decide +kernel
theorem lower_rounddown : "rounddown".toLower = "rounddown" := by decide +kernel

/-- `discretize_weights` (discrete_allocation.py:453-488): validation, then routing. `sortBy` gives the label order
of `sort_values`, `solve` the outcome of the MILP solver; both are arbitrary functions of the validated input. -/
def discretize (weights prices : List (String × K)) (total : K) (lots : Option (List (String × ℤ)))
    (method : String) (maxIter : Option ℤ) (mode : Mode)
    (sortBy : (inp : Input K) → Equiv.Perm (Fin inp.n)) (solve : (inp : Input K) → Option (MipPoint K inp.n)) :
    Except PyErr (Result K) :=
  match mkInput weights prices total lots with
  | .error e => .error e
  | .ok inp =>
    match parseMethod method with
    | .error e => .error e
    | .ok .greedy => allocateGreedy inp (sortBy inp) maxIter mode (allocateMip inp (solve inp))
    | .ok .milp => allocateMip inp (solve inp)

end PyV.Discrete
