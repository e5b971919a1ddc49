import Verif.Model.PyFloat
import Verif.Model.Constraints
import Mathlib.Data.Fintype.Perm

/-!
# Model of `PortfolioFrontier` and of the frontier post-processing in `pyvallocation/portfolioapi.py`

The shape checks of `__post_init__` (portfolioapi.py:276-287) are what makes a frontier with `N` assets and `M` columns; they are
the types `Fin N`, `Fin M` here.  Entries are finite numbers; the names of the returned Series are not modelled.
-/

namespace PyV.Fr

open PyV

variable {K : Type*} [Field K] [LinearOrder K] [IsStrictOrderedRing K] {N M : ℕ} {L : Type*} [DecidableEq L]

/-- `PortfolioFrontier` (portfolioapi.py:244-274): one column per portfolio; `L` is the type of risk labels. -/
structure Frontier (L : Type*) (K : Type*) (N M : ℕ) where
  weights : Fin N → Fin M → K
  returns : Fin M → K
  risks : Fin M → K
  riskMeasure : L
  alternates : List (L × (Fin M → K))

/-- What every selector returns: weights, return, risk value. -/
structure Pick (K : Type*) (N : ℕ) where
  w : Fin N → K
  ret : K
  risk : K

/-- `_risk_vector` (portfolioapi.py:299-317). -/
def Frontier.riskVector (f : Frontier L K N M) : Option L → Except PyErr (Fin M → K)
  | none => .ok f.risks
  | some l =>
    if l = f.riskMeasure then .ok f.risks
    else
      match f.alternates.lookup l with
      | some r => .ok r
      | none => .error .keyError

/-- Column `i` reported with the risk vector `r`. -/
def Frontier.pick (f : Frontier L K N M) (r : Fin M → K) (i : Fin M) : Pick K N := ⟨fun a => f.weights a i, f.returns i, r i⟩

/-- The first index among those satisfying `S` whose value is smallest: `idx[np.argmin(v[idx])]` with `idx = np.where(S)[0]`. -/
def argminOn (S : Fin M → Bool) (v : Fin M → K) : Option (Fin M) :=
  (List.finRange M).find? (fun i => S i && decide (∀ j, S j = true → v i ≤ v j))

/-- `idx[np.argmax(v[idx])]` with `idx = np.where(S)[0]`. -/
def argmaxOn (S : Fin M → Bool) (v : Fin M → K) : Option (Fin M) :=
  (List.finRange M).find? (fun i => S i && decide (∀ j, S j = true → v j ≤ v i))

/-- `min_risk` (portfolioapi.py:405-428); `np.argmin` of an empty vector raises `ValueError`. -/
def Frontier.minRisk (f : Frontier L K N M) (label : Option L) : Except PyErr (Pick K N) :=
  match f.riskVector label with
  | .error e => .error e
  | .ok r =>
    match firstArgmin r with
    | none => .error .valueError
    | some i => .ok (f.pick r i)

/-- `max_return` (portfolioapi.py:430-443). -/
def Frontier.maxReturn (f : Frontier L K N M) : Except PyErr (Pick K N) :=
  match firstArgmax f.returns with
  | none => .error .valueError
  | some i => .ok (f.pick f.risks i)

/-- `(returns - rf) / risks` with non-finite ratios replaced by `-inf` (portfolioapi.py:465-467): a zero risk gives `±inf` or
`nan`, hence `⊥`. -/
def Frontier.sharpe (f : Frontier L K N M) (rf : K) (i : Fin M) : WithBot K :=
  if f.risks i = 0 then ⊥ else (((f.returns i - rf) / f.risks i : K) : WithBot K)

/-- `tangency` (portfolioapi.py:445-471). -/
def Frontier.tangency (f : Frontier L K N M) (rf : K) : Except PyErr (Pick K N) :=
  if ∀ i, |f.risks i| ≤ 1 / 10 ^ 8 then .error .infeasible
  else
    match firstArgmax (f.sharpe rf) with
    | none => .error .valueError
    | some i => .ok (f.pick f.risks i)

/-- `at_risk` (portfolioapi.py:473-510). -/
def Frontier.atRisk (f : Frontier L K N M) (maxRisk : K) (label : Option L) : Except PyErr (Pick K N) :=
  match f.riskVector label with
  | .error e => .error e
  | .ok r =>
    match argmaxOn (fun i => decide (r i ≤ maxRisk)) f.returns with
    | none => .error .infeasible
    | some i => .ok (f.pick r i)

/-- `at_return` (portfolioapi.py:512-550): the feasibility test comes before the label lookup. -/
def Frontier.atReturn (f : Frontier L K N M) (minReturn : K) (label : Option L) : Except PyErr (Pick K N) :=
  if ∃ i, minReturn ≤ f.returns i then
    match f.riskVector label with
    | .error e => .error e
    | .ok r =>
      match argminOn (fun i => decide (minReturn ≤ f.returns i)) r with
      | none => .error .infeasible
      | some i => .ok (f.pick r i)
  else .error .infeasible

/-- `closest_risk` (portfolioapi.py:552-569). -/
def Frontier.closestRisk (f : Frontier L K N M) (target : K) (label : Option L) : Except PyErr (Pick K N) :=
  match f.riskVector label with
  | .error e => .error e
  | .ok r =>
    match firstArgmin (fun i => |r i - target|) with
    | none => .error .valueError
    | some i => .ok (f.pick r i)

/-- `risk_percentiles` (portfolioapi.py:571-586) on a risk vector: `argsort` is the sorting routine (its tie order is
unspecified), `ranks[order] = arange`. -/
def percentiles (argsort : (Fin M → K) → Equiv.Perm (Fin M)) (r : Fin M → K) : Fin M → K :=
  if M = 1 then fun _ => 0 else fun i => (((argsort r).symm i : ℕ) : K) / ((M : K) - 1)

/-- `_normalize_percentile` (portfolioapi.py:588-605). NaN passes every comparison. -/
def normalizePercentile : PyFloat K → Except PyErr (PyFloat K)
  | .fin x =>
    if 1 < x then (if 100 < x then .error .valueError else .ok (.fin (x / 100)))
    else if x < 0 then .error .valueError
    else .ok (.fin x)
  | .nan => .ok .nan
  | .posInf => .error .valueError
  | .negInf => .error .valueError

/-- `np.argmin(np.abs(percentiles - pct))`: with a NaN `pct` every entry is NaN and `argmin` returns position 0. -/
def nearestIndex (q : Fin M → K) : PyFloat K → Option (Fin M)
  | .fin x => firstArgmin (fun i => |q i - x|)
  | _ => (List.finRange M).head?

/-- `index_at_risk_percentile` (portfolioapi.py:607-624). -/
def Frontier.indexAtPercentile (f : Frontier L K N M) (argsort : (Fin M → K) → Equiv.Perm (Fin M)) (pct : PyFloat K)
    (label : Option L) : Except PyErr (Fin M) :=
  match normalizePercentile pct with
  | .error e => .error e
  | .ok x =>
    match f.riskVector label with
    | .error e => .error e
    | .ok r =>
      match nearestIndex (percentiles argsort r) x with
      | none => .error .valueError
      | some i => .ok i

/-- `at_percentile` (portfolioapi.py:626-647): it normalises, then calls `index_at_risk_percentile`, which normalises again. -/
def Frontier.atPercentile (f : Frontier L K N M) (argsort : (Fin M → K) → Equiv.Perm (Fin M)) (pct : PyFloat K)
    (label : Option L) : Except PyErr (Pick K N) :=
  match normalizePercentile pct with
  | .error e => .error e
  | .ok x =>
    match f.indexAtPercentile argsort x label with
    | .error e => .error e
    | .ok i =>
      match f.riskVector label with
      | .error e => .error e
      | .ok r => .ok (f.pick r i)

/-! ## Post-processing of `cvar_frontier` -/

/-- `np.maximum.accumulate(risks)` (portfolioapi.py:1394). -/
def runMax (y : Fin M → K) (i : Fin M) : K :=
  (Finset.univ.filter (fun j : Fin M => j ≤ i)).sup' ⟨i, by simp⟩ y

/-- The cross product tested by the envelope loop (portfolioapi.py:1402). -/
def cross (x y : Fin M → K) (i1 i2 i : Fin M) : K :=
  (x i2 - x i1) * (y i - y i1) - (y i2 - y i1) * (x i - x i1)

/-- The inner `while` (portfolioapi.py:1400-1406) on the stack, top first. -/
def popWhile (x y : Fin M → K) (eps : K) (i : Fin M) : List (Fin M) → List (Fin M)
  | i2 :: i1 :: rest => if cross x y i1 i2 i ≤ eps then popWhile x y eps i (i1 :: rest) else i2 :: i1 :: rest
  | s => s

/-- `_lower_convex_envelope` (portfolioapi.py:1397-1408): the final stack, top (largest index) first. -/
def envelopeStack (x y : Fin M → K) (eps : K) : List (Fin M) :=
  (List.finRange M).foldl (fun st i => i :: popWhile x y eps i st) []

/-- `np.interp(v, xp, fp)` for non-decreasing `xp`, the breakpoints given last first: `j` is the last breakpoint with
`xp[j] <= v`; the value is `fp[0]` left of all breakpoints, `fp[-1]` at or right of the last one, and linear in between
(NumPy `arr_interp`). -/
def interpDesc : List (K × K) → K → K
  | [], _ => 0
  | [p], _ => p.2
  | p :: q :: rest, v =>
    if p.1 ≤ v then p.2
    else if q.1 ≤ v then q.2 + (p.2 - q.2) / (p.1 - q.1) * (v - q.1)
    else interpDesc (q :: rest) v

/-- The convexity correction (portfolioapi.py:1392-1415) on points sorted by return. -/
def convexify (eps : K) (x y : Fin M → K) : Fin M → K :=
  let y := runMax y
  let keep := envelopeStack x y eps
  if 2 ≤ keep.length ∧ keep.length < M then fun i => interpDesc (keep.map (fun k => (x k, y k))) (x i) else y

/-- The part of `cvar_frontier` after the solver (portfolioapi.py:1372-1423): `W` are the solved weights, `cvar` their CVaR,
`vol` the volatility overlay; `order` is `np.argsort(returns)`. -/
def cvarFrontier (argsort : (Fin M → K) → Equiv.Perm (Fin M)) (mu : Fin N → K) (W : Fin N → Fin M → K)
    (cvar vol : Fin M → K) (enforce : Bool) : Frontier String K N M :=
  let ret : Fin M → K := fun j => ∑ i, mu i * W i j
  let risk : Fin M → K := fun j => |cvar j|
  let σ := argsort ret
  { weights := fun i j => W i (σ j)
    returns := fun j => ret (σ j)
    risks := if enforce then convexify (1 / 10 ^ 12) (fun j => ret (σ j)) (fun j => risk (σ j)) else fun j => risk (σ j)
    riskMeasure := "CVaR"
    alternates := [("Volatility", fun j => vol (σ j)), ("CVaR (raw)", fun j => risk (σ j))] }

/-! ## Constraint resolution of `PortfolioWrapper` -/

/-- `_setup_constraints` (portfolioapi.py:790-805): what the constructor stores; a missing specification is built from the
shortcuts. -/
def setupConstraints (N : ℕ) (given : Option (Con.Spec K)) (longOnly : Bool) (total : Option (PyFloat K))
    (bounds : Option (Con.Bounds K)) : Except PyErr (Con.Matrices (Int.toNat (N : ℤ)) K) :=
  match given with
  | some c => Con.build (N : ℤ) c
  | none => Con.build (N : ℤ) ⟨longOnly, total, bounds, [], [], [], []⟩

/-- `_resolve_constraints` (portfolioapi.py:1141-1164), constraint part: per-call constraints win; otherwise the stored matrices,
replaced by the default when neither `G` nor `A` is set. -/
def resolveConstraints (N : ℕ) (stored : Con.Matrices (Int.toNat (N : ℤ)) K) (perCall : Option (Con.Spec K)) :
    Except PyErr (Con.Matrices (Int.toNat (N : ℤ)) K) :=
  match perCall with
  | some c => Con.build (N : ℤ) c
  | none =>
    match stored.G, stored.A with
    | none, none => Con.build (N : ℤ) Con.defaultSpec
    | _, _ => .ok stored

end PyV.Fr
