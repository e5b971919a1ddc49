import Verif.Model.EntropyPooling
import Mathlib.Analysis.SpecialFunctions.Sqrt

/-!
# Model of `FlexibleViewsProcessor` (views.py:20-76, 425-1122)

Scenarios are given (`prior_risk_drivers`), `S` rows and `N` columns; the branch that simulates scenarios from
moments only changes where the matrix comes from and is not modelled.  The entropy-pooling call is a parameter `ep`
(instantiated with the model of `entropy_pooling` by `epOf`).
-/

namespace PyV.FV

open PyV

/-- Column labels: strings or integers (views.py:681-705). Other hashables are not modelled. -/
inductive Label where
  | str (s : String)
  | int (n : ℤ)
  deriving DecidableEq

/-- The five operators accepted by `_parse_view` (views.py:648-652). -/
inductive Op where
  | eq | ge | le | gt | lt
  deriving DecidableEq

/-- A view value: number, `(op, number)`, `("between", lo, hi)`, or something `float()` rejects. -/
inductive ViewVal where
  | scalar (x : PyFloat ℝ)
  | spec (op : Op) (x : PyFloat ℝ)
  | between (lo hi : PyFloat ℝ)
  | bad

/-- `_validate_finite` (views.py:19-23). -/
def validateFinite (x : PyFloat ℝ) : Except PyErr (PyFloat ℝ) :=
  if x.isFinite then .ok x else .error .valueError

/-- `at_least` (views.py:26-33). -/
def atLeast (x : PyFloat ℝ) : Except PyErr ViewVal := do let v ← validateFinite x; .ok (.spec .ge v)
/-- `at_most` (views.py:36-43). -/
def atMost (x : PyFloat ℝ) : Except PyErr ViewVal := do let v ← validateFinite x; .ok (.spec .le v)
/-- `above` (views.py:62-68). -/
def above (x : PyFloat ℝ) : Except PyErr ViewVal := do let v ← validateFinite x; .ok (.spec .gt v)
/-- `below` (views.py:71-77). -/
def below (x : PyFloat ℝ) : Except PyErr ViewVal := do let v ← validateFinite x; .ok (.spec .lt v)
/-- `between` (views.py:46-59). -/
noncomputable def between (lo hi : PyFloat ℝ) : Except PyErr ViewVal := do
  let l ← validateFinite lo
  let h ← validateFinite hi
  if PyFloat.lt h l then .error .valueError else .ok (.between l h)

/-- `_parse_view` (views.py:632-660). -/
def parseView : ViewVal → Except PyErr (Op × PyFloat ℝ)
  | .spec op x => if x.isFinite then .ok (op, x) else .error .valueError
  | .scalar x => if x.isFinite then .ok (.eq, x) else .error .valueError
  | _ => .error .typeError

/-- `_parse_view_specs` (views.py:663-679). The `between` bounds are *not* tested for finiteness by the code. -/
noncomputable def parseViewSpecs : ViewVal → Except PyErr (List (Op × PyFloat ℝ))
  | .between lo hi => if PyFloat.lt hi lo then .error .valueError else .ok [(.ge, lo), (.le, hi)]
  | v => do let s ← parseView v; .ok [s]

/-- ASCII digit strings as numbers (`key.isdigit()`, `int(key)`, views.py:701-702). -/
def digits? (s : String) : Option ℤ :=
  if s ≠ "" ∧ s.toList.all Char.isDigit then
    some (s.toList.foldl (fun a c => 10 * a + (c.toNat - '0'.toNat : ℕ)) 0)
  else none

/-- `list.index`: first position of a label. -/
def indexOf {N : ℕ} (assets : Fin N → Label) (key : Label) : Option (Fin N) :=
  (List.finRange N).find? (fun i => decide (assets i = key))

/-- `_asset_idx` (views.py:681-705). -/
def assetIdx {N : ℕ} (assets : Fin N → Label) (key : Label) : Except PyErr (Fin N) :=
  match indexOf assets key with
  | some i => .ok i
  | none =>
    match key with
    | .str s =>
      match digits? s with
      | some k =>
        match indexOf assets (.int k) with
        | some i => .ok i
        | none => .error .valueError
      | none => .error .valueError
    | .int _ => .error .valueError

/-- The four lists `A_eq, b_eq, G_ineq, h_ineq` of `_build_constraints`, zipped row by row. -/
structure Rows (S : ℕ) where
  eq : List ((Fin S → ℝ) × ℝ)
  ineq : List ((Fin S → ℝ) × ℝ)

namespace Rows
/-- Concatenation (`list.extend`). -/
def append {S : ℕ} (a b : Rows S) : Rows S := ⟨a.eq ++ b.eq, a.ineq ++ b.ineq⟩
/-- No rows. -/
def empty {S : ℕ} : Rows S := ⟨[], []⟩
/-- Concatenation of a list of row blocks. -/
def concat {S : ℕ} (l : List (Rows S)) : Rows S := l.foldr append empty
end Rows

/-- The local function `add` (views.py:776-792): one constraint row. -/
def addRow {S : ℕ} (op : Op) (row : Fin S → ℝ) (raw : ℝ) : Rows S :=
  match op with
  | .eq => ⟨[(row, raw)], []⟩
  | .le => ⟨[], [(row, raw)]⟩
  | .lt => ⟨[], [(row, raw)]⟩
  | _ => ⟨[], [(fun s => -row s, -raw)]⟩

/-- Rows of one view: `for op, tgt in _parse_view_specs(vw): … add(op, row, raw)`, where `rawOf` checks the target and
computes the right-hand side.  A non-finite target can only come from a hand-written `("between", …)` tuple; the code
then passes NaN/inf to the optimiser, which we report as an error (simplification). -/
noncomputable def viewRows {S : ℕ} (row : Fin S → ℝ) (rawOf : ℝ → Except PyErr ℝ) (v : ViewVal) : Except PyErr (Rows S) := do
  let specs ← parseViewSpecs v
  let rows ← mapE (fun (p : Op × PyFloat ℝ) =>
    match p.2 with
    | .fin t => do let raw ← rawOf t; .ok (addRow p.1 row raw)
    | _ => .error .other) specs
  .ok (Rows.concat rows)

/-- Keys of `mean_views`: a label or a pair of labels. -/
inductive MKey where
  | single (a : Label)
  | pair (a b : Label)
  deriving DecidableEq

variable {S N : ℕ}

/-- The row of a mean view (views.py:795-802). -/
def meanRow (assets : Fin N → Label) (R : Fin S → Fin N → ℝ) : MKey → Except PyErr (Fin S → ℝ)
  | .single a => do let i ← assetIdx assets a; .ok (fun s => R s i)
  | .pair a b => do
      let i ← assetIdx assets a
      let j ← assetIdx assets b
      .ok (fun s => R s i - R s j)

/-- `_build_constraints(…, "mean", …)` (views.py:794-804). -/
noncomputable def buildMean (assets : Fin N → Label) (R : Fin S → Fin N → ℝ) (views : List (MKey × ViewVal)) :
    Except PyErr (Rows S) := do
  let l ← mapE (fun (kv : MKey × ViewVal) => do
    let row ← meanRow assets R kv.1
    viewRows row (fun t => .ok t) kv.2) views
  .ok (Rows.concat l)

/-- `_build_constraints(…, "vol", …)` (views.py:806-813). -/
noncomputable def buildVol (assets : Fin N → Label) (R : Fin S → Fin N → ℝ) (mu : Fin N → ℝ)
    (views : List (Label × ViewVal)) : Except PyErr (Rows S) := do
  let l ← mapE (fun (kv : Label × ViewVal) => do
    let i ← assetIdx assets kv.1
    viewRows (fun s => R s i ^ 2)
      (fun t => if t ≤ 0 then .error .valueError else .ok (t ^ 2 + mu i ^ 2)) kv.2) views
  .ok (Rows.concat l)

/-- `_build_constraints(…, "var", …)` (views.py:815-822). -/
noncomputable def buildVar (assets : Fin N → Label) (R : Fin S → Fin N → ℝ) (mu : Fin N → ℝ)
    (views : List (Label × ViewVal)) : Except PyErr (Rows S) := do
  let l ← mapE (fun (kv : Label × ViewVal) => do
    let i ← assetIdx assets kv.1
    viewRows (fun s => R s i ^ 2)
      (fun t => if t < 0 then .error .valueError else .ok (t + mu i ^ 2)) kv.2) views
  .ok (Rows.concat l)

/-- `_build_constraints(…, "skew", …)` (views.py:824-832). -/
noncomputable def buildSkew (assets : Fin N → Label) (R : Fin S → Fin N → ℝ) (mu var : Fin N → ℝ)
    (views : List (Label × ViewVal)) : Except PyErr (Rows S) := do
  let l ← mapE (fun (kv : Label × ViewVal) => do
    let i ← assetIdx assets kv.1
    if var i < 1 / 10 ^ 12 then
      .error .valueError
    else
      viewRows (fun s => R s i ^ 3)
        (fun t => .ok (t * Real.sqrt (var i) ^ 3 + 3 * mu i * var i + mu i ^ 3)) kv.2) views
  .ok (Rows.concat l)

/-- `_build_constraints(…, "corr", …)` (views.py:834-843). -/
noncomputable def buildCorr (assets : Fin N → Label) (R : Fin S → Fin N → ℝ) (mu var : Fin N → ℝ)
    (views : List ((Label × Label) × ViewVal)) : Except PyErr (Rows S) := do
  let l ← mapE (fun (kv : (Label × Label) × ViewVal) => do
    let i ← assetIdx assets kv.1.1
    let j ← assetIdx assets kv.1.2
    viewRows (fun s => R s i * R s j)
      (fun t => if ¬ (-1 ≤ t ∧ t ≤ 1) then .error .valueError
        else .ok (t * Real.sqrt (var i) * Real.sqrt (var j) + mu i * mu j)) kv.2) views
  .ok (Rows.concat l)

/-- Rows of the quantile views (views.py:1081-1103). -/
noncomputable def buildQuantile (assets : Fin N → Label) (R : Fin S → Fin N → ℝ)
    (views : List (Label × (ℝ × ViewVal))) : Except PyErr (Rows S) := do
  let l ← mapE (fun (kv : Label × (ℝ × ViewVal)) => do
    let i ← assetIdx assets kv.1
    viewRows (fun s => if R s i ≤ kv.2.1 then 1 else 0)
      (fun t => if ¬ (0 < t ∧ t < 1) then .error .valueError else .ok t) kv.2.2) views
  .ok (Rows.concat l)

/-- The entropy-pooling call: prior and rows to posterior. -/
abbrev Ep (S : ℕ) := (Fin S → ℝ) → Rows S → Except PyErr (Fin S → ℝ)

/-- `do_ep` (views.py:998-1024): the sum-to-one row is appended to the equality rows. -/
def doEp (ep : Ep S) (prior : Fin S → ℝ) (r : Rows S) : Except PyErr (Fin S → ℝ) :=
  ep prior ⟨r.eq ++ [(fun _ => 1, 1)], r.ineq⟩

/-- `entropy_pooling` as the oracle: stack the rows; `G, h` are `None` when there are no inequality rows
(views.py:1015-1024, and 924-931 for the CVaR solver). -/
noncomputable def epOf (minimize : EP.Minimizer) : Ep S := fun prior r =>
  let A : Fin r.eq.length → Fin S → ℝ := fun k => (r.eq.get k).1
  let b : Fin r.eq.length → ℝ := fun k => (r.eq.get k).2
  let G : Fin r.ineq.length → Fin S → ℝ := fun k => (r.ineq.get k).1
  let h : Fin r.ineq.length → ℝ := fun k => (r.ineq.get k).2
  if r.ineq.isEmpty then EP.entropyPooling (Ki := 0) minimize (fun s => .fin (prior s)) A b none none none
  else EP.entropyPooling minimize (fun s => .fin (prior s)) A b (some G) (some h) none

/-- `(R.T @ q).flatten()` (views.py:571, 619, 1047, 1060). -/
def meanOf (R : Fin S → Fin N → ℝ) (q : Fin S → ℝ) : Fin N → ℝ := fun i => ∑ s, R s i * q s

/-- `((R - mu) ** 2).T @ q` (views.py:1048-1049, 1061). -/
def varOf (R : Fin S → Fin N → ℝ) (mu : Fin N → ℝ) (q : Fin S → ℝ) : Fin N → ℝ := fun i => ∑ s, (R s i - mu i) ^ 2 * q s

/-- `np.diag(np.cov(R.T, aweights=p0, bias=True))` (views.py:572-573): `np.cov` divides by the sum of the weights, also for a prior
that was accepted with a sum only close to one. -/
noncomputable def npVarW (R : Fin S → Fin N → ℝ) (p : Fin S → ℝ) : Fin N → ℝ := fun i =>
  (∑ s, (R s i - (∑ s, R s i * p s) / ∑ s, p s) ^ 2 * p s) / ∑ s, p s

/-- All views of a processor after `__init__` (views.py:594-603). -/
structure Views where
  mean : List (MKey × ViewVal)
  vol : List (Label × ViewVal)
  var : List (Label × ViewVal)
  skew : List (Label × ViewVal)
  corr : List ((Label × Label) × ViewVal)
  quantile : List (Label × (ℝ × ViewVal))
  /-- `(asset, (cvar_target, gamma))`; a bare number means `gamma = 0.05` (views.py:1111-1116). -/
  cvar : List (Label × (ℝ × ℝ))

/-- Sequential mode (views.py:1032-1049): one entropy-pooling call per non-empty block, starting from the previous
posterior, with only that block's rows. -/
noncomputable def sequentialPass (ep : Ep S) (p0 : Fin S → ℝ) (R : Fin S → Fin N → ℝ)
    (blocks : List (Bool × ((Fin N → ℝ) → (Fin N → ℝ) → Except PyErr (Rows S))))
    (mu var : Fin N → ℝ) : Except PyErr (Fin S → ℝ) :=
  match blocks with
  | [] => .ok p0
  | (present, build) :: rest =>
    if present then do
      let r ← build mu var
      let q ← doEp ep p0 r
      let mu' := meanOf R q
      sequentialPass ep q R rest mu' (varOf R mu' q)
    else sequentialPass ep p0 R rest mu var

/-- The five moment blocks in the order of views.py:1034-1040. -/
noncomputable def blocksOf (assets : Fin N → Label) (R : Fin S → Fin N → ℝ) (v : Views) :
    List (Bool × ((Fin N → ℝ) → (Fin N → ℝ) → Except PyErr (Rows S))) :=
  [(!v.mean.isEmpty, fun _ _ => buildMean assets R v.mean),
   (!v.vol.isEmpty, fun mu _ => buildVol assets R mu v.vol),
   (!v.var.isEmpty, fun mu _ => buildVar assets R mu v.var),
   (!v.skew.isEmpty, fun mu var => buildSkew assets R mu var v.skew),
   (!v.corr.isEmpty, fun mu var => buildCorr assets R mu var v.corr)]

/-- The linearisation point of simultaneous mode (views.py:1055-1061). -/
noncomputable def linPoint (ep : Ep S) (p0 : Fin S → ℝ) (assets : Fin N → Label) (R : Fin S → Fin N → ℝ) (v : Views)
    (mu var : Fin N → ℝ) : Except PyErr ((Fin N → ℝ) × (Fin N → ℝ)) :=
  if !v.mean.isEmpty && !(v.vol.isEmpty && v.var.isEmpty && v.skew.isEmpty && v.corr.isEmpty) then do
    let r ← buildMean assets R v.mean
    let q ← doEp ep p0 r
    let mu' := meanOf R q
    .ok (mu', varOf R mu' q)
  else .ok (mu, var)

/-- Simultaneous mode (views.py:1051-1077): all moment rows in one call, from the original prior. -/
noncomputable def simultaneousPass (ep : Ep S) (p0 : Fin S → ℝ) (assets : Fin N → Label) (R : Fin S → Fin N → ℝ)
    (v : Views) (mu var : Fin N → ℝ) : Except PyErr (Fin S → ℝ) := do
  let (mu', var') ← linPoint ep p0 assets R v mu var
  let r1 ← buildMean assets R v.mean
  let r2 ← buildVol assets R mu' v.vol
  let r3 ← buildVar assets R mu' v.var
  let r4 ← buildSkew assets R mu' var' v.skew
  let r5 ← buildCorr assets R mu' var' v.corr
  let r := Rows.concat [r1, r2, r3, r4, r5]
  if r.eq.isEmpty && r.ineq.isEmpty then .ok p0 else doEp ep p0 r

/-- Rows built by `_solve_for_s` (views.py:899-922): total probability `gamma` and weighted sum `gamma * target` on the
scenarios at sorted positions `0..s`; `σ` is `np.argsort(x)` and `row[np.argsort(order)]` reads position `σ⁻¹`. -/
noncomputable def cvarRows (x : Fin S → ℝ) (σ : Equiv.Perm (Fin S)) (gamma target : ℝ) (s : ℤ) : Rows S :=
  ⟨[(fun i => if ((σ.symm i : ℕ) : ℤ) < s + 1 then 1 else 0, gamma),
    (fun i => if ((σ.symm i : ℕ) : ℤ) < s + 1 then x i else 0, gamma * target),
    (fun _ => 1, 1)], []⟩

/-- `np.sum(q[mask] * np.log(q[mask] / p[mask]))` with `mask = q > 0` (views.py:933-935). -/
noncomputable def klMasked (q p : Fin S → ℝ) : ℝ := ∑ s, if 0 < q s then q s * Real.log (q s / p s) else 0

/-- `_solve_for_s` (views.py:895-938); any exception gives `(None, inf)`, here `none`. -/
noncomputable def solveForS (ep : Ep S) (p x : Fin S → ℝ) (σ : Equiv.Perm (Fin S)) (gamma target : ℝ) (s : ℤ) :
    Option ((Fin S → ℝ) × ℝ) :=
  match ep p (cvarRows x σ gamma target s) with
  | .ok q => some (q, klMasked q p)
  | .error _ => none

/-- The Newton update of the cut index (views.py:953-967); `none` is `break`.  If any of the three relative entropies is
`inf` the quotient is NaN or 0 and the loop breaks (0 needs only `lo` infinite and leaves `s` where it is, unless `s = S - 1`; but then
`lo` and `hi` are the same index); `round` is Python's `int(round(·))`. -/
noncomputable def newtonStep (round : ℝ → ℤ) (S : ℕ) (lo mid hi : Option ℝ) (s : ℤ) : Option ℤ :=
  match lo, mid, hi with
  | some lo, some mid, some hi =>
    let d1 := hi - mid
    let d2 := hi - 2 * mid + lo
    if |d2| < 1 / 10 ^ 14 then none
    else
      let s' := max 1 (min (round (s - d1 / d2)) ((S : ℤ) - 2))
      if s' = s then none else some s'
  | _, _, _ => none

/-- The Newton loop (views.py:944-972), with `fuel` rounds left: current index and best candidate. -/
noncomputable def newtonLoop (solve : ℤ → Option ((Fin S → ℝ) × ℝ)) (round : ℝ → ℤ) :
    ℕ → ℤ → Option ((Fin S → ℝ) × ℝ) → Option ((Fin S → ℝ) × ℝ)
  | 0, _, best => best
  | fuel + 1, s, best =>
    match newtonStep round S ((solve (max 1 (s - 1))).map Prod.snd) ((solve s).map Prod.snd)
        ((solve (min ((S : ℤ) - 2) (s + 1))).map Prod.snd) s with
    | none => best
    | some s' =>
      match solve s', best with
      | some c, some b => newtonLoop solve round fuel s' (if c.2 < b.2 then some c else some b)
      | some c, none => newtonLoop solve round fuel s' (some c)
      | none, b => newtonLoop solve round fuel s' b

/-- `s_bar` (views.py:891-893): first sorted position whose cumulative probability reaches `gamma`, clipped to
`[1, S-1]`. -/
noncomputable def initialCut (p : Fin S → ℝ) (σ : Equiv.Perm (Fin S)) (gamma : ℝ) : ℤ :=
  let k : ℕ := match (List.finRange S).find? (fun k => decide (gamma ≤ ∑ j, if j ≤ k then p (σ j) else 0)) with
    | some k => k
    | none => S
  max 1 (min (k : ℤ) ((S : ℤ) - 1))

/-- `_solve_cvar_view` (views.py:850-977) without extra rows (the only way it is called, 1117-1120). -/
noncomputable def solveCvarView (ep : Ep S) (argsort : (Fin S → ℝ) → Equiv.Perm (Fin S)) (round : ℝ → ℤ)
    (x : Fin S → ℝ) (gamma target : ℝ) (p : Fin S → ℝ) (maxNewton : ℕ := 20) : Except PyErr (Fin S → ℝ) :=
  let σ := argsort x
  let solve := solveForS ep p x σ gamma target
  let s := initialCut p σ gamma
  match newtonLoop solve round maxNewton s (solve s) with
  | some (q, _) => .ok q
  | none => .error .runtimeError

/-- CVaR views are applied one after the other, each from the previous posterior (views.py:1108-1120). -/
noncomputable def cvarPass (ep : Ep S) (argsort : (Fin S → ℝ) → Equiv.Perm (Fin S)) (round : ℝ → ℤ)
    (assets : Fin N → Label) (R : Fin S → Fin N → ℝ) : List (Label × (ℝ × ℝ)) → (Fin S → ℝ) → Except PyErr (Fin S → ℝ)
  | [], q => .ok q
  | kv :: rest, q => do
    let i ← assetIdx assets kv.1
    let q' ← solveCvarView ep argsort round (fun s => R s i) kv.2.2 kv.2.1 q
    cvarPass ep argsort round assets R rest q'

/-- The moment views, in sequential or simultaneous mode (views.py:1032-1077). -/
noncomputable def momentPass (ep : Ep S) (p0 : Fin S → ℝ) (assets : Fin N → Label) (R : Fin S → Fin N → ℝ)
    (v : Views) (sequential : Bool) (mu0 var0 : Fin N → ℝ) : Except PyErr (Fin S → ℝ) :=
  if sequential then sequentialPass ep p0 R (blocksOf assets R v) mu0 var0
  else simultaneousPass ep p0 assets R v mu0 var0

/-- The quantile views, solved from the moment posterior with only their own rows (views.py:1080-1105). -/
noncomputable def quantilePass (ep : Ep S) (assets : Fin N → Label) (R : Fin S → Fin N → ℝ)
    (views : List (Label × (ℝ × ViewVal))) (q1 : Fin S → ℝ) : Except PyErr (Fin S → ℝ) :=
  if views.isEmpty then .ok q1
  else do
    let r ← buildQuantile assets R views
    if r.eq.isEmpty && r.ineq.isEmpty then .ok q1 else doEp ep q1 r

/-- `_compute_posterior_probabilities` (views.py:979-1122), starting from the prior moments `mu0`, `var0`. -/
noncomputable def computePosterior (ep : Ep S) (argsort : (Fin S → ℝ) → Equiv.Perm (Fin S)) (round : ℝ → ℤ)
    (p0 : Fin S → ℝ) (assets : Fin N → Label) (R : Fin S → Fin N → ℝ) (v : Views) (sequential : Bool) :
    Except PyErr (Fin S → ℝ) :=
  let mu0 := meanOf R p0
  let var0 := npVarW R p0
  if v.mean.isEmpty && v.vol.isEmpty && v.var.isEmpty && v.skew.isEmpty && v.corr.isEmpty && v.cvar.isEmpty
      && v.quantile.isEmpty then .ok p0
  else do
    let q1 ← momentPass ep p0 assets R v sequential mu0 var0
    let q2 ← quantilePass ep assets R v.quantile q1
    cvarPass ep argsort round assets R v.cvar q2

/-- Expansion of `rank_mean` into pair views (views.py:609-612): a pair already present is left alone. -/
def expandRank : List (MKey × ViewVal) → List Label → List (MKey × ViewVal)
  | views, a :: b :: rest =>
    expandRank (if views.any (fun kv => decide (kv.1 = .pair a b)) then views
      else views ++ [(.pair a b, .spec .ge (.fin 0))]) (b :: rest)
  | views, _ => views

/-- The `mean_views` argument: absent, a dictionary object of the caller, or a vector (views.py:575-592). -/
inductive MeanArg (N : ℕ) where
  | none
  | dict (d : List (MKey × ViewVal))
  | vector (x : Fin N → PyFloat ℝ)

/-- `_vec_to_dict` (views.py:575-592); a caller's dictionary is used as is. -/
def meanArgToDict (assets : Fin N → Label) : MeanArg N → List (MKey × ViewVal)
  | .none => []
  | .dict d => d
  | .vector x => (List.finRange N).map (fun i => (.single (assets i), .scalar (x i)))

/-- What the constructor produces: the posterior, its mean, and the state of the caller's `mean_views` dictionary
afterwards (`None` if the caller passed none). -/
structure Built (S N : ℕ) where
  posterior : Fin S → ℝ
  posteriorMean : Fin N → ℝ
  callerDict : Option (List (MKey × ViewVal))

/-- `self.p0` (views.py:498-510): uniform without `prior_probabilities`. (A vector of the wrong length is not
representable here.) -/
noncomputable def priorOf (prior : Option (Fin S → PyFloat ℝ)) : Except PyErr (Fin S → ℝ) :=
  match prior with
  | none => .ok (fun _ => 1 / (S : ℝ))
  | some p => EP.normalizeVec p true

/-- `rank_mean` handling (views.py:606-612): at least two labels, then insertion of the pair views. -/
def rankedDict (d : List (MKey × ViewVal)) (rankMean : Option (List Label)) : Except PyErr (List (MKey × ViewVal)) :=
  match rankMean with
  | none => .ok d
  | some l => if l.length < 2 then .error .valueError else .ok (expandRank d l)

/-- What the caller sees in the dictionary it passed: `self.mean_views` is that very object (views.py:587-588, 594). -/
def callerView (meanArg : MeanArg N) (d' : List (MKey × ViewVal)) : Option (List (MKey × ViewVal)) :=
  match meanArg with
  | .dict _ => some d'
  | _ => none

/-- `FlexibleViewsProcessor.__init__` with scenarios (views.py:425-629).  `np.diag(np.cov(R.T))` fails for a single column
(0-d covariance, views.py:572-573).  `self.mean_views` *is* the caller's dictionary, so the `rank_mean` insertions
(609-612) are visible to the caller. -/
noncomputable def construct (ep : Ep S) (argsort : (Fin S → ℝ) → Equiv.Perm (Fin S)) (round : ℝ → ℤ)
    (assets : Fin N → Label) (R : Fin S → Fin N → ℝ) (prior : Option (Fin S → PyFloat ℝ)) (meanArg : MeanArg N)
    (rest : Views) (rankMean : Option (List Label)) (sequential : Bool) : Except PyErr (Built S N) := do
  let p0 ← priorOf prior
  if N = 1 then
    .error .valueError
  else
    let d' ← rankedDict (meanArgToDict assets meanArg) rankMean
    let q ← computePosterior ep argsort round p0 assets R { rest with mean := d' } sequential
    .ok ⟨q, meanOf R q, callerView meanArg d'⟩

end PyV.FV
