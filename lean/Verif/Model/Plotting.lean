import Verif.Model.FrontierTable

/-!
# Model of the data shown by `pyvallocation/plotting.py`

What the plotting functions hand to matplotlib (curves, marked points, bars, panels) and the records they attach to the axis.
Colours, styles, tick formats and the text of legends beyond the curve labels are not modelled; frontier entries are finite.
-/

namespace PyV.Plot

open PyV PyV.Ens PyV.Fr

variable {K : Type*} [Field K] [LinearOrder K] [IsStrictOrderedRing K]

/-- A `PortfolioFrontier` with its `metadata` (portfolioapi.py:244-274); metadata values are floats, other values are not modelled. -/
structure Item (K : Type*) where
  held : Held String String K
  metadata : Option (List (List (String × PyFloat K)))

/-- The `frontiers` argument: one frontier, a sequence, or a mapping; `none` is an object that is not a `PortfolioFrontier`. -/
inductive Frontiers (K : Type*) where
  | one (f : Item K)
  | seq (l : List (Option (Item K)))
  | mapping (l : List (String × Option (Item K)))

/-- The `isinstance` test of one entry (plotting.py:61-62, 76-77). -/
def asItem : Option String × Option (Item K) → Except PyErr (Option String × Item K)
  | (_, none) => .error .typeError
  | (l, some f) => .ok (l, f)

/-- `labels[idx] if labels is not None else None` for every entry (plotting.py:75-79). -/
def attach (labels : Option (List String)) (l : List (Option (Item K))) : List (Option String × Option (Item K)) :=
  match labels with
  | none => l.map (fun f => (none, f))
  | some ls => (ls.map some).zip l

/-- The tail of `_normalize_frontiers` for sequences (plotting.py:71-80). -/
def normalizeSeq (labels : Option (List String)) (l : List (Option (Item K))) : Except PyErr (List (Option String × Item K)) :=
  if labels.any (fun ls => decide (ls.length ≠ l.length)) then .error .valueError else mapE asItem (attach labels l)

/-- `_normalize_frontiers` (plotting.py:45-80): the labels argument is ignored for mappings. -/
def normalize (fs : Frontiers K) (labels : Option (List String)) : Except PyErr (List (Option String × Item K)) :=
  match fs with
  | .one f => normalizeSeq labels [some f]
  | .seq l => normalizeSeq labels l
  | .mapping l => mapE asItem (l.map (fun p => (some p.1, p.2)))

/-- Python `a or b` for an optional string: `None` and `""` are false. -/
def pyOr (a : Option String) (b : String) : String :=
  match a with
  | none => b
  | some s => if s = "" then b else s

/-- The highlight markers (plotting.py:191-222). -/
inductive Marker where
  | minRisk
  | maxReturn
  | tangency
  deriving DecidableEq, Repr

/-- The marker named by a string; other strings raise `ValueError` (plotting.py:191, 197, 203, 221-222). -/
def parseMarker (s : String) : Except PyErr Marker :=
  if s = "min_risk" then .ok .minRisk
  else if s = "max_return" then .ok .maxReturn
  else if s = "tangency" then .ok .tangency
  else .error .valueError

/-- The ratios of plotting.py:208-210: excess return over the drawn risk, non-finite ones replaced by `-inf`. -/
def ratio {N M : ℕ} (f : Frontier String K N M) (r : Fin M → K) (rf : K) (i : Fin M) : WithBot K :=
  if r i = 0 then ⊥ else (((f.returns i - rf) / r i : K) : WithBot K)

/-- `np.argmin`/`np.argmax` of an empty vector raises `ValueError`. -/
def orEmpty {M : ℕ} : Option (Fin M) → Except PyErr (Option (Fin M))
  | none => .error .valueError
  | some i => .ok (some i)

/-- The tangency branch of `_resolve_highlight` (plotting.py:203-213). -/
def tangencyIndex {N M : ℕ} (f : Frontier String K N M) (r : Fin M → K) (rf : Option K) : Except PyErr (Option (Fin M)) :=
  match rf with
  | none => .error .valueError
  | some x => if ∀ i, |r i| ≤ 1 / 10 ^ 8 then .ok none else orEmpty (firstArgmax (ratio f r x))

/-- The column chosen by `_resolve_highlight` (plotting.py:173-226); the finiteness tests of 212-213 and 224-225 are vacuous for finite
frontiers. -/
def resolveHighlight {N M : ℕ} (f : Frontier String K N M) (r : Fin M → K) (rf : Option K) : Marker → Except PyErr (Option (Fin M))
  | .minRisk => orEmpty (firstArgmin r)
  | .maxReturn => orEmpty (firstArgmax f.returns)
  | .tangency => tangencyIndex f r rf

/-- An entry of `ax._frontier_highlights` (plotting.py:372-383): weights in asset order. -/
structure Record (K : Type*) where
  frontier : String
  type : Marker
  risk : K
  ret : K
  measure : String
  w : List K
  index : ℕ
  metadata : Option (List (String × PyFloat K))

/-- A curve: its label and its points (risk, return) in column order (plotting.py:316, 325-332). -/
structure Curve (K : Type*) where
  label : String
  pts : List (K × K)

/-- The record of a highlighted column (plotting.py:343-346, 372-383). -/
def record (it : Item K) (label : String) (riskLabel : Option String) (r : Fin it.held.m → K) (mk : Marker) (i : Fin it.held.m) : Record K :=
  { frontier := label, type := mk, risk := r i, ret := it.held.f.returns i, measure := pyOr riskLabel it.held.f.riskMeasure
    w := List.ofFn (fun a => it.held.f.weights a i), index := i, metadata := it.metadata.bind (fun l : List (List (String × PyFloat K)) => l[(i : ℕ)]?) }

/-- One highlight of one frontier (plotting.py:334-383); `none`: nothing is drawn. -/
def highlightOne (it : Item K) (label : String) (riskLabel : Option String) (r : Fin it.held.m → K) (rf : Option K) (marker : String) :
    Except PyErr (Option (Record K)) :=
  match parseMarker marker with
  | .error e => .error e
  | .ok mk =>
    match resolveHighlight it.held.f r rf mk with
    | .error e => .error e
    | .ok o => .ok (o.map (record it label riskLabel r mk))

/-- The points of a risk vector against the returns. -/
def points {N M : ℕ} (f : Frontier String K N M) (r : Fin M → K) : List (K × K) := List.ofFn (fun j => (r j, f.returns j))

/-- One overlay (plotting.py:320-332): skipped when the frontier has no such risk measure. -/
def overlayOne (it : Item K) (label : String) (overlay : String) : Option (Curve K) :=
  match it.held.f.riskVector (some overlay) with
  | .ok r => some ⟨label ++ " (" ++ overlay ++ ")", points it.held.f r⟩
  | .error _ => none

/-- What is drawn for one frontier: the curve, the overlays and the highlights. -/
structure Part (K : Type*) where
  curve : Curve K
  overlays : List (Curve K)
  marks : List (Option (Record K))

/-- The body of the loop of `plot_frontiers` (plotting.py:313-383). -/
def drawOne (highlight : List String) (rf : Option K) (overlays : List String) (riskLabel : Option String)
    (p : Option String × Item K) : Except PyErr (Part K) :=
  match p.2.held.f.riskVector riskLabel with
  | .error e => .error e
  | .ok r =>
    let label := pyOr p.1 (pyOr riskLabel p.2.held.f.riskMeasure)
    match mapE (highlightOne p.2 label riskLabel r rf) highlight with
    | .error e => .error e
    | .ok ms => .ok ⟨⟨label, points p.2.held.f r⟩, overlays.filterMap (overlayOne p.2 label), ms⟩

/-- The axis label (plotting.py:385-389). -/
def xLabel (riskLabel : Option String) (measures : List String) : String :=
  pyOr riskLabel (match measures.dedup with
    | [m] => m
    | _ => "Risk")

/-- What `plot_frontiers` shows. -/
structure Picture (K : Type*) where
  parts : List (Part K)
  xlabel : String

/-- The records attached to the axis (plotting.py:372-383, 404). -/
def Picture.marks (p : Picture K) : List (Record K) := (p.parts.map (fun q => q.marks.reduceOption)).flatten

/-- `plot_frontiers` (plotting.py:229-405). -/
def plotFrontiers (fs : Frontiers K) (labels : Option (List String)) (highlight : List String) (rf : Option K) (overlays : List String)
    (riskLabel : Option String) : Except PyErr (Picture K) :=
  match normalize fs labels with
  | .error e => .error e
  | .ok l =>
    match mapE (drawOne highlight rf overlays riskLabel) l with
    | .error e => .error e
    | .ok parts => .ok ⟨parts, xLabel riskLabel (l.map (fun p => p.2.held.f.riskMeasure))⟩

/-! ## Grid of panels -/

/-- The default grouping key (plotting.py:445). -/
def byMeasure (_ : Option String) (it : Item K) : String := pyOr (some it.held.f.riskMeasure) "Risk"

/-- `bucket[supplied_label or frontier.risk_measure] = frontier` in `grouped.setdefault(key, OrderedDict())` (plotting.py:447-451): a group
keeps one frontier per label, at the position where the label first occurred. -/
def groupStep (by_ : Option String → Item K → String) (g : List (String × List (String × Item K))) (p : Option String × Item K) :
    List (String × List (String × Item K)) :=
  let key := by_ p.1 p.2
  dictSet g key (dictSet ((g.lookup key).getD []) (pyOr p.1 p.2.held.f.riskMeasure) p.2)

/-- `grouped` (plotting.py:447-451). -/
def groups (by_ : Option String → Item K → String) (l : List (Option String × Item K)) : List (String × List (String × Item K)) :=
  l.foldl (groupStep by_) []

/-- `show_legend` for a panel (plotting.py:462-470). -/
def showLegend (policy : String) (legend : Bool) (count : ℕ) : Except PyErr Bool :=
  if policy = "auto" then .ok (legend && decide (count = 1))
  else if policy = "none" then .ok false
  else if policy = "each" then .ok legend
  else .error .valueError

/-- A panel: title, picture, whether it has a legend. -/
structure Panel (K : Type*) where
  title : String
  pic : Picture K
  legend : Bool

/-- One round of the panel loop (plotting.py:461-480). -/
def panelOne (policy : String) (legend : Bool) (count : ℕ) (highlight : List String) (rf : Option K) (overlays : List String)
    (riskLabel : Option String) (g : String × List (String × Item K)) : Except PyErr (Panel K) :=
  match showLegend policy legend count with
  | .error e => .error e
  | .ok b =>
    match plotFrontiers (.mapping (g.2.map (fun q => (q.1, some q.2)))) none highlight rf overlays riskLabel with
    | .error e => .error e
    | .ok pic => .ok ⟨g.1, pic, b⟩

/-- `cols or len(grouped)` and `rows` (plotting.py:456-457), for non-negative `cols`. -/
def gridShape (cols : Option ℕ) (count : ℕ) : ℕ × ℕ :=
  let c := match cols with
    | none => count
    | some 0 => count
    | some c => c
  ((count + c - 1) / c, c)

/-- `plot_frontiers_grid` (plotting.py:408-486): the panels drawn (`zip` of axes and groups) and the shape of the grid. -/
def plotGrid (fs : Frontiers K) (by_ : Option String → Item K → String) (labels : Option (List String)) (cols : Option ℕ)
    (policy : String) (legend : Bool) (highlight : List String) (rf : Option K) (overlays : List String) (riskLabel : Option String) :
    Except PyErr (List (Panel K) × (ℕ × ℕ)) :=
  match normalize fs labels with
  | .error e => .error e
  | .ok l =>
    let g := groups by_ l
    if g.isEmpty then .error .valueError
    else
      let shape := gridShape cols g.length
      match mapE (panelOne policy legend g.length highlight rf overlays riskLabel) (g.take (shape.1 * shape.2)) with
      | .error e => .error e
      | .ok ps => .ok (ps, shape)

/-! ## Bars of weights -/

/-- `series.tail(n)` of pandas: the last `n` entries; a negative `n` drops the first `-n`. -/
def tailN {α : Type*} (n : ℤ) (l : List α) : List α := if 0 ≤ n then l.drop (l.length - n.toNat) else l.drop (-n).toNat

/-- `series.head(n)`: the first `n` entries; a negative `n` drops the last `-n`. -/
def headN {α : Type*} (n : ℤ) (l : List α) : List α := if 0 ≤ n then l.take n.toNat else l.take (l.length - (-n).toNat)

/-- `top_n` applied when given (plotting.py:523-524). -/
def cut {α : Type*} (barh : Bool) (topN : Option ℤ) (l : List α) : List α :=
  match topN with
  | none => l
  | some n => if barh then tailN n l else headN n l

/-- The bars of `plot_weights` for a Series (plotting.py:521-525): `sortValues true` is `sort_values(ascending=True)`. -/
def plotWeights {α : Type*} (sortValues : Bool → List (α × K) → List (α × K)) (kind : String) (topN : Option ℤ) (s : List (α × K)) :
    List (α × K) :=
  cut (decide (kind = "barh")) topN (sortValues (decide (kind = "barh")) s)

/-! ## Parameter panels -/

/-- `np.array([meta.get(param) for meta in frontier.metadata], dtype=float)`: a missing key is `None`, hence NaN (plotting.py:581, 635). -/
def paramValues (metadata : List (List (String × PyFloat K))) (param : String) : List (PyFloat K) :=
  metadata.map (fun d => (d.lookup param).getD .nan)

/-- The values of a parameter that are all finite (plotting.py:633-637, 691-695). -/
def finiteParams (it : Item K) (param : String) : Except PyErr (List K) :=
  match it.metadata with
  | none => .error .valueError
  | some md =>
    if (paramValues md param).all PyFloat.isFinite then .ok ((paramValues md param).map PyFloat.val) else .error .valueError

/-- `v[order]` for a vector with `M` entries; positions beyond the end raise `IndexError`. -/
def take {M : ℕ} (v : Fin M → K) (i : ℕ) : Except PyErr K := if h : i < M then .ok (v ⟨i, h⟩) else .error .indexError

/-- `plot_param_impact` (plotting.py:632-655): the points of the return panel and of the risk panel; `argsort` lists the positions. -/
def paramImpact (argsort : List K → List ℕ) (it : Item K) (param : String) (riskLabel : Option String) :
    Except PyErr (List (K × K) × List (K × K)) :=
  match finiteParams it param with
  | .error e => .error e
  | .ok vs =>
    match mapE (take it.held.f.returns) (argsort vs) with
    | .error e => .error e
    | .ok rets =>
      match it.held.f.riskVector riskLabel with
      | .error e => .error e
      | .ok r =>
        match mapE (take r) (argsort vs) with
        | .error e => .error e
        | .ok risks => .ok (((argsort vs).map (fun i : ℕ => vs.getD i 0)).zip rets, ((argsort vs).map (fun i : ℕ => vs.getD i 0)).zip risks)

/-- The colour values of `plot_robust_path` (plotting.py:578-585): the parameter when every portfolio has a finite one, otherwise an even
grid from 0 to 1. -/
def pathColours (it : Item K) (param : String) : List K :=
  match finiteParams it param with
  | .ok (v :: vs) => v :: vs
  | _ => List.ofFn (fun j : Fin it.held.m => ((j : ℕ) : K) / ((it.held.m : K) - 1))

/-- `plot_robust_surface` (plotting.py:690-704): the points (parameter, risk, return); matplotlib's `scatter` raises `ValueError` when the
three lengths differ. -/
def robustSurface (it : Item K) (param : String) (riskLabel : Option String) : Except PyErr (List (K × K × K)) :=
  match finiteParams it param with
  | .error e => .error e
  | .ok vs =>
    match it.held.f.riskVector riskLabel with
    | .error e => .error e
    | .ok r => if vs.length = it.held.m then .ok (vs.zip (points it.held.f r)) else .error .valueError

/-! ## Report of one frontier -/

/-- `selection_kwargs` of `plot_frontier_report`. -/
structure SelArgs (K : Type*) where
  riskFree : Option K
  maxRisk : Option K
  minReturn : Option K
  percentile : Option (PyFloat K)
  targetRisk : Option K
  index : Option ℤ

/-- `float(selection_kwargs.pop(key))`: a missing key raises `KeyError`. -/
def need {α : Type*} : Option α → Except PyErr α
  | none => .error .keyError
  | some x => .ok x

/-- The `index` branch (plotting.py:973-977). -/
def atIndex {N M : ℕ} (f : Frontier String K N M) (riskLabel : Option String) (i : ℤ) : Except PyErr (Pick K N) :=
  match pyIndex M i with
  | .error e => .error e
  | .ok k =>
    match f.riskVector riskLabel with
    | .error e => .error e
    | .ok r => .ok (f.pick r k)

/-- The selection of `plot_frontier_report` (plotting.py:943-979); `key` is the lower-cased `selection`. -/
def choose {N M : ℕ} (argsort : (Fin M → K) → Equiv.Perm (Fin M)) (f : Frontier String K N M) (key : String) (kw : SelArgs K)
    (riskLabel : Option String) : Except PyErr (Pick K N) :=
  if key ∈ ["min_risk", "minimum_risk"] then f.minRisk riskLabel
  else if key ∈ ["max_return", "maximum_return"] then f.maxReturn
  else if key ∈ ["tangency", "max_sharpe", "sharpe"] then f.tangency (kw.riskFree.getD 0)
  else if key ∈ ["risk_target", "max_return_subject_to_risk"] then (need kw.maxRisk).bind (fun x => f.atRisk x riskLabel)
  else if key ∈ ["return_target", "min_risk_subject_to_return"] then (need kw.minReturn).bind (fun x => f.atReturn x riskLabel)
  else if key ∈ ["risk_percentile", "risk_pct", "percentile"] then
    (need kw.percentile).bind (fun x => f.atPercentile argsort x riskLabel)
  else if key ∈ ["risk_match", "risk_nearest"] then (need kw.targetRisk).bind (fun x => f.closestRisk x riskLabel)
  else if key ∈ ["index", "column"] then (need kw.index).bind (atIndex f riskLabel)
  else .error .valueError

/-- `highlight` (plotting.py:981). -/
def reportHighlight (key : String) : List String := if key ∈ ["min_risk", "max_return", "tangency"] then [key] else []

/-- What remains of `risk_free_rate` in `selection_kwargs` after the selection: the tangency branch has popped it (plotting.py:951, 986). -/
def remainingRate (key : String) (kw : SelArgs K) (given : Bool) : Option K :=
  if given = false ∧ key ∈ ["tangency", "max_sharpe", "sharpe"] then none else kw.riskFree

/-- What `plot_frontier_report` shows: the frontier panel, the extra black point, and the weights. -/
structure Report (K : Type*) where
  pic : Picture K
  dot : Option (K × K)
  weights : List K

/-- `plot_frontier_report` (plotting.py:902-1004); `weights`: pre-selected weights. -/
def plotReport (argsort : AnySort K) (it : Item K) (key : String) (kw : SelArgs K) (riskLabel : Option String) (overlays : List String)
    (weights : Option (List K)) : Except PyErr (Report K) :=
  match weights with
  | some w =>
    match plotFrontiers (.one it) none (reportHighlight key) (remainingRate key kw true) overlays riskLabel with
    | .error e => .error e
    | .ok pic => .ok ⟨pic, none, w⟩
  | none =>
    match choose (argsort it.held.m) it.held.f key kw riskLabel with
    | .error e => .error e
    | .ok p =>
      match plotFrontiers (.one it) none (reportHighlight key) (remainingRate key kw false) overlays riskLabel with
      | .error e => .error e
      | .ok pic => .ok ⟨pic, if (reportHighlight key).isEmpty then some (p.risk, p.ret) else none, List.ofFn p.w⟩

end PyV.Plot
