import Verif.Model.Plotting
import Verif.Spec.Frontier

/-! # Specification of what the plotting functions show -/

namespace PyV.Spec.Plot

open PyV PyV.Ens PyV.Fr PyV.Plot PyV.Spec.Frontier

variable {K : Type*} [Field K] [LinearOrder K] [IsStrictOrderedRing K]

/-- The frontiers of a call, in order, each with the label the caller gave it (if any). -/
def Supplied (fs : Frontiers K) (labels : Option (List String)) (l : List (Option String × Item K)) : Prop :=
  match fs with
  | .one f => (labels = none ∧ l = [(none, f)]) ∨ ∃ s, labels = some [s] ∧ l = [(some s, f)]
  | .seq L => ∃ items : List (Item K), L = items.map some ∧
      ((labels = none ∧ l = items.map (fun f => (none, f))) ∨
        ∃ ls, labels = some ls ∧ ls.length = items.length ∧ l = (ls.map some).zip items)
  | .mapping L => ∃ items : List (String × Item K), L = items.map (fun p => (p.1, some p.2)) ∧ l = items.map (fun p => (some p.1, p.2))

/-- The first of the optional texts that is neither missing nor empty, else the default. -/
def firstText : List (Option String) → String → String
  | [], d => d
  | none :: l, d => firstText l d
  | some s :: l, d => if s = "" then firstText l d else s

/-- The record says what column `i` of the frontier is, with risk vector `r`. -/
structure RecordOf (it : Item K) (r : Fin it.held.m → K) (i : Fin it.held.m) (rec : Record K) : Prop where
  risk : rec.risk = r i
  ret : rec.ret = it.held.f.returns i
  w : rec.w = List.ofFn (fun a => it.held.f.weights a i)
  index : rec.index = i
  notes : ∀ l, it.metadata = some l → rec.metadata = l[(i : ℕ)]?
  no_notes : it.metadata = none → rec.metadata = none

/-- What a highlight marker shows: the first portfolio of least risk, of greatest return, or of greatest ratio of excess return to (non-zero)
risk; the last needs a risk-free rate and shows nothing when every risk is (nearly) zero. -/
def Shows (it : Item K) (r : Fin it.held.m → K) (rf : Option K) (marker : String) (o : Option (Record K)) : Prop :=
  (marker = "min_risk" ∧ ∃ i rec, FirstMin (fun _ => True) r i ∧ o = some rec ∧ RecordOf it r i rec ∧ rec.type = .minRisk) ∨
  (marker = "max_return" ∧ ∃ i rec, FirstMax (fun _ => True) it.held.f.returns i ∧ o = some rec ∧ RecordOf it r i rec ∧ rec.type = .maxReturn) ∨
  (marker = "tangency" ∧ ∃ x, rf = some x ∧
    (((∀ i, |r i| ≤ 1 / 10 ^ 8) ∧ o = none) ∨
      ((∃ i, 1 / 10 ^ 8 < |r i|) ∧ ∃ i rec, FirstMax (fun j => r j ≠ 0) (fun j => (it.held.f.returns j - x) / r j) i ∧ o = some rec ∧
        RecordOf it r i rec ∧ rec.type = .tangency)))

/-- The points of a frontier under a risk vector, in column order. -/
def plotted (it : Item K) (r : Fin it.held.m → K) : List (K × K) := List.ofFn (fun j => (r j, it.held.f.returns j))

/-- What is drawn for one frontier: the curve of its risk under the requested label against its returns, named as documented; one dashed curve
per requested overlay the frontier has; and the requested highlights. -/
structure Drawn (highlight : List String) (rf : Option K) (overlays : List String) (riskLabel : Option String)
    (p : Option String × Item K) (q : Part K) : Prop where
  curve : ∃ r, RiskUnder p.2.held.f riskLabel r ∧ q.curve.pts = plotted p.2 r ∧ List.Forall₂ (Shows p.2 r rf) highlight q.marks
  label : q.curve.label = firstText [p.1, riskLabel] p.2.held.f.riskMeasure
  dashed : ∀ c, c ∈ q.overlays ↔ ∃ o ∈ overlays, ∃ r, RiskUnder p.2.held.f (some o) r ∧
    c = ⟨q.curve.label ++ " (" ++ o ++ ")", plotted p.2 r⟩
  named : ∀ m ∈ q.marks, ∀ rec, m = some rec → rec.frontier = q.curve.label ∧ rec.measure = firstText [riskLabel] p.2.held.f.riskMeasure

/-- The portfolio a selection key names, by the frontier's own selectors (and by column for `index`). -/
def Selected {N M : ℕ} (argsort : (Fin M → K) → Equiv.Perm (Fin M)) (f : Frontier String K N M) (key : String) (kw : SelArgs K)
    (riskLabel : Option String) (p : Pick K N) : Prop :=
  (key ∈ ["min_risk", "minimum_risk"] ∧ f.minRisk riskLabel = .ok p) ∨
  (key ∈ ["max_return", "maximum_return"] ∧ f.maxReturn = .ok p) ∨
  (key ∈ ["tangency", "max_sharpe", "sharpe"] ∧ f.tangency (kw.riskFree.getD 0) = .ok p) ∨
  (key ∈ ["risk_target", "max_return_subject_to_risk"] ∧ ∃ x, kw.maxRisk = some x ∧ f.atRisk x riskLabel = .ok p) ∨
  (key ∈ ["return_target", "min_risk_subject_to_return"] ∧ ∃ x, kw.minReturn = some x ∧ f.atReturn x riskLabel = .ok p) ∨
  (key ∈ ["risk_percentile", "risk_pct", "percentile"] ∧ ∃ x, kw.percentile = some x ∧ f.atPercentile argsort x riskLabel = .ok p) ∨
  (key ∈ ["risk_match", "risk_nearest"] ∧ ∃ x, kw.targetRisk = some x ∧ f.closestRisk x riskLabel = .ok p) ∨
  (key ∈ ["index", "column"] ∧ ∃ (x : ℤ) (k : Fin M) (r : Fin M → K), kw.index = some x ∧ (x = (k : ℤ) ∨ x = (k : ℤ) - M) ∧
    RiskUnder f riskLabel r ∧ Reports f r k p)

/-- The points marked on a report: the black dot and the highlights. -/
def marked (rep : Report K) : List (K × K) := rep.dot.toList ++ rep.pic.marks.map (fun m => (m.risk, m.ret))

/-- The values of a list in the order in which they first occur. -/
def firstSeen : List String → List String
  | [] => []
  | a :: l => a :: (firstSeen l).filter (fun b => b ≠ a)

/-- `shown` are the `n` largest of `all` (all of them if there are fewer). -/
def Largest {α : Type*} (n : ℕ) (all shown : List (α × K)) : Prop :=
  shown.length = min n all.length ∧ ∃ rest, all.Perm (shown ++ rest) ∧ ∀ a ∈ shown, ∀ b ∈ rest, b.2 ≤ a.2

end PyV.Spec.Plot
