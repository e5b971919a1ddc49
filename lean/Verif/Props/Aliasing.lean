import Verif.Model.Aliasing
import Verif.Props.Distribution
import Verif.Props.SpecDist
import Verif.Props.EnsembleSpec
import Verif.Props.Selectors

/-! # C211, C212: what later in-place changes of the arguments do -/

namespace PyV.Props

open PyV PyV.Api PyV.Spec.Api PyV.Opt PyV.Spec.Opt PyV.Spec.Con Matrix

/-! ## C211: a distribution after its construction -/

/-- In-place assignments `x[i] = v` and `x[i, j] = v` to the caller's arrays. -/
inductive Write where
  | vec (r i : ℕ) (v : PyFloat ℝ)
  | grid (r i j : ℕ) (v : PyFloat ℝ)

/-- `x[i, j] = v`. -/
def setEntry (g : Grid) (i j : ℕ) (v : PyFloat ℝ) : Grid :=
  ⟨g.rows, g.cols, fun a b => if a.val = i ∧ b.val = j then v else g.e a b⟩

/-- The memory after an assignment. -/
def Write.run (m : Mem) : Write → Mem
  | .vec r i v => { m with vec := Function.update m.vec r ((m.vec r).set i v) }
  | .grid r i j v => { m with grid := Function.update m.grid r (setEntry (m.grid r) i j v) }

/-- The memory after a history of assignments. -/
def after (m : Mem) (ws : List Write) : Mem := ws.foldl Write.run m

/-- The assignment changes an array that was passed as mean, covariance or scenarios. -/
def Write.Hits (a : LiveArgs) : Write → Prop
  | .vec r _ _ => a.mu = some (.object r)
  | .grid r _ _ _ => a.cov = some (.object r) ∨ a.scenarios = some (.object r)

/-- The fields of a distribution as arrays. -/
def fieldsOf (d : Dist) : Fields :=
  { mu := d.mu.map vecList, cov := d.cov.map (fun v => matGrid fun i j => v i j), scenarios := d.scen.map (fun s => matGrid s.R),
    probabilities := d.scen.map (fun s => vecList s.p), names := d.names }

theorem grid_of_holds {r c : ℕ} {g : Grid} {v : Fin r → Fin c → ℝ} (h : (GridArg.array g).Holds v) : g = matGrid v := by
  obtain ⟨g', h, hr, hc, he⟩ := h
  have hg : g = g' := by
    rcases h with h | ⟨i, k, h⟩
    · injection h
    · cases h
  subst hg
  obtain ⟨gr, gc, ge⟩ := g
  simp only at hr hc
  subst hr hc
  simp only [matGrid, Grid.mk.injEq, heq_eq_eq, true_and]
  funext i j
  exact he i j

/-- The construction raises exactly when the contents of the arguments do, and right afterwards the fields have the values that
`AssetsDistribution` gives for these contents (C74). -/
theorem C211_reads (a : LiveArgs) (m : Mem) :
    (∀ e, liveDist a m = .error e ↔ mkDist (a.now m) = .error e) ∧
    ∀ d, liveDist a m = .ok d → ∃ d', mkDist (a.now m) = .ok d' ∧ d.read m = fieldsOf d' := by
  unfold liveDist
  cases hd : mkDist (a.now m) with
  | error e => exact ⟨fun e' => by simp, fun d h => by cases h⟩
  | ok d' =>
    refine ⟨fun e => by simp, fun d h => ?_⟩
    injection h with h
    subst h
    refine ⟨d', rfl, ?_⟩
    obtain ⟨-, hmu, hcov, -, hsc, -⟩ := C74_contents hd
    simp only [LiveDist.read, fieldsOf, Option.map_map, Fields.mk.injEq, and_true, true_and]
    refine ⟨?_, ?_, ?_⟩
    · cases hm : a.mu with
      | none => cases d'.mu <;> rfl
      | some x =>
        cases x with
        | value x => cases d'.mu <;> rfl
        | object r =>
          obtain ⟨v, hv, hh⟩ := hmu _ (by simp [LiveArgs.now, hm]; rfl)
          rw [hv]
          exact congrArg some hh
    · cases hm : a.cov with
      | none => cases d'.cov <;> rfl
      | some x =>
        cases x with
        | value x => cases d'.cov <;> rfl
        | object r =>
          obtain ⟨v, hv, hh⟩ := hcov _ (by simp [LiveArgs.now, hm]; rfl)
          rw [hv]
          exact congrArg some (grid_of_holds hh)
    · cases hm : a.scenarios with
      | none => cases d'.scen <;> rfl
      | some x =>
        cases x with
        | value x => cases d'.scen <;> rfl
        | object r =>
          obtain ⟨v, hv, hh, -⟩ := hsc _ (by simp [LiveArgs.now, hm]; rfl)
          rw [hv]
          exact congrArg some (grid_of_holds hh)

theorem after_vec {a : LiveArgs} {r : ℕ} (hr : a.mu = some (.object r)) {ws : List Write} (h : ∀ w ∈ ws, ¬ w.Hits a) (m : Mem) :
    (after m ws).vec r = m.vec r := by
  induction ws generalizing m with
  | nil => rfl
  | cons w ws ih =>
    have hw := h w (by simp)
    rw [after, List.foldl_cons]
    rw [show List.foldl Write.run (w.run m) ws = after (w.run m) ws from rfl, ih (fun x hx => h x (by simp [hx]))]
    cases w with
    | grid => rfl
    | vec r' i v =>
      have : r ≠ r' := by rintro rfl; exact hw hr
      simp [Write.run, Function.update_of_ne this]

theorem after_grid {a : LiveArgs} {r : ℕ} (hr : a.cov = some (.object r) ∨ a.scenarios = some (.object r)) {ws : List Write}
    (h : ∀ w ∈ ws, ¬ w.Hits a) (m : Mem) : (after m ws).grid r = m.grid r := by
  induction ws generalizing m with
  | nil => rfl
  | cons w ws ih =>
    have hw := h w (by simp)
    rw [after, List.foldl_cons]
    rw [show List.foldl Write.run (w.run m) ws = after (w.run m) ws from rfl, ih (fun x hx => h x (by simp [hx]))]
    cases w with
    | vec => rfl
    | grid r' i j v =>
      have : r ≠ r' := by rintro rfl; exact hw hr
      simp [Write.run, Function.update_of_ne this]

/-- **C211** A distribution does not change under any history of in-place assignments to the caller's arrays, the one passed as
probabilities included, as long as the arrays passed as mean, covariance and scenarios are left alone. Missing: these three, see
`C211_counterexample`. -/
theorem C211_unchanged_partial {a : LiveArgs} {m : Mem} {d : LiveDist} (hd : liveDist a m = .ok d) (ws : List Write)
    (h : ∀ w ∈ ws, ¬ w.Hits a) : d.read (after m ws) = d.read m := by
  unfold liveDist at hd
  cases hm : mkDist (a.now m) with
  | error e => rw [hm] at hd; cases hd
  | ok d' =>
    rw [hm] at hd
    injection hd with hd
    subst hd
    simp only [LiveDist.read, Fields.mk.injEq, and_true, true_and]
    refine ⟨?_, ?_, ?_⟩
    · cases hx : a.mu with
      | none => cases d'.mu <;> rfl
      | some x =>
        cases x with
        | value x => cases d'.mu <;> rfl
        | object r =>
          cases d'.mu with
          | none => rfl
          | some v => exact congrArg some (after_vec hx h m)
    · cases hx : a.cov with
      | none => cases d'.cov <;> rfl
      | some x =>
        cases x with
        | value x => cases d'.cov <;> rfl
        | object r =>
          cases d'.cov with
          | none => rfl
          | some v => exact congrArg some (after_grid (.inl hx) h m)
    · cases hx : a.scenarios with
      | none => cases d'.scen <;> rfl
      | some x =>
        cases x with
        | value x => cases d'.scen <;> rfl
        | object r =>
          cases d'.scen with
          | none => rfl
          | some v => exact congrArg some (after_grid (.inr hx) h m)

/-- **C211** The probabilities and the names never change, and neither do moments that were estimated from the scenarios. -/
theorem C211_own_fields {a : LiveArgs} {m : Mem} {d : LiveDist} (hd : liveDist a m = .ok d) (ws : List Write) :
    (d.read (after m ws)).probabilities = (d.read m).probabilities ∧ (d.read (after m ws)).names = (d.read m).names ∧
    (a.mu = none → (d.read (after m ws)).mu = (d.read m).mu) ∧ (a.cov = none → (d.read (after m ws)).cov = (d.read m).cov) := by
  unfold liveDist at hd
  cases hm : mkDist (a.now m) with
  | error e => rw [hm] at hd; cases hd
  | ok d' =>
    rw [hm] at hd
    injection hd with hd
    subst hd
    refine ⟨rfl, rfl, fun h => ?_, fun h => ?_⟩
    · simp only [LiveDist.read, h]
      cases d'.mu <;> rfl
    · simp only [LiveDist.read, h]
      cases d'.cov <;> rfl

/-- `b` spells out what the arguments `a` contain while the caller's memory is `m`. -/
structure Contents (m : Mem) (a : LiveArgs) (b : DistArgs) : Prop where
  mu : (a.mu = none ∧ b.mu = none) ∨ (∃ r, a.mu = some (.object r) ∧ b.mu = some (.array (m.vec r))) ∨
    ∃ x, a.mu = some (.value x) ∧ b.mu = some x
  cov : (a.cov = none ∧ b.cov = none) ∨ (∃ r, a.cov = some (.object r) ∧ b.cov = some (.array (m.grid r))) ∨
    ∃ x, a.cov = some (.value x) ∧ b.cov = some x
  scenarios : (a.scenarios = none ∧ b.scenarios = none) ∨ (∃ r, a.scenarios = some (.object r) ∧ b.scenarios = some (.array (m.grid r))) ∨
    ∃ x, a.scenarios = some (.value x) ∧ b.scenarios = some x
  probabilities : (a.probabilities = none ∧ b.probabilities = none) ∨
    (∃ r, a.probabilities = some (.object r) ∧ b.probabilities = some (m.vec r)) ∨
    ∃ x, a.probabilities = some (.value x) ∧ b.probabilities = some x
  names : b.assetNames = a.assetNames

/-- **C211** Right after the construction, a distribution built from array objects reads exactly as one built from their contents. -/
theorem C211_by_contents {a : LiveArgs} {b : DistArgs} {m : Mem} (h : Contents m a b) :
    (∀ e, liveDist a m = .error e ↔ mkDist b = .error e) ∧ ∀ d, liveDist a m = .ok d → ∃ d', mkDist b = .ok d' ∧ d.read m = fieldsOf d' := by
  have e : a.now m = b := by
    obtain ⟨h1, h2, h3, h4, h5⟩ := h
    cases a
    cases b
    simp only at h1 h2 h3 h4 h5
    unfold LiveArgs.now
    simp only [DistArgs.mk.injEq]
    refine ⟨?_, ?_, ?_, ?_, h5.symm⟩
    · rcases h1 with ⟨p, q⟩ | ⟨r, p, q⟩ | ⟨r, p, q⟩ <;> rw [p, q] <;> rfl
    · rcases h2 with ⟨p, q⟩ | ⟨r, p, q⟩ | ⟨r, p, q⟩ <;> rw [p, q] <;> rfl
    · rcases h3 with ⟨p, q⟩ | ⟨r, p, q⟩ | ⟨r, p, q⟩ <;> rw [p, q] <;> rfl
    · rcases h4 with ⟨p, q⟩ | ⟨r, p, q⟩ | ⟨r, p, q⟩ <;> rw [p, q] <;> rfl
  rw [← e]
  exact C211_reads a m

/-- Scenarios and probabilities passed as array objects. -/
example (m : Mem) : Contents m { scenarios := some (.object 0), probabilities := some (.object 1) }
    { scenarios := some (.array (m.grid 0)), probabilities := some (m.vec 1) } :=
  ⟨.inl ⟨rfl, rfl⟩, .inl ⟨rfl, rfl⟩, .inr (.inl ⟨0, rfl, rfl⟩), .inr (.inl ⟨1, rfl, rfl⟩), rfl⟩

/-- One asset, scenarios 0 and 2 in an array. -/
def exMem : Mem := ⟨fun _ => [], fun _ => matGrid (![![0], ![2]] : Fin 2 → Fin 1 → ℝ)⟩

theorem exMem_dist : ∃ d, liveDist { scenarios := some (.object 0) } exMem = .ok d ∧
    (d.read exMem).mu = some [.fin 1] ∧ (d.read exMem).scenarios = some (matGrid (![![0], ![2]] : Fin 2 → Fin 1 → ℝ)) := by
  obtain ⟨hE, hO⟩ := C211_reads { scenarios := some (.object 0) } exMem
  have hholds : (GridArg.array (matGrid (![![0], ![2]] : Fin 2 → Fin 1 → ℝ))).Holds (![![0], ![2]] : Fin 2 → Fin 1 → ℝ) :=
    ⟨_, .inl rfl, rfl, rfl, fun i j => rfl⟩
  have hv : ValidInputs (LiveArgs.now { scenarios := some (.object 0) } exMem) 1 :=
    { pos := by norm_num
      some_input := .inr (.inr rfl)
      mu := by intro m h; cases h
      cov := by intro m h; cases h
      scen := by
        intro s h
        injection h with h
        subst h
        exact ⟨2, _, by norm_num, hholds, fun l h => by cases h⟩
      agree := by simp [labelLists, LiveArgs.now, exMem, Mem.gridArg]
      count := by simp [labelLists, LiveArgs.now, exMem, Mem.gridArg] }
  obtain ⟨d', hd'⟩ := (C74_accepts_iff _).2 ⟨1, hv⟩
  cases hl : liveDist { scenarios := some (.object 0) } exMem with
  | error e => rw [(hE e).1 hl] at hd'; cases hd'
  | ok d =>
    obtain ⟨d'', h1, h2⟩ := hO d hl
    rw [hd'] at h1
    injection h1 with h1
    subst h1
    refine ⟨d, rfl, ?_, ?_⟩
    · obtain ⟨-, -, -, -, hsc, -⟩ := C74_contents hd'
      obtain ⟨sc, h3, h4, h5, h6, h7, -, h8, -⟩ := hsc _ rfl
      have h4 : (GridArg.array (matGrid (![![0], ![2]] : Fin 2 → Fin 1 → ℝ))).Holds sc.R := h4
      obtain ⟨T, R, p⟩ := sc
      have h9 := grid_of_holds h4
      simp only [matGrid, Grid.mk.injEq] at h9
      obtain ⟨h9, h10, h11⟩ := h9
      simp only at h9 h10 h7 h8
      subst h9
      have hu := h7 rfl
      rw [h2]
      simp only [fieldsOf]
      rw [h8 rfl]
      obtain ⟨N, mu, cov, scen, names⟩ := d'
      simp only at h10
      subst h10
      have hR : R = (![![0], ![2]] : Fin 2 → Fin 1 → ℝ) := by
        funext i j
        have := congrFun (congrFun (eq_of_heq h11) i) j
        injection this with this
        exact this.symm
      subst hR
      simp [vecList, Fin.sum_univ_two, hu]
    · have : (d.read exMem).scenarios = some (exMem.grid 0) := by
        unfold liveDist at hl
        rw [hd'] at hl
        injection hl with hl
        subst hl
        obtain ⟨-, -, -, -, hsc, -⟩ := C74_contents hd'
        obtain ⟨sc, h3, -⟩ := hsc _ rfl
        simp only [LiveDist.read, h3]
        rfl
      rw [this]
      rfl

/-- **C211** The full claim is false: after `scenarios[0, 0] = 4` the object built from that array has the scenario 4 instead of 0,
while its mean is still 1; and with `scenarios[0, 0] = nan` it holds a value that its constructor rejects. -/
theorem C211_counterexample : ∃ d, liveDist { scenarios := some (.object 0) } exMem = .ok d ∧
    (d.read (after exMem [.grid 0 0 0 (.fin 4)])).mu = some [.fin 1] ∧
    (∃ g, (d.read (after exMem [.grid 0 0 0 (.fin 4)])).scenarios = some (matGrid g) ∧ g = (![![4], ![2]] : Fin 2 → Fin 1 → ℝ)) ∧
    (∃ g, (d.read (after exMem [.grid 0 0 0 .nan])).scenarios = some g ∧
      mkDist { scenarios := some (.array g) } = .error .valueError) := by
  obtain ⟨d, h1, h2, h3⟩ := exMem_dist
  have hs : ∃ r, d.scenarios = some (.shared r) ∧ r = 0 := by
    have h1' := h1
    unfold liveDist at h1
    cases hm : mkDist (LiveArgs.now { scenarios := some (.object 0) } exMem) with
    | error e => rw [hm] at h1; cases h1
    | ok d' =>
      rw [hm] at h1
      injection h1 with h1
      subst h1
      cases hsc : d'.scen with
      | none => simp [LiveDist.read, hsc] at h3
      | some sc => exact ⟨0, by simp [hsc, slotOf], rfl⟩
  obtain ⟨r, hs, rfl⟩ := hs
  refine ⟨d, h1, ?_, ?_, ?_⟩
  · rw [(C211_own_fields h1 _).2.2.1 rfl, h2]
  · refine ⟨_, ?_, rfl⟩
    simp only [LiveDist.read, hs, Option.map_some, Mem.readGrid, after, List.foldl_cons, List.foldl_nil, Write.run, Function.update_self]
    refine congrArg some ?_
    simp only [setEntry, exMem, matGrid, Grid.mk.injEq, heq_eq_eq, true_and]
    funext i j
    fin_cases i <;> fin_cases j <;> simp
  · refine ⟨_, by simp only [LiveDist.read, hs, Option.map_some]; rfl, ?_⟩
    cases hm : mkDist { scenarios := some (.array ((after exMem [.grid 0 0 0 .nan]).grid 0)) } with
    | error e => exact C74_value_error hm ▸ hm
    | ok d' =>
      exfalso
      obtain ⟨-, -, -, -, hsc, -⟩ := C74_contents hm
      obtain ⟨sc, -, h4, -⟩ := hsc _ rfl
      have h5 := grid_of_holds h4
      have h6 : (setEntry (matGrid (![![0], ![2]] : Fin 2 → Fin 1 → ℝ)) 0 0 .nan) = matGrid sc.R := by
        rw [← h5]
        simp [after, Write.run, exMem]
      have h7 : ∀ g g' : Grid, g = g' → (∃ i j, g.e i j = .nan) → ∃ i j, g'.e i j = .nan := by
        rintro g _ rfl h; exact h
      obtain ⟨i, j, h8⟩ := h7 _ _ h6 ⟨(0 : Fin 2), (0 : Fin 1), by simp [setEntry]⟩
      cases h8

/-- The partial theorem applies to it when another array is written to. -/
example : ∃ d, liveDist { scenarios := some (.object 0) } exMem = .ok d ∧
    (d.read (after exMem [.grid 1 0 0 (.fin 4), .vec 0 0 .nan])).scenarios = some (matGrid (![![0], ![2]] : Fin 2 → Fin 1 → ℝ)) := by
  obtain ⟨d, h1, -, h3⟩ := exMem_dist
  refine ⟨d, h1, ?_⟩
  rw [C211_unchanged_partial h1 _ (by simp [Write.Hits]), h3]

/-! ## C212: a specification after it was made -/

/-- The objects that the specification keeps referring to have the same contents: the data, the weights, the projection options and
the dictionary that was the `constraints` entry of `optimiser_kwargs` when the specification was made. -/
def SameData {κ ρ V : Type} (a : SpecArgs) (m m' : SpecMem κ ρ V) : Prop :=
  (∀ r, a.returns = some r → m'.returns r = m.returns r) ∧
  (∀ r, a.probabilities = some r → m'.probabilities r = m.probabilities r) ∧
  (∀ r, a.projection = some r → m'.projection r = m.projection r) ∧
  ∀ r, (m.optimiserKw a.optimiserKw).constraints = some r → m'.constraints r = m.constraints r

/-- **C212** A specification builds the frontier it would have built right after it was made, whatever the caller has done to the
dictionaries `mean_kwargs`, `cov_kwargs`, `optimiser_kwargs`, `selector_kwargs` and `metadata` in the meantime, as long as the objects
of `SameData` are left alone. Missing: those, see `C212_counterexample`. -/
theorem C212_unchanged_partial {κ ρ V α : Type} {a : SpecArgs} {m : SpecMem κ ρ V} {s : MadeSpec κ ρ V} (hs : makeSpec a m = .ok s)
    (estimator : κ → (f : Frame) → Option (List ℝ) → Except PyErr (Mom2 f.N))
    (call : ρ → Method → (N : ℕ) → Wrapper N → Except PyErr α) (m' : SpecMem κ ρ V) (h : SameData a m m') :
    s.frontier estimator call m' = s.frontier estimator call m ∧
    s.metadata = m.metadata a.metadata ∧ Ens.buildSelector a.selector (m.selectorKw a.selectorKw) = .ok s.selector := by
  unfold makeSpec at hs
  cases hb : Ens.buildSelector a.selector (m.selectorKw a.selectorKw) with
  | error e => rw [hb] at hs; cases hs
  | ok sel =>
    rw [hb] at hs
    injection hs with hs
    subst hs
    obtain ⟨h1, h2, h3, h4⟩ := h
    refine ⟨?_, rfl, rfl⟩
    have e1 : a.returns.map m'.returns = a.returns.map m.returns := by
      cases hx : a.returns with
      | none => rfl
      | some r => simp [h1 r hx]
    have e2 : a.probabilities.map m'.probabilities = a.probabilities.map m.probabilities := by
      cases hx : a.probabilities with
      | none => rfl
      | some r => simp [h2 r hx]
    have e3 : (fun N => a.projection.map (fun r => m'.projection r N)) = fun N => a.projection.map (fun r => m.projection r N) := by
      cases hx : a.projection with
      | none => rfl
      | some r => simp [h3 r hx]
    have e4 : (m.optimiserKw a.optimiserKw).constraints.map m'.constraints = (m.optimiserKw a.optimiserKw).constraints.map m.constraints := by
      cases hx : (m.optimiserKw a.optimiserKw).constraints with
      | none => rfl
      | some r => simp [h4 r hx]
    simp only [MadeSpec.frontier, e1, e2, e3, e4]

/-- Long only, weights summing to `t`. -/
noncomputable def summing (t : ℝ) : PyV.Con.Spec ℝ := ⟨true, some (.fin t), none, [], [], [], []⟩

/-- One row of data on one asset, an annualisation factor `k` in the `projection` dictionary, and the sum of weights `t` in the
`constraints` dictionary. -/
noncomputable def exSpecMem (k t : ℝ) : SpecMem Unit Unit Unit :=
  { returns := fun _ => ⟨1, 1, fun _ _ => .fin 1, fun _ => "r", fun _ => "X"⟩
    probabilities := fun _ => .seq []
    projection := fun _ _ => { annualizationFactor := some k }
    constraints := fun _ => summing t
    estimatorKw := fun _ => ()
    optimiserKw := fun _ => ⟨some 0, ()⟩
    selectorKw := fun _ => {}
    metadata := fun _ => [] }

/-- Data, projection and constraints are given; mean-variance frontier, minimum risk. -/
def exSpecArgs : SpecArgs := ⟨some 0, none, none, some 0, false, 0, "mean_variance", 0, "min_risk", 0, 0⟩

/-- The returns that the mean-variance frontier reports. -/
noncomputable def frontierReturns (solver : Opt.Solver) (argsort : Argsort) (_ : Unit) (_ : Method) (N : ℕ) (w : Wrapper N) :
    Except PyErr (List ℝ) :=
  (w.varianceFrontier solver argsort 5 none none).map (fun F => List.ofFn F.f.returns)

theorem summing_iff {t : ℝ} (x : Fin 1 → ℝ) : Satisfies (summing t) x ↔ 0 ≤ x 0 ∧ x 0 = t := by
  constructor
  · intro h; exact ⟨h.long rfl 0, by simpa using h.total t rfl⟩
  · rintro ⟨h1, h2⟩
    refine ⟨fun _ i => by fin_cases i; exact h1, ?_, trivial, ?_, ?_, ?_, ?_⟩
    · intro t' ht
      injection ht with ht; injection ht with ht
      rw [← ht]; simpa using h2
    all_goals intro e he; simp [summing] at he

theorem spec_returns {solver : Opt.Solver} (hs : Sound solver) (hc : Complete solver) (argsort : Argsort) (k t : ℝ) (hk : 0 < k)
    (ht : 0 ≤ t) (s : MadeSpec Unit Unit Unit) (h : makeSpec exSpecArgs (exSpecMem 1 1) = .ok s) :
    ∃ l, s.frontier (fun _ _ _ => .ok (fun _ => 1, fun _ _ => 1)) (frontierReturns solver argsort) (exSpecMem k t) = .ok l ∧ l ≠ [] ∧
      ∀ r ∈ l, r = k * t := by
  unfold makeSpec at h
  cases hb : Ens.buildSelector exSpecArgs.selector ((exSpecMem 1 1).selectorKw exSpecArgs.selectorKw) with
  | error e => rw [hb] at h; cases h
  | ok sel =>
    rw [hb] at h
    injection h with h
    subst h
    have hp : Projected (some ({ annualizationFactor := some k } : ProjOptions 1)) ((fun _ => 1, fun _ _ => 1) : Mom2 1)
        (fun _ => k, fun _ _ => k) :=
      .inr ⟨_, rfl, C120_result_partial _ rfl (by simp) _ (fun _ => k, fun _ _ => k) _ ⟨by simp, by simp⟩
        (.inr ⟨by simp [WantsSimple], rfl⟩)⟩
    obtain ⟨C, hd, hsym, -, hC⟩ := C121_moments (f0 := (exSpecMem k t).returns 0) (f := (exSpecMem k t).returns 0) (.inl ⟨rfl, rfl⟩)
      (Nat.one_pos) none none (.inl ⟨rfl, rfl⟩) (fun N => some ((exSpecMem k t).projection 0 N))
      (fun _ _ => .ok (fun _ => 1, fun _ _ => 1)) (m := ((fun _ => 1, fun _ _ => 1) : Mom2 1)) rfl hp
    have hC := (hC (by
      have : (Matrix.of (fun _ _ => k) : Matrix (Fin 1) (Fin 1) ℝ) = k • 1 := by
        ext i j; fin_cases i; fin_cases j; simp
      change (Matrix.of (fun _ _ => k) : Matrix (Fin 1) (Fin 1) ℝ).PosSemidef
      rw [this]
      exact PosSemidef.smul PosSemidef.one hk.le)).1
    change Matrix (Fin 1) (Fin 1) ℝ at C
    have hvalid : Valid ((1 : ℕ) : ℤ) (summing t) := by
      refine ⟨by norm_num, ?_, trivial, ?_, ?_, ?_, ?_⟩
      · intro y hy; cases hy; exact ⟨t, rfl⟩
      · intro e he; cases he
      · intro e he; cases he
      · intro e he; cases he
      · intro e he; cases he
    obtain ⟨m, hm⟩ := (PyV.Con.build_isOk (nAssets := ((1 : ℕ) : ℤ)) (c := summing t) (rn := true)).mpr hvalid
    obtain ⟨w, hsf, hin, hmu, hco, -, htr, hlog, -⟩ := C72_spec_partial (frontierReturns solver argsort ()) (by norm_num : 0 < 1)
      ⟨some (fun _ => k), some C, none, m, ⟨none, none, none⟩, false, none⟩ "mean_variance" .variance
      (Or.inl (by decide +kernel)) (some (summing t)) (summing t) (.inl rfl) hvalid
      ⟨fun _ => t + 1, fun h => by have := ((summing_iff _).1 h).2; linarith⟩
    have hcov : IsCov (fun i j => C i j) := by
      constructor
      · intro i j; fin_cases i; fin_cases j; rfl
      · intro x
        have h0 : 0 < C 0 0 := hC.diag_pos
        simp only [Fin.sum_univ_one, Finset.univ_unique, Fin.default_eq_zero, Finset.sum_singleton, Fin.isValue]
        nlinarith [mul_nonneg h0.le (mul_self_nonneg (x 0))]
    obtain ⟨cols, f, h1, h2, h3⟩ := C105_variance_frontier_partial hs hc argsort w _ _ hmu hco hlog hcov none _ hin
      ⟨|t|, fun x hx i => by fin_cases i; exact le_of_eq (congrArg _ ((summing_iff x).1 hx).2)⟩
      ⟨fun _ => t, (summing_iff _).2 ⟨ht, rfl⟩⟩ ⟨fun _ => -1, fun h => absurd (h.long rfl 0) (by norm_num)⟩ none none none none htr (by simp) 5
    refine ⟨List.ofFn f.returns, ?_, ?_, ?_⟩
    · unfold MadeSpec.frontier
      have hd : buildDistribution none none (exSpecArgs.returns.map (exSpecMem k t).returns) exSpecArgs.preprocess
        (exSpecArgs.probabilities.map (exSpecMem k t).probabilities)
        (fun N => exSpecArgs.projection.map (fun r => (exSpecMem k t).projection r N)) exSpecArgs.useScenarios
        (fun _ _ => .ok (fun _ => 1, fun _ _ => 1)) = .ok ⟨1, some (fun _ => k), some C, none, some ["X"]⟩ := hd
      simp only [hd]
      have hsf : specFactory (frontierReturns solver argsort ()) ⟨1, some (fun _ => k), some C, none, some ["X"]⟩ "mean_variance"
        (some (summing t)) = frontierReturns solver argsort () .variance 1 w := hsf
      refine hsf.trans ?_
      simp only [frontierReturns, h1]
      rfl
    · intro h
      have : cols.length = 0 := by simpa using congrArg List.length h
      exact h2.nonempty (List.length_eq_zero_iff.1 this)
    · intro r hr
      rw [List.mem_ofFn] at hr
      obtain ⟨j, rfl⟩ := hr
      have h4 := ((summing_iff _).1 (h2.inside _ (List.get_mem cols j))).2
      rw [(h3 j).2.1, ← h4]
      exact Fin.sum_univ_one _

/-- **C212** The full claim is false: a specification made when the annualisation factor is 1 and the weights are to sum to 1 reports
the return 1; after `projection["annualization_factor"] = 2` the same specification reports the return 2, and so it does after
`optimiser_kwargs["constraints"]["total_weight"] = 2`. -/
theorem C212_counterexample : ∃ (s : MadeSpec Unit Unit Unit), makeSpec exSpecArgs (exSpecMem 1 1) = .ok s ∧
    ∀ (solver : Opt.Solver) (argsort : Argsort), Sound solver → Complete solver →
      ∀ k t : ℝ, 0 < k → 0 ≤ t →
      ∃ l, s.frontier (fun _ _ _ => .ok (fun _ => 1, fun _ _ => 1)) (frontierReturns solver argsort) (exSpecMem k t) = .ok l ∧ l ≠ [] ∧
      ∀ r ∈ l, r = k * t := by
  obtain ⟨sel, kw, hb, -⟩ := C118_min_risk (K := ℝ) (N := 1) (M := 1) (argsort := fun _ => 1) (kw := {}) "min_risk" (.inl (by decide +kernel))
  cases h : makeSpec exSpecArgs (exSpecMem 1 1) with
  | error e =>
    unfold makeSpec at h
    rw [show Ens.buildSelector exSpecArgs.selector ((exSpecMem 1 1).selectorKw exSpecArgs.selectorKw) = .ok (sel, kw) from hb] at h
    cases h
  | ok s => exact ⟨s, rfl, fun solver argsort hs hc k t hk ht => spec_returns hs hc argsort k t hk ht s h⟩

end PyV.Props
