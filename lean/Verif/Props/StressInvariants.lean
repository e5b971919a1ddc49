import Verif.Model.StressInvariants
import Verif.Props.StressHelpers
import Verif.Props.Invariants
import Verif.Props.ViewsInformation

/-! # C81, C221–C223: stress tests on risk drivers (`stress_invariants`) -/

namespace PyV.Props

open PyV PyV.Perf PyV.Proj PyV.Api PyV.Spec PyV.FV

variable {horizon n : ℤ} {M : ℕ}

/-- The columns an instrument asks for, out of the moves of named drivers. -/
def FedFrom {k : ℕ} : (v : InvArg) → (Fin k → Fin v.drivers → ℝ) → List String → List (Fin k → ℝ) → Prop
  | .array _ _ _, _, _, _ => False
  | .frame _ cols _, moves, drivers, columns => FedBy cols moves drivers columns

/-- `X` is the P&L of the driver moves under the `reprice` argument: exponentials without one, the function's value, or for every instrument its own
function of the columns of the drivers it names. -/
def Prices {k m : ℕ} (v : InvArg) (r : Reprice k v.drivers) (moves : Fin k → Fin v.drivers → ℝ) (X : Fin k → Fin m → ℝ) : Prop :=
  match r with
  | .default => ∃ h : m = v.drivers, ∀ a i, X a i = Real.exp (moves a (i.cast h)) - 1
  | .fn m' f => ∃ h : m = m', ∀ a i, X a i = f moves a (i.cast h)
  | .dict inst => ∃ h : m = inst.length, ∀ j : Fin m, ∃ f columns, pricerOf (inst.get (j.cast h)) = some f ∧
      FedFrom v moves (namedDrivers (inst.get (j.cast h))) columns ∧ ∀ a, X a j = f columns a

/-- The labels the views refer to: the columns of a DataFrame, positions otherwise. -/
def driverLabels (v : InvArg) : Fin v.drivers → Label :=
  match v with
  | .array _ k _ => defaultLabels k
  | .frame _ cols _ => fun i => Label.str (cols.get i)

/-- The names weights are matched with when there are no stress views: instruments, or the columns of a DataFrame. -/
def pnlLabels {k : ℕ} (v : InvArg) (r : Reprice k v.drivers) : Option (List String) :=
  match r with
  | .dict inst => some (inst.map Prod.fst)
  | _ => InvArg.names v

theorem compose_prices {k : ℕ} {inst : List (String × RSpec k ℝ)} {cols : List String} {f : (Fin k → Fin cols.length → ℝ) → Fin k → List ℝ}
    {names : List String} (hc : composeRepricers inst cols = .ok (f, names)) (moves : Fin k → Fin cols.length → ℝ) (j : ℕ) (hj : j < inst.length) :
    ∃ g columns, pricerOf (inst.get ⟨j, hj⟩) = some g ∧ FedBy cols moves (namedDrivers (inst.get ⟨j, hj⟩)) columns ∧
      ∀ a, (f moves a).getD j 0 = g columns a := by
  unfold composeRepricers at hc
  split at hc
  · cases hc
  rename_i parsed hp
  injection hc with hc
  injection hc with hc _
  subst hc
  rw [Ens.mapE_iff, List.forall₂_iff_get] at hp
  have hj' : j < parsed.length := by omega
  have hq := hp.2 j hj hj'
  obtain ⟨h1, h2⟩ := parseSpec_ok hq
  refine ⟨(parsed.get ⟨j, hj'⟩).2, (parsed.get ⟨j, hj'⟩).1.map (moveCol moves), h1, ?_, fun a => ?_⟩
  · unfold FedBy
    rw [List.forall₂_map_right_iff]
    refine h2.imp fun d i hi => ?_
    have hlt : i < cols.length := by
      by_contra hc
      rw [List.getElem?_eq_none (by omega)] at hi
      cases hi
    refine ⟨⟨i, hlt⟩, ?_, fun a => by simp [moveCol, hlt]⟩
    rw [List.getElem?_eq_getElem hlt] at hi
    injection hi
  · simp [List.getD_eq_getElem?_getD, List.getElem?_map, List.getElem?_eq_getElem hj']

theorem combine_prices {k : ℕ} {v : InvArg} {r : Reprice k v.drivers} {c : Combined k v.drivers} (h : combine v r = .ok c)
    (moves : Fin k → Fin v.drivers → ℝ) : Prices v r moves (c.f moves) := by
  cases r with
  | default => injection h with h; subst h; exact ⟨rfl, fun a i => rfl⟩
  | fn m f => injection h with h; subst h; exact ⟨rfl, fun a i => rfl⟩
  | dict inst =>
    cases v with
    | array T k x => cases h
    | frame T cols x =>
      simp only [combine, combineDict] at h
      split at h
      · cases h
      rename_i f names hc
      injection h with h
      subst h
      obtain ⟨hn, -⟩ := C59_compose _ _ _ _ hc
      have hl : names.length = inst.length := by rw [hn]; simp
      exact ⟨hl, fun j => compose_prices hc moves j (lt_of_lt_of_eq j.2 hl)⟩

theorem project_history {T N : ℕ} {R : Fin T → Fin N → ℝ} {horizon n : ℤ} {u : Fin n.toNat → Fin horizon.toNat → ℝ} {out : Fin n.toNat → Fin N → ℝ}
    (h : projectScenarios R horizon none n u = .ok out) : 0 < T := by
  unfold projectScenarios at h
  split_ifs at h
  split at h
  · cases h
  rename_i w hw
  exact (projWeights_raw hw).1 rfl

theorem pnlNames_labels {k : ℕ} {v : InvArg} {r : Reprice k v.drivers} {c : Combined k v.drivers} (h : combine v r = .ok c)
    {names : Option (List String)} (hn : pnlNames v c = .ok names) : names = pnlLabels v r := by
  have key : c.names = (match r with | .dict inst => some (inst.map Prod.fst) | _ => none) := by
    cases r with
    | default => injection h with h; subst h; rfl
    | fn m f => injection h with h; subst h; rfl
    | dict inst =>
      cases v with
      | array T k x => cases h
      | frame T cols x =>
        simp only [combine, combineDict] at h
        split at h
        · cases h
        rename_i f names hc
        injection h with h
        subst h
        exact congrArg some (C59_compose _ _ _ _ hc).1
  unfold pnlNames at hn
  rw [key] at hn
  cases r with
  | dict inst => injection hn with hn; exact hn.symm
  | default =>
    cases v with
    | array T k x => injection hn with hn; exact hn.symm
    | frame T cols x =>
      simp only at hn
      split at hn
      · injection hn with hn; exact hn.symm
      · cases hn
  | fn m f =>
    cases v with
    | array T k x => injection hn with hn; exact hn.symm
    | frame T cols x =>
      simp only at hn
      split at hn
      · injection hn with hn; exact hn.symm
      · cases hn

/-- The prior a views processor is built on. -/
def sourceOf (v : InvArg) : Source := ⟨v.length, v.drivers, v.values, driverLabels v, (InvArg.names v).isSome, none⟩

theorem fromDrivers_source (v : InvArg) : fromDrivers (asDrivers v) none = .ok (sourceOf v) := by
  cases v <;> rfl

/-- The equally likely scenarios of a simulation. -/
noncomputable def equally (S : ℕ) : Fin S → ℝ := fun _ => 1 / (S : ℝ)

theorem resolve_equally {S : ℕ} {p : List ℝ} (h : Probs.resolve (none : Option (List (PyFloat ℝ))) S false = .ok p) :
    p.length = S ∧ toVec S p = equally S ∧ IsProb (toVec S p) := by
  have hp := uniform_toVec h
  have hl : p.length = S := by exact_mod_cast (C16_resolve _ _ _ _ h).1
  refine ⟨hl, ?_, hp⟩
  have : p = List.replicate S (1 / (S : ℝ)) := by
    simp only [Probs.resolve, Probs.uniform] at h
    split at h
    · cases h
    · injection h with h
      rw [← h]
      simp
  funext t
  rw [toVec_eq hl]
  simp [this, equally]

/-- **C221** (without stress views) The report has one row per portfolio; it describes the portfolio's P&L, the weights being matched with the
instruments by name, over equally likely simulations, each of them the repricing of the sum of exactly `horizon` historical rows drawn uniformly. -/
theorem C221_no_views {ep : (S : ℕ) → Ep S} {sort : (S : ℕ) → (Fin S → ℝ) → Equiv.Perm (Fin S)} (hs : ∀ S, Risk.IsArgsort (sort S)) {round : ℝ → ℤ}
    {rng : Rng n.toNat horizon.toNat} (hu : ∀ k, UnitDraws (rng.seeded k) ∧ UnitDraws (rng.fresh k)) {v : InvArg} {w : Weights M ℝ} {mapping : Bool}
    {reprice : Reprice n.toNat v.drivers} {seed : Option ℕ} {conf : ℝ} {demean : Bool} {rep : StressReport}
    (h : stressInvariants ep sort round rng v w mapping reprice [] seed conf demean = .ok rep) :
    ∃ (idx : Fin n.toNat → Fin horizon.toNat → Fin v.length) (m : ℕ) (X : Fin n.toNat → Fin m → ℝ) (W : Fin M → Fin m → ℝ),
      DrawnBy v.length none (rng.draws seed 0) idx ∧ Prices v reprice (driverMoves v idx) X ∧ WeightsAre w (pnlLabels v reprice) W ∧
      List.Forall₂ (fun j r => Describes (equally n.toNat) (pnlOf X (W j)) conf demean r) (List.finRange M) rep.nominal ∧
      rep.stressed = none ∧ rep.kl = none := by
  have hu0 : UnitDraws (rng.draws seed 0) := by unfold Rng.draws; split <;> first | exact (hu _).1 | exact (hu _).2
  unfold stressInvariants at h
  split at h
  · cases h
  rename_i c hc
  split at h
  · cases h
  rename_i moves hm
  rw [if_pos (by rfl)] at h
  split at h
  · cases h
  rename_i names hn
  obtain ⟨idx, h1, h2⟩ := C58_project _ _ _ _ _ hu0 _ hm
  have hr : ∃ p, Probs.resolve (none : Option (List (PyFloat ℝ))) n.toNat false = .ok p := by
    unfold stressTest at h
    split at h
    · cases h
    cases hp : Probs.resolve (none : Option (List (PyFloat ℝ))) (n.toNat : ℤ) false with
    | error e => rw [hp] at h; cases h
    | ok p => exact ⟨p, rfl⟩
  obtain ⟨p, hp⟩ := hr
  obtain ⟨-, he, hprob⟩ := resolve_equally hp
  obtain ⟨W, hW, hf, hx⟩ := C79_stress_nominal (hs _) w _ _ _ _ _ conf demean rep p hp hprob h
  have hmv : moves = driverMoves v idx := by funext a i; exact h2 a i
  rw [he] at hf
  rw [pnlNames_labels hc hn] at hW
  subst hmv
  exact ⟨idx, c.m, _, W, h1, combine_prices hc _, hW, hf, (hx rfl rfl).1, (hx rfl rfl).2⟩

/-- **C221** (with stress views) The report has one nominal and one stressed row for one vector of weights.  There is a distribution over the
historical rows under which every stress view holds; the nominal row describes the P&L over equally likely simulations summing rows drawn uniformly,
the stressed row the same for rows drawn from that distribution, repriced in the same way. -/
theorem C221_views {ep : (S : ℕ) → Ep S} (hep : ∀ S, EpSound (ep S)) {sort : (S : ℕ) → (Fin S → ℝ) → Equiv.Perm (Fin S)}
    (hs : ∀ S, Risk.IsArgsort (sort S)) {round : ℝ → ℤ} {rng : Rng n.toNat horizon.toNat}
    (hu : ∀ k, UnitDraws (rng.seeded k) ∧ UnitDraws (rng.fresh k)) {v : InvArg} (hlab : Function.Injective (driverLabels v)) {w : Weights M ℝ}
    {mapping : Bool} {reprice : Reprice n.toNat v.drivers} {views : List (MKey × ViewVal)} (hv : views ≠ []) {seed : Option ℕ} {conf : ℝ}
    {demean : Bool} {rep : StressReport} (h : stressInvariants ep sort round rng v w mapping reprice views seed conf demean = .ok rep) :
    ∃ (q : Fin v.length → ℝ) (idx idx' : Fin n.toNat → Fin horizon.toNat → Fin v.length) (m : ℕ) (X X' : Fin n.toNat → Fin m → ℝ)
      (x : Fin m → ℝ) (a b : Metrics),
      IsProb q ∧ (∀ kv ∈ views, MeanHolds (driverLabels v) v.values q kv) ∧
      ((∀ S, EpExact (ep S)) → ∀ y, IsProb y → (∀ kv ∈ views, MeanHolds (driverLabels v) v.values y kv) →
        kl q (equally v.length) ≤ kl y (equally v.length) ∧ (kl y (equally v.length) ≤ kl q (equally v.length) → y = q)) ∧
      DrawnBy v.length none (rng.draws seed 0) idx ∧ DrawnBy v.length (some (List.ofFn fun t => .fin (q t))) (rng.draws seed 1) idx' ∧
      Prices v reprice (driverMoves v idx) X ∧ Prices v reprice (driverMoves v idx') X' ∧ ravel w = List.ofFn x ∧
      rep.nominal = [a] ∧ rep.stressed = some [b] ∧ rep.kl = none ∧
      Describes (equally n.toNat) (pnlOf X x) conf demean a ∧ Describes (equally n.toNat) (pnlOf X' x) conf demean b := by
  have hu' : ∀ k, UnitDraws (rng.draws seed k) := by
    intro k; unfold Rng.draws; split <;> first | exact (hu _).1 | exact (hu _).2
  unfold stressInvariants at h
  split at h
  · cases h
  rename_i c hc
  split at h
  · cases h
  rename_i moves hm
  rw [if_neg (by simpa using hv)] at h
  split at h
  · cases h
  rename_i P hP
  split at h
  · cases h
  rename_i moves' hm'
  split at h
  · cases h
  split at h
  · cases h
  obtain ⟨idx, h1, h2⟩ := C58_project _ _ _ _ _ (hu' 0) _ hm
  have hT : 0 < v.length := project_history hm
  have hsrc : process ep sort round (sourceOf v) { mean := .dict views } = .ok P := by
    unfold stressProcessor at hP
    rwa [fromDrivers_source] at hP
  have hclean : CleanPrior (sourceOf v).prior := by intro p hp; cases hp
  obtain ⟨q, hq, hPq, -, -⟩ := C145_accessors hep hT hclean hsrc
  have hmean : (∀ kv ∈ views, MeanHolds (driverLabels v) v.values q kv) ∧
      ((∀ S, EpExact (ep S)) → ∀ y, IsProb y → (∀ kv ∈ views, MeanHolds (driverLabels v) v.values y kv) →
        kl q (equally v.length) ≤ kl y (equally v.length) ∧ (kl y (equally v.length) ≤ kl q (equally v.length) → y = q)) := by
    obtain ⟨p0, vw, q', hp0, hvw, hpost, hP'⟩ := process_ok hsrc
    have hqq : q = q' := by
      rw [hP'] at hPq
      injection hPq with _ _ _ _ _ h6 _ _
      exact h6.symm
    subst hqq
    have hvw' : vw = ⟨views, [], [], [], [], [], []⟩ := by
      have : viewsOf (sourceOf v).assets { mean := .dict views } = .ok ⟨views, [], [], [], [], [], []⟩ := rfl
      rw [this] at hvw
      injection hvw with hvw
      exact hvw.symm
    subst hvw'
    refine ⟨(C25_simultaneous_partial (hep _) _ _ (priorOf_prob hT hclean hp0) hlab rfl rfl hpost).2.1, fun hex => ?_⟩
    have e0 : p0 = equally v.length := by injection hp0 with hp0; rw [← hp0]; rfl
    have := (mean_views_closest hex hlab hT hclean hp0 hvw ⟨rfl, rfl, rfl, rfl, rfl⟩ rfl hpost).2
    rw [e0] at this
    exact this
  have hprobs : P.probabilities = List.ofFn fun t => PyFloat.fin (q t) := by rw [hPq]; rfl
  rw [hprobs] at hm'
  obtain ⟨idx', h3, h4⟩ := C58_project _ _ _ _ _ (hu' 1) _ hm'
  have e1 : moves = driverMoves v idx := by funext a i; exact h2 a i
  have e2 : moves' = driverMoves v idx' := by funext a i; exact h4 a i
  subst e1 e2
  unfold Perf.compareOn at h
  split at h
  · cases h
  rename_i p hp
  obtain ⟨hl, he, hprob⟩ := resolve_equally hp
  split at h
  · cases h
  rename_i hlen
  push Not at hlen
  have hconf : 0 < conf ∧ conf < 1 := by
    by_contra hcon
    have : metrics (sort n.toNat) (c.f (driverMoves v idx)) p conf demean (fun (_ : Fin 1) => toVec c.m (ravel w)) = .error .valueError ∨
        ∃ e, metrics (sort n.toNat) (c.f (driverMoves v idx)) p conf demean (fun (_ : Fin 1) => toVec c.m (ravel w)) = .error e := by
      right
      unfold metrics
      split
      · exact ⟨_, rfl⟩
      · rename_i mom _
        rw [List.finRange_succ]
        simp only [mapE, metricsOf, Risk.portfolioVar, Risk.checkConf, Option.getD_some, hcon, if_false]
        exact ⟨_, rfl⟩
    rcases this with h' | ⟨e, h'⟩ <;> (rw [h'] at h; cases h)
  obtain ⟨g, hg1, hg2⟩ := metrics_spec (hs _) (c.f (driverMoves v idx)) hl hprob hconf.1 hconf.2 demean (fun (_ : Fin 1) => toVec c.m (ravel w))
  obtain ⟨g', hg1', hg2'⟩ := metrics_spec (hs _) (c.f (driverMoves v idx')) hl hprob hconf.1 hconf.2 demean (fun (_ : Fin 1) => toVec c.m (ravel w))
  rw [hg1, hg1'] at h
  injection h with h
  subst h
  refine ⟨q, idx, idx', c.m, _, _, toVec c.m (ravel w), g 0, g' 0, hq, hmean.1, hmean.2, h1, h3, combine_prices hc _, combine_prices hc _, ?_, rfl, rfl, rfl, ?_, ?_⟩
  · apply List.ext_getElem
    · simp [hlen]
    · intro i h1 h2
      simp [toVec, List.getElem?_eq_getElem h1]
  · rw [← he]; exact hg2 0
  · rw [← he]; exact hg2' 0

/-! ## C81, C222, C223 -/

theorem invariants_ok {ep : (S : ℕ) → Ep S} {sort : (S : ℕ) → (Fin S → ℝ) → Equiv.Perm (Fin S)} {round : ℝ → ℤ} {rng : Rng n.toNat horizon.toNat}
    {v : InvArg} {w : Weights M ℝ} {mapping : Bool} {reprice : Reprice n.toNat v.drivers} {views : List (MKey × ViewVal)} (hv : views ≠ [])
    {seed : Option ℕ} {conf : ℝ} {demean : Bool} {rep : StressReport} :
    stressInvariants ep sort round rng v w mapping reprice views seed conf demean = .ok rep ↔
      ∃ c moves P moves' names, combine v reprice = .ok c ∧ projectScenarios v.values horizon none n (rng.draws seed 0) = .ok moves ∧
        process ep sort round (sourceOf v) { mean := .dict views } = .ok P ∧
        projectScenarios v.values horizon (some P.probabilities) n (rng.draws seed 1) = .ok moves' ∧ pnlNames v c = .ok names ∧ mapping = false ∧
        Perf.compareOn (sort n.toNat) (ravel w) (c.f moves) (c.f moves') conf demean = .ok rep := by
  have hsp : stressProcessor ep sort round v views = process ep sort round (sourceOf v) { mean := .dict views } := by
    unfold stressProcessor; rw [fromDrivers_source]
  constructor
  · intro h
    unfold stressInvariants at h
    split at h
    · cases h
    rename_i c hc
    split at h
    · cases h
    rename_i moves hm
    rw [if_neg (by simpa using hv)] at h
    split at h
    · cases h
    rename_i P hP
    split at h
    · cases h
    rename_i moves' hm'
    split at h
    · cases h
    rename_i nm hnm
    split at h
    · cases h
    rename_i hmap
    exact ⟨c, moves, P, moves', nm, hc, hm, hsp ▸ hP, hm', hnm, by simpa using hmap, h⟩
  · rintro ⟨c, moves, P, moves', nm, hc, hm, hP, hm', hnm, rfl, h⟩
    unfold stressInvariants
    rw [hc]
    simp only
    rw [hm]
    simp only
    rw [if_neg (by simpa using hv), hsp, hP]
    simp only
    rw [hm']
    simp only
    rw [hnm]
    simpa using h

/-- **C81** (partial) Without stress views the report does not depend on the order in which labelled weights are listed. Missing: with stress views,
see `C81_counterexample`. -/
theorem C81_no_views_partial {ep : (S : ℕ) → Ep S} {sort : (S : ℕ) → (Fin S → ℝ) → Equiv.Perm (Fin S)} {round : ℝ → ℤ}
    {rng : Rng n.toNat horizon.toNat} {v : InvArg} {rows rows' : List (String × (Fin M → ℝ))} (hp : rows.Perm rows')
    (hn : (rows.map Prod.fst).Nodup) {mapping mapping' : Bool} {reprice : Reprice n.toNat v.drivers} {l : List String}
    (hl : pnlLabels v reprice = some l) {seed : Option ℕ} {conf : ℝ} {demean : Bool} :
    stressInvariants ep sort round rng v (.labelled rows) mapping reprice [] seed conf demean =
      stressInvariants ep sort round rng v (.labelled rows') mapping' reprice [] seed conf demean := by
  unfold stressInvariants
  cases hc : combine v reprice with
  | error e => rfl
  | ok c =>
    simp only
    split
    · rfl
    rw [if_pos (by rfl), if_pos (by rfl)]
    cases hnm : pnlNames v c with
    | error e => rfl
    | ok names =>
      simp only
      rw [pnlNames_labels hc hnm, hl]
      exact C61_stress_order _ hp hn _ _ _ _ _ _ _

private theorem mapE_ofOk {α β γ : Type*} {f : β → Except PyErr γ} {k : α → β} {g : α → γ} {l : List α} (h : ∀ a ∈ l, f (k a) = .ok (g a)) :
    mapE f (l.map k) = .ok (l.map g) := by
  induction l with
  | nil => rfl
  | cons a l ih =>
    simp only [mapE, h a (by simp), ih fun b hb => h b (by simp [hb]), List.map_cons]

private theorem lookup_in_order {α : Type*} {rows : List (String × α)} (hn : (rows.map Prod.fst).Nodup) {r : String × α} (hr : r ∈ rows) :
    rows.lookup r.1 = some r.2 := by
  induction rows with
  | nil => cases hr
  | cons a rows ih =>
    simp only [List.map_cons, List.nodup_cons] at hn
    rcases List.mem_cons.1 hr with rfl | hr
    · simp [List.lookup]
    · have hne : r.1 ≠ a.1 := fun he => hn.1 (by rw [← he]; exact List.mem_map_of_mem hr)
      rw [List.lookup, show (r.1 == a.1) = false by simpa using hne]
      exact ih hn.2 hr

private theorem align_in_order {α : Type*} {M : ℕ} {rows : List (String × (Fin M → α))} {l : List String} (ho : rows.map Prod.fst = l) (hn : l.Nodup) :
    alignWeights (.labelled rows) (some l) = .ok (rows.map Prod.snd) := by
  subst ho
  unfold alignWeights
  dsimp only
  rw [if_pos (by simp; exact fun a b h => ⟨b, h⟩), mapE_ofOk (g := Prod.snd)]
  intro r hr
  unfold rowOf
  rw [lookup_in_order hn hr]

/-- **C81** (partial) Whatever the views, weights whose labels are listed in the order of the instruments give the report of the same numbers
without labels; and as soon as there are views the labels are never read. -/
theorem C81_in_order_partial {ep : (S : ℕ) → Ep S} {sort : (S : ℕ) → (Fin S → ℝ) → Equiv.Perm (Fin S)} {round : ℝ → ℤ}
    {rng : Rng n.toNat horizon.toNat} {v : InvArg} {rows : List (String × (Fin M → ℝ))} {reprice : Reprice n.toNat v.drivers} {l : List String}
    (hl : pnlLabels v reprice = some l) (hn : l.Nodup) {views : List (MKey × ViewVal)} (ho : views = [] → rows.map Prod.fst = l)
    {seed : Option ℕ} {conf : ℝ} {demean : Bool} :
    stressInvariants ep sort round rng v (.labelled rows) false reprice views seed conf demean =
      stressInvariants ep sort round rng v (.plain (rows.map Prod.snd)) false reprice views seed conf demean := by
  unfold stressInvariants
  cases hc : combine v reprice with
  | error e => rfl
  | ok c =>
    simp only
    split
    · rfl
    · by_cases hv : views = []
      · subst hv
        rw [if_pos (by rfl), if_pos (by rfl)]
        cases hnm : pnlNames v c with
        | error e => rfl
        | ok names =>
          simp only
          have ho := ho rfl
          rw [pnlNames_labels hc hnm, hl]
          unfold stressTest
          rw [align_in_order ho hn]
          have : alignWeights (.plain (rows.map Prod.snd)) (some l) = .ok (rows.map Prod.snd) := by
            unfold alignWeights
            dsimp only
            rw [if_neg (by subst ho; simp)]
          rw [this]
      · rw [if_neg (by simpa using hv), if_neg (by simpa using hv)]
        rfl

theorem epExact_sound {S : ℕ} {ep : Ep S} (h : EpExact ep) : EpSound ep := fun _ _ _ _ hq => ⟨((h _ _ _).1 hq).2.1, ((h _ _ _).1 hq).2.2.1⟩

theorem closest_self {S : ℕ} {q e : Fin S → ℝ} (hq : IsProb q) (he : IsProb e) (hpos : ∀ s, 0 < e s) (h : kl e e ≤ kl q e → e = q) : e = q := by
  apply h
  have e1 : kl e e = 0 := by simp [kl]
  have := gibbs hq.nonneg hpos
  rw [hq.sum, he.sum] at this
  rw [e1]
  unfold kl; linarith

theorem satisfied_uniform {ep : (S : ℕ) → Ep S} (hep : ∀ S, EpExact (ep S)) {sort : (S : ℕ) → (Fin S → ℝ) → Equiv.Perm (Fin S)} {round : ℝ → ℤ}
    {v : InvArg} (hT : 0 < v.length) (hlab : Function.Injective (driverLabels v)) {views : List (MKey × ViewVal)}
    (hhold : ∀ kv ∈ views, MeanHolds (driverLabels v) v.values (equally v.length) kv) {P : Processor}
    (h : process ep sort round (sourceOf v) { mean := .dict views } = .ok P) :
    P.probabilities = List.ofFn fun t : Fin v.length => PyFloat.fin (equally v.length t) := by
  obtain ⟨p0, vw, q, hp0, hvw, hpost, rfl⟩ := process_ok h
  have hvw' : vw = ⟨views, [], [], [], [], [], []⟩ := by
    have : viewsOf (sourceOf v).assets { mean := .dict views } = .ok ⟨views, [], [], [], [], [], []⟩ := rfl
    rw [this] at hvw
    injection hvw with hvw
    exact hvw.symm
  subst hvw'
  have hclean : CleanPrior (sourceOf v).prior := by intro p hp; cases hp
  have e0 : p0 = equally v.length := by injection hp0 with hp0; rw [← hp0]; rfl
  have hprob := priorOf_prob hT hclean hp0
  have hpos := priorOf_pos hT hp0
  obtain ⟨h1, h2⟩ := mean_views_closest hep hlab hT hclean hp0 hvw ⟨rfl, rfl, rfl, rfl, rfl⟩ rfl hpost
  subst e0
  have hq : IsProb q := computePosterior_prob (epExact_sound (hep _)) hprob hpost
  have e := closest_self hq hprob hpos (h2 _ hprob hhold).2
  subst e
  rfl

theorem project_uniform {T N : ℕ} (hT : 0 < T) (R : Fin T → Fin N → ℝ) (horizon n : ℤ) (u : Fin n.toNat → Fin horizon.toNat → ℝ) :
    projectScenarios R horizon (some (List.ofFn fun t : Fin T => PyFloat.fin (equally T t))) n u = projectScenarios R horizon none n u := by
  have hT' : (T : ℝ) ≠ 0 := by exact_mod_cast hT.ne'
  have hval : (List.ofFn fun t : Fin T => PyFloat.fin (equally T t)).map PyFloat.val = List.replicate T (1 / (T : ℝ)) := by
    rw [List.map_ofFn]; exact List.ofFn_const _ _
  have : projWeights T (some (List.ofFn fun t : Fin T => PyFloat.fin (equally T t))) = projWeights T (none : Option (List (PyFloat ℝ))) := by
    unfold projWeights
    simp only [hval]
    have hs : (List.replicate T (1 / (T : ℝ))).sum = 1 := by rw [List.sum_replicate, nsmul_eq_mul, mul_one_div_cancel hT']
    have e6 : (Probs.isclose1 (1 : ℝ)) = true := by simp [Probs.isclose1]; norm_num
    rw [hs, if_neg (by simp), if_neg, if_neg (by simp [PyFloat.isFinite]), if_neg (by norm_num), if_pos e6, if_neg hT.ne']
    simp only [List.any_eq_true, List.mem_ofFn, not_exists, not_and]
    rintro x ⟨t, rfl⟩
    have : (0 : ℝ) ≤ equally T t := by unfold equally; positivity
    simpa [PyFloat.lt] using this
  unfold projectScenarios
  rw [this]

theorem compareOn_swap {S N : ℕ} {sort : (Fin S → ℝ) → Equiv.Perm (Fin S)} {w : List ℝ} {A B C : Fin S → Fin N → ℝ} {conf : ℝ} {demean : Bool}
    {r r' : StressReport} (h : Perf.compareOn sort w A B conf demean = .ok r) (h' : Perf.compareOn sort w B C conf demean = .ok r') :
    r.stressed = some r'.nominal := by
  unfold Perf.compareOn at h h'
  cases hp : Probs.resolve (none : Option (List (PyFloat ℝ))) S false with
  | error e => rw [hp] at h; cases h
  | ok p =>
    rw [hp] at h h'
    simp only at h h'
    split at h
    · cases h
    rename_i hl
    rw [if_neg hl] at h'
    cases hA : metrics sort A p conf demean (fun (_ : Fin 1) => toVec N w) with
    | error e => rw [hA] at h; cases h
    | ok a =>
      cases hB : metrics sort B p conf demean (fun (_ : Fin 1) => toVec N w) with
      | error e => rw [hA, hB] at h; cases h
      | ok b =>
        cases hC : metrics sort C p conf demean (fun (_ : Fin 1) => toVec N w) with
        | error e => rw [hB, hC] at h'; cases h'
        | ok c =>
          rw [hA, hB] at h
          rw [hB, hC] at h'
          injection h with h
          injection h' with h'
          subst h h'
          rfl

/-- **C222** (partial) Stress views that already hold over the equally weighted history change nothing but the seed: the stressed row is the nominal
row of the same call made with the next seed. Missing: the two rows of one call are not equal, see `C222_counterexample`. -/
theorem C222_next_seed_partial {ep : (S : ℕ) → Ep S} (hep : ∀ S, EpExact (ep S)) {sort : (S : ℕ) → (Fin S → ℝ) → Equiv.Perm (Fin S)} {round : ℝ → ℤ}
    {rng : Rng n.toNat horizon.toNat} {v : InvArg} (hlab : Function.Injective (driverLabels v)) {w : Weights M ℝ} {mapping : Bool}
    {reprice : Reprice n.toNat v.drivers} {views : List (MKey × ViewVal)} (hv : views ≠ [])
    (hhold : ∀ kv ∈ views, MeanHolds (driverLabels v) v.values (equally v.length) kv) {s : ℕ} {conf : ℝ} {demean : Bool} {rep rep' : StressReport}
    (h : stressInvariants ep sort round rng v w mapping reprice views (some s) conf demean = .ok rep)
    (h' : stressInvariants ep sort round rng v w mapping reprice views (some (s + 1)) conf demean = .ok rep') :
    rep.stressed = some rep'.nominal := by
  obtain ⟨c, moves, P, moves', nm, hc, hm, hP, hm', hnm, -, h⟩ := (invariants_ok hv).1 h
  obtain ⟨c1, moves1, P1, moves1', nm1, hc1, hm1, hP1, hm1', hnm1, -, h'⟩ := (invariants_ok hv).1 h'
  rw [hc] at hc1; injection hc1 with hc1; subst hc1
  have hT := project_history hm
  rw [satisfied_uniform hep hT hlab hhold hP, project_uniform hT] at hm'
  have : moves' = moves1 := by
    have e : rng.draws (some s) 1 = rng.draws (some (s + 1)) 0 := rfl
    rw [e, hm1] at hm'
    injection hm' with hm'
    exact hm'.symm
  subst this
  exact compareOn_swap h h'

/-- The repricing argument makes sense for the drivers and gives `m` columns. -/
def PricedInto {k : ℕ} (v : InvArg) (r : Reprice k v.drivers) (m : ℕ) : Prop :=
  match r with
  | .default => m = v.drivers
  | .fn m' _ => m = m' ∧ ((InvArg.names v).isSome → m' = v.drivers)
  | .dict inst => m = inst.length ∧ ∃ cols, InvArg.names v = some cols ∧ ∀ e ∈ inst, Usable cols e

theorem combine_ok {k m : ℕ} {v : InvArg} {r : Reprice k v.drivers} (h : PricedInto v r m) :
    ∃ c names, combine v r = .ok c ∧ c.m = m ∧ pnlNames v c = .ok names ∧ ∀ l, names = some l → l.length = m := by
  cases r with
  | default =>
    change m = v.drivers at h
    subst h
    cases v with
    | array T k x => exact ⟨_, none, rfl, rfl, rfl, fun l hl => (by cases hl)⟩
    | frame T cols x =>
      exact ⟨_, some cols, rfl, rfl, if_pos rfl, fun l hl => by injection hl with hl; subst hl; rfl⟩
  | fn m' f =>
    obtain ⟨rfl, h⟩ := h
    cases v with
    | array T k x => exact ⟨_, none, rfl, rfl, rfl, fun l hl => (by cases hl)⟩
    | frame T cols x =>
      have h' : m = cols.length := h rfl
      exact ⟨_, some cols, rfl, rfl, if_pos h', fun l hl => by injection hl with hl; subst hl; exact h'.symm⟩
  | dict inst =>
    obtain ⟨rfl, cols, h1, h2⟩ := h
    cases v with
    | array T k x => cases h1
    | frame T cols' x =>
      injection h1 with h1
      subst h1
      obtain ⟨⟨f, names⟩, hc⟩ := (C59_compose_accepts inst cols').2 h2
      have hn := (C59_compose _ _ _ _ hc).1
      refine ⟨⟨names.length, fun s a j => (f s a).getD j 0, some names⟩, some names, ?_, ?_, rfl, ?_⟩
      · show combineDict inst (InvArg.frame T cols' x) = _
        simp only [combineDict, hc]
      · show names.length = _
        rw [hn]; simp
      · intro l hl; injection hl with hl; subst hl; rw [hn]; simp

theorem ravel_rows (rows : List (Fin 1 → ℝ)) : rows.flatMap List.ofFn = rows.map (· 0) := by
  induction rows with
  | nil => rfl
  | cons r l ih => rw [List.flatMap_cons, ih]; rfl

theorem accepts_views {ep : (S : ℕ) → Ep S} (hep : ∀ S, EpSound (ep S)) {sort : (S : ℕ) → (Fin S → ℝ) → Equiv.Perm (Fin S)} {round : ℝ → ℤ}
    {rng : Rng n.toNat horizon.toNat} (hu : ∀ k, UnitDraws (rng.seeded k) ∧ UnitDraws (rng.fresh k)) {v : InvArg} (hT : 0 < v.length)
    (h0 : 0 < horizon) (hn : 0 < n) {m : ℕ} {w : Weights M ℝ} (hw : (ravel w).length = m) {reprice : Reprice n.toNat v.drivers}
    (hr : PricedInto v reprice m) {views : List (MKey × ViewVal)} (hv : views ≠ []) {P : Processor}
    (hP : process ep sort round (sourceOf v) { mean := .dict views } = .ok P) (seed : Option ℕ) {conf : ℝ} (hconf : 0 < conf ∧ conf < 1) (demean : Bool) :
    ∃ rep, stressInvariants ep sort round rng v w false reprice views seed conf demean = .ok rep := by
  have hu' : ∀ k, UnitDraws (rng.draws seed k) := by
    intro k; unfold Rng.draws; split <;> first | exact (hu _).1 | exact (hu _).2
  obtain ⟨c, names, hc, hcm, hnm, hlen⟩ := combine_ok hr
  obtain ⟨moves, hm⟩ := C77_uniform_accepts v.values hT horizon n h0 hn (rng.draws seed 0) (hu' 0)
  have hS : 0 < n.toNat := by omega
  obtain ⟨p, hp⟩ : ∃ p, Probs.resolve (none : Option (List (PyFloat ℝ))) n.toNat false = .ok p := by
    simp only [Probs.resolve, Probs.uniform]
    rw [if_neg (by omega)]
    exact ⟨_, rfl⟩
  obtain ⟨c1, c2, c3, -⟩ := C16_resolve _ _ _ _ hp
  have hl : p.length = n.toNat := by exact_mod_cast c1
  have hclean : CleanPrior (sourceOf v).prior := by intro p hp; cases hp
  obtain ⟨q, hq, hPq, -, -⟩ := C145_accessors hep hT hclean hP
  have hprobs : P.probabilities = (List.ofFn q).map PyFloat.fin := by rw [hPq, List.map_ofFn]; rfl
  have hsum : (List.ofFn q).sum = 1 := by rw [List.sum_ofFn]; exact hq.sum
  obtain ⟨moves', hm'⟩ := C77_accepts_partial v.values horizon n h0 hn (List.ofFn q)
    ⟨List.length_ofFn, by simp only [List.mem_ofFn]; rintro y ⟨t, rfl⟩; exact hq.nonneg t, by rw [hsum]; norm_num⟩
    (.inl (by rw [hsum]; norm_num)) (rng.draws seed 1) (hu' 1)
  obtain ⟨l1, e1, -⟩ := metrics_total hS (sort n.toNat) (c.f moves) hl c2 c3 hconf demean (fun (_ : Fin 1) => toVec c.m (ravel w))
  obtain ⟨l2, e2, -⟩ := metrics_total hS (sort n.toNat) (c.f moves') hl c2 c3 hconf demean (fun (_ : Fin 1) => toVec c.m (ravel w))
  have hcmp : ∃ rep, Perf.compareOn (sort n.toNat) (ravel w) (c.f moves) (c.f moves') conf demean = .ok rep := by
    unfold Perf.compareOn
    rw [hp]
    simp only
    rw [if_neg (by rw [hw, hcm]; simp), e1]
    simp only
    rw [e2]
    exact ⟨_, rfl⟩
  obtain ⟨rep, hrep⟩ := hcmp
  exact ⟨rep, (invariants_ok hv).2 ⟨c, moves, P, moves', names, hc, hm, hP, hprobs ▸ hm', hnm, rfl, hrep⟩⟩

/-- **C223** (partial) `stress_invariants` accepts every sound input: a non-empty history, positive horizon and number of simulations, a
repricing that fits the drivers, an array with one weight per P&L column, a confidence level in (0, 1) and, if there are stress views, views a
`FlexibleViewsProcessor` on the same history accepts. Missing: a single driver, which that processor never accepts, and weights given as a dict, see
`C223_counterexample`. -/
theorem C223_accepts_partial {ep : (S : ℕ) → Ep S} (hep : ∀ S, EpSound (ep S)) {sort : (S : ℕ) → (Fin S → ℝ) → Equiv.Perm (Fin S)} {round : ℝ → ℤ}
    {rng : Rng n.toNat horizon.toNat} (hu : ∀ k, UnitDraws (rng.seeded k) ∧ UnitDraws (rng.fresh k)) {v : InvArg} (hT : 0 < v.length)
    (h0 : 0 < horizon) (hn : 0 < n) {m : ℕ} (x : Fin m → ℝ) {reprice : Reprice n.toNat v.drivers} (hr : PricedInto v reprice m)
    {views : List (MKey × ViewVal)} (hviews : views ≠ [] → ∃ P, process ep sort round (sourceOf v) { mean := .dict views } = .ok P)
    (seed : Option ℕ) {conf : ℝ} (hconf : 0 < conf ∧ conf < 1) (demean : Bool) :
    ∃ rep, stressInvariants ep sort round rng v (.plain (List.ofFn fun i (_ : Fin 1) => x i)) false reprice views seed conf demean = .ok rep := by
  by_cases hv : views = []
  · subst hv
    have hu' : UnitDraws (rng.draws seed 0) := by
      unfold Rng.draws; split <;> first | exact (hu _).1 | exact (hu _).2
    obtain ⟨c, names, hc, hcm, hnm, hlen⟩ := combine_ok hr
    obtain ⟨moves, hm⟩ := C77_uniform_accepts v.values hT horizon n h0 hn (rng.draws seed 0) hu'
    obtain ⟨p, hp⟩ : ∃ p, Probs.resolve (none : Option (List (PyFloat ℝ))) n.toNat false = .ok p := by
      simp only [Probs.resolve, Probs.uniform]
      rw [if_neg (by omega)]
      exact ⟨_, rfl⟩
    obtain ⟨⟨rep, h1, -⟩, -⟩ := C78_accepts (sort n.toNat) (List.ofFn fun i (_ : Fin 1) => x i) (by simp [hcm]) (c.f moves) names
      (fun l h => (hlen l h).trans hcm.symm) none p hp conf hconf demean
    refine ⟨rep, ?_⟩
    unfold stressInvariants
    rw [hc]
    simp only
    rw [hm]
    simp only
    rw [if_pos (by rfl), hnm]
    exact h1
  · obtain ⟨P, hP⟩ := hviews hv
    refine accepts_views hep hu hT h0 hn ?_ hr hv hP seed hconf demean
    unfold ravel positional
    simp only
    rw [ravel_rows]
    simp

/-- **C223** (false of the code) Stress views on a single driver are always refused, whatever they say, and so are weights given as a dict. -/
theorem C223_counterexample {ep : (S : ℕ) → Ep S} {sort : (S : ℕ) → (Fin S → ℝ) → Equiv.Perm (Fin S)} {round : ℝ → ℤ}
    {rng : Rng n.toNat horizon.toNat} {v : InvArg} {w : Weights M ℝ} {mapping : Bool} {reprice : Reprice n.toNat v.drivers}
    {views : List (MKey × ViewVal)} (hv : views ≠ []) {seed : Option ℕ} {conf : ℝ} {demean : Bool} (hbad : v.drivers = 1 ∨ mapping = true)
    (rep : StressReport) : stressInvariants ep sort round rng v w mapping reprice views seed conf demean ≠ .ok rep := by
  intro h
  obtain ⟨c, moves, P, moves', nm, -, -, hP, -, -, hmap, -⟩ := (invariants_ok hv).1 h
  rcases hbad with h1 | h1
  · unfold process at hP
    rw [bind_ok] at hP
    obtain ⟨_, -, hP⟩ := hP
    have hN : (sourceOf v).N = 1 := h1
    rw [if_pos hN] at hP
    cases hP
  · rw [h1] at hmap; cases hmap

/-- Views that hold over the equally weighted history of two or more drivers are accepted. -/
theorem process_satisfied {ep : (S : ℕ) → Ep S} (hep : ∀ S, EpExact (ep S)) (sort : (S : ℕ) → (Fin S → ℝ) → Equiv.Perm (Fin S)) (round : ℝ → ℤ)
    {v : InvArg} (hT : 0 < v.length) (hN : v.drivers ≠ 1) (hlab : Function.Injective (driverLabels v)) {views : List (MKey × ViewVal)}
    (hhold : ∀ kv ∈ views, MeanHolds (driverLabels v) v.values (equally v.length) kv) :
    ∃ P, process ep sort round (sourceOf v) { mean := .dict views } = .ok P := by
  refine ⟨_, (C188_satisfied_views_partial hep sort round (src := sourceOf v) hT hN hlab (by intro p hp; cases hp) (p0 := equally v.length) rfl
    (v := ⟨views, [], [], [], [], [], []⟩) rfl ⟨fun kv hkv => ?_, by simp, by simp, by simp, by simp, by simp, by simp⟩
    ⟨hhold, by simp, by simp, by simp, by simp, by simp, by simp, by simp⟩ rfl).1⟩
  have := hhold kv hkv
  rcases kv with ⟨a | ⟨a, b⟩, x⟩
  · obtain ⟨i, h1, h2⟩ := this; exact ⟨⟨i, h1⟩, _, h2⟩
  · obtain ⟨i, j, h1, h2, h3⟩ := this; exact ⟨⟨⟨i, h1⟩, ⟨j, h2⟩⟩, _, h3⟩

/-- A history of two drivers `A` and `B`. -/
def exHistory (T : ℕ) (x : Fin T → Fin 2 → ℝ) : InvArg := .frame T ["A", "B"] x

theorem exHistory_labels {T : ℕ} (x : Fin T → Fin 2 → ℝ) : Function.Injective (driverLabels (exHistory T x)) := by
  show Function.Injective (fun i : Fin 2 => Label.str (["A", "B"].get i))
  intro i j h
  fin_cases i <;> fin_cases j <;> simp_all

theorem exHistory_view {T : ℕ} (x : Fin T → Fin 2 → ℝ) {t : ℝ} (ht : meanAt (equally T) x 0 = t) :
    ∀ kv ∈ [(MKey.single (.str "A"), ViewVal.scalar (.fin t))], MeanHolds (driverLabels (exHistory T x)) (exHistory T x).values (equally (exHistory T x).length) kv := by
  intro kv hkv
  rw [List.mem_singleton] at hkv
  subst hkv
  exact ⟨(0 : Fin 2), .inl rfl, ht⟩

/-- The nominal mean of one simulation of one row, repriced by the identity, and that of the next seed. -/
theorem one_draw {ep : (S : ℕ) → Ep S} (hep : ∀ S, EpExact (ep S)) {sort : (S : ℕ) → (Fin S → ℝ) → Equiv.Perm (Fin S)}
    (hs : ∀ S, Risk.IsArgsort (sort S)) (round : ℝ → ℤ) {rng : Rng 1 1}
    (hu : ∀ k, UnitDraws (rng.seeded k) ∧ UnitDraws (rng.fresh k)) {T : ℕ} (hT : 0 < T) (x : Fin T → Fin 2 → ℝ) {t : ℝ} (ht : meanAt (equally T) x 0 = t)
    {w : Weights 1 ℝ} {y : Fin 2 → ℝ} (hw : ravel w = List.ofFn y) (seed : Option ℕ) :
    ∃ (r : Fin T) (rep : StressReport) (a : Metrics),
      stressInvariants (horizon := 1) (n := 1) ep sort round rng (exHistory T x) w false (.fn 2 (fun (s : Fin 1 → Fin 2 → ℝ) => s)) [(.single (.str "A"), .scalar (.fin t))] seed
        (95 / 100) false = .ok rep ∧
      rowsBefore T (none : Option (List (PyFloat ℝ))) r ≤ rng.draws seed 0 0 0 ∧
      rng.draws seed 0 0 0 < rowsBefore T (none : Option (List (PyFloat ℝ))) (r + 1) ∧ rep.nominal = [a] ∧ a.mean = x r 0 * y 0 + x r 1 * y 1 := by
  have hlen : (exHistory T x).length = T := rfl
  obtain ⟨P, hP⟩ := process_satisfied hep sort round (v := exHistory T x) hT (show (2 : ℕ) ≠ 1 by decide) (exHistory_labels x) (exHistory_view x ht)
  obtain ⟨rep, hrep⟩ := accepts_views (horizon := 1) (n := 1) (fun S => epExact_sound (hep S)) hu (v := exHistory T x) hT (by norm_num) (by norm_num) (m := 2) (w := w) (by rw [hw]; simp)
    (reprice := .fn 2 (fun (s : Fin 1 → Fin 2 → ℝ) => s)) ⟨rfl, fun _ => rfl⟩ (by simp) hP seed (conf := 95 / 100) (by norm_num) false
  obtain ⟨q, idx, idx', m, X, X', z, a, b, -, -, -, h1, -, h2, -, h3, h4, -, -, h5, -⟩ := C221_views (fun S => epExact_sound (hep S)) hs hu (exHistory_labels x) (by simp) hrep
  obtain ⟨rfl, h2⟩ := h2
  refine ⟨idx (0 : Fin 1) (0 : Fin 1), rep, a, hrep, (h1 (0 : Fin 1) (0 : Fin 1)).1, (h1 (0 : Fin 1) (0 : Fin 1)).2, h4, ?_⟩
  rw [hw] at h3
  have hz : y = z := List.ofFn_injective h3
  subst hz
  rw [h5.mean]
  have hX : ∀ i, X (0 : Fin 1) i = x (idx (0 : Fin 1) (0 : Fin 1)) i := by
    intro i
    rw [h2 (0 : Fin 1) i]
    show ∑ b : Fin 1, x (idx (0 : Fin 1) b) i = _
    simp
  show ∑ s : Fin 1, equally 1 s * ∑ i : Fin 2, X s i * y i = _
  simp [equally, Fin.sum_univ_two, hX]

/-- **C81** (false of the code) with stress views the weights are read by position: two instruments, all the money in `A`, listed
once as `A, B` and once as `B, A`, give different nominal returns. -/
theorem C81_counterexample {ep : (S : ℕ) → Ep S} (hep : ∀ S, EpExact (ep S)) {sort : (S : ℕ) → (Fin S → ℝ) → Equiv.Perm (Fin S)}
    (hs : ∀ S, Risk.IsArgsort (sort S)) (round : ℝ → ℤ) {rng : Rng 1 1}
    (hu : ∀ k, UnitDraws (rng.seeded k) ∧ UnitDraws (rng.fresh k)) (seed : Option ℕ) :
    ∃ r r' : StressReport,
      stressInvariants (horizon := 1) (n := 1) ep sort round rng (exHistory 1 fun _ => ![1, 0]) (.labelled [("A", fun (_ : Fin 1) => 1), ("B", fun _ => 0)]) false
        (.fn 2 (fun (s : Fin 1 → Fin 2 → ℝ) => s)) [(.single (.str "A"), .scalar (.fin 1))] seed (95 / 100) false = .ok r ∧
      stressInvariants (horizon := 1) (n := 1) ep sort round rng (exHistory 1 fun _ => ![1, 0]) (.labelled [("B", fun (_ : Fin 1) => 0), ("A", fun _ => 1)]) false
        (.fn 2 (fun (s : Fin 1 → Fin 2 → ℝ) => s)) [(.single (.str "A"), .scalar (.fin 1))] seed (95 / 100) false = .ok r' ∧
      r.nominal.map Metrics.mean = [1] ∧ r'.nominal.map Metrics.mean = [0] := by
  have ht : meanAt (equally 1) (fun _ : Fin 1 => ![(1 : ℝ), 0]) 0 = 1 := by simp [meanAt, expect, equally]
  obtain ⟨i, r, a, h1, -, -, h2, h3⟩ := one_draw hep hs round hu Nat.one_pos _ ht
    (w := .labelled [("A", fun (_ : Fin 1) => 1), ("B", fun _ => 0)]) (y := ![1, 0]) (by simp [ravel, positional]) seed
  obtain ⟨i', r', a', h1', -, -, h2', h3'⟩ := one_draw hep hs round hu Nat.one_pos _ ht
    (w := .labelled [("B", fun (_ : Fin 1) => 0), ("A", fun _ => 1)]) (y := ![0, 1]) (by simp [ravel, positional]) seed
  refine ⟨r, r', h1, h1', ?_, ?_⟩
  · rw [h2, List.map_cons, h3]; simp
  · rw [h2', List.map_cons, h3']; simp

/-- **C222** (false of the code) A view that already holds still changes the report: the stressed simulation is drawn with another seed. Two
historical rows, 0 and 1 for both drivers; the view says that the mean of `A` is 1/2, which it is. One simulation, whose draw is 0 with seed 0
and 1/2 with seed 1: the nominal mean is 0, the stressed mean is 1. -/
theorem C222_counterexample {ep : (S : ℕ) → Ep S} (hep : ∀ S, EpExact (ep S)) {sort : (S : ℕ) → (Fin S → ℝ) → Equiv.Perm (Fin S)}
    (hs : ∀ S, Risk.IsArgsort (sort S)) (round : ℝ → ℤ) {rng : Rng 1 1}
    (hu : ∀ k, UnitDraws (rng.seeded k) ∧ UnitDraws (rng.fresh k)) (h0 : rng.seeded 0 0 0 = 0) (h1 : rng.seeded 1 0 0 = 1 / 2) :
    (∀ kv ∈ [(MKey.single (.str "A"), ViewVal.scalar (.fin (1 / 2)))],
      MeanHolds (driverLabels (exHistory 2 fun s _ => (s : ℝ))) (exHistory 2 fun s _ => (s : ℝ)).values (equally 2) kv) ∧
    ∃ r : StressReport,
      stressInvariants (horizon := 1) (n := 1) ep sort round rng (exHistory 2 fun s _ => (s : ℝ)) (.plain [fun (_ : Fin 1) => 1, fun _ => 0]) false
        (.fn 2 (fun (s : Fin 1 → Fin 2 → ℝ) => s)) [(.single (.str "A"), .scalar (.fin (1 / 2)))] (some 0) (95 / 100) false = .ok r ∧
      r.nominal.map Metrics.mean = [0] ∧ r.stressed.map (List.map Metrics.mean) = some [1] := by
  have ht : meanAt (equally 2) (fun (s : Fin 2) (_ : Fin 2) => ((s : ℕ) : ℝ)) 0 = 1 / 2 := by simp [meanAt, expect, equally, Fin.sum_univ_two]
  refine ⟨exHistory_view _ ht, ?_⟩
  have hw : ravel (.plain [fun (_ : Fin 1) => (1 : ℝ), fun _ => 0]) = List.ofFn ![1, 0] := by simp [ravel, positional]
  obtain ⟨i, r, a, e1, e2, e3, e4, e5⟩ := one_draw hep hs round hu (by norm_num : 0 < 2) _ ht hw (some 0)
  obtain ⟨i', r', a', e1', e2', e3', e4', e5'⟩ := one_draw hep hs round hu (by norm_num : 0 < 2) _ ht hw (some 1)
  have hst := C222_next_seed_partial hep (exHistory_labels _) (by simp) (exHistory_view _ ht) e1 e1'
  have d0 : rng.draws (some 0) 0 0 0 = 0 := h0
  have d1 : rng.draws (some 1) 0 0 0 = 1 / 2 := h1
  rw [d0] at e2 e3
  rw [d1] at e2' e3'
  have hi : i = 0 := by
    fin_cases i
    · rfl
    · exfalso; simp [rowsBefore, rowProb] at e2; linarith
  have hi' : i' = 1 := by
    fin_cases i'
    · exfalso; simp [rowsBefore, rowProb] at e3'
    · rfl
  refine ⟨r, e1, ?_, ?_⟩
  · rw [e4, List.map_cons, e5, hi]; simp
  · rw [hst, e4', Option.map_some, List.map_cons, e5', hi']; simp

/-- A generator as in `C222_counterexample`. -/
example : ∃ rng : Rng 1 1, (∀ k, UnitDraws (rng.seeded k) ∧ UnitDraws (rng.fresh k)) ∧ rng.seeded 0 0 0 = 0 ∧ rng.seeded 1 0 0 = 1 / 2 := by
  refine ⟨⟨fun k _ _ => if k = 0 then 0 else 1 / 2, fun _ _ _ => 0⟩, fun k => ⟨fun a b => ?_, fun a b => ?_⟩, by simp, by simp⟩
  · simp only; split <;> norm_num
  · norm_num

/-- The hypotheses of C221 with views, C222 and C223 are met by two rows of two drivers, an exact optimiser and any draws: the call succeeds. -/
example (rng : Rng 1 1) (hu : ∀ k, UnitDraws (rng.seeded k) ∧ UnitDraws (rng.fresh k)) (sort : (S : ℕ) → (Fin S → ℝ) → Equiv.Perm (Fin S))
    (hs : ∀ S, Risk.IsArgsort (sort S)) (seed : Option ℕ) :
    ∃ rep, stressInvariants (horizon := 1) (n := 1) (fun _ => optimalEp) sort (fun _ => 0) rng (exHistory 2 fun s _ => (s : ℝ))
      (.plain [fun (_ : Fin 1) => 1, fun _ => 0]) false (.fn 2 (fun (s : Fin 1 → Fin 2 → ℝ) => s)) [(.single (.str "A"), .scalar (.fin (1 / 2)))] seed
        (95 / 100) false = .ok rep := by
  obtain ⟨-, rep, -, h, -⟩ := one_draw (fun _ => optimalEp_exact) hs (fun _ => 0) hu (by norm_num : 0 < 2) (fun (s : Fin 2) (_ : Fin 2) => ((s : ℕ) : ℝ))
    (t := 1 / 2) (by simp [meanAt, expect, equally, Fin.sum_univ_two]) (y := ![1, 0]) (w := .plain [fun (_ : Fin 1) => (1 : ℝ), fun _ => 0])
    (by simp [ravel, positional]) seed
  exact ⟨rep, h⟩

/-- **C221** (seeds) Where the draws of the two simulations come from: with a seed, from that seed and from the next one; without a seed, from fresh
randomness for each. -/
theorem C221_seeds {n h : ℕ} (rng : Rng n h) :
    (∀ s, rng.draws (some s) 0 = rng.seeded s ∧ rng.draws (some s) 1 = rng.seeded (s + 1)) ∧
      rng.draws none 0 = rng.fresh 0 ∧ rng.draws none 1 = rng.fresh 1 :=
  ⟨fun _ => ⟨rfl, rfl⟩, rfl, rfl⟩

end PyV.Props
