import Verif.Model.Invariants
import Verif.Props.Projection
import Verif.Props.Factories

/-! # C124: `PortfolioWrapper.from_invariants`

`u` are the uniform numbers of the generator, one per simulation and step. `DrawnBy T p u idx` (C58) says `idx` are the rows drawn
with their normalised probabilities; `UniformScenarios` (C101) says what a distribution of equally likely scenarios stores. -/

namespace PyV.Props

open PyV PyV.Api PyV.Proj Matrix

/-- The names of the columns of the invariants, when they have names. -/
def InvArg.names : InvArg → Option (List String)
  | .array _ _ _ => none
  | .frame _ cols _ => some cols

variable {horizon n : ℤ} {u : Fin n.toNat → Fin horizon.toNat → ℝ} {p : Option (List (PyFloat ℝ))}

/-- The projected driver moves of the drawn rows: each simulation adds up the rows drawn for it. -/
def driverMoves (v : InvArg) (idx : Fin n.toNat → Fin horizon.toNat → Fin v.length) : Fin n.toNat → Fin v.drivers → ℝ :=
  fun a i => ∑ b, v.values (idx a b) i

private theorem store {s : GridArg} {T N : ℕ} {Y : Fin T → Fin N → ℝ} (hs : s.Holds Y) {d : Dist} (h : fromScenarios s none "simple" = .ok d) :
    ∃ mu cov, UniformScenarios d Y mu cov ∧
      (∀ l ∈ labelLists { scenarios := some s }, d.names = some l) ∧ (labelLists { scenarios := some s } = [] → d.names = none) := by
  unfold fromScenarios at h
  rw [if_neg (by decide)] at h
  obtain ⟨N', hv⟩ := (C74_accepts_iff { scenarios := some s }).1 ⟨d, h⟩
  obtain ⟨T', R', hT, hh, -⟩ := hv.scen s rfl
  obtain ⟨rfl, rfl, -⟩ := holds_unique hs hh
  obtain ⟨d', mu, cov, hd, hu, h1, h2⟩ := uniform_dist hT hv.pos hs
  rw [h] at hd
  injection hd with hd
  subst hd
  exact ⟨mu, cov, hu, h1, h2⟩

private theorem recast {d : Dist} {T k m : ℕ} (h : k = m) {Y : Fin T → Fin k → ℝ} {mu : Fin k → ℝ} {cov : Matrix (Fin k) (Fin k) ℝ}
    (hU : UniformScenarios d Y mu cov) : ∃ mu' cov', @UniformScenarios d T m (fun a j => Y a (j.cast h.symm)) mu' cov' := by
  subst h
  exact ⟨mu, cov, hU⟩

private theorem compose_columns {n : ℕ} {instruments : List (String × RSpec n ℝ)} {cols : List String}
    {reprice : (Fin n → Fin cols.length → ℝ) → Fin n → List ℝ} {names : List String}
    (h : composeRepricers instruments cols = .ok (reprice, names)) (dy : Fin n → Fin cols.length → ℝ) (j : Fin instruments.length) :
    ∃ f columns, pricerOf (instruments.get j) = some f ∧ FedBy cols dy (namedDrivers (instruments.get j)) columns ∧
      ∀ a, (reprice dy a).getD j 0 = f columns a := by
  unfold composeRepricers at h
  split at h
  · cases h
  rename_i parsed hp
  injection h with h
  injection h with h1 h2
  subst h1
  rw [Ens.mapE_iff, List.forall₂_iff_get] at hp
  have hj : (j : ℕ) < parsed.length := by rw [← hp.1]; exact j.2
  obtain ⟨e1, e2⟩ := parseSpec_ok (hp.2 j j.2 hj)
  refine ⟨(parsed.get ⟨j, hj⟩).2, (parsed.get ⟨j, hj⟩).1.map (moveCol dy), e1, ?_, fun a => ?_⟩
  · unfold FedBy
    rw [List.forall₂_map_right_iff]
    refine e2.imp fun d i hi => ?_
    have hlt : i < cols.length := by
      by_contra hc
      rw [List.getElem?_eq_none (by omega)] at hi
      cases hi
    refine ⟨⟨i, hlt⟩, ?_, fun a => by simp [moveCol, hlt]⟩
    rw [List.getElem?_eq_getElem hlt] at hi
    injection hi
  · simp [List.getD, hj]

private theorem sim_holds {T N : ℕ} (Y : Fin T → Fin N → ℝ) (i c) :
    (GridArg.array (simGrid Y)).Holds Y ∧ (GridArg.frame (simGrid Y) i c).Holds Y :=
  ⟨⟨_, .inl rfl, rfl, rfl, fun _ _ => rfl⟩, ⟨_, .inr ⟨_, _, rfl⟩, rfl, rfl, fun _ _ => rfl⟩⟩

private theorem plain_core (hu : UnitDraws u) (v : InvArg) {m : ℕ} (f : (Fin n.toNat → Fin v.drivers → ℝ) → Fin n.toNat → Fin m → ℝ)
    {s : GridArg} (hs : plainScenarios u p v f = .ok s) {d : Dist} (h : fromScenarios s none "simple" = .ok d) :
    ∃ idx mu cov, DrawnBy v.length p u idx ∧ UniformScenarios d (f (driverMoves v idx)) mu cov ∧ d.names = InvArg.names v ∧
      ∀ l, InvArg.names v = some l → m = l.length := by
  unfold plainScenarios at hs
  split at hs
  · cases hs
  rename_i out ho
  obtain ⟨idx, h1, h2⟩ := C58_project _ horizon n p u hu out ho
  have e : out = driverMoves v idx := by funext a i; exact h2 a i
  subst e
  refine ⟨idx, ?_⟩
  clear ho h2
  generalize f (driverMoves v idx) = Y at hs
  cases v with
  | array T k x =>
    simp only [wrapLike] at hs
    injection hs with hs
    subst hs
    obtain ⟨mu, cov, hU, -, h4⟩ := store (sim_holds Y (fun _ => "") (fun _ => "")).1 h
    exact ⟨mu, cov, h1, hU, h4 rfl, fun l hl => by cases hl⟩
  | frame T cols x =>
    simp only [wrapLike] at hs
    split at hs
    · rename_i hm
      injection hs with hs
      subst hs
      obtain ⟨mu, cov, hU, h3, -⟩ := store (sim_holds Y _ _).2 h
      refine ⟨mu, cov, h1, hU, ?_, fun l hl => by injection hl with hl; subst hl; exact hm⟩
      have := h3 (List.ofFn fun i : Fin m => cols.get (i.cast hm)) (by simp [labelLists]; rfl)
      rw [this]
      subst hm
      simp [InvArg.names]
    · cases hs

/-- **C124.** With one repricing function the stored scenarios are that function of the projected moves, one equally likely scenario
per simulation: each move is the sum of exactly `horizon` historical rows, each drawn with its normalised probability.  A DataFrame's
columns become the asset names, and then the function must keep the number of columns. -/
theorem C124_function (hu : UnitDraws u) (v : InvArg) {m : ℕ} (f : (Fin n.toNat → Fin v.drivers → ℝ) → Fin n.toNat → Fin m → ℝ)
    {d : Dist} (h : fromInvariants u p v (.fn m f) = .ok d) :
    ∃ idx mu cov, DrawnBy v.length p u idx ∧ UniformScenarios d (f (driverMoves v idx)) mu cov ∧ d.names = InvArg.names v ∧
      ∀ l, InvArg.names v = some l → m = l.length := by
  unfold fromInvariants at h
  split at h
  · cases h
  rename_i s hs
  exact plain_core hu v f hs h

/-- **C124.** With log returns `log (1 + r)` as invariants and no repricing function, every stored scenario is the compounded simple
return of the drawn rows, which exceeds -100%. -/
theorem C124_default (hu : UnitDraws u) (v : InvArg) (r : Fin v.length → Fin v.drivers → ℝ) (hr : ∀ t i, -1 < r t i)
    (hv : ∀ t i, v.values t i = Real.log (1 + r t i)) {d : Dist} (h : fromInvariants u p v .default = .ok d) :
    ∃ idx mu cov, DrawnBy v.length p u idx ∧
      UniformScenarios d (fun a i => (∏ b, (1 + r (idx a b) i)) - 1) mu cov ∧
      (∀ (a : Fin n.toNat) i, -1 < (∏ b, (1 + r (idx a b) i)) - 1) ∧ d.names = InvArg.names v := by
  unfold fromInvariants at h
  split at h
  · cases h
  rename_i s hs
  obtain ⟨idx, mu, cov, h1, h2, h3, -⟩ := plain_core hu v _ hs h
  have e : (fun (a : Fin n.toNat) i => repriceExp (driverMoves v idx a i)) = fun a i => (∏ b, (1 + r (idx a b) i)) - 1 := by
    funext a i
    unfold repriceExp driverMoves
    rw [Real.exp_sum]
    congr 1
    exact Finset.prod_congr rfl (fun b _ => by rw [hv, Real.exp_log (by linarith [hr (idx a b) i])])
  rw [e] at h2
  refine ⟨idx, mu, cov, h1, h2, fun a i => ?_, h3⟩
  have := Finset.prod_pos (fun b (_ : b ∈ Finset.univ) => (by linarith [hr (idx a b) i] : 0 < 1 + r (idx a b) i))
  linarith

/-- **C124.** With a dict of instruments over a DataFrame, the assets are the instruments in order, and the scenarios of an
instrument are its own function of the moves of the drivers it names. -/
theorem C124_instruments (hu : UnitDraws u) {T : ℕ} {cols : List String} (x : Fin T → Fin cols.length → ℝ)
    (instruments : List (String × RSpec n.toNat ℝ)) {d : Dist} (h : fromInvariants u p (.frame T cols x) (.dict instruments) = .ok d) :
    ∃ (idx : Fin n.toNat → Fin horizon.toNat → Fin T) (mu : Fin instruments.length → ℝ) (cov : _) (Y : Fin n.toNat → Fin instruments.length → ℝ),
      DrawnBy T p u idx ∧ UniformScenarios d Y mu cov ∧ d.names = some (instruments.map Prod.fst) ∧
      ∀ j, ∃ f columns, pricerOf (instruments.get j) = some f ∧
        FedBy cols (driverMoves (.frame T cols x) idx) (namedDrivers (instruments.get j)) columns ∧ ∀ a, Y a j = f columns a := by
  unfold fromInvariants at h
  split at h
  · cases h
  rename_i s hs
  simp only [invariantScenarios, instrumentScenarios] at hs
  split at hs
  · cases hs
  rename_i f names hc
  split at hs
  · cases hs
  rename_i out ho
  injection hs with hs
  subst hs
  obtain ⟨idx, h1, h2⟩ := C58_project _ horizon n p u hu out ho
  have e : out = driverMoves (.frame T cols x) idx := by funext a i; exact h2 a i
  subst e
  have hnames := (C59_compose _ _ _ _ hc).1
  subst hnames
  obtain ⟨mu, cov, hU, h3, -⟩ := store (sim_holds _ _ _).2 h
  have hn : d.names = some (instruments.map Prod.fst) := by
    rw [h3 (List.ofFn (instruments.map Prod.fst).get) (by simp [labelLists, simGrid])]
    simp
  have hl : (instruments.map Prod.fst).length = instruments.length := List.length_map _
  obtain ⟨mu', cov', hU'⟩ := recast hl hU
  refine ⟨idx, mu', cov', _, h1, hU', hn, fun j => ?_⟩
  exact compose_columns hc _ j

/-- **C124.** A dict of functions needs named columns: with an array it is a `TypeError`. -/
theorem C124_array_dict {T k : ℕ} (x : Fin T → Fin k → ℝ) (instruments : List (String × RSpec n.toNat ℝ)) :
    fromInvariants u p (.array T k x) (.dict instruments) = .error .typeError := rfl

/-- Row probabilities every step of the chain takes: none, or one finite non-negative weight per row, with a sum that is positive and
not in the gap of C77 (close to one but not close enough for the generator). -/
def ProjectableProbs (T : ℕ) (p : Option (List (PyFloat ℝ))) : Prop :=
  (p = none ∧ 0 < T) ∨ ∃ x : List ℝ, p = some (x.map PyFloat.fin) ∧ GoodWeights T x ∧
    (|x.sum - 1| ≤ 1 / 2 ^ 26 ∨ 1 / 10 ^ 8 + 1 / 10 ^ 5 < |x.sum - 1|)

/-- **C124.** The call succeeds for every positive horizon and number of simulations, projectable row probabilities and at least one
driver with the default repricing; and with a dict whenever every instrument is usable and there is at least one. -/
theorem C124_accepts (hu : UnitDraws u) (h0 : 0 < horizon) (hn : 0 < n) (v : InvArg) (hp : ProjectableProbs v.length p) :
    (0 < v.drivers → ∃ d, fromInvariants u p v .default = .ok d) ∧
    ∀ (T : ℕ) (cols : List String) (x : Fin T → Fin cols.length → ℝ), v = .frame T cols x →
      ∀ instruments : List (String × RSpec n.toNat ℝ), instruments ≠ [] → (∀ e ∈ instruments, Usable cols e) →
        ∃ d, fromInvariants u p (.frame T cols x) (.dict instruments) = .ok d := by
  have hproj : ∃ out, projectScenarios v.values horizon p n u = .ok out := by
    rcases hp with ⟨rfl, hT⟩ | ⟨x, rfl, hx, hs⟩
    · exact C77_uniform_accepts _ hT horizon n h0 hn u hu
    · exact C77_accepts_partial _ horizon n h0 hn x hx hs u hu
  obtain ⟨out, ho⟩ := hproj
  have hn' : 0 < n.toNat := by omega
  refine ⟨fun hk => ?_, fun T cols x hv instruments hne hus => ?_⟩
  · have : ∃ s, plainScenarios u p v (fun s a i => repriceExp (s a i)) = .ok s ∧ s.Holds (fun a i => repriceExp (out a i)) := by
      unfold plainScenarios
      rw [ho]
      cases v with
      | array T k x => exact ⟨_, rfl, (sim_holds _ (fun _ => "") (fun _ => "")).1⟩
      | frame T cols x =>
        simp only [wrapLike]
        refine ⟨_, dif_pos rfl, (sim_holds _ _ _).2⟩
    obtain ⟨s, hs, hh⟩ := this
    obtain ⟨d, mu, cov, hd, -⟩ := uniform_dist hn' hk hh
    refine ⟨d, ?_⟩
    unfold fromInvariants invariantScenarios
    simp only
    rw [hs]
    simp only [fromScenarios]
    rw [if_neg (by decide)]
    exact hd
  · subst hv
    obtain ⟨⟨f, names⟩, hc⟩ := (C59_compose_accepts instruments cols).2 hus
    have hnames := (C59_compose _ _ _ _ hc).1
    have hlen : 0 < names.length := by
      rw [hnames, List.length_map]
      exact List.length_pos_iff.2 hne
    obtain ⟨d, mu, cov, hd, -⟩ := uniform_dist hn' hlen
      (sim_holds (fun a (j : Fin names.length) => (f out a).getD j 0) (fun t => toString t.val) names.get).2
    refine ⟨d, ?_⟩
    have ho' : projectScenarios x horizon p n u = .ok out := ho
    simp only [fromInvariants, invariantScenarios, instrumentScenarios, hc, ho', fromScenarios]
    rw [if_neg (by decide)]
    exact hd

/-- Two log-return drivers, two rows, a three-step horizon, one instrument driven by both: the hypotheses hold and a distribution is built. -/
example : ∃ d, fromInvariants (horizon := 3) (n := 4) (fun _ _ => (1 / 2 : ℝ)) none
    (.frame 2 ["eq", "vol"] ![![1 / 10, -1 / 10], ![-1 / 5, 1 / 5]])
    (.dict [("eq", .plain (fun c a => Real.exp ((c.map (· a)).sum) - 1)), ("call", .drivers ["eq", "vol"] (fun c a => (c.map (· a)).sum))]) = .ok d := by
  refine (C124_accepts (fun a b => by norm_num) (by norm_num) (by norm_num) _ (.inl ⟨rfl, by simp [InvArg.length]⟩)).2 _ _ _ rfl _ (by simp) ?_
  intro e he
  simp only [List.mem_cons, List.not_mem_nil, or_false] at he
  rcases he with rfl | rfl
  · exact ⟨rfl, by simp [namedDrivers]⟩
  · exact ⟨rfl, by simp [namedDrivers]⟩

end PyV.Props
