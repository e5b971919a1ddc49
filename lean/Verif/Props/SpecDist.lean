import Verif.Model.SpecDist
import Verif.Props.FromMoments
import Verif.Props.Probabilities

/-! # C120, C121: the distribution behind an ensemble specification -/

namespace PyV.Props

open PyV PyV.Api Matrix

/-! ## C120: projection options -/

/-- Moments scaled by the annualisation factor, one when there is none. -/
def Annualised {N : ℕ} (o : ProjOptions N) (x y : Mom2 N) : Prop :=
  (∀ i, y.1 i = x.1 i * o.annualizationFactor.getD 1) ∧ ∀ i j, y.2 i j = x.2 i j * o.annualizationFactor.getD 1

/-- The conversion of log-return moments to simple-return moments is asked for by either key. -/
def WantsSimple {N : ℕ} (o : ProjOptions N) : Prop := o.logToSimple = some true ∨ o.toSimple = some true

/-- Moments of simple returns from moments of normal log returns. -/
def SimpleOf {N : ℕ} (x y : Mom2 N) : Prop :=
  (∀ i, y.1 i = Real.exp (x.1 i + x.2 i i / 2) - 1) ∧
    ∀ i j, y.2 i j = Real.exp (x.1 i + x.1 j + (x.2 i i + x.2 j j) / 2) * (Real.exp (x.2 i j) - 1)

theorem simpleOf_iff {N : ℕ} (x y : Mom2 N) : SimpleOf x y ↔ y = Proj.log2simple x.1 x.2 := by
  have key : SimpleOf x (Proj.log2simple x.1 x.2) := by
    refine ⟨fun i => ?_, fun i j => ?_⟩
    · simp only [Proj.log2simple]; congr 2; ring
    · simp only [Proj.log2simple]
      rw [mul_sub, mul_one, ← Real.exp_add, ← Real.exp_add]
      congr 2 <;> ring
  constructor
  · intro h
    refine Prod.ext (funext fun i => ?_) (funext fun i => funext fun j => ?_)
    · rw [h.1, key.1]
    · rw [h.2, key.2]
  · rintro rfl; exact key

theorem annualised_iff {N : ℕ} (o : ProjOptions N) (x y : Mom2 N) : Annualised o x y ↔
    y = annualise x o := by
  unfold Annualised annualise
  cases o.annualizationFactor with
  | none =>
    simp only [Option.getD_none, mul_one]
    constructor
    · rintro ⟨h1, h2⟩; exact Prod.ext (funext h1) (funext fun i => funext (h2 i))
    · rintro rfl; simp
  | some f =>
    simp only [Option.getD_some, Proj.projectMeanCov]
    constructor
    · rintro ⟨h1, h2⟩; exact Prod.ext (funext h1) (funext fun i => funext (h2 i))
    · rintro rfl; simp

/-- **C120 (part that holds)** When the dictionary has no unknown key and does not combine `log_to_simple: True` with a `to_simple`
key: the moments are annualised, then converted to simple returns if either key asks for it, then handed to the transform if there is
one. Missing: the two conversion keys together, see `C120_counterexample`. -/
theorem C120_result_partial {N : ℕ} (o : ProjOptions N) (hu : o.unknown = false) (hboth : o.logToSimple = some true → o.toSimple = none)
    (x a b : Mom2 N) (ha : Annualised o x a) (hb : (WantsSimple o ∧ SimpleOf a b) ∨ (¬ WantsSimple o ∧ b = a)) :
    applyProjection x o = match o.transform with | none => .ok b | some f => f b := by
  rw [annualised_iff] at ha
  rw [simpleOf_iff] at hb
  unfold WantsSimple at hb
  unfold applyProjection
  simp only
  rw [← ha]
  clear ha
  obtain ⟨af, ls, ts, tr, u⟩ := o
  simp only at hu hboth hb ⊢
  subst hu
  have hcase : (if (ls.getD false || if ls.getD false then false else ts.getD false) = true then Proj.log2simple a.1 a.2 else a) = b := by
    rcases hb with ⟨h1, rfl⟩ | ⟨h1, rfl⟩
    · rcases h1 with rfl | rfl
      · simp
      · rcases ls with _ | _ | _ <;> simp
    · rcases ls with _ | _ | _ <;> rcases ts with _ | _ | _ <;> simp_all
  have hleft : ((if ls.getD false = true then ts.isSome else false) || false) = false := by
    rcases ls with _ | _ | _ <;> simp_all
  simp only [hcase, hleft]
  cases tr with
  | none => simp
  | some f =>
    simp only
    cases f b <;> simp

/-- **C120** An unknown key is a `ValueError` (unless the transform itself raises first). -/
theorem C120_rejects {N : ℕ} (o : ProjOptions N) (hu : o.unknown = true) (x : Mom2 N) :
    (∃ f y e, o.transform = some f ∧ f y = .error e ∧ applyProjection x o = .error e) ∨ applyProjection x o = .error .valueError := by
  unfold applyProjection
  simp only [hu, Bool.or_true, if_true]
  cases ht : o.transform with
  | none => right; rfl
  | some f =>
    simp only
    split
    · rename_i e he
      exact .inl ⟨f, _, e, rfl, he, rfl⟩
    · right; rfl

/-- **C120 is false of the code** The two documented conversion keys together are rejected as unknown. -/
theorem C120_counterexample {N : ℕ} (x : Mom2 N) (v : Bool) :
    applyProjection x { logToSimple := some true, toSimple := some v } = .error .valueError := by
  simp [applyProjection]

example : ∃ y : Mom2 1, applyProjection ((fun _ => 0, fun _ _ => 1) : Mom2 1) { annualizationFactor := some 2, logToSimple := some true } = .ok y ∧
    y.1 0 = Real.exp 1 - 1 := by
  refine ⟨_, C120_result_partial _ rfl (fun _ => rfl) _ ((fun _ => 0, fun _ _ => 2) : Mom2 1)
    (Proj.log2simple (fun _ => 0) (fun _ _ => 2)) ⟨fun i => by simp, fun i j => by simp⟩
    (.inl ⟨.inl rfl, (simpleOf_iff _ _).2 rfl⟩), ?_⟩
  simp [Proj.log2simple]

/-! ## C121: where the distribution comes from -/

/-- **C121** A factory is called and its outcome returned, whatever else is given; otherwise a given distribution is returned as it is;
otherwise missing returns are a `ValueError`. -/
theorem C121_priority (pre : Option (Frame → Except PyErr Frame)) (p : Option ProbArg) (proj : (N : ℕ) → Option (ProjOptions N)) (us : Bool)
    (est : (f : Frame) → Option (List ℝ) → Except PyErr (Mom2 f.N)) :
    (∀ r d f, buildDistribution (some r) d f pre p proj us est = r) ∧
    (∀ d f, buildDistribution none (some d) f pre p proj us est = .ok d) ∧
    buildDistribution none none none pre p proj us est = .error .valueError := ⟨fun _ _ _ => rfl, fun _ _ => rfl, rfl⟩

/-- The data after the optional preprocessing step. -/
def Preprocessed (pre : Option (Frame → Except PyErr Frame)) (f0 f : Frame) : Prop :=
  (pre = none ∧ f = f0) ∨ ∃ g, pre = some g ∧ g f0 = .ok f

/-- The weight of each row of the data: by position for a sequence, by row label for a Series. -/
def RowWeights (f : Frame) (w : Fin f.T → ℝ) : ProbArg → Prop
  | .seq l => l = List.ofFn (fun t => PyFloat.fin (w t))
  | .series l => ∀ t, l.lookup (f.index t) = some (.fin (w t))

/-- Weights as handed to the estimator: divided by their sum, unless that is within `1e-5 + 1e-8` of one. -/
def NormalisedList {T : ℕ} (w : Fin T → ℝ) (q : List ℝ) : Prop :=
  (|∑ t, w t - 1| ≤ 1 / 10 ^ 5 + 1 / 10 ^ 8 ∧ q = List.ofFn w) ∨
  (¬ |∑ t, w t - 1| ≤ 1 / 10 ^ 5 + 1 / 10 ^ 8 ∧ q = List.ofFn (fun t => w t / ∑ s, w s))

theorem normalisedList_iff {T : ℕ} (w : Fin T → ℝ) (q : List ℝ) : NormalisedList w q ↔
    q = if |∑ t, w t - 1| ≤ 1 / 10 ^ 5 + 1 / 10 ^ 8 then List.ofFn w else List.ofFn (fun t => w t / ∑ s, w s) := by
  unfold NormalisedList
  split_ifs with h
  · simp only [h, not_true_eq_false, true_and, false_and, or_false]
  · simp only [h, not_false_eq_true, true_and, false_and, false_or]

theorem sum_ofFn_pos {T : ℕ} {w : Fin T → ℝ} (hs : 0 < ∑ t, w t) : 0 < T := by
  rcases Nat.eq_zero_or_pos T with rfl | h
  · simp at hs
  · exact h

theorem good_ofFn {T : ℕ} {w : Fin T → ℝ} (h0 : ∀ t, 0 ≤ w t) (hs : 0 < ∑ t, w t) :
    GoodVector (List.ofFn (fun t => PyFloat.fin (w t))) false (List.ofFn w) := by
  refine ⟨by rw [List.map_ofFn]; rfl, ?_, fun v hv => ?_, by simp, by rw [List.sum_ofFn]; exact hs⟩
  · have hT := sum_ofFn_pos hs
    intro h
    have := congrArg List.length h
    simp at this; omega
  · obtain ⟨t, rfl⟩ := (List.mem_ofFn' _ _).1 hv
    exact h0 t

theorem resolve_good {T : ℕ} {w : Fin T → ℝ} (h0 : ∀ t, 0 ≤ w t) (hs : 0 < ∑ t, w t) {q : List ℝ} (hq : NormalisedList w q) :
    Probs.resolve (some (List.ofFn (fun t => PyFloat.fin (w t)))) (T : ℤ) false = .ok q := by
  obtain ⟨ps, h1, h2, -, -, -, h3, h4⟩ := (C16_normalize_contract _ false).2.2 _ (good_ofFn h0 hs)
  rw [List.sum_ofFn] at h3 h4
  have hlen : ¬ ((ps.length : ℤ) ≠ T) := by rw [h2]; simp
  unfold Probs.resolve
  simp only [h1, if_neg hlen]
  congr 1
  rcases hq with ⟨h, rfl⟩ | ⟨h, rfl⟩
  · exact h4 h
  · rw [(h3 (not_le.1 h)).1, List.map_ofFn]; rfl

theorem reindex_eq {T : ℕ} {l : List (String × PyFloat ℝ)} {index : Fin T → String} {w : Fin T → ℝ}
    (h : ∀ t, l.lookup (index t) = some (.fin (w t))) : reindexProbs l index = List.ofFn (fun t => PyFloat.fin (w t)) := by
  unfold reindexProbs
  rw [List.ofFn_eq_map]
  exact List.map_congr_left fun t _ => by rw [h t]; rfl

theorem specProbs_good {f : Frame} {p : ProbArg} {w : Fin f.T → ℝ} (hw : RowWeights f w p) (h0 : ∀ t, 0 ≤ w t) (hs : 0 < ∑ t, w t)
    {q : List ℝ} (hq : NormalisedList w q) : specProbs f (some p) = .ok (some q) := by
  cases p with
  | seq l =>
    simp only [RowWeights] at hw
    subst hw
    simp only [specProbs, resolve_good h0 hs hq]
  | series l =>
    simp only [RowWeights] at hw
    have hany : (List.ofFn (fun t => PyFloat.fin (w t))).any isNan = false := by
      rw [List.any_eq_false]; intro x hx; obtain ⟨t, rfl⟩ := (List.mem_ofFn' _ _).1 hx; simp [isNan]
    simp only [specProbs, reindex_eq hw, hany, Bool.false_eq_true, if_false, resolve_good h0 hs hq]

theorem pre_eq {pre : Option (Frame → Except PyErr Frame)} {f0 f : Frame} (h : Preprocessed pre f0 f) :
    preprocessed f0 pre = .ok f := by
  rcases h with ⟨rfl, rfl⟩ | ⟨g, rfl, h⟩
  · rfl
  · exact h

theorem frame_holds (f : Frame) (R : Fin f.T → Fin f.N → ℝ) (hR : ∀ t i, f.x t i = .fin (R t i)) : f.grid.Holds R :=
  ⟨⟨f.T, f.N, f.x⟩, .inr ⟨f.index, f.columns, rfl⟩, rfl, rfl, fun t i => hR t i⟩

theorem frame_labels (f : Frame) (p : Option (List (PyFloat ℝ))) :
    labelLists { scenarios := some f.grid, probabilities := p } = [List.ofFn f.columns] := by
  simp [labelLists, Frame.grid]

theorem scen_dist {f : Frame} {R : Fin f.T → Fin f.N → ℝ} (hR : ∀ t i, f.x t i = .fin (R t i)) (hN : 0 < f.N)
    {p : Option (List (PyFloat ℝ))} {w : Fin f.T → ℝ} (hT : 0 < f.T)
    (hp : (p = none ∧ w = fun _ => 1 / (f.T : ℝ)) ∨ ∃ k : Fin f.T → ℝ, p = some (List.ofFn (fun t => PyFloat.fin (k t))) ∧ (∀ t, 0 ≤ k t) ∧ 0 < ∑ t, k t ∧
      ∀ t, w t = k t / ∑ s, k s) :
    ∃ m C, mkDist { scenarios := some f.grid, probabilities := p } = .ok ⟨f.N, some m, some C, some ⟨f.T, R, w⟩, some (List.ofFn f.columns)⟩ ∧
      (∀ i, m i = ∑ t, w t * R t i) ∧ ∀ i j, C i j = ∑ t, w t * (R t i - m i) * (R t j - m j) := by
  obtain ⟨d, hd⟩ := (C74_accepts_iff { scenarios := some f.grid, probabilities := p }).2 ⟨f.N, hN, by simp, by simp, by simp,
    fun s hs => by
      injection hs with hs; subst hs
      refine ⟨f.T, R, hT, frame_holds f R hR, fun l hl => ?_⟩
      simp only at hl
      rcases hp with ⟨h, -⟩ | ⟨k, h, h1, h2, -⟩
      · rw [h] at hl; cases hl
      · rw [h] at hl; injection hl with hl; exact ⟨k, hl.symm, h1, h2⟩,
    by rw [frame_labels]; simp, by rw [frame_labels]; simp⟩
  obtain ⟨-, -, -, -, h1, h2, -⟩ := C74_contents hd
  have hn := h2 (List.ofFn f.columns) (by rw [frame_labels]; simp)
  obtain ⟨sc, hsc, hh, h3, h4, h5, h6, h7, h8⟩ := h1 f.grid rfl
  have h7 := h7 rfl
  obtain ⟨C, hC, hCe⟩ := h8 rfl
  obtain ⟨N, dm, dc, ds, nm⟩ := d
  obtain ⟨T, R', q⟩ := sc
  simp only at *
  obtain ⟨e1, e2, e3⟩ := holds_unique hh (frame_holds f R hR)
  subst e1 e2
  have e3 : R' = R := eq_of_heq e3
  subst e3
  have hq : q = w := by
    rcases hp with ⟨h, rfl⟩ | ⟨k, h, -, hk, hw⟩
    · funext t; exact h5 h t
    · obtain ⟨c, hc, e⟩ := h6 _ h
      have e := List.ofFn_injective e
      have e : ∀ t, k t = c * q t := fun t => by have := congrFun e t; injection this
      funext t
      rw [hw t]
      simp only [e, ← Finset.mul_sum, h4]
      field_simp
  subst hq
  rw [hsc, hn, h7, hC] at hd
  exact ⟨_, C, hd, fun i => rfl, fun i j => hCe i j⟩

/-- **C121** Scenario specifications: finite data with at least one row and one column give a distribution made of exactly the
preprocessed rows, with the given weights — matched to the rows by label when they come as a Series — divided by their sum, or equal
weights when none are given, and the corresponding moments and asset names. The estimator and the projection are not used. -/
theorem C121_scenarios {pre : Option (Frame → Except PyErr Frame)} {f0 f : Frame} (hpre : Preprocessed pre f0 f)
    {R : Fin f.T → Fin f.N → ℝ} (hR : ∀ t i, f.x t i = .fin (R t i)) (hN : 0 < f.N) (hT : 0 < f.T) (p : Option ProbArg) (w : Fin f.T → ℝ)
    (hp : (p = none ∧ ∀ t, w t = 1 / (f.T : ℝ)) ∨
      ∃ a k, p = some a ∧ RowWeights f k a ∧ (∀ t, 0 ≤ k t) ∧ 0 < ∑ t, k t ∧ ∀ t, w t = k t / ∑ s, k s)
    (proj : (N : ℕ) → Option (ProjOptions N)) (est : (f : Frame) → Option (List ℝ) → Except PyErr (Mom2 f.N)) :
    ∃ m C, buildDistribution none none (some f0) pre p proj true est =
        .ok ⟨f.N, some m, some C, some ⟨f.T, R, w⟩, some (List.ofFn f.columns)⟩ ∧
      (∀ i, m i = ∑ t, w t * R t i) ∧ ∀ i j, C i j = ∑ t, w t * (R t i - m i) * (R t j - m j) := by
  unfold buildDistribution
  simp only [pre_eq hpre, if_true]
  rcases hp with ⟨rfl, hw⟩ | ⟨a, k, rfl, ha, h0, hs, hw⟩
  · exact scen_dist hR hN hT (.inl ⟨rfl, funext hw⟩)
  · obtain ⟨q, hq⟩ : ∃ q, NormalisedList k q := ⟨_, (normalisedList_iff k _).2 rfl⟩
    rw [specProbs_good ha h0 hs hq]
    simp only
    refine scen_dist hR hN hT (.inr ?_)
    rcases hq with ⟨-, rfl⟩ | ⟨-, rfl⟩
    · exact ⟨k, by simp [List.map_ofFn]; rfl, h0, hs, hw⟩
    · refine ⟨fun t => k t / ∑ s, k s, by simp [List.map_ofFn]; rfl, fun t => div_nonneg (h0 t) hs.le, ?_, fun t => ?_⟩
      · rw [← Finset.sum_div, div_self hs.ne']; exact one_pos
      · rw [← Finset.sum_div, div_self hs.ne', div_one, hw t]

/-- The moments after the optional projection. -/
def Projected {N : ℕ} (o : Option (ProjOptions N)) (x y : Mom2 N) : Prop :=
  (o = none ∧ y = x) ∨ ∃ o', o = some o' ∧ applyProjection x o' = .ok y

theorem posDef_add {N : ℕ} {P : Matrix (Fin N) (Fin N) ℝ} (h : P.PosSemidef) :
    (P + (1 / 10 ^ 10 : ℝ) • (1 : Matrix (Fin N) (Fin N) ℝ)).PosDef := by
  rw [add_comm]; exact (PosDef.smul PosDef.one (by norm_num)).add_posSemidef h

theorem momArgs_labels {N : ℕ} (columns : Fin N → String) (mu : Fin N → ℝ) (C : Matrix (Fin N) (Fin N) ℝ) :
    labelLists (momArgs columns mu C) = [List.ofFn columns, List.ofFn columns, List.ofFn columns] := by
  simp [labelLists, momArgs, List.ofFn_eq_map, Function.comp_def]

/-- **C121** Moment specifications: the estimator is run on the preprocessed data with the weights (matched by label when they come as
a Series, and normalised), its result projected if asked, and stored under the asset names; the covariance is symmetrised, shifted by
a multiple of the identity of at least `1e-10`, and for a positive semidefinite estimate by exactly `1e-10`, which makes it positive
definite. -/
theorem C121_moments {pre : Option (Frame → Except PyErr Frame)} {f0 f : Frame} (hpre : Preprocessed pre f0 f) (hN : 0 < f.N)
    (p : Option ProbArg) (q : Option (List ℝ))
    (hp : (p = none ∧ q = none) ∨
      ∃ a k q', p = some a ∧ q = some q' ∧ RowWeights f k a ∧ (∀ t, 0 ≤ k t) ∧ 0 < ∑ t, k t ∧ NormalisedList k q')
    (proj : (N : ℕ) → Option (ProjOptions N)) (est : (f : Frame) → Option (List ℝ) → Except PyErr (Mom2 f.N)) {m m' : Mom2 f.N}
    (hest : est f q = .ok m) (hm : Projected (proj f.N) m m') :
    ∃ C, buildDistribution none none (some f0) pre p proj false est =
        .ok ⟨f.N, some m'.1, some C, none, some (List.ofFn f.columns)⟩ ∧ Cᵀ = C ∧
      (∃ k : ℝ, 1 / 10 ^ 10 ≤ k ∧ ∀ i j, C i j = (m'.2 i j + m'.2 j i) / 2 + (if i = j then k else 0)) ∧
      ((Matrix.of m'.2).PosSemidef → C.PosDef ∧ ∀ i j, C i j = m'.2 i j + (if i = j then 1 / 10 ^ 10 else 0)) := by
  have hsp : specProbs f p = .ok q := by
    rcases hp with ⟨rfl, rfl⟩ | ⟨a, k, q', rfl, rfl, ha, h0, hs, hq⟩
    · rfl
    · exact specProbs_good ha h0 hs hq
  have hpr : projected m (proj f.N) = .ok m' := by
    rcases hm with ⟨h, rfl⟩ | ⟨o, h, h'⟩
    · rw [h]; rfl
    · rw [h]; exact h'
  obtain ⟨P, hP, hsym, ⟨k, hk, hke⟩, hid⟩ := repaired_ok m'.2
  set C : Matrix (Fin f.N) (Fin f.N) ℝ := P + (1 / 10 ^ 10 : ℝ) • (1 : Matrix (Fin f.N) (Fin f.N) ℝ) with hC
  have hCe : ∀ i j, C i j = P i j + (if i = j then 1 / 10 ^ 10 else 0) := by
    intro i j; simp [hC, Matrix.add_apply, Matrix.smul_apply, Matrix.one_apply]
  have hv : (VecArg.series ((List.finRange f.N).map (fun i : Fin f.N => (f.columns i, PyFloat.fin (m'.1 i))))).Holds m'.1 := by
    simp [VecArg.Holds, VecArg.vals, List.ofFn_eq_map, Function.comp_def]
  have hg : (GridArg.frame ⟨f.N, f.N, fun i j => .fin (C i j)⟩ f.columns f.columns).Holds (fun i j => C i j) :=
    ⟨_, .inr ⟨_, _, rfl⟩, rfl, rfl, fun i j => rfl⟩
  have hlab : momentLabels (VecArg.series ((List.finRange f.N).map (fun i : Fin f.N => (f.columns i, PyFloat.fin (m'.1 i)))))
      (GridArg.frame ⟨f.N, f.N, fun i j => .fin (C i j)⟩ f.columns f.columns) = [List.ofFn f.columns, List.ofFn f.columns, List.ofFn f.columns] :=
    momArgs_labels f.columns m'.1 C
  obtain ⟨names, hd, hn, -⟩ := dist_moments hN hv hg (by rw [hlab]; simp)
  have hn := hn (List.ofFn f.columns) (by rw [hlab]; simp)
  subst hn
  refine ⟨C, ?_, ?_, ⟨k + 1 / 10 ^ 10, by linarith, fun i j => ?_⟩, fun hpsd => ⟨?_, fun i j => ?_⟩⟩
  · unfold buildDistribution
    simp only [pre_eq hpre, hsp, Bool.false_eq_true, if_false, hest, hpr]
    unfold momentDist
    rw [hP]
    exact hd
  · rw [hC, transpose_add, hsym, transpose_smul, transpose_one]
  · rw [hCe, hke]; split_ifs <;> ring
  · have : P = Matrix.of m'.2 := by ext i j; exact hid hpsd i j
    rw [hC, this]; exact posDef_add hpsd
  · rw [hCe, hid hpsd]

/-- **C121** Failures: an error of the preprocessing step, of the estimator or of the projection is passed on; a Series that has no
usable entry for some row, a sequence of the wrong length, or weights that are negative, not finite or not of positive sum are a
`ValueError`. -/
theorem C121_rejects_weights {pre : Option (Frame → Except PyErr Frame)} {f0 f : Frame} (hpre : Preprocessed pre f0 f)
    (a : ProbArg) (hbad : ¬ ∃ w, RowWeights f w a ∧ (∀ t, 0 ≤ w t) ∧ 0 < ∑ t, w t)
    (proj : (N : ℕ) → Option (ProjOptions N)) (us : Bool) (est : (f : Frame) → Option (List ℝ) → Except PyErr (Mom2 f.N)) :
    buildDistribution none none (some f0) pre (some a) proj us est = .error .valueError := by
  have key : ∀ l : List (PyFloat ℝ), (¬ ∃ w : Fin f.T → ℝ, l = List.ofFn (fun t => PyFloat.fin (w t)) ∧ (∀ t, 0 ≤ w t) ∧ 0 < ∑ t, w t) →
      Probs.resolve (some l) (f.T : ℤ) false = .error .valueError := by
    intro l hl
    unfold Probs.resolve
    simp only
    cases hn : Probs.normalize l false with
    | error e => rw [(C16_normalize_contract l false).2.1 e hn]
    | ok ps =>
      simp only
      obtain ⟨vs, hvs⟩ := (C16_normalize_contract l false).1.1 ⟨ps, hn⟩
      obtain ⟨ps', h1, h2, -⟩ := (C16_normalize_contract l false).2.2 vs hvs
      rw [hn] at h1; injection h1 with h1; subst h1
      rw [if_pos]
      intro hlen
      have hlen : vs.length = f.T := by rw [← h2]; exact_mod_cast hlen
      obtain ⟨g1, -, g3, -, g5⟩ := hvs
      subst g1
      obtain ⟨v, hv⟩ : ∃ v : Fin f.T → ℝ, vs = List.ofFn v :=
        ⟨fun t => vs.get (t.cast hlen.symm), by
          apply List.ext_getElem
          · simp [hlen]
          · intro n h1 h2; simp⟩
      subst hv
      refine hl ⟨v, by rw [List.map_ofFn]; rfl, fun t => g3 _ ((List.mem_ofFn' _ _).2 ⟨t, rfl⟩), by rw [List.sum_ofFn] at g5; exact g5⟩
  unfold buildDistribution
  simp only [pre_eq hpre]
  have : specProbs f (some a) = .error .valueError := by
    cases a with
    | seq l => simp only [specProbs, key l hbad]
    | series l =>
      simp only [specProbs]
      by_cases hn : (reindexProbs l f.index).any isNan = true
      · rw [if_pos hn]
      · rw [if_neg hn, key]
        rintro ⟨w, hw, h⟩
        refine hbad ⟨w, fun t => ?_, h⟩
        unfold reindexProbs at hw
        rw [List.ofFn_eq_map] at hw
        have ht := List.map_inj_left.1 hw t (List.mem_finRange t)
        cases hl : l.lookup (f.index t) with
        | none => rw [hl] at ht; cases ht
        | some v => rw [hl] at ht; rw [← ht]; rfl
  rw [this]

/-- **C121** An error of the preprocessing step, or of the estimator on the resulting data, or of the projection, is passed on. -/
theorem C121_propagates {f0 : Frame} {p : Option ProbArg} (proj : (N : ℕ) → Option (ProjOptions N)) 
    (est : (f : Frame) → Option (List ℝ) → Except PyErr (Mom2 f.N)) (e : PyErr) :
    (∀ g us, g f0 = .error e → buildDistribution none none (some f0) (some g) p proj us est = .error e) ∧
    (∀ pre f, Preprocessed pre f0 f → (∀ q, est f q = .error e) → (p = none ∨ ∃ a w, p = some a ∧ RowWeights f w a ∧ (∀ t, 0 ≤ w t) ∧ 0 < ∑ t, w t) →
      buildDistribution none none (some f0) pre p proj false est = .error e) ∧
    (∀ pre f o m, Preprocessed pre f0 f → (∀ q, est f q = .ok m) → (p = none ∨ ∃ a w, p = some a ∧ RowWeights f w a ∧ (∀ t, 0 ≤ w t) ∧ 0 < ∑ t, w t) →
      proj f.N = some o → applyProjection m o = .error e → buildDistribution none none (some f0) pre p proj false est = .error e) := by
  have hsp : ∀ f : Frame, (p = none ∨ ∃ a w, p = some a ∧ RowWeights f w a ∧ (∀ t, 0 ≤ w t) ∧ 0 < ∑ t, w t) → ∃ q, specProbs f p = .ok q := by
    rintro f (rfl | ⟨a, w, rfl, ha, h0, hs⟩)
    · exact ⟨_, rfl⟩
    · exact ⟨_, specProbs_good ha h0 hs ((normalisedList_iff w _).2 rfl)⟩
  refine ⟨fun g us h => ?_, fun pre f hpre he hp => ?_, fun pre f o m hpre he hp ho hap => ?_⟩
  · unfold buildDistribution; simp only [preprocessed, h]
  · obtain ⟨q, hq⟩ := hsp f hp
    unfold buildDistribution
    simp only [pre_eq hpre, hq, Bool.false_eq_true, if_false, he]
  · obtain ⟨q, hq⟩ := hsp f hp
    unfold buildDistribution
    simp only [pre_eq hpre, hq, Bool.false_eq_true, if_false, he, ho, projected, hap]

/-- A two-row, one-column frame with weights given out of order by label. -/
noncomputable def exFrame : Frame := ⟨2, 1, ![![.fin 1], ![.fin 3]], ![("a" : String), "b"], ![("X" : String)]⟩

example : ∃ m C, buildDistribution none none (some exFrame) none (some (.series [("b", .fin 3), ("a", .fin 1)])) (fun _ => none) true
    (fun _ _ => .error .valueError) = .ok ⟨1, some m, some C, some ⟨2, ![![1], ![3]], ![1 / 4, 3 / 4]⟩, some ["X"]⟩ := by
  obtain ⟨m, C, h, -⟩ := C121_scenarios (f0 := exFrame) (f := exFrame) (.inl ⟨rfl, rfl⟩) (R := ![![1], ![3]])
    (by intro t i; change Fin 2 at t; change Fin 1 at i; fin_cases t <;> fin_cases i <;> rfl) (by decide) (by decide)
    (some (.series [("b", .fin 3), ("a", .fin 1)])) (![1 / 4, 3 / 4] : Fin 2 → ℝ)
    (.inr ⟨_, (![1, 3] : Fin 2 → ℝ), rfl,
      by intro t; change Fin 2 at t; fin_cases t <;> rfl,
      by intro t; change Fin 2 at t; fin_cases t <;> norm_num,
      by change 0 < ∑ t : Fin 2, (![1, 3] : Fin 2 → ℝ) t; norm_num [Fin.sum_univ_two],
      by
        intro t; change Fin 2 at t
        change (![1 / 4, 3 / 4] : Fin 2 → ℝ) t = (![1, 3] : Fin 2 → ℝ) t / ∑ t : Fin 2, (![1, 3] : Fin 2 → ℝ) t
        rw [Fin.sum_univ_two]
        fin_cases t <;> norm_num⟩)
    (fun _ => none) (fun _ _ => .error .valueError)
  exact ⟨m, C, h⟩

example : ∃ C, buildDistribution none none (some exFrame) none none (fun _ => some { annualizationFactor := some 2 }) false
    (fun f _ => .ok (fun _ => 1, fun _ _ => 1)) = .ok ⟨1, some (fun _ => 2), some C, none, some ["X"]⟩ ∧ C.PosDef := by
  have hp : Projected (some ({ annualizationFactor := some 2 } : ProjOptions exFrame.N)) ((fun _ => 1, fun _ _ => 1) : Mom2 exFrame.N) (fun _ => 2, fun _ _ => 2) :=
    .inr ⟨_, rfl, C120_result_partial _ rfl (by simp) _ (fun _ => 2, fun _ _ => 2) _ ⟨by simp, by simp⟩ (.inr ⟨by simp [WantsSimple], rfl⟩)⟩
  obtain ⟨C, h, -, -, hC⟩ := C121_moments (f0 := exFrame) (f := exFrame) (.inl ⟨rfl, rfl⟩) (by decide) none none (.inl ⟨rfl, rfl⟩)
    (fun _ => some { annualizationFactor := some 2 }) (fun f _ => .ok (fun _ => 1, fun _ _ => 1)) rfl hp
  refine ⟨C, h, (hC ?_).1⟩
  have : (Matrix.of (fun _ _ : Fin 1 => (2 : ℝ))) = (2 : ℝ) • (1 : Matrix (Fin 1) (Fin 1) ℝ) := by
    ext i j; fin_cases i; fin_cases j; simp
  change (Matrix.of (fun _ _ : Fin 1 => (2 : ℝ))).PosSemidef
  rw [this]
  exact PosSemidef.smul PosSemidef.one (by norm_num)

end PyV.Props
