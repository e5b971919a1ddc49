import Verif.Lemmas.Performance
import Verif.Lemmas.Gibbs
import Verif.Props.Risk
import Verif.Props.Moments
import Verif.Props.Probabilities
import Mathlib.Data.Fin.Tuple.Sort

/-! # C61, C62, C78-C82: reports and stress tests -/

set_option linter.unusedSectionVars false

namespace PyV.Props

open PyV PyV.Perf PyV.Spec

variable {T N M : ℕ}

/-! ## C61: labels -/

section labels
variable {K : Type*}

/-- The rows of a labelled weight table, put in the order of the assets. -/
def InAssetOrder (rows : List (String × (Fin M → K))) (assets : List String) (out : List (Fin M → K)) : Prop :=
  List.Forall₂ (fun a r => (a, r) ∈ rows) assets out

/-- Same set of labels. -/
def SameLabels (rows : List (String × (Fin M → K))) (assets : List String) : Prop :=
  ∀ x, x ∈ rows.map Prod.fst ↔ x ∈ assets

theorem lookup_mem {rows : List (String × (Fin M → K))} {a : String} {r : Fin M → K} (h : rows.lookup a = some r) : (a, r) ∈ rows := by
  induction rows with
  | nil => cases h
  | cons e rows ih =>
    rw [List.lookup_cons] at h
    split at h
    · rename_i hb
      injection h with h
      have : a = e.1 := by simpa using hb
      subst h
      subst this
      exact List.mem_cons_self ..
    · exact List.mem_cons_of_mem _ (ih h)

theorem lookup_of_label {rows : List (String × (Fin M → K))} {a : String} (h : a ∈ rows.map Prod.fst) : ∃ r, rows.lookup a = some r := by
  cases hl : rows.lookup a with
  | some r => exact ⟨r, rfl⟩
  | none =>
    rw [List.lookup_eq_none_iff] at hl
    obtain ⟨e, he, rfl⟩ := List.mem_map.mp h
    have := hl e he
    simp at this

theorem lookup_absent {rows : List (String × (Fin M → K))} {a : String} (h : a ∉ rows.map Prod.fst) : rows.lookup a = none := by
  cases hl : rows.lookup a with
  | none => rfl
  | some r => exact absurd (List.mem_map.mpr ⟨_, lookup_mem hl, rfl⟩) h

/-- **C61** the alignment used by `stress_test`: accepted exactly when the labels are the asset names, and then every asset gets the
row carrying its own label. -/
theorem C61_align (rows : List (String × (Fin M → K))) (assets : List String) :
    (SameLabels rows assets → ∃ out, alignWeights (.labelled rows) (some assets) = .ok out ∧ InAssetOrder rows assets out) ∧
      (¬SameLabels rows assets → alignWeights (.labelled rows) (some assets) = .error .valueError) := by
  have hdec : ((rows.map Prod.fst).all (fun x => assets.contains x) && assets.all (fun x => (rows.map Prod.fst).contains x)) = true ↔
      SameLabels rows assets := by
    simp only [Bool.and_eq_true, List.all_eq_true, List.contains_iff_mem]
    exact ⟨fun h x => ⟨h.1 x, h.2 x⟩, fun h => ⟨fun x => (h x).1, fun x => (h x).2⟩⟩
  constructor
  · intro h
    simp only [alignWeights]
    rw [if_pos (hdec.mpr h)]
    have : ∀ l : List String, (∀ x ∈ l, x ∈ rows.map Prod.fst) → ∃ out, mapE (rowOf rows) l = .ok out ∧ InAssetOrder rows l out := by
      intro l
      induction l with
      | nil => intro _; exact ⟨[], rfl, .nil⟩
      | cons a l ih =>
        intro hl
        obtain ⟨out, h1, h2⟩ := ih (fun x hx => hl x (List.mem_cons_of_mem _ hx))
        obtain ⟨r, hr⟩ := lookup_of_label (hl a (List.mem_cons_self ..))
        refine ⟨r :: out, by simp [mapE, rowOf, hr, h1], .cons (lookup_mem hr) h2⟩
    exact this assets (fun x hx => (h x).mpr hx)
  · intro h
    simp only [alignWeights]
    rw [if_neg (fun hc => h (hdec.mp hc))]

theorem lookup_perm {rows rows' : List (String × (Fin M → K))} (hp : rows.Perm rows') (hn : (rows.map Prod.fst).Nodup) (a : String) :
    rows.lookup a = rows'.lookup a := by
  have hn' : (rows'.map Prod.fst).Nodup := (hp.map _).nodup_iff.mp hn
  cases h : rows.lookup a with
  | some r =>
    exact ((Ens.lookup_iff hn').mpr (hp.mem_iff.mp ((Ens.lookup_iff hn).mp h))).symm
  | none =>
    cases h' : rows'.lookup a with
    | none => rfl
    | some r =>
      rw [(Ens.lookup_iff hn).mpr (hp.mem_iff.mpr ((Ens.lookup_iff hn').mp h'))] at h
      cases h

/-- **C61** reordering the labels of the weights does not change the aligned matrix. -/
theorem C61_align_order {rows rows' : List (String × (Fin M → K))} (hp : rows.Perm rows') (hn : (rows.map Prod.fst).Nodup)
    (assets : List String) : alignWeights (.labelled rows) (some assets) = alignWeights (.labelled rows') (some assets) := by
  have hl : rowOf rows = rowOf rows' := by
    funext a
    simp only [rowOf, lookup_perm hp hn a]
  have hs : SameLabels rows assets ↔ SameLabels rows' assets := by
    unfold SameLabels
    simp only [(hp.map Prod.fst).mem_iff]
  by_cases h : SameLabels rows assets
  · simp only [alignWeights]
    rw [hl]
    congr 1
    have e : ∀ x, (x ∈ rows.map Prod.fst) = (x ∈ rows'.map Prod.fst) := fun x => propext (hp.map Prod.fst).mem_iff
    simp only [Bool.and_eq_true, List.all_eq_true, List.contains_iff_mem, e]
  · rw [(C61_align rows assets).2 h, (C61_align rows' assets).2 (fun h' => h (hs.mpr h'))]

end labels

/-- **C61** `stress_test` gives the same report for every ordering of the weights' labels, whatever the other arguments. -/
theorem C61_stress_order (argsort : (Fin T → ℝ) → Equiv.Perm (Fin T)) {rows rows' : List (String × (Fin M → ℝ))} (hp : rows.Perm rows')
    (hn : (rows.map Prod.fst).Nodup) (R : Fin T → Fin N → ℝ) (assets : List String) (probabilities stressed : Option (List (PyFloat ℝ)))
    (transform : Option (Transform T N)) (conf : ℝ) (demean : Bool) :
    stressTest argsort (.labelled rows) R (some assets) probabilities stressed transform conf demean =
      stressTest argsort (.labelled rows') R (some assets) probabilities stressed transform conf demean := by
  unfold stressTest
  rw [C61_align_order hp hn assets]

/-- **C61** `stress_test` rejects missing and extra labels. -/
theorem C61_stress_rejects (argsort : (Fin T → ℝ) → Equiv.Perm (Fin T)) (rows : List (String × (Fin M → ℝ))) (R : Fin T → Fin N → ℝ)
    (assets : List String) (h : ¬SameLabels rows assets) (probabilities stressed : Option (List (PyFloat ℝ)))
    (transform : Option (Transform T N)) (conf : ℝ) (demean : Bool) (r : StressReport) :
    stressTest argsort (.labelled rows) R (some assets) probabilities stressed transform conf demean ≠ .ok r := by
  unfold stressTest
  rw [(C61_align rows assets).2 h]
  intro hc
  split at hc
  · cases hc
  split at hc <;> cases hc

theorem reindex_nodup {K : Type*} {rows : List (String × (Fin M → K))} (hn : (rows.map Prod.fst).Nodup) (cols : List String) :
    reindex rows cols = .ok (cols.map (fun c => rows.lookup c)) := by
  unfold reindex
  split
  · rename_i h
    rw [← h, List.map_map]
    congr 1
    apply List.map_congr_left
    intro e he
    exact ((Ens.lookup_iff hn).mpr he).symm
  · simp

/-- **C61** `scenario_pnl` and `performance_report` do not depend on the order of the labels either. -/
theorem C61_report_order (argsort : (Fin T → ℝ) → Equiv.Perm (Fin T)) {rows rows' : List (String × (Fin M → ℝ))} (hp : rows.Perm rows')
    (hn : (rows.map Prod.fst).Nodup) (R : Fin T → Fin N → ℝ) (cols : List String) (probabilities : Option (List (PyFloat ℝ)))
    (conf : ℝ) (demean : Bool) :
    scenarioPnl (.labelled rows) R (some cols) = scenarioPnl (.labelled rows') R (some cols) ∧
      performanceReport argsort (.labelled rows) R (some cols) probabilities conf demean =
        performanceReport argsort (.labelled rows') R (some cols) probabilities conf demean := by
  have hn' : (rows'.map Prod.fst).Nodup := (hp.map _).nodup_iff.mp hn
  have e : toRows (.labelled rows) (some cols) = toRows (.labelled rows') (some cols) := by
    simp only [toRows]
    rw [reindex_nodup hn, reindex_nodup hn']
    congr 1
    exact List.map_congr_left (fun c _ => lookup_perm hp hn c)
  constructor
  · unfold scenarioPnl; rw [e]
  · unfold performanceReport; rw [e]

/-- **C61** `performance_report` rejects weights that miss an asset. -/
theorem C61_report_missing (argsort : (Fin T → ℝ) → Equiv.Perm (Fin T)) {rows : List (String × (Fin M → ℝ))}
    (R : Fin T → Fin N → ℝ) (cols : List String) (c : String) (hc : c ∈ cols) (hm : c ∉ rows.map Prod.fst)
    (probabilities : Option (List (PyFloat ℝ))) (conf : ℝ) (demean : Bool) (r : Metrics) :
    performanceReport argsort (.labelled rows) R (some cols) probabilities conf demean ≠ .ok r := by
  intro h
  unfold performanceReport at h
  split at h
  · cases h
  split at h
  · cases h
  split at h
  · cases h
  simp only [toRows] at h
  split at h
  · cases h
  rename_i rws hr
  have : rws.any Option.isNone = true := by
    unfold reindex at hr
    split at hr
    · rename_i he
      rw [he] at hm
      exact absurd hc hm
    · split at hr
      · cases hr
      · injection hr with hr
        rw [← hr, List.any_map, List.any_eq_true]
        refine ⟨c, hc, ?_⟩
        simp [lookup_absent hm]
  rw [if_pos this] at h
  cases h

/-- **C61** (false of the code) `scenario_pnl` does not reject weights that miss an asset: every P&L entry is then NaN. -/
theorem C61_pnl_missing_nan {K : Type*} [Field K] {rows : List (String × (Fin M → K))} (hn : (rows.map Prod.fst).Nodup)
    (R : Fin T → Fin N → K) (cols : List String) (hl : cols.length = N) (c : String) (hc : c ∈ cols) (hm : c ∉ rows.map Prod.fst) :
    ∃ pnl, scenarioPnl (.labelled rows) R (some cols) = .ok pnl ∧ ∀ t m, pnl t m = none := by
  unfold scenarioPnl toRows
  simp only
  rw [reindex_nodup hn]
  simp only [List.length_map]
  rw [if_neg (by simp [hl])]
  refine ⟨_, rfl, fun t m => ?_⟩
  obtain ⟨k, hk, rfl⟩ := List.getElem_of_mem hc
  unfold nanDot
  rw [if_neg]
  intro hall
  have := hall ⟨k, by omega⟩
  beta_reduce at this
  rw [List.getElem?_eq_getElem (by simpa using hk), Option.getD_some, List.getElem_map, lookup_absent hm] at this
  cases this

/-- **C61** (false of the code) neither `scenario_pnl` nor `performance_report` rejects an extra label: the weight is ignored. -/
theorem C61_extra_ignored (argsort : (Fin T → ℝ) → Equiv.Perm (Fin T)) {rows : List (String × (Fin M → ℝ))} {x : String} {w : Fin M → ℝ}
    (hn : ((rows ++ [(x, w)]).map Prod.fst).Nodup) (R : Fin T → Fin N → ℝ) (cols : List String) (hx : x ∉ cols)
    (probabilities : Option (List (PyFloat ℝ))) (conf : ℝ) (demean : Bool) :
    scenarioPnl (.labelled (rows ++ [(x, w)])) R (some cols) = scenarioPnl (.labelled rows) R (some cols) ∧
      performanceReport argsort (.labelled (rows ++ [(x, w)])) R (some cols) probabilities conf demean =
        performanceReport argsort (.labelled rows) R (some cols) probabilities conf demean := by
  have hn1 : (rows.map Prod.fst).Nodup := by
    rw [List.map_append] at hn
    exact (List.nodup_append.mp hn).1
  have e : toRows (.labelled (rows ++ [(x, w)])) (some cols) = toRows (.labelled rows) (some cols) := by
    simp only [toRows]
    rw [reindex_nodup hn, reindex_nodup hn1]
    congr 1
    apply List.map_congr_left
    intro c hc
    rw [List.lookup_append]
    have : List.lookup c [(x, w)] = none := by
      rw [List.lookup_eq_none_iff]
      intro e he
      simp only [List.mem_singleton] at he
      subst he
      simp only [bne_iff_ne, ne_eq]
      rintro rfl
      exact hx hc
    rw [this]
    simp
  constructor
  · unfold scenarioPnl; rw [e]
  · unfold performanceReport; rw [e]

/-- The labels of the extra-weight finding are satisfiable: weights for A and B, scenarios for A only. -/
example : (([("A", fun _ : Fin 1 => (1 : ℝ))] ++ [("B", fun _ => 1)]).map Prod.fst).Nodup ∧ "B" ∉ ["A"] := by
  simp

/-! ## C62 -/

/-- Relative entropy of two positive vectors. -/
noncomputable def relativeEntropy (q p : Fin T → ℝ) : ℝ := ∑ t, q t * Real.log (q t / p t)

/-- **C62** with no entry below the clipping threshold the reported number is the relative entropy. -/
theorem C62_is_kl (q p : Fin T → ℝ) (hq : ∀ t, 1 / 10 ^ 16 ≤ q t) (hp : ∀ t, 1 / 10 ^ 16 ≤ p t) :
    klDivergence q p = relativeEntropy q p := by
  unfold klDivergence relativeEntropy
  refine Finset.sum_congr rfl (fun t _ => ?_)
  simp only
  rw [max_eq_left (hq t), max_eq_left (hp t)]

/-- **C62** the reported KL divergence of two probability vectors is non-negative, and zero exactly when they coincide, as long as no
nominal probability is below `1e-16`; stressed probabilities may be as small as one likes, zero included. -/
theorem C62_nonneg_partial (q p : Fin T → ℝ) (hq : IsProb q) (hp : IsProb p) (hp0 : ∀ t, 1 / 10 ^ 16 ≤ p t) :
    0 ≤ klDivergence q p ∧ (klDivergence q p = 0 ↔ q = p) := by
  have hpos : (0 : ℝ) < 1 / 10 ^ 16 := by norm_num
  have hq' : ∀ t, 0 < max (q t) (1 / 10 ^ 16 : ℝ) := fun t => lt_of_lt_of_le hpos (le_max_right _ _)
  have e : klDivergence q p = ∑ t, max (q t) (1 / 10 ^ 16) * (Real.log (max (q t) (1 / 10 ^ 16)) - Real.log (p t)) := by
    unfold klDivergence
    refine Finset.sum_congr rfl (fun t _ => ?_)
    simp only
    rw [max_eq_left (hp0 t), Real.log_div (hq' t).ne' (by linarith [hp0 t])]
  have hs : 1 ≤ ∑ t, max (q t) (1 / 10 ^ 16) := by
    have h : ∑ t, q t ≤ ∑ t, max (q t) (1 / 10 ^ 16) := Finset.sum_le_sum fun t _ => le_max_left _ _
    rwa [hq.sum] at h
  have hg := gibbs (p := fun t => max (q t) (1 / 10 ^ 16)) (q := p) (fun t => (hq' t).le) (fun t => by linarith [hp0 t])
  rw [hp.sum] at hg
  rw [e]
  refine ⟨by linarith, fun h => ?_, ?_⟩
  · have h1 := gibbs_eq (p := fun t => max (q t) (1 / 10 ^ 16)) (q := p) (fun t => (hq' t).le) (fun t => by linarith [hp0 t])
      (by rw [hp.sum, h]; linarith)
    have h2 : ∑ t, (p t - q t) = 0 := by rw [Finset.sum_sub_distrib, hp.sum, hq.sum, sub_self]
    have h3 : ∀ t, q t ≤ p t := fun t => by rw [← h1]; exact le_max_left _ _
    have h4 := (Finset.sum_eq_zero_iff_of_nonneg (fun t _ => sub_nonneg.2 (h3 t))).1 h2
    funext t
    have := h4 t (Finset.mem_univ t)
    linarith
  · rintro rfl
    refine Finset.sum_eq_zero fun t _ => ?_
    rw [max_eq_left (hp0 t), sub_self, mul_zero]

/-- A stress that rules one of two equally likely scenarios out. -/
example : IsProb ![(1 : ℝ), 0] ∧ IsProb ![(1 / 2 : ℝ), 1 / 2] ∧ ![(1 : ℝ), 0] ≠ ![(1 / 2 : ℝ), 1 / 2] := by
  refine ⟨⟨fun t => by fin_cases t <;> simp, by simp⟩, ⟨fun t => by fin_cases t <;> simp, by simp [Fin.sum_univ_two]; norm_num⟩, fun h => ?_⟩
  have := congrFun h 0
  norm_num at this

/-- Two vectors above the threshold. -/
example : IsProb ![(1 / 2 : ℝ), 1 / 2] ∧ ∀ t, (1 : ℝ) / 10 ^ 16 ≤ ![(1 / 2 : ℝ), 1 / 2] t := by
  constructor
  · constructor
    · intro t; fin_cases t <;> simp
    · simp [Fin.sum_univ_two]; norm_num
  · intro t; fin_cases t <;> norm_num

/-- **C62** (false of the code below the threshold) a nominal scenario of probability zero is read as `1e-16`, so the reported
divergence of two different probability vectors can be negative. -/
theorem C62_counterexample : ∃ q p : Fin 2 → ℝ, IsProb q ∧ IsProb p ∧ q ≠ p ∧ klDivergence q p < 0 := by
  refine ⟨![1 - 1 / 10 ^ 16, 1 / 10 ^ 16], ![1, 0], ⟨?_, ?_⟩, ⟨?_, ?_⟩, ?_, ?_⟩
  · intro t; fin_cases t <;> norm_num
  · simp [Fin.sum_univ_two]
  · intro t; fin_cases t <;> norm_num
  · simp [Fin.sum_univ_two]
  · intro h
    have := congrFun h 1
    norm_num at this
  · unfold klDivergence
    simp only [Fin.sum_univ_two, Matrix.cons_val_zero, Matrix.cons_val_one]
    rw [max_eq_left (by norm_num : (1 : ℝ) / 10 ^ 16 ≤ 1 - 1 / 10 ^ 16), max_eq_left (le_refl ((1 : ℝ) / 10 ^ 16)),
      max_eq_left (by norm_num : (1 : ℝ) / 10 ^ 16 ≤ 1), max_eq_right (by norm_num : (0 : ℝ) ≤ 1 / 10 ^ 16),
      div_self (by norm_num : (1 : ℝ) / 10 ^ 16 ≠ 0), Real.log_one, mul_zero, add_zero]
    exact mul_neg_of_pos_of_neg (by norm_num) (Real.log_neg (by norm_num) (by norm_num))

/-! ## C78, C79: what the reports contain -/

/-- `r` describes the P&L `x` under the probabilities `p`: mean, standard deviation, VaR and CVaR (of the demeaned P&L when `demean`)
and effective number of scenarios. -/
structure Describes (p x : Fin T → ℝ) (conf : ℝ) (demean : Bool) (r : Metrics) : Prop where
  mean : r.mean = expect p x
  stdev_nonneg : 0 ≤ r.stdev
  variance : r.stdev ^ 2 = expect p (fun t => (x t - expect p x) ^ 2)
  var : IsVar p (fun t => x t - if demean then expect p x else 0) conf r.var
  cvar : IsCvar p (fun t => x t - if demean then expect p x else 0) conf r.cvar
  ens : r.ens = Real.exp (-(∑ s, p s * Real.log (p s)))

/-- P&L of a weight vector in every scenario. -/
def pnlOf (R : Fin T → Fin N → ℝ) (w : Fin N → ℝ) : Fin T → ℝ := fun t => ∑ i, R t i * w i

theorem toVec_eq {p : List ℝ} (h : p.length = T) (t : Fin T) : toVec T p t = p[(t : ℕ)]'(by omega) := by
  unfold toVec
  rw [List.getElem?_eq_getElem (by omega)]
  rfl

theorem moments_cast {p : List ℝ} (h : p.length = T) (R : Fin T → Fin N → ℝ) :
    Mom.estimateSampleMoments R (fun i : Fin p.length => p[i]) = Mom.estimateSampleMoments R (toVec T p) := by
  subst h
  congr 1
  funext i
  exact (toVec_eq rfl i).symm

theorem effPnl_eq (w : Fin N → ℝ) (R : Fin T → Fin N → ℝ) {p : Fin T → ℝ} (demean : Bool) (t : Fin T) :
    Risk.effPnl w R (some p) demean t = pnlOf R w t - if demean then expect p (pnlOf R w) else 0 := by
  unfold Risk.effPnl Risk.pnl Risk.maybeDemean Risk.scenarioProbs pnlOf expect
  cases demean
  · simp
  · simp only [Option.getD_some, if_true, sub_mul, Finset.sum_sub_distrib, Finset.sum_mul, Finset.mul_sum]
    congr 1
    rw [Finset.sum_comm]
    exact Finset.sum_congr rfl (fun s _ => Finset.sum_congr rfl (fun i _ => by ring))

theorem variance_quadratic (w : Fin N → ℝ) (R : Fin T → Fin N → ℝ) {p : Fin T → ℝ} (hp : IsProb p) {mu : Fin N → ℝ}
    {S : Matrix (Fin N) (Fin N) ℝ} (hmu : ∀ i, mu i = expect p (fun t => R t i))
    (hS : ∀ i j, S i j = expect p (fun t => R t i * R t j) - mu i * mu j) :
    ∑ i, ∑ j, w i * S i j * w j = expect p (fun t => (pnlOf R w t - expect p (pnlOf R w)) ^ 2) := by
  have hm : expect p (pnlOf R w) = ∑ i, mu i * w i := by
    simp only [hmu, expect, pnlOf, Finset.mul_sum, Finset.sum_mul]
    rw [Finset.sum_comm]
    exact Finset.sum_congr rfl (fun s _ => Finset.sum_congr rfl (fun i _ => by ring))
  have h1 : expect p (fun t => (pnlOf R w t - expect p (pnlOf R w)) ^ 2) =
      expect p (fun t => pnlOf R w t * pnlOf R w t) - expect p (pnlOf R w) * expect p (pnlOf R w) := by
    generalize hc : expect p (pnlOf R w) = c
    have : ∀ t, p t * (pnlOf R w t - c) ^ 2 = p t * (pnlOf R w t * pnlOf R w t) - 2 * c * (p t * pnlOf R w t) + c * c * p t :=
      fun t => by ring
    unfold expect
    simp only [this, Finset.sum_add_distrib, Finset.sum_sub_distrib, ← Finset.mul_sum, hp.sum]
    have : ∑ t, p t * pnlOf R w t = c := hc
    rw [this]
    ring
  rw [h1]
  have h2 : expect p (fun t => pnlOf R w t * pnlOf R w t) = ∑ i, ∑ j, w i * expect p (fun t => R t i * R t j) * w j := by
    simp only [expect, pnlOf, Finset.mul_sum, Finset.sum_mul]
    rw [Finset.sum_comm]
    refine Finset.sum_congr rfl (fun i _ => ?_)
    rw [Finset.sum_comm]
    exact Finset.sum_congr rfl (fun j _ => Finset.sum_congr rfl (fun t _ => by ring))
  rw [h2, hm, Finset.sum_mul_sum, ← Finset.sum_sub_distrib]
  refine Finset.sum_congr rfl (fun i _ => ?_)
  rw [← Finset.sum_sub_distrib]
  exact Finset.sum_congr rfl (fun j _ => by rw [hS]; ring)

theorem ens_spec {p : Fin T → ℝ} (hp : IsProb p) : Probs.ens p = Real.exp (-(∑ s, p s * Real.log (p s))) := ens_eq hp

theorem metricsOf_spec {argsort : (Fin T → ℝ) → Equiv.Perm (Fin T)} (hs : Risk.IsArgsort argsort) (R : Fin T → Fin N → ℝ) {p : Fin T → ℝ}
    (hp : IsProb p) {conf : ℝ} (h0 : 0 < conf) (h1 : conf < 1) (demean : Bool) {mu : Fin N → ℝ} {S : Matrix (Fin N) (Fin N) ℝ}
    (hm : Mom.estimateSampleMoments R p = .ok (mu, S)) (w : Fin N → ℝ) :
    ∃ r, metricsOf argsort R p conf demean (mu, S) w = .ok r ∧ Describes p (pnlOf R w) conf demean r := by
  obtain ⟨mu', S', h2, hmu, hS, hpsd⟩ := C35_sample_moments R hp
  rw [hm] at h2
  injection h2 with h2
  injection h2 with e1 e2
  subst e1 e2
  obtain ⟨v, hv, hvar⟩ := Risk.portfolioVar_ok (w := w) (R := R) (p := some p) (demean := demean) hs hp h0 h1
  obtain ⟨c, hc, hcvar⟩ := Risk.portfolioCvar_ok (w := w) (R := R) (p := some p) (demean := demean) hs hp h0 h1
  have he : Risk.effPnl w R (some p) demean = fun t => pnlOf R w t - if demean then expect p (pnlOf R w) else 0 :=
    funext (effPnl_eq w R demean)
  rw [he] at hvar hcvar
  unfold metricsOf
  rw [hv, hc]
  have hquad := variance_quadratic w R hp hmu hS
  refine ⟨_, rfl, ?_, Real.sqrt_nonneg _, ?_, hvar, hcvar, ens_spec hp⟩
  · simp only [hmu, expect, pnlOf, Finset.mul_sum]
    rw [Finset.sum_comm]
    exact Finset.sum_congr rfl (fun s _ => Finset.sum_congr rfl (fun i _ => by ring))
  · simp only
    rw [hquad, Real.sq_sqrt]
    exact Finset.sum_nonneg (fun t _ => mul_nonneg (hp.nonneg t) (sq_nonneg _))

theorem mapE_ok_of {α β : Type*} {f : α → Except PyErr β} {g : α → β} {l : List α} (h : ∀ a ∈ l, f a = .ok (g a)) :
    mapE f l = .ok (l.map g) := by
  induction l with
  | nil => rfl
  | cons a l ih =>
    simp [mapE, h a (List.mem_cons_self ..), ih (fun b hb => h b (List.mem_cons_of_mem _ hb))]

/-- The metrics exist for every portfolio and describe its P&L. -/
theorem metrics_spec {argsort : (Fin T → ℝ) → Equiv.Perm (Fin T)} (hs : Risk.IsArgsort argsort) (R : Fin T → Fin N → ℝ) {p : List ℝ}
    (hl : p.length = T) (hp : IsProb (toVec T p)) {conf : ℝ} (h0 : 0 < conf) (h1 : conf < 1) (demean : Bool) (W : Fin M → Fin N → ℝ) :
    ∃ g : Fin M → Metrics, metrics argsort R p conf demean W = .ok ((List.finRange M).map g) ∧
      ∀ m, Describes (toVec T p) (pnlOf R (W m)) conf demean (g m) := by
  obtain ⟨mu, S, h2, -⟩ := C35_sample_moments R hp
  choose g hg1 hg2 using fun m => metricsOf_spec hs R hp h0 h1 demean h2 (W m)
  refine ⟨g, ?_, hg2⟩
  unfold metrics
  rw [moments_cast hl, h2]
  exact mapE_ok_of (fun m _ => hg1 m)

/-- `W m i` is the weight of asset `i` in portfolio `m`: by position for arrays, by label for labelled weights on labelled scenarios. -/
def WeightsAre (w : Weights M ℝ) (assets : Option (List String)) (W : Fin M → Fin N → ℝ) : Prop :=
  match w, assets with
  | .plain rows, _ => rows = List.ofFn (fun i m => W m i)
  | .labelled rows, none => rows.map Prod.snd = List.ofFn (fun i m => W m i)
  | .labelled rows, some names => ∃ h : names.length = N, ∀ i : Fin N, (names[(i : ℕ)]'(by omega), fun m => W m i) ∈ rows

theorem rows_ofFn {α : Type*} [Zero α] {rows : List α} (h : rows.length = N) : rows = List.ofFn (fun i : Fin N => (rows[(i : ℕ)]?).getD 0) := by
  subst h
  apply List.ext_getElem
  · simp
  · intro k h1 h2
    simp

theorem align_weightsAre {w : Weights M ℝ} {assets : Option (List String)} {rows : List (Fin M → ℝ)} (h : alignWeights w assets = .ok rows)
    (hl : rows.length = N) : WeightsAre w assets (fun m (i : Fin N) => ((rows[(i : ℕ)]?).getD 0) m) := by
  cases w with
  | plain rs =>
    have : rs = rows := by
      cases assets with
      | none => simpa [alignWeights] using h
      | some names =>
        simp only [alignWeights] at h
        split at h
        · cases h
        · injection h
    subst this
    show rs = _
    exact rows_ofFn hl
  | labelled rs =>
    cases assets with
    | none =>
      have : rs.map Prod.snd = rows := by simpa [alignWeights] using h
      show rs.map Prod.snd = _
      rw [this]
      exact rows_ofFn hl
    | some names =>
      have hsame : SameLabels rs names := by
        by_contra hc
        rw [(C61_align rs names).2 hc] at h
        cases h
      obtain ⟨out, h1, h2⟩ := (C61_align rs names).1 hsame
      rw [h] at h1
      injection h1 with h1
      subst h1
      unfold InAssetOrder at h2
      rw [List.forall₂_iff_get] at h2
      refine ⟨by rw [h2.1, hl], fun i => ?_⟩
      have hi : (i : ℕ) < rows.length := by rw [hl]; exact i.2
      have := h2.2 i (by rw [h2.1]; exact hi) hi
      simpa [List.getElem?_eq_getElem hi] using this

/-- **C79** what `stress_test` reports: one nominal row per portfolio, describing the P&L of that portfolio's weights (read by label)
under the nominal probabilities; without a stress there is no stressed row and no KL. -/
theorem C79_stress_nominal {argsort : (Fin T → ℝ) → Equiv.Perm (Fin T)} (hs : Risk.IsArgsort argsort) (w : Weights M ℝ)
    (R : Fin T → Fin N → ℝ) (assets : Option (List String)) (probabilities stressed : Option (List (PyFloat ℝ)))
    (transform : Option (Transform T N)) (conf : ℝ) (demean : Bool) (rep : StressReport) (p : List ℝ)
    (hr : Probs.resolve probabilities T false = .ok p) (hp : IsProb (toVec T p))
    (h : stressTest argsort w R assets probabilities stressed transform conf demean = .ok rep) :
    ∃ W : Fin M → Fin N → ℝ, WeightsAre w assets W ∧
      List.Forall₂ (fun m r => Describes (toVec T p) (pnlOf R (W m)) conf demean r) (List.finRange M) rep.nominal ∧
      (stressed = none → transform = none → rep.stressed = none ∧ rep.kl = none) := by
  have hl : p.length = T := by exact_mod_cast (C16_resolve _ _ _ _ hr).1
  unfold stressTest at h
  split at h
  · cases h
  rename_i hc
  push Not at hc
  rw [hr] at h
  simp only at h
  split at h
  · cases h
  rename_i rows hrows
  split at h
  · cases h
  rename_i hlen
  push Not at hlen
  split at h
  · cases h
  rename_i nominal hnom
  split at h
  · cases h
  rename_i s hspart
  injection h with h
  subst h
  refine ⟨_, align_weightsAre hrows hlen, ?_, ?_⟩
  · obtain ⟨g, hg1, hg2⟩ := metrics_spec hs R hl hp hc.1 hc.2 demean (fun m (i : Fin N) => ((rows[(i : ℕ)]?).getD 0) m)
    rw [hg1] at hnom
    injection hnom with hnom
    subst hnom
    show List.Forall₂ _ _ ((List.finRange M).map g)
    rw [List.forall₂_map_right_iff]
    exact List.forall₂_same.mpr (fun m _ => hg2 m)
  · rintro rfl rfl
    unfold stressPart applyTransform at hspart
    simp only [Option.isNone_none, Bool.and_self, if_true] at hspart
    injection hspart with hspart
    subst hspart
    exact ⟨rfl, rfl⟩

/-- **C79** what the stressed part contains: the same portfolios on the transformed scenarios under the stressed probabilities. -/
theorem C79_stress_stressed {argsort : (Fin T → ℝ) → Equiv.Perm (Fin T)} (hs : Risk.IsArgsort argsort) (w : Weights M ℝ)
    (R Rs : Fin T → Fin N → ℝ) (assets : Option (List String)) (probabilities stressed : Option (List (PyFloat ℝ)))
    (transform : Option (Transform T N)) (conf : ℝ) (demean : Bool) (rep : StressReport) (p q : List ℝ)
    (hr : Probs.resolve probabilities T false = .ok p) (hq : stressedProbs stressed p T = .ok q) (hq' : IsProb (toVec T q))
    (hql : q.length = T) (ht : applyTransform transform R = .ok Rs) (hany : stressed.isSome ∨ transform.isSome)
    (h : stressTest argsort w R assets probabilities stressed transform conf demean = .ok rep) :
    ∃ W : Fin M → Fin N → ℝ, WeightsAre w assets W ∧ (∃ ms, rep.stressed = some ms ∧
      List.Forall₂ (fun m r => Describes (toVec T q) (pnlOf Rs (W m)) conf demean r) (List.finRange M) ms) ∧
      rep.kl = if stressed.isSome then some (klDivergence (toVec T q) (toVec T p)) else none := by
  unfold stressTest at h
  split at h
  · cases h
  rename_i hc
  push Not at hc
  rw [hr] at h
  simp only at h
  split at h
  · cases h
  rename_i rows hrows
  split at h
  · cases h
  rename_i hlen
  push Not at hlen
  split at h
  · cases h
  rename_i nominal hnom
  split at h
  · cases h
  rename_i s hspart
  injection h with h
  subst h
  refine ⟨_, align_weightsAre hrows hlen, ?_⟩
  unfold stressPart at hspart
  rw [ht] at hspart
  simp only at hspart
  rw [if_neg (by rcases hany with h | h <;> simp [Option.isNone_iff_eq_none, Option.isSome_iff_ne_none] at h ⊢ <;> tauto), hq] at hspart
  simp only at hspart
  obtain ⟨g, hg1, hg2⟩ := metrics_spec hs Rs hql hq' hc.1 hc.2 demean (fun m (i : Fin N) => ((rows[(i : ℕ)]?).getD 0) m)
  rw [hg1] at hspart
  injection hspart with hspart
  subst hspart
  refine ⟨⟨_, rfl, ?_⟩, rfl⟩
  rw [List.forall₂_map_right_iff]
  exact List.forall₂_same.mpr (fun m _ => hg2 m)

theorem toRows_weightsAre {w : Weights 1 ℝ} {cols : Option (List String)} {rows : List (Option (Fin 1 → ℝ))}
    (h : toRows w cols = .ok rows) (hn : rows.any Option.isNone = false) (hl : rows.length = N) :
    WeightsAre w cols (fun m (i : Fin N) => (((rows[(i : ℕ)]?).getD none).getD 0) m) := by
  have hsome : ∀ k (hk : k < rows.length), ∃ r, rows[k] = some r := by
    intro k hk
    rw [List.any_eq_false] at hn
    have := hn _ (List.getElem_mem hk)
    cases hr : rows[k] with
    | none => simp [hr] at this
    | some r => exact ⟨r, rfl⟩
  cases w with
  | plain rs =>
    have : rs.map some = rows := by simpa [toRows] using h
    subst this
    show rs = _
    rw [List.length_map] at hl
    subst hl
    apply List.ext_getElem
    · simp
    · intro k h1 h2
      simp
  | labelled rs =>
    cases cols with
    | none =>
      have : rs.map (fun r => some r.2) = rows := by simpa [toRows] using h
      subst this
      show rs.map Prod.snd = _
      rw [List.length_map] at hl
      subst hl
      apply List.ext_getElem
      · simp
      · intro k h1 h2
        simp
    | some names =>
      simp only [toRows, reindex] at h
      split at h
      · rename_i he
        injection h with h
        subst h
        subst he
        rw [List.length_map] at hl
        refine ⟨by simpa using hl, fun i => ?_⟩
        have hi : (i : ℕ) < rs.length := by omega
        simp [hi]
      · split at h
        · cases h
        injection h with h
        subst h
        rw [List.length_map] at hl
        refine ⟨hl, fun i => ?_⟩
        have hi : (i : ℕ) < names.length := by omega
        obtain ⟨r, hr⟩ := hsome i (by simpa using hi)
        rw [List.getElem_map] at hr
        have := lookup_mem hr
        simp only [List.getElem?_map, List.getElem?_eq_getElem hi, Option.map_some, Option.getD_some, hr]
        exact this

/-- **C79** `performance_report` describes the P&L of the given portfolio. -/
theorem C79_report {argsort : (Fin T → ℝ) → Equiv.Perm (Fin T)} (hs : Risk.IsArgsort argsort) (w : Weights 1 ℝ)
    (R : Fin T → Fin N → ℝ) (cols : Option (List String)) (probabilities : Option (List (PyFloat ℝ))) (conf : ℝ) (demean : Bool)
    (r : Metrics) (p : List ℝ) (hr : Probs.resolve probabilities T false = .ok p) (hp : IsProb (toVec T p))
    (h : performanceReport argsort w R cols probabilities conf demean = .ok r) :
    ∃ W : Fin 1 → Fin N → ℝ, WeightsAre w cols W ∧ Describes (toVec T p) (pnlOf R (W 0)) conf demean r := by
  have hl : p.length = T := by exact_mod_cast (C16_resolve _ _ _ _ hr).1
  unfold performanceReport at h
  split at h
  · cases h
  rename_i hc
  push Not at hc
  rw [hr] at h
  simp only [ne_eq, not_true_eq_false, if_false] at h
  split at h
  · cases h
  rename_i rows hrows
  split at h
  · cases h
  rename_i hany
  split at h
  · cases h
  rename_i hlen
  push Not at hlen
  obtain ⟨g, hg1, hg2⟩ := metrics_spec hs R hl hp hc.1 hc.2 demean (fun m (i : Fin N) => (((rows[(i : ℕ)]?).getD none).getD 0) m)
  rw [hg1] at h
  have : (List.finRange 1).map g = [g 0] := rfl
  rw [this] at h
  injection h with h
  subst h
  exact ⟨_, toRows_weightsAre hrows (Bool.eq_false_iff.mpr hany) hlen, hg2 0⟩

theorem cvar_at_var {p x : Fin T → ℝ} (hp : IsProb p) {conf v c : ℝ} (h1 : conf < 1) (hv : IsVar p x conf v) (hc : IsCvar p x conf c) :
    c = ru p x conf v := by
  have := Risk.ru_min (v := -v) hp h1 (by rw [neg_neg]; exact hv)
  rw [neg_neg] at this
  exact Risk.cvar_unique hc ⟨⟨_, rfl⟩, by rintro _ ⟨d, rfl⟩; exact this d⟩

/-- **C79** consequences for the user: the VaR does not exceed the CVaR and the effective number of scenarios is between one and
the number of scenarios. -/
theorem C79_consistent {p x : Fin T → ℝ} (hp : IsProb p) {conf : ℝ} (h1 : conf < 1) {demean : Bool} {r : Metrics}
    (h : Describes p x conf demean r) : r.var ≤ r.cvar ∧ 1 ≤ r.ens ∧ r.ens ≤ T := by
  have hens : r.ens = Probs.ens p := by rw [h.ens, ens_spec hp]
  refine ⟨?_, ?_, ?_⟩
  · rw [cvar_at_var hp h1 h.var h.cvar]
    unfold ru expect
    have h2 : 0 ≤ ∑ t, p t * max (-(x t - if demean then ∑ t, p t * x t else 0) - r.var) 0 :=
      Finset.sum_nonneg fun t _ => mul_nonneg (hp.nonneg t) (le_max_right _ _)
    have := div_nonneg h2 (by linarith : (0:ℝ) ≤ 1 - conf)
    linarith
  · rw [hens]; exact (C19_entropy_bounds p hp).1
  · rw [hens]; exact (C19_entropy_bounds p hp).2.1

/-! ## C80: what a linear stress does -/

theorem isVar_affine {p x : Fin T → ℝ} {conf v : ℝ} (hp : IsProb p) (h0 : 0 < conf) (h1 : conf < 1) {s b : ℝ} (hs : 0 ≤ s)
    (hv : IsVar p x conf v) : IsVar p (fun t => s * x t + b) conf (s * v - b) := by
  rcases hs.eq_or_lt with rfl | hs
  · constructor
    · have : prob p (fun t => 0 * x t + b < -(0 * v - b)) = 0 := by
        unfold prob
        exact Finset.sum_eq_zero (fun t _ => by rw [if_neg]; simp)
      rw [this]; linarith
    · have : prob p (fun t => 0 * x t + b ≤ -(0 * v - b)) = 1 := by
        unfold prob
        rw [← hp.sum]
        exact Finset.sum_congr rfl (fun t _ => by rw [if_pos]; simp)
      rw [this]; linarith
  · have e1 : ∀ t, (s * x t + b < -(s * v - b)) ↔ x t < -v := fun t => by
      constructor <;> intro h <;> nlinarith
    have e2 : ∀ t, (s * x t + b ≤ -(s * v - b)) ↔ x t ≤ -v := fun t => by
      constructor <;> intro h <;> nlinarith
    unfold IsVar prob at *
    simp only [e1, e2]
    exact hv

theorem ru_affine {p x : Fin T → ℝ} {conf c : ℝ} {s b : ℝ} (hs : 0 ≤ s) :
    ru p (fun t => s * x t + b) conf (s * c - b) = s * ru p x conf c - b := by
  unfold ru expect
  have : ∀ t, p t * max (-(s * x t + b) - (s * c - b)) 0 = s * (p t * max (-(x t) - c) 0) := by
    intro t
    have e : -(s * x t + b) - (s * c - b) = s * (-(x t) - c) := by ring
    rw [e, show (0 : ℝ) = s * 0 by ring, ← mul_max_of_nonneg _ _ hs]
    ring_nf
  simp only [this, ← Finset.mul_sum]
  ring

/-- **C80** a stress that maps every P&L `x` to `s x + b` with `s ≥ 0` maps the report accordingly: the mean to `s mean + b`, the
standard deviation to `s stdev`, VaR and CVaR to `s VaR - b` and `s CVaR - b` (without `- b` when the P&L is demeaned). -/
theorem C80_affine_report {p x : Fin T → ℝ} (hp : IsProb p) {conf : ℝ} (h0 : 0 < conf) (h1 : conf < 1) {demean : Bool} {r r' : Metrics}
    {s b : ℝ} (hs : 0 ≤ s) (h : Describes p x conf demean r) (h' : Describes p (fun t => s * x t + b) conf demean r') :
    r'.mean = s * r.mean + b ∧ r'.stdev = s * r.stdev ∧ r'.var = s * r.var - (if demean then 0 else b) ∧
      r'.cvar = s * r.cvar - (if demean then 0 else b) ∧ r'.ens = r.ens := by
  have hE : expect p (fun t => s * x t + b) = s * expect p x + b := by
    unfold expect
    have : ∀ t, p t * (s * x t + b) = s * (p t * x t) + b * p t := fun t => by ring
    simp only [this, Finset.sum_add_distrib, ← Finset.mul_sum, hp.sum]
    ring
  have hxd : (fun t => (s * x t + b) - if demean then expect p (fun t => s * x t + b) else 0) =
      fun t => s * (x t - if demean then expect p x else 0) + (if demean then 0 else b) := by
    funext t
    cases demean
    · simp
    · simp only [if_true, hE]; ring
  have hv' := h'.var
  have hc' := h'.cvar
  rw [hxd] at hv' hc'
  have hv : r'.var = s * r.var - (if demean then 0 else b) :=
    Risk.isVar_unique hp.nonneg hv' (isVar_affine hp h0 h1 hs h.var)
  refine ⟨?_, ?_, hv, ?_, ?_⟩
  · rw [h'.mean, hE, h.mean]
  · have hsq : r'.stdev ^ 2 = (s * r.stdev) ^ 2 := by
      rw [h'.variance, mul_pow, h.variance, hE]
      generalize expect p x = e
      unfold expect
      rw [Finset.mul_sum]
      exact Finset.sum_congr rfl (fun t _ => by ring)
    rwa [sq_eq_sq₀ h'.stdev_nonneg (mul_nonneg hs h.stdev_nonneg)] at hsq
  · rw [cvar_at_var hp h1 hv' hc', hv, ru_affine hs, cvar_at_var hp h1 h.var h.cvar]
  · rw [h'.ens, h.ens]

/-- The report of a P&L is unique. -/
theorem describes_unique {p x : Fin T → ℝ} (hp : IsProb p) {conf : ℝ} (h0 : 0 < conf) (h1 : conf < 1) {demean : Bool} {r r' : Metrics}
    (h : Describes p x conf demean r) (h' : Describes p x conf demean r') : r = r' := by
  have h'' : Describes p (fun t => 1 * x t + 0) conf demean r' := by simpa using h'
  obtain ⟨a, b, c, d, e⟩ := C80_affine_report hp h0 h1 zero_le_one h h''
  cases r; cases r'
  simp_all

theorem toArray_transform {X : (Fin T → Fin N → ℝ) → Fin T → Fin N → ℝ} (R : Fin T → Fin N → ℝ) :
    applyTransform (some (fun R => toArray (X R))) R = .ok (X R) := by
  unfold applyTransform toArray
  simp only
  rw [if_neg (by simp), if_neg (by simp [List.all_eq_true, PyFloat.isFinite])]
  congr 1
  funext t i
  simp [PyFloat.val]

/-- `linear_map(scale=s, mean_shift=b)` without a matrix is `linear_map` with the identity matrix. -/
theorem linearMap_scale_shift (s : ℝ) (b : Fin N → ℝ) (R : Fin T → Fin N → ℝ) :
    linearMap (1 : Matrix (Fin N) (Fin N) ℝ) (some s) (some (List.ofFn b)) R = .ok (fun t i => R t i * s + b i) := by
  unfold linearMap
  simp only
  rw [if_neg (by simp)]
  congr 1
  funext t i
  simp [Matrix.one_apply, toVec]

/-- **C80** `stress_test` with `transform=linear_map(scale=s, mean_shift=b)`, `s ≥ 0`: every stressed row is the nominal row with the mean
mapped to `s mean + w·b`, the standard deviation to `s stdev`, and VaR and CVaR to `s VaR - w·b` and `s CVaR - w·b` (to `s VaR`,
`s CVaR` when demeaned); the effective number of scenarios is unchanged and no KL is reported. -/
theorem C80_linear_stress {argsort : (Fin T → ℝ) → Equiv.Perm (Fin T)} (hsort : Risk.IsArgsort argsort) (rows : List (Fin M → ℝ))
    (R : Fin T → Fin N → ℝ) (assets : Option (List String)) (probabilities : Option (List (PyFloat ℝ))) (conf : ℝ) (demean : Bool)
    (s : ℝ) (hs : 0 ≤ s) (b : Fin N → ℝ) (transform : Transform T N)
    (ht : ∀ R X, linearMap (1 : Matrix (Fin N) (Fin N) ℝ) (some s) (some (List.ofFn b)) R = .ok X → transform R = toArray X)
    (rep : StressReport) (p : List ℝ) (hr : Probs.resolve probabilities T false = .ok p) (hp : IsProb (toVec T p))
    (h : stressTest argsort (.plain rows) R assets probabilities none (some transform) conf demean = .ok rep) :
    rep.kl = none ∧ ∃ ms, rep.stressed = some ms ∧ ms.length = M ∧ rep.nominal.length = M ∧
      ∀ (m : Fin M) (hm : (m : ℕ) < rep.nominal.length) (hm' : (m : ℕ) < ms.length),
        let shift := ∑ i : Fin N, b i * ((rows[(i : ℕ)]?).getD 0) m
        ms[(m : ℕ)].mean = s * rep.nominal[(m : ℕ)].mean + shift ∧ ms[(m : ℕ)].stdev = s * rep.nominal[(m : ℕ)].stdev ∧
        ms[(m : ℕ)].var = s * rep.nominal[(m : ℕ)].var - (if demean then 0 else shift) ∧
        ms[(m : ℕ)].cvar = s * rep.nominal[(m : ℕ)].cvar - (if demean then 0 else shift) ∧
        ms[(m : ℕ)].ens = rep.nominal[(m : ℕ)].ens := by
  have hl : p.length = T := by exact_mod_cast (C16_resolve _ _ _ _ hr).1
  have htr : transform = fun R => toArray (fun t i => R t i * s + b i) :=
    funext (fun R => ht R _ (linearMap_scale_shift s b R))
  subst htr
  have hconf : 0 < conf ∧ conf < 1 := by
    by_contra hc
    unfold stressTest at h
    rw [if_pos hc] at h
    cases h
  obtain ⟨W, hW, hnom, -⟩ := C79_stress_nominal hsort _ _ _ _ _ _ _ _ _ _ hr hp h
  obtain ⟨W', hW', ⟨ms, hms, hstr⟩, hkl⟩ := C79_stress_stressed hsort _ _ _ _ _ _ _ _ _ _ _ p hr rfl hp hl
    (toArray_transform (X := fun R t i => R t i * s + b i) R) (.inr rfl) h
  have hWrow : ∀ (W : Fin M → Fin N → ℝ), WeightsAre (.plain rows) assets W → ∀ m i, W m i = ((rows[(i : ℕ)]?).getD 0) m := by
    intro W hW m i
    have : rows = List.ofFn (fun i m => W m i) := hW
    rw [this]
    simp
  have hWW : W = W' := by
    funext m i
    rw [hWrow W hW, hWrow W' hW']
  subst hWW
  rw [List.forall₂_iff_get] at hnom hstr
  refine ⟨hkl, ms, hms, by simpa using hstr.1.symm, by simpa using hnom.1.symm, fun m hm hm' => ?_⟩
  have d1 := hnom.2 m (by simp) hm
  have d2 := hstr.2 m (by simp) hm'
  simp only [List.get_eq_getElem, List.getElem_finRange, Fin.cast_mk, Fin.eta] at d1 d2
  have e : pnlOf (fun t i => R t i * s + b i) (W m) = fun t => s * pnlOf R (W m) t + ∑ i, b i * W m i := by
    funext t
    unfold pnlOf
    rw [Finset.mul_sum, ← Finset.sum_add_distrib]
    exact Finset.sum_congr rfl (fun i _ => by ring)
  rw [e] at d2
  have := C80_affine_report hp hconf.1 hconf.2 hs d1 d2
  simp only [hWrow W hW] at this
  exact this

/-- **C80** stressing with the nominal probabilities themselves changes nothing: the stressed rows equal the nominal rows and the
reported KL divergence is zero. -/
theorem C80_null_stress {argsort : (Fin T → ℝ) → Equiv.Perm (Fin T)} (w : Weights M ℝ)
    (R : Fin T → Fin N → ℝ) (assets : Option (List String)) (probabilities : List (PyFloat ℝ)) (conf : ℝ) (demean : Bool)
    (rep : StressReport)
    (h : stressTest argsort w R assets (some probabilities) (some probabilities) none conf demean = .ok rep) :
    rep.stressed = some rep.nominal ∧ rep.kl = some 0 := by
  unfold stressTest at h
  split at h
  · cases h
  split at h
  · cases h
  rename_i p hr
  simp only at h
  split at h
  · cases h
  split at h
  · cases h
  split at h
  · cases h
  rename_i nominal hnom
  unfold stressPart applyTransform stressedProbs at h
  simp only [Option.isNone_some, Bool.false_and, Bool.false_eq_true, if_false, hr, hnom, Option.isSome_some, if_true] at h
  injection h with h
  subst h
  refine ⟨rfl, ?_⟩
  simp only [Option.some.injEq]
  unfold klDivergence
  refine Finset.sum_eq_zero (fun t _ => ?_)
  simp only
  rw [div_self (ne_of_gt (lt_of_lt_of_le (by norm_num) (le_max_right _ _))), Real.log_one, mul_zero]

/-! ## C78: every accepted weighting gives a report -/

theorem varIndex_some (hT : 0 < T) (p : Fin T → ℝ) (σ : Equiv.Perm (Fin T)) (conf : ℝ) : ∃ k, Risk.varIndex p σ conf = some k := by
  unfold Risk.varIndex Risk.boolArgmax
  split
  · exact ⟨_, rfl⟩
  · obtain ⟨n, rfl⟩ : ∃ n, T = n + 1 := ⟨T - 1, by omega⟩
    rw [List.finRange_succ]
    exact ⟨_, rfl⟩

theorem metrics_total (hT : 0 < T) (argsort : (Fin T → ℝ) → Equiv.Perm (Fin T)) (R : Fin T → Fin N → ℝ) {p : List ℝ}
    (hl : p.length = T) (h0 : ∀ x ∈ p, 0 ≤ x) (h1 : |p.sum - 1| ≤ 1 / 10 ^ 5 + 1 / 10 ^ 8) {conf : ℝ} (hc : 0 < conf ∧ conf < 1)
    (demean : Bool) (W : Fin M → Fin N → ℝ) : ∃ l, metrics argsort R p conf demean W = .ok l ∧ l.length = M := by
  have hm : ∃ mom, Mom.estimateSampleMoments R (fun i : Fin p.length => p[i]) = .ok mom := by
    rw [moments_cast hl]
    unfold Mom.estimateSampleMoments
    rw [dif_pos rfl, if_pos]
    · exact ⟨_, rfl⟩
    constructor
    · intro t
      show -(1 / 10 ^ 9) ≤ toVec T p t
      rw [toVec_eq hl]
      have := h0 _ (List.getElem_mem (by omega : (t : ℕ) < p.length))
      have h9 : (0 : ℝ) ≤ 1 / 10 ^ 9 := by positivity
      linarith
    · unfold Valid.sumToOne
      have : ∑ t : Fin T, toVec T p (t.cast rfl) = p.sum := by
        subst hl
        simp [toVec]
      rw [this]
      refine h1.trans ?_
      norm_num
  obtain ⟨mom, hmom⟩ := hm
  have hv : ∀ w, ∃ r, metricsOf argsort R (toVec T p) conf demean mom w = .ok r := by
    intro w
    unfold metricsOf Risk.portfolioVar Risk.portfolioCvar Risk.checkConf
    simp only [Option.getD_some, hc, and_self, if_true]
    obtain ⟨k, hk⟩ := varIndex_some hT (Risk.scenarioProbs (some (toVec T p)))
      (argsort (Risk.pnl (Risk.maybeDemean demean (Risk.scenarioProbs (some (toVec T p))) R) w)) conf
    rw [hk]
    exact ⟨_, rfl⟩
  choose g hg using hv
  refine ⟨(List.finRange M).map (fun m => g (W m)), ?_, by simp⟩
  unfold metrics
  rw [hmom]
  exact mapE_ok_of (fun m _ => hg (W m))

/-- **C78** for every weighting `resolve_probabilities` accepts (including unnormalised ones close to one), every confidence in (0, 1)
and weights with one row per asset, `stress_test` and `performance_report` return a report with one row per portfolio. -/
theorem C78_accepts (argsort : (Fin T → ℝ) → Equiv.Perm (Fin T)) (rows : List (Fin M → ℝ)) (hrows : rows.length = N)
    (R : Fin T → Fin N → ℝ) (names : Option (List String)) (hn : ∀ l, names = some l → l.length = N)
    (probabilities : Option (List (PyFloat ℝ))) (p : List ℝ) (hr : Probs.resolve probabilities T false = .ok p)
    (conf : ℝ) (hc : 0 < conf ∧ conf < 1) (demean : Bool) :
    (∃ rep, stressTest argsort (.plain rows) R names probabilities none none conf demean = .ok rep ∧ rep.nominal.length = M) ∧
      (M = 1 → ∃ r, performanceReport argsort (.plain rows) R names probabilities conf demean = .ok r) := by
  obtain ⟨c1, c2, c3, -⟩ := C16_resolve _ _ _ _ hr
  have hl : p.length = T := by exact_mod_cast c1
  have hT : 0 < T := by
    rcases Nat.eq_zero_or_pos T with rfl | h
    · have : p = [] := List.length_eq_zero_iff.mp hl
      subst this
      norm_num at c3
    · exact h
  constructor
  · obtain ⟨l, h1, h2⟩ := metrics_total hT argsort R hl c2 c3 hc demean (fun m (i : Fin N) => ((rows[(i : ℕ)]?).getD 0) m)
    have ha : alignWeights (.plain rows) names = .ok rows := by
      cases names with
      | none => rfl
      | some l => simp [alignWeights, hrows, hn l rfl]
    unfold stressTest
    rw [if_neg (by simpa using hc), hr]
    simp only
    rw [ha]
    simp only
    rw [if_neg (by simp [hrows]), h1]
    simp only [stressPart, applyTransform]
    exact ⟨_, rfl, h2⟩
  · rintro rfl
    obtain ⟨l, h1, h2⟩ := metrics_total hT argsort R hl c2 c3 hc demean
      (fun (m : Fin 1) (i : Fin N) => ((((rows.map some)[(i : ℕ)]?).getD none).getD 0) m)
    obtain ⟨r, rfl⟩ := List.length_eq_one_iff.mp h2
    unfold performanceReport
    rw [if_neg (by simpa using hc), hr]
    simp only [ne_eq, not_true_eq_false, if_false]
    have ht : toRows (.plain rows) names = .ok (rows.map some) := by cases names <;> rfl
    rw [ht]
    simp only
    rw [if_neg (by simp), if_neg (by simp [hrows]), h1]
    exact ⟨_, rfl⟩

/-- The default weighting is always accepted. -/
example : Probs.resolve (none : Option (List (PyFloat ℝ))) ((3 : ℕ) : ℤ) false = .ok (List.replicate 3 (1 / ((3 : ℕ) : ℤ))) := by
  simp [Probs.resolve, Probs.uniform]

/-! ## C81: invariant-level stress tests and labels -/

theorem uniform_toVec {S : ℕ} {p : List ℝ} (h : Probs.resolve (none : Option (List (PyFloat ℝ))) S false = .ok p) : IsProb (toVec S p) := by
  obtain ⟨c1, c2, -, c4⟩ := C16_resolve _ _ _ _ h
  have hl : p.length = S := by exact_mod_cast c1
  refine ⟨fun t => ?_, ?_⟩
  · rw [toVec_eq hl]; exact c2 _ (List.getElem_mem _)
  · rw [← (c4 rfl).1]
    subst hl
    simp [toVec]

end PyV.Props
