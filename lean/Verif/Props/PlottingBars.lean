import Verif.Props.Plotting
import Verif.Props.FrontierEnsembles

/-! # Properties C174 and C175: bars of weights and parameter panels -/

namespace PyV.Props

open PyV PyV.Ens PyV.Fr PyV.Plot PyV.Spec.Frontier PyV.Spec.Plot

variable {K : Type*} [Field K] [LinearOrder K] [IsStrictOrderedRing K]

/-- `Series.sort_values`: a reordering of the entries, by value, upwards or downwards; the order of equal values is unspecified. -/
def IsSortValues {α : Type*} (sortValues : Bool → List (α × K) → List (α × K)) : Prop :=
  ∀ b l, (sortValues b l).Perm l ∧ (sortValues b l).Pairwise (fun x y => if b then x.2 ≤ y.2 else y.2 ≤ x.2)

private theorem largest_drop {α : Type*} {l s : List (α × K)} (hp : l.Perm s) (hs : l.Pairwise (fun x y => x.2 ≤ y.2)) (k n : ℕ)
    (hk : l.length - k = min n s.length) : Largest n s (l.drop k) := by
  refine ⟨by rw [List.length_drop, hk], l.take k, ?_, ?_⟩
  · refine hp.symm.trans ?_
    conv_lhs => rw [← List.take_append_drop k l]
    exact List.perm_append_comm
  · rw [← List.take_append_drop k l, List.pairwise_append] at hs
    exact fun a ha b hb => hs.2.2 b hb a ha

private theorem largest_take {α : Type*} {l s : List (α × K)} (hp : l.Perm s) (hs : l.Pairwise (fun x y => y.2 ≤ x.2)) (k n : ℕ)
    (hk : min k l.length = min n s.length) : Largest n s (l.take k) := by
  refine ⟨by rw [List.length_take, hk], l.drop k, ?_, ?_⟩
  · refine hp.symm.trans ?_
    rw [List.take_append_drop k l]
  · rw [← List.take_append_drop k l, List.pairwise_append] at hs
    exact fun a ha b hb => hs.2.2 a ha b hb

private theorem cut_sublist {α : Type*} (b : Bool) (topN : Option ℤ) (l : List α) : (cut b topN l).Sublist l := by
  unfold cut
  cases topN with
  | none => exact List.Sublist.refl _
  | some n =>
    simp only
    split
    · unfold tailN; split <;> exact List.drop_sublist _ _
    · unfold headN; split <;> exact List.take_sublist _ _

/-- **C174** `plot_weights(weights, top_n=n, kind=...)` draws the `n` largest weights (all of them without `top_n`, all but the `-n` smallest for
a negative `n`), each with its own label, from smallest to largest for `barh` and from largest to smallest otherwise. -/
theorem C174_top_n {α : Type*} {sortValues : Bool → List (α × K) → List (α × K)} (hs : IsSortValues sortValues) (kind : String)
    (s : List (α × K)) (n : ℕ) :
    Largest n s (plotWeights sortValues kind (some n) s) ∧
    (0 < n → Largest (s.length - n) s (plotWeights sortValues kind (some (-n)) s)) ∧
    (plotWeights sortValues kind none s).Perm s ∧
    ∀ topN, (plotWeights sortValues kind topN s).Pairwise (fun x y => if kind = "barh" then x.2 ≤ y.2 else y.2 ≤ x.2) := by
  have hlen : ∀ b, (sortValues b s).length = s.length := fun b => (hs b s).1.length_eq
  by_cases hk : kind = "barh"
  · have hb : decide (kind = "barh") = true := by simp [hk]
    have hsort : (sortValues true s).Pairwise (fun x y => x.2 ≤ y.2) := by simpa using (hs true s).2
    refine ⟨?_, fun hn => ?_, ?_, fun topN => ?_⟩
    · simp only [plotWeights, hb, cut, if_true, tailN, Int.natCast_nonneg, Int.toNat_natCast]
      exact largest_drop (hs true s).1 hsort _ _ (by rw [hlen]; omega)
    · have hneg : ¬ (0 : ℤ) ≤ -(n : ℤ) := by omega
      simp only [plotWeights, hb, cut, if_true, tailN, if_neg hneg, neg_neg, Int.toNat_natCast]
      exact largest_drop (hs true s).1 hsort _ _ (by rw [hlen]; omega)
    · simp only [plotWeights, hb, cut]
      exact (hs true s).1
    · simp only [plotWeights, hb, hk, if_true]
      exact hsort.sublist (cut_sublist _ _ _)
  · have hb : decide (kind = "barh") = false := by simp [hk]
    have hsort : (sortValues false s).Pairwise (fun x y => y.2 ≤ x.2) := by simpa using (hs false s).2
    refine ⟨?_, fun hn => ?_, ?_, fun topN => ?_⟩
    · simp only [plotWeights, hb, cut, Bool.false_eq_true, if_false, if_true, headN, Int.natCast_nonneg, Int.toNat_natCast]
      exact largest_take (hs false s).1 hsort _ _ (by rw [hlen])
    · have hneg : ¬ (0 : ℤ) ≤ -(n : ℤ) := by omega
      simp only [plotWeights, hb, cut, Bool.false_eq_true, if_false, headN, if_neg hneg, neg_neg, Int.toNat_natCast]
      exact largest_take (hs false s).1 hsort _ _ (by rw [hlen])
    · simp only [plotWeights, hb, cut]
      exact (hs false s).1
    · simp only [plotWeights, hb, hk, if_false]
      exact hsort.sublist (cut_sublist _ _ _)

/-- Non-vacuity: a sorting routine exists, and the two largest of three weights. -/
example : ∃ sortValues : Bool → List (String × ℚ) → List (String × ℚ), IsSortValues sortValues := by
  refine ⟨fun b l => l.mergeSort (fun x y => if b then decide (x.2 ≤ y.2) else decide (y.2 ≤ x.2)), fun b l => ⟨List.mergeSort_perm _ _, ?_⟩⟩
  cases b
  · have := List.pairwise_mergeSort (le := fun x y : String × ℚ => decide (y.2 ≤ x.2)) (by intro a b c; simp; exact fun h1 h2 => h2.trans h1)
      (by intro a b; simpa using le_total _ _) l
    simpa using this
  · have := List.pairwise_mergeSort (le := fun x y : String × ℚ => decide (x.2 ≤ y.2)) (by intro a b c; simp; exact fun h1 h2 => h1.trans h2)
      (by intro a b; simpa using le_total _ _) l
    simpa using this

/-! ## Parameter panels -/

/-- Every portfolio of the frontier carries one finite value `v j` of the parameter. -/
def Carries (it : Item K) (param : String) (v : Fin it.held.m → K) : Prop :=
  ∃ md, it.metadata = some md ∧ md.length = it.held.m ∧ ∀ (j : Fin it.held.m) (d : List (String × PyFloat K)),
    md[(j : ℕ)]? = some d → d.lookup param = some (.fin (v j))

/-- `np.argsort`: the positions in an order in which the values do not decrease; the order of ties is unspecified. -/
def SortsPositions (argsort : List K → List ℕ) : Prop :=
  ∀ vs, (argsort vs).Perm (List.range vs.length) ∧ ((argsort vs).map (fun i => vs.getD i 0)).Pairwise (· ≤ ·)

private theorem values_of {it : Item K} {param : String} {v : Fin it.held.m → K} (h : Carries it param v) :
    finiteParams it param = .ok (List.ofFn v) := by
  obtain ⟨md, hmd, hlen, hv⟩ := h
  have hp : paramValues md param = List.ofFn (fun j => PyFloat.fin (v j)) := by
    apply List.ext_getElem (by simp [paramValues, hlen])
    intro k h1 h2
    have hk : k < it.held.m := by simpa using h2
    have := hv ⟨k, hk⟩ (md[k]'(by omega)) (List.getElem?_eq_getElem (by omega))
    simp [paramValues, this]
  unfold finiteParams
  rw [hmd]
  simp only [hp]
  rw [if_pos]
  · congr 1
    rw [List.map_ofFn]
    rfl
  · rw [List.all_eq_true]
    intro x hx
    obtain ⟨j, rfl⟩ := (List.mem_ofFn' _ _).mp hx
    rfl

private theorem perm_of {M : ℕ} {o : List ℕ} (h : o.Perm (List.range M)) : ∃ σ : Equiv.Perm (Fin M), o = List.ofFn (fun j => (σ j : ℕ)) := by
  have hlen : o.length = M := by rw [h.length_eq, List.length_range]
  have hnd : o.Nodup := h.nodup_iff.mpr List.nodup_range
  have hlt : ∀ j : Fin M, o[(j : ℕ)]'(by omega) < M := fun j => List.mem_range.mp (h.mem_iff.mp (List.getElem_mem _))
  have hinj : Function.Injective (fun j : Fin M => (⟨o[(j : ℕ)]'(by omega), hlt j⟩ : Fin M)) := by
    intro i j hij
    have := congrArg Fin.val hij
    exact Fin.ext ((List.Nodup.getElem_inj_iff hnd).mp this)
  refine ⟨Equiv.ofBijective _ (Finite.injective_iff_bijective.mp hinj), ?_⟩
  apply List.ext_getElem (by simp [hlen])
  intro k h1 h2
  simp

private theorem take_all {M : ℕ} (u : Fin M → K) (σ : Equiv.Perm (Fin M)) :
    mapE (take u) (List.ofFn (fun j => (σ j : ℕ))) = .ok (List.ofFn (fun j => u (σ j))) := by
  rw [mapE_iff]
  exact forall₂_ofFn fun j => by simp [take]

private theorem params_bad {it : Item K} {param : String}
    (h : it.metadata = none ∨ ∃ md, it.metadata = some md ∧ ∃ d ∈ md, ∀ x, d.lookup param ≠ some (.fin x)) :
    finiteParams it param = .error .valueError := by
  rcases h with h | ⟨md, h, d, hd, hx⟩
  · unfold finiteParams; rw [h]
  · unfold finiteParams
    rw [h]
    simp only
    rw [if_neg]
    rw [List.all_eq_true]
    intro hall
    have := hall _ (List.mem_map.mpr ⟨d, hd, rfl⟩)
    cases hl : d.lookup param with
    | none => rw [hl] at this; cases this
    | some y =>
      rw [hl] at this
      cases y with
      | fin x => exact hx x hl
      | _ => cases this

/-- **C175** `plot_param_impact` draws every portfolio of the frontier once in each panel, at its own parameter value and with its own return and
risk, from the smallest parameter to the largest. -/
theorem C175_param_impact {argsort : List K → List ℕ} (hs : SortsPositions argsort) {it : Item K} {param : String} {v : Fin it.held.m → K}
    (hv : Carries it param v) {riskLabel : Option String} {r : Fin it.held.m → K} (hr : RiskUnder it.held.f riskLabel r) :
    ∃ σ : Equiv.Perm (Fin it.held.m), paramImpact argsort it param riskLabel =
      .ok (List.ofFn (fun j => (v (σ j), it.held.f.returns (σ j))), List.ofFn (fun j => (v (σ j), r (σ j)))) ∧ Monotone (v ∘ σ) := by
  have hvals := values_of hv
  obtain ⟨hp, hmono⟩ := hs (List.ofFn v)
  obtain ⟨σ, hσ⟩ := perm_of (M := it.held.m) (by simpa using hp)
  refine ⟨σ, ?_, ?_⟩
  · unfold paramImpact
    rw [hvals]
    simp only [hσ, riskVector_ok.mpr hr, take_all]
    congr 1
    refine Prod.ext ?_ ?_ <;>
    · apply List.ext_getElem (by simp)
      intro k h1 h2
      simp [List.getD_eq_getElem?_getD]
  · rw [hσ] at hmono
    intro i j hij
    rcases eq_or_lt_of_le hij with rfl | hlt
    · exact le_rfl
    · have := List.pairwise_iff_getElem.mp hmono i j (by simp) (by simp) hlt
      simpa [List.getD_eq_getElem?_getD] using this

/-- **C175** (errors) Without metadata, or when some portfolio lacks a finite value of the parameter, `plot_param_impact` and
`plot_robust_surface` raise `ValueError`. -/
theorem C175_errors (argsort : List K → List ℕ) (it : Item K) (param : String) (riskLabel : Option String)
    (h : it.metadata = none ∨ ∃ md, it.metadata = some md ∧ ∃ d ∈ md, ∀ x, d.lookup param ≠ some (.fin x)) :
    paramImpact argsort it param riskLabel = .error .valueError ∧ robustSurface it param riskLabel = .error .valueError := by
  have hbad : finiteParams it param = .error .valueError := params_bad h
  exact ⟨by simp [paramImpact, hbad], by simp [robustSurface, hbad]⟩

/-- **C175** `plot_robust_surface` draws the points (parameter, risk, return) of every portfolio, and `plot_robust_path` colours each portfolio by
its parameter; without finite parameters for all, by its position. -/
theorem C175_surface {it : Item K} {param : String} {riskLabel : Option String} {r : Fin it.held.m → K} (hr : RiskUnder it.held.f riskLabel r) :
    (∀ v, Carries it param v → robustSurface it param riskLabel = .ok (List.ofFn (fun j => (v j, r j, it.held.f.returns j))) ∧
      (0 < it.held.m → pathColours it param = List.ofFn v)) ∧
    ((it.metadata = none ∨ it.metadata = some [] ∨ ∃ md, it.metadata = some md ∧ ∃ d ∈ md, ∀ x, d.lookup param ≠ some (.fin x)) →
      pathColours it param = List.ofFn (fun j : Fin it.held.m => ((j : ℕ) : K) / ((it.held.m : K) - 1))) := by
  refine ⟨fun v hv => ⟨?_, fun hM => ?_⟩, fun h => ?_⟩
  · unfold robustSurface
    rw [values_of hv]
    simp only [riskVector_ok.mpr hr, List.length_ofFn, if_true]
    congr 1
    apply List.ext_getElem (by simp [points])
    intro k h1 h2
    simp [points]
  · unfold pathColours
    rw [values_of hv]
    cases hl : List.ofFn v with
    | nil => have := congrArg List.length hl; simp at this; omega
    | cons a t => rfl
  · rcases h with h | h | h
    · unfold pathColours; rw [params_bad (Or.inl h)]
    · have : finiteParams it param = .ok [] := by simp [finiteParams, h, paramValues]
      unfold pathColours; rw [this]
    · unfold pathColours; rw [params_bad (Or.inr h)]

/-- Non-vacuity: a robust frontier of two portfolios listed with the larger parameter first. -/
example : Carries (⟨⟨1, 2, none, ⟨fun _ _ => 1, ![1, 2], ![3, 4], "Volatility", []⟩⟩,
    some [[("lambda", .fin 5)], [("lambda", .fin 1)]]⟩ : Item ℚ) "lambda" ![5, 1] := by
  refine ⟨_, rfl, rfl, ?_⟩
  show ∀ j : Fin 2, _
  intro j d
  fin_cases j <;> (intro h; injection h with h; subst h; rfl)

end PyV.Props
