import Verif.Props.DiscreteCompare
import Mathlib.Tactic

/-! # Property C232: finer lots never track worse -/

set_option linter.unusedSectionVars false

namespace PyV.Props

open PyV PyV.Discrete PyV.Spec.Discrete

variable {K : Type*} [Field K] [LinearOrder K] [IsStrictOrderedRing K] [FloorRing K]
variable {weights prices : List (String × K)} {total : K} {lots lots' : Option (List (String × ℤ))}

/-- What a validated input looks like. -/
theorem mkInput_rows {inp : Input K} (h : mkInput weights prices total lots = .ok inp) :
    ∃ hs, inp = ofRows (alignRows (kept weights) prices lots) ((kept weights).map Prod.snd).sum total hs := by
  unfold mkInput at h
  have hk : (weights.filter fun p => !isclose0 p.2) = kept weights := filter_eq_kept weights
  have hw : ((alignRows (kept weights) prices lots).map Row.w) = (kept weights).map Prod.snd := by
    unfold alignRows
    rw [List.map_map]
    rfl
  simp only [hk, hw] at h
  split_ifs at h
  injection h with h
  exact ⟨_, h.symm⟩

/-- Every lot size of the first list is a multiple of the lot size of the second (for the assets with a weight). -/
def Refines (weights : List (String × K)) (lots' lots : Option (List (String × ℤ))) : Prop :=
  ∀ p ∈ kept weights, lotSize lots' p.1 ∣ lotSize lots p.1

/-- **C232** Finer lots never track worse: if every lot size is a multiple of the new one, the mixed-integer allocation with the new lots succeeds as well and its
tracking error in currency plus the penalised cash is not larger, so without a cash penalty its tracking error is not larger. -/
theorem C232_finer_lots {milp : String} (hm : milp.toLower = "milp" ∨ milp.toLower = "mip" ∨ milp.toLower = "integer" ∨ milp.toLower = "lp")
    (hv : Valid weights prices total lots) (hv' : Valid weights prices total lots') (hl : LongOnly weights) (href : Refines weights lots' lots)
    (maxIter : Option ℤ) (mode : Mode) (sortBy : (inp : Input K) → Equiv.Perm (Fin inp.n)) (solve : (inp : Input K) → Option (MipPoint K inp.n)) {cp : K}
    (hs : SolvesExactly cp solve) :
    ∃ coarse fine, discretize weights prices total lots milp maxIter mode sortBy solve = .ok coarse ∧
      discretize weights prices total lots' milp maxIter mode sortBy solve = .ok fine ∧
      total * fine.trackingError + cp * fine.leftover ≤ total * coarse.trackingError + cp * coarse.leftover ∧
      (cp = 0 → fine.trackingError ≤ coarse.trackingError) := by
  have hpm : parseMethod milp = .ok .milp := by
    unfold parseMethod
    rw [if_neg (by rcases hm with h | h | h | h <;> rw [h] <;> decide), if_pos hm]
  obtain ⟨inp, hin⟩ := (C07_validation_iff.1).mpr hv
  obtain ⟨inp', hin'⟩ := (C07_validation_iff.1).mpr hv'
  obtain ⟨p, hp, ho⟩ := hs inp (C08_milp_optimal inp hin hl cp).1
  obtain ⟨p', hp', ho'⟩ := hs inp' (C08_milp_optimal inp' hin' hl cp).1
  have ha := accepted_of_mkInput hin
  have ha' := accepted_of_mkInput hin'
  obtain ⟨r, hr, -, -, h1, h2⟩ := mip_result_le (cp := cp) ha ho.1
  obtain ⟨r', hr', hbest⟩ := (C08_milp_optimal inp' hin' hl cp).2 p' ho'
  have hx : ∀ i, 0 ≤ p.x i := by
    intro i
    have := ho.1.xlb i
    unfold Input.lotLb at this
    rwa [if_pos (ha.nonneg ((longOnly_iff hin).mpr hl) i)] at this
  have hpos' := ha'.lot
  have hr0 := ho.1.rlb
  have hbud : lotsCost inp p.x ≤ inp.total := by
    have := ho.1.budget
    unfold Input.ppl at this
    unfold lotsCost
    linarith
  have key : total * r'.trackingError + cp * r'.leftover ≤ total * r.trackingError + cp * r.leftover := by
    obtain ⟨b, rfl⟩ := mkInput_rows hin
    obtain ⟨b', rfl⟩ := mkInput_rows hin'
    have hlen : (alignRows (kept weights) prices lots').length = (alignRows (kept weights) prices lots).length := by
      unfold alignRows; rw [List.length_map, List.length_map]
    let c : Fin (alignRows (kept weights) prices lots').length ≃ Fin (alignRows (kept weights) prices lots).length := finCongr hlen
    have hrow : ∀ i, ((alignRows (kept weights) prices lots').get i).price = ((alignRows (kept weights) prices lots).get (c i)).price ∧
        ((alignRows (kept weights) prices lots').get i).w = ((alignRows (kept weights) prices lots).get (c i)).w ∧
        ((alignRows (kept weights) prices lots').get i).lot ∣ ((alignRows (kept weights) prices lots).get (c i)).lot := by
      intro i
      have hi : (i : ℕ) < (kept weights).length := by
        exact lt_of_lt_of_eq i.2 (by unfold alignRows; rw [List.length_map])
      have hmem : (kept weights)[(i : ℕ)] ∈ kept weights := List.getElem_mem hi
      have hd := href _ hmem
      have hg : ∀ (l : Option (List (String × ℤ))) (k : Fin (alignRows (kept weights) prices l).length), (k : ℕ) = i →
          (alignRows (kept weights) prices l).get k = ⟨((kept weights)[(i : ℕ)]).1, ((kept weights)[(i : ℕ)]).2, (prices.lookup ((kept weights)[(i : ℕ)]).1).getD 0,
            lotOf l ((kept weights)[(i : ℕ)]).1⟩ := by
        intro l k hk
        obtain ⟨k, hk'⟩ := k
        dsimp only at hk
        subst hk
        exact List.getElem_map ..
      rw [hg lots' i rfl, hg lots (c i) rfl, lotOf_eq, lotOf_eq]
      exact ⟨rfl, rfl, hd⟩
    choose hprice hw m hm' using hrow
    let y : Fin (alignRows (kept weights) prices lots').length → ℤ := fun i => m i * p.x (c i)
    have hm0 : ∀ i, 0 ≤ m i := by
      intro i
      have h1 : 0 < ((alignRows (kept weights) prices lots).get (c i)).lot := ha.lot (c i)
      have h2 : 0 < ((alignRows (kept weights) prices lots').get i).lot := hpos' i
      rw [hm' i] at h1
      exact (pos_of_mul_pos_right h1 h2.le).le
    have hterm : ∀ i, (((alignRows (kept weights) prices lots').get i).price * ((alignRows (kept weights) prices lots').get i).lot) * ((y i : ℤ) : K) =
        (((alignRows (kept weights) prices lots).get (c i)).price * ((alignRows (kept weights) prices lots).get (c i)).lot) * ((p.x (c i) : ℤ) : K) := by
      intro i
      show _ * ((m i * p.x (c i) : ℤ) : K) = _
      rw [hm' i, hprice i]
      push_cast
      ring
    have hcost : lotsCost (ofRows (alignRows (kept weights) prices lots') ((kept weights).map Prod.snd).sum total b') y =
        lotsCost (ofRows (alignRows (kept weights) prices lots) ((kept weights).map Prod.snd).sum total b) p.x := by
      exact Fintype.sum_equiv c _ _ hterm
    have hdev : l1Dollar (ofRows (alignRows (kept weights) prices lots') ((kept weights).map Prod.snd).sum total b') y =
        l1Dollar (ofRows (alignRows (kept weights) prices lots) ((kept weights).map Prod.snd).sum total b) p.x := by
      refine Fintype.sum_equiv c _ _ fun i => ?_
      show |_ - ((alignRows (kept weights) prices lots').get i).w / _ * total| = |_ - ((alignRows (kept weights) prices lots).get (c i)).w / _ * total|
      rw [← hw i]
      exact congrArg (fun z => |z - _|) (hterm i)
    have := hbest y (fun i => mul_nonneg (hm0 i) (hx _)) (by rw [hcost]; exact hbud)
    rw [hcost, hdev, ← h2] at this
    have e : r.leftover = total - lotsCost (ofRows (alignRows (kept weights) prices lots) ((kept weights).map Prod.snd).sum total b) p.x := h1
    rw [e]
    exact this
  refine ⟨r, r', ?_, ?_, key, fun h0 => ?_⟩
  · unfold discretize
    simp only [hin, hpm, hp]
    exact hr
  · unfold discretize
    simp only [hin', hpm, hp']
    exact hr'
  · rw [h0, zero_mul, zero_mul, add_zero, add_zero] at key
    exact le_of_mul_le_mul_left key hv.total_pos

/-- The example call of C01 with lots of ten of A, and the same call with single shares, meet the hypotheses. -/
example : ∃ (solve : (inp : Input ℚ) → Option (MipPoint ℚ inp.n)), SolvesExactly 0 solve ∧
    ∃ coarse fine, discretize exW exP 1000 exLots "milp" none .none (fun _ => Equiv.refl _) solve = .ok coarse ∧
      discretize exW exP 1000 (some [("A", 5)]) "milp" none .none (fun _ => Equiv.refl _) solve = .ok fine ∧ fine.trackingError ≤ coarse.trackingError := by
  classical
  have hs : SolvesExactly (K := ℚ) 0 (fun inp => if h : ∃ p, MipOptimal inp 0 none p then some h.choose else none) := by
    intro inp ⟨q, hq⟩
    have h := C08_optimum_exists inp 0 none q hq
    exact ⟨h.choose, dif_pos h, h.choose_spec⟩
  refine ⟨_, hs, ?_⟩
  have hv' : Valid exW exP 1000 (some [("A", 5)]) := by
    refine { exValid with lot_pos := ?_ }
    have : ∀ p ∈ kept exW, 0 < lotSize (some [("A", 5)]) p.1 := by decide +kernel
    exact this
  have hr : ∀ p ∈ kept exW, lotSize (some [("A", 5)]) p.1 ∣ lotSize exLots p.1 := by decide +kernel
  obtain ⟨c, f, h1, h2, -, h4⟩ := C232_finer_lots (milp := "milp") (Or.inl (by decide +kernel)) exValid hv' exLong hr none .none (fun _ => Equiv.refl _) _ hs
  exact ⟨c, f, h1, h2, h4 rfl⟩

end PyV.Props
