import Verif.Props.DiscreteOptions
import Mathlib.Tactic

/-! # Property C254: assets without weight do not matter to the allocation -/

namespace PyV.Props

open PyV PyV.Discrete PyV.Spec.Discrete

variable {K : Type*} [Field K] [LinearOrder K] [IsStrictOrderedRing K] [FloorRing K]
variable {weights weights' prices prices' : List (String × K)} {total : K} {lots lots' : Option (List (String × ℤ))}

private theorem mkInput_kept (hp : ∀ p ∈ weights, (prices.lookup p.1).isSome) :
    mkInput weights prices total lots =
      (let rows := alignRows (kept weights) prices lots
       if (kept weights).isEmpty then .error .valueError
       else if rows.any (fun r => decide (r.price ≤ 0)) then .error .valueError
       else if total ≤ 0 then .error .valueError
       else if rows.any (fun r => decide (r.lot ≤ 0)) then .error .valueError
       else if (rows.map Row.w).sum ≤ 0 then .error .valueError
       else .ok (ofRows rows (rows.map Row.w).sum total ((kept weights).any fun p => decide (p.2 < 0)))) := by
  unfold mkInput
  rw [filter_eq_kept]
  dsimp only
  have hany : weights.any (fun p => (prices.lookup p.1).isNone) = false := by
    rw [List.any_eq_false]
    intro p h
    have := hp p h
    cases e : prices.lookup p.1 <;> simp_all
  cases hw : weights with
  | nil => simp [kept]
  | cons p l =>
    have hpr : prices.isEmpty = false := by
      cases hq : prices with
      | nil => have := hp p (hw ▸ List.mem_cons_self); rw [hq] at this; simp at this
      | cons _ _ => rfl
    rw [← hw, hany, hpr, hw]
    simp

/-- **C254** Only the assets with a weight above `1e-8` matter to `discretize_weights`: two calls that agree on these (their order, prices and lot sizes)
and in which every listed asset has a price have the same outcome, whatever other assets, prices and lot sizes are listed. -/
theorem C254_ignored (hk : kept weights' = kept weights) (hp : ∀ p ∈ weights, ∃ x, prices.lookup p.1 = some x)
    (hp' : ∀ p ∈ weights', ∃ x, prices'.lookup p.1 = some x) (hprice : ∀ p ∈ kept weights, prices'.lookup p.1 = prices.lookup p.1)
    (hlot : ∀ p ∈ kept weights, lotSize lots' p.1 = lotSize lots p.1) (method : String) (o : Options K)
    (sortBy : (inp : Input K) → Equiv.Perm (Fin inp.n)) (solve : (inp : Input K) → K → Option K → Option (MipPoint K inp.n)) :
    discretizeWith weights' prices' total lots' method o sortBy solve = discretizeWith weights prices total lots method o sortBy solve := by
  have hr : alignRows (kept weights') prices' lots' = alignRows (kept weights) prices lots := by
    rw [hk]
    unfold alignRows
    refine List.map_congr_left fun p h => ?_
    rw [hprice p h, lotOf_eq, lotOf_eq, hlot p h]
  have hin : mkInput weights' prices' total lots' = mkInput weights prices total lots := by
    rw [mkInput_kept (fun p h => by obtain ⟨x, hx⟩ := hp' p h; rw [hx]; rfl), mkInput_kept (fun p h => by obtain ⟨x, hx⟩ := hp p h; rw [hx]; rfl)]
    dsimp only
    rw [hr, hk]
  unfold discretizeWith
  rw [hin]

/-- Non-vacuity: a third asset of weight zero, with a negative price and lot size. -/
example : kept [("A", (1 : ℚ)), ("Z", 0), ("B", 2)] = kept [("A", (1 : ℚ)), ("B", 2)] ∧
    (∀ p ∈ [("A", (1 : ℚ)), ("Z", 0), ("B", 2)], ∃ x, ([("A", (3 : ℚ)), ("B", 5), ("Z", -1)]).lookup p.1 = some x) ∧
    (∀ p ∈ kept [("A", (1 : ℚ)), ("B", 2)], ([("A", (3 : ℚ)), ("B", 5), ("Z", -1)]).lookup p.1 = ([("A", (3 : ℚ)), ("B", 5)]).lookup p.1) ∧
    ∀ p ∈ kept [("A", (1 : ℚ)), ("B", 2)], lotSize (some [("Z", -1)]) p.1 = lotSize none p.1 := by
  refine ⟨by decide +kernel, ?_, ?_, ?_⟩
  · intro p h
    simp only [List.mem_cons, List.not_mem_nil, or_false] at h
    rcases h with rfl | rfl | rfl <;> exact ⟨_, rfl⟩
  all_goals
    intro p h
    have h := List.mem_of_mem_filter h
    simp only [List.mem_cons, List.not_mem_nil, or_false] at h
    rcases h with rfl | rfl <;> rfl

end PyV.Props
