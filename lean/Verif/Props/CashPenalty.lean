import Verif.Props.DiscreteOptions

/-! # Property C284: what the cash penalty does -/

set_option linter.unusedSectionVars false

namespace PyV.Props

open PyV PyV.Discrete PyV.Spec.Discrete

variable {K : Type*} [Field K] [LinearOrder K] [IsStrictOrderedRing K] [FloorRing K]
variable {weights prices : List (String × K)} {total : K} {lots : Option (List (String × ℤ))}

/-- Options naming a cash penalty and, possibly, a cash limit. -/
def penalised (cp : K) (mc : Option K) : Options K := { mip := { cashPenalty := some cp, maxCash := some mc } }

/-- The feasible point with the lots of `p` and the smallest deviations. -/
private def tight {inp : Input K} (p : MipPoint K inp.n) : MipPoint K inp.n :=
  ⟨p.x, fun i => |inp.ppl i * p.x i - inp.target i|, inp.total - ∑ i, inp.ppl i * p.x i⟩

private theorem tight_feasible {inp : Input K} {mc : Option K} {p : MipPoint K inp.n} (hp : MipFeasible inp mc p) : MipFeasible inp mc (tight p) := by
  have habs : ∀ i, |inp.ppl i * p.x i - inp.target i| ≤ p.u i := by
    intro i
    rw [abs_le]
    constructor <;> linarith [hp.upper i, hp.lower i]
  have hr : inp.total - ∑ i, inp.ppl i * p.x i = p.r := by linarith [hp.budget]
  refine ⟨hp.xlb, hp.xub, fun i => abs_nonneg _, fun i => (habs i).trans (hp.uub i), ?_, ?_, ?_, ?_, ?_⟩
  · show 0 ≤ inp.total - ∑ i, inp.ppl i * p.x i
    rw [hr]; exact hp.rlb
  · show inp.total - ∑ i, inp.ppl i * p.x i ≤ _
    rw [hr]; exact hp.rub
  · show ∑ i, inp.ppl i * p.x i + (inp.total - ∑ i, inp.ppl i * p.x i) = _
    ring
  · intro i
    show inp.ppl i * p.x i - |inp.ppl i * p.x i - inp.target i| ≤ _
    linarith [le_abs_self (inp.ppl i * p.x i - inp.target i)]
  · intro i
    show -(inp.ppl i * p.x i) - |inp.ppl i * p.x i - inp.target i| ≤ _
    linarith [neg_abs_le (inp.ppl i * p.x i - inp.target i)]

private theorem drop_cap {inp : Input K} {mc : Option K} {p : MipPoint K inp.n} (h : MipFeasible inp mc p) : MipFeasible inp none p := by
  refine ⟨h.xlb, h.xub, h.ulb, h.uub, h.rlb, h.rub.trans ?_, h.budget, h.upper, h.lower⟩
  unfold Input.upperCash
  cases mc with
  | none => exact le_rfl
  | some c => exact min_le_right _ _

private theorem call_eq {method : String} (hm : MilpName method) {inp : Input K} (hin : mkInput weights prices total lots = .ok inp) (cp : K)
    (mc : Option K) (sortBy : (inp : Input K) → Equiv.Perm (Fin inp.n)) (solve : (inp : Input K) → K → Option K → Option (MipPoint K inp.n)) :
    discretizeWith weights prices total lots method (penalised cp mc) sortBy solve = allocateMip inp (solve inp cp mc) := by
  unfold discretizeWith
  rw [hin]
  dsimp only
  rw [parse_milp hm]
  simp [penalised, callMip]

/-- What a successful call returns: an optimal point, the currency left over, and the deviations of the lots bought. -/
private theorem call_ok {method : String} (hm : MilpName method) {inp : Input K} (hin : mkInput weights prices total lots = .ok inp) {cp : K}
    {mc : Option K} {sortBy : (inp : Input K) → Equiv.Perm (Fin inp.n)} {solve : (inp : Input K) → K → Option K → Option (MipPoint K inp.n)}
    (hs : ExactMilp solve) {r : Result K} (h : discretizeWith weights prices total lots method (penalised cp mc) sortBy solve = .ok r) :
    ∃ p, MipFeasible inp mc p ∧ (∀ q, MipFeasible inp mc q → inp.total * r.trackingError + cp * r.leftover ≤ mipObj cp q) ∧
      mipObj cp (tight p) = inp.total * r.trackingError + cp * r.leftover ∧ ∀ c, mipObj c (tight p) = inp.total * r.trackingError + c * r.leftover := by
  have ha := accepted_of_mkInput hin
  rw [call_eq hm hin] at h
  cases hp : solve inp cp mc with
  | none =>
    rw [hp] at h
    unfold allocateMip at h
    split at h <;> cases h
  | some p =>
    rw [hp] at h
    have ho := hs.sound _ _ _ _ hp
    obtain ⟨q, hq, hle, e1, e2, e3⟩ := mip_result_le (cp := cp) ha (drop_cap ho.1)
    rw [h] at hq
    injection hq with hq
    subst hq
    have key : ∀ c, mipObj c (tight p) = inp.total * r.trackingError + c * r.leftover := fun c => by
      rw [e3, e2]; rfl
    exact ⟨p, ho.1, fun q hq => hle.trans (ho.2 q hq), key cp, key⟩

/-- **C284** with the same weights, prices, amount, lots and cash limit, whether the mixed-integer allocator finds an allocation does not depend on
the cash penalty, and a heavier penalty never leaves more cash and (penalties not being negative) never tracks the target better. Any targets,
long or short. -/
theorem C284_penalty {method : String} (hm : MilpName method) (hv : Valid weights prices total lots) {cp cp' : K} (hlt : cp < cp') (mc : Option K)
    (sortBy : (inp : Input K) → Equiv.Perm (Fin inp.n)) {solve : (inp : Input K) → K → Option K → Option (MipPoint K inp.n)} (hs : ExactMilp solve) :
    (∃ r r', discretizeWith weights prices total lots method (penalised cp mc) sortBy solve = .ok r ∧
      discretizeWith weights prices total lots method (penalised cp' mc) sortBy solve = .ok r' ∧ r'.leftover ≤ r.leftover ∧
      (0 ≤ cp → r.trackingError ≤ r'.trackingError)) ∨
    (discretizeWith weights prices total lots method (penalised cp mc) sortBy solve = .error .runtimeError ∧
      discretizeWith weights prices total lots method (penalised cp' mc) sortBy solve = .error .runtimeError) := by
  obtain ⟨inp, hin⟩ := (C07_validation_iff.1).mpr hv
  have ha := accepted_of_mkInput hin
  by_cases hf : ∃ q, MipFeasible inp mc q
  · obtain ⟨p, hp⟩ := hs.complete inp cp mc hf
    obtain ⟨p', hp'⟩ := hs.complete inp cp' mc hf
    obtain ⟨r, hr, -⟩ := mip_result_le (cp := cp) ha (drop_cap (hs.sound _ _ _ _ hp).1)
    obtain ⟨r', hr', -⟩ := mip_result_le (cp := cp') ha (drop_cap (hs.sound _ _ _ _ hp').1)
    rw [← hp, ← call_eq (mc := mc) (sortBy := sortBy) hm hin] at hr
    rw [← hp', ← call_eq (mc := mc) (sortBy := sortBy) hm hin] at hr'
    obtain ⟨q, fq, oq, -, kq⟩ := call_ok hm hin hs hr
    obtain ⟨q', fq', oq', -, kq'⟩ := call_ok hm hin hs hr'
    have h1 := oq _ (tight_feasible fq')
    have h2 := oq' _ (tight_feasible fq)
    rw [kq'] at h1
    rw [kq] at h2
    have hl : r'.leftover ≤ r.leftover := by
      by_contra hc
      push Not at hc
      nlinarith
    refine .inl ⟨r, r', hr, hr', hl, fun h0 => ?_⟩
    have h3 : cp * r'.leftover ≤ cp * r.leftover := mul_le_mul_of_nonneg_left hl h0
    exact le_of_mul_le_mul_left (by linarith) ha.total
  · have hno : ∀ c, solve inp c mc = none := by
      intro c
      cases hp : solve inp c mc with
      | none => rfl
      | some p => exact absurd ⟨p, (hs.sound _ _ _ _ hp).1⟩ hf
    have he : allocateMip inp none = .error .runtimeError := by
      unfold allocateMip
      rw [if_neg (Nat.pos_iff_ne_zero.1 ha.npos)]
    refine .inr ⟨?_, ?_⟩ <;> rw [call_eq hm hin, hno, he]

/-- An exact solver exists, and on the example call of C01 both penalties, 1 and 5, give allocations. -/
example : ∃ solve : (inp : Input ℚ) → ℚ → Option ℚ → Option (MipPoint ℚ inp.n), ExactMilp solve ∧
    ∃ r r', discretizeWith exW exP 1000 exLots "milp" (penalised 1 none) (fun _ => Equiv.refl _) solve = .ok r ∧
      discretizeWith exW exP 1000 exLots "milp" (penalised 5 none) (fun _ => Equiv.refl _) solve = .ok r' ∧ r'.leftover ≤ r.leftover := by
  classical
  have hs : ExactMilp (K := ℚ) (fun inp cp mc => if h : ∃ p, MipOptimal inp cp mc p then some h.choose else none) := by
    constructor
    · intro inp cp mc p hp
      split at hp
      · rename_i h
        injection hp with hp
        rw [← hp]
        exact h.choose_spec
      · cases hp
    · rintro inp cp mc ⟨q, hq⟩
      have h := C08_optimum_exists inp cp mc q hq
      exact ⟨h.choose, dif_pos h⟩
  have hm : MilpName "milp" := Or.inl (by decide +kernel)
  refine ⟨_, hs, ?_⟩
  rcases C284_penalty hm exValid (cp := 1) (cp' := 5) (by norm_num) none (fun _ => Equiv.refl _) hs with ⟨r, r', h1, h2, h3, -⟩ | ⟨h, -⟩
  · exact ⟨r, r', h1, h2, h3⟩
  · exfalso
    obtain ⟨inp, hin⟩ := (C07_validation_iff.1).mpr exValid
    obtain ⟨q, hq⟩ := (C08_milp_optimal inp hin exLong 1).1
    obtain ⟨p, hp⟩ := hs.complete inp 1 none ⟨q, hq⟩
    obtain ⟨r, hr, -⟩ := mip_result_le (cp := 1) (accepted_of_mkInput hin) (hs.sound _ _ _ _ hp).1
    rw [call_eq hm hin, hp, hr] at h
    cases h

end PyV.Props
