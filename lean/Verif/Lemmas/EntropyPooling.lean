import Verif.Model.EntropyPooling
import Verif.Spec.EntropyPooling
import Verif.Lemmas.Probabilities
import Mathlib.Analysis.Calculus.LocalExtr.Basic
import Mathlib.Analysis.SpecialFunctions.ExpDeriv
import Mathlib.Analysis.Calculus.FDeriv.Pi
import Mathlib.Topology.Order.IsLUB

namespace PyV.EP

open PyV PyV.Spec

variable {S : ℕ} {κ : Type} [Fintype κ]

theorem primal_pos (logp : Fin S → ℝ) (lhs : κ → Fin S → ℝ) (l : κ → ℝ) (s : Fin S) : 0 < primal logp lhs l s :=
  Real.exp_pos _

/-- No exponent is on (or beyond) the ±700 clip. -/
def Unclipped (logp : Fin S → ℝ) (lhs : κ → Fin S → ℝ) (l : κ → ℝ) : Prop :=
  ∀ s, -700 < exponent logp lhs l s ∧ exponent logp lhs l s < 700

theorem clip_eq {x : ℝ} (h : -700 < x ∧ x < 700) : clip (-700) 700 x = x := by
  unfold clip; rw [max_eq_left h.1.le, min_eq_left h.2.le]

theorem exponent_hasFDerivAt (logp : Fin S → ℝ) (lhs : κ → Fin S → ℝ) (l : κ → ℝ) (s : Fin S) :
    HasFDerivAt (fun l => exponent logp lhs l s) (-(∑ k, lhs k s • ContinuousLinearMap.proj (R := ℝ) k)) l := by
  unfold exponent
  have h1 : HasFDerivAt (fun l : κ → ℝ => ∑ k, lhs k s * l k)
      (∑ k, lhs k s • ContinuousLinearMap.proj (R := ℝ) (φ := fun _ : κ => ℝ) k) l := by
    apply HasFDerivAt.fun_sum
    intro k _
    exact (ContinuousLinearMap.proj (R := ℝ) (φ := fun _ : κ => ℝ) k).hasFDerivAt.const_mul (lhs k s)
  simpa using h1.const_sub (logp s - 1)

theorem exponent_continuous (logp : Fin S → ℝ) (lhs : κ → Fin S → ℝ) (s : Fin S) :
    Continuous (fun l => exponent logp lhs l s) := by
  unfold exponent
  exact continuous_const.sub (continuous_finset_sum _ fun k _ => continuous_const.mul (continuous_apply k))

theorem unclipped_eventually {logp : Fin S → ℝ} {lhs : κ → Fin S → ℝ} {l : κ → ℝ} (h : Unclipped logp lhs l) :
    ∀ᶠ l' in nhds l, Unclipped logp lhs l' := by
  unfold Unclipped
  rw [Filter.eventually_all]
  intro s
  have hc := (exponent_continuous logp lhs s).continuousAt (x := l)
  exact (hc.eventually (lt_mem_nhds (h s).1)).and (hc.eventually (gt_mem_nhds (h s).2))

/-- The reported gradient is the Fréchet derivative of the reported value. -/
theorem dual_hasFDerivAt {logp : Fin S → ℝ} {lhs : κ → Fin S → ℝ} (rhs : κ → ℝ) {l : κ → ℝ}
    (h : Unclipped logp lhs l) :
    HasFDerivAt (fun l => (dualObjective logp lhs rhs l).1)
      (∑ k, (dualObjective logp lhs rhs l).2 k • ContinuousLinearMap.proj (R := ℝ) (φ := fun _ : κ => ℝ) k) l := by
  have hfree : HasFDerivAt (fun l : κ → ℝ => 1000 * (∑ s, Real.exp (exponent logp lhs l s) + ∑ k, l k * rhs k))
      ((1000:ℝ) • ((∑ s, Real.exp (exponent logp lhs l s) •
        (-(∑ k, lhs k s • ContinuousLinearMap.proj (R := ℝ) (φ := fun _ : κ => ℝ) k))) +
        ∑ k, rhs k • ContinuousLinearMap.proj (R := ℝ) (φ := fun _ : κ => ℝ) k)) l := by
    apply HasFDerivAt.const_mul
    apply HasFDerivAt.add
    · apply HasFDerivAt.fun_sum
      intro s _
      exact (exponent_hasFDerivAt logp lhs l s).exp
    · apply HasFDerivAt.fun_sum
      intro k _
      exact (ContinuousLinearMap.proj (R := ℝ) (φ := fun _ : κ => ℝ) k).hasFDerivAt.mul_const (rhs k)
  have heq : (fun l => (dualObjective logp lhs rhs l).1) =ᶠ[nhds l]
      (fun l : κ → ℝ => 1000 * (∑ s, Real.exp (exponent logp lhs l s) + ∑ k, l k * rhs k)) := by
    filter_upwards [unclipped_eventually h] with l' hl'
    unfold dualObjective primal
    simp only
    rw [Finset.sum_congr rfl (fun s _ => by rw [clip_eq (hl' s)])]
    ring
  refine (hfree.congr_of_eventuallyEq heq).congr_fderiv ?_
  ext d
  have hprim : ∀ s, primal logp lhs l s = Real.exp (exponent logp lhs l s) := fun s => by
    unfold primal; rw [clip_eq (h s)]
  simp only [dualObjective, hprim, ContinuousLinearMap.smul_apply, ContinuousLinearMap.add_apply,
    ContinuousLinearMap.sum_apply, ContinuousLinearMap.neg_apply, ContinuousLinearMap.proj_apply, smul_eq_mul]
  simp only [mul_add, Finset.mul_sum, mul_neg, Finset.sum_neg_distrib, mul_sub, sub_mul, Finset.sum_sub_distrib,
    Finset.sum_mul]
  rw [Finset.sum_comm]
  rw [neg_add_eq_sub]
  congr 1
  · apply Finset.sum_congr rfl; intro k _; ring
  · apply Finset.sum_congr rfl; intro k _
    apply Finset.sum_congr rfl; intro s _; ring

/-- Variational inequality at a local minimiser over the box. -/
theorem vi_of_localMin {logp : Fin S → ℝ} {lhs : κ → Fin S → ℝ} {rhs : κ → ℝ} {l : κ → ℝ} {lb : κ → Bool}
    (h : Unclipped logp lhs l) (hl : l ∈ box lb)
    (hmin : IsLocalMinOn (fun l => (dualObjective logp lhs rhs l).1) (box lb) l) (l' : κ → ℝ) (hl' : l' ∈ box lb) :
    0 ≤ ∑ k, (dualObjective logp lhs rhs l).2 k * (l' k - l k) := by
  have hseg : segment ℝ l l' ⊆ box lb := by
    have hc : Convex ℝ (box lb) := by
      intro x hx y hy a b ha hb _ k hk
      simp only [Pi.add_apply, Pi.smul_apply, smul_eq_mul]
      exact add_nonneg (mul_nonneg ha (hx k hk)) (mul_nonneg hb (hy k hk))
    exact hc.segment_subset hl hl'
  have := hmin.hasFDerivWithinAt_nonneg (dual_hasFDerivAt rhs h).hasFDerivWithinAt
    (sub_mem_posTangentConeAt_of_segment_subset hseg)
  simpa using this

/-- KKT conditions for the two-block system. -/
theorem kkt {Ke Ki : ℕ} {logp : Fin S → ℝ} {A : Fin Ke → Fin S → ℝ} {b : Fin Ke → ℝ} {G : Fin Ki → Fin S → ℝ}
    {h : Fin Ki → ℝ} {l : Fin Ke ⊕ Fin Ki → ℝ} (hu : Unclipped logp (Sum.elim A G) l)
    (hl : l ∈ box (Sum.elim (fun _ : Fin Ke => false) (fun _ : Fin Ki => true)))
    (hmin : IsLocalMinOn (fun l => (dualObjective logp (Sum.elim A G) (Sum.elim b h) l).1)
      (box (Sum.elim (fun _ : Fin Ke => false) (fun _ : Fin Ki => true))) l) :
    (∀ k, ∑ s, A k s * primal logp (Sum.elim A G) l s = b k) ∧
    (∀ k, ∑ s, G k s * primal logp (Sum.elim A G) l s ≤ h k) ∧
    (∀ k, 0 ≤ l (.inr k)) ∧
    (∀ k, l (.inr k) * (h k - ∑ s, G k s * primal logp (Sum.elim A G) l s) = 0) := by
  classical
  have vi := vi_of_localMin hu hl hmin
  have hupd : ∀ (k : Fin Ke ⊕ Fin Ki) (v : ℝ),
      ∑ j, (dualObjective logp (Sum.elim A G) (Sum.elim b h) l).2 j * (Function.update l k v j - l j) =
      (dualObjective logp (Sum.elim A G) (Sum.elim b h) l).2 k * (v - l k) := by
    intro k v
    rw [Finset.sum_eq_single k]
    · simp
    · intro j _ hj; simp [Function.update_of_ne hj]
    · simp
  have hboxE : ∀ k v, Function.update l (.inl k) v ∈ box (Sum.elim (fun _ : Fin Ke => false) (fun _ : Fin Ki => true)) := by
    intro k v j hj
    rcases j with j | j
    · simp at hj
    · rw [Function.update_of_ne (by simp)]; exact hl _ hj
  have hboxI : ∀ k v, 0 ≤ v → Function.update l (.inr k) v ∈
      box (Sum.elim (fun _ : Fin Ke => false) (fun _ : Fin Ki => true)) := by
    intro k v hv j hj
    by_cases hjk : j = .inr k
    · subst hjk; simpa using hv
    · rw [Function.update_of_ne hjk]; exact hl _ hj
  have gE : ∀ k, (dualObjective logp (Sum.elim A G) (Sum.elim b h) l).2 (.inl k) =
      1000 * (b k - ∑ s, A k s * primal logp (Sum.elim A G) l s) := fun k => rfl
  have gI : ∀ k, (dualObjective logp (Sum.elim A G) (Sum.elim b h) l).2 (.inr k) =
      1000 * (h k - ∑ s, G k s * primal logp (Sum.elim A G) l s) := fun k => rfl
  refine ⟨?_, ?_, fun k => hl (.inr k) rfl, ?_⟩
  · intro k
    have h1 := vi _ (hboxE k (l (.inl k) + 1))
    have h2 := vi _ (hboxE k (l (.inl k) - 1))
    rw [hupd, gE] at h1 h2
    linarith
  · intro k
    have h1 := vi _ (hboxI k (l (.inr k) + 1) (by have := hl (.inr k) rfl; linarith))
    rw [hupd, gI] at h1
    linarith
  · intro k
    have h0 := hl (.inr k) rfl
    have h1 := vi _ (hboxI k 0 (le_refl _))
    have h2 := vi _ (hboxI k (2 * l (.inr k)) (by linarith))
    rw [hupd, gI] at h1 h2
    nlinarith

/-- The KKT point is the KL projection of the prior. -/
theorem kl_optimal {Ke Ki : ℕ} {p : Fin S → ℝ} (hp : ∀ s, 0 < p s) {A : Fin Ke → Fin S → ℝ} {b : Fin Ke → ℝ}
    {G : Fin Ki → Fin S → ℝ} {h : Fin Ki → ℝ} {l : Fin Ke ⊕ Fin Ki → ℝ} {x : Fin S → ℝ} (hx : ∀ s, 0 < x s)
    (hlog : ∀ s, Real.log (x s) = Real.log (p s) - 1 - ∑ k, Sum.elim A G k s * l k)
    (hA : ∀ k, ∑ s, A k s * x s = b k)
    (hl : ∀ k, 0 ≤ l (.inr k)) (hcs : ∀ k, l (.inr k) * (h k - ∑ s, G k s * x s) = 0)
    {q : Fin S → ℝ} (hq : ∀ s, 0 ≤ q s) (hqm : MeetsViews A b G h q) (hsum : ∑ s, q s = ∑ s, x s) :
    kl x p ≤ kl q p ∧ (kl q p ≤ kl x p → q = x) := by
  have key : kl q p - kl x p = ∑ s, q s * (Real.log (q s) - Real.log (x s)) +
      ∑ k, l (.inr k) * (h k - ∑ s, G k s * q s) := by
    have e1 : kl q p = ∑ s, q s * (Real.log (q s) - Real.log (x s)) +
        ∑ s, q s * (Real.log (x s) - Real.log (p s)) := by
      unfold kl; rw [← Finset.sum_add_distrib]; apply Finset.sum_congr rfl; intro s _; ring
    have e2 : ∀ y : Fin S → ℝ, ∑ s, y s * (Real.log (x s) - Real.log (p s)) =
        -(∑ s, y s) - ∑ k, l (.inl k) * ∑ s, A k s * y s - ∑ k, l (.inr k) * ∑ s, G k s * y s := by
      intro y
      have : ∀ s, y s * (Real.log (x s) - Real.log (p s)) =
          -(y s) - ∑ k, l (.inl k) * (A k s * y s) - ∑ k, l (.inr k) * (G k s * y s) := by
        intro s
        rw [hlog, Fintype.sum_sum_type]
        simp only [Sum.elim_inl, Sum.elim_inr]
        have a1 : ∑ k, l (.inl k) * (A k s * y s) = y s * ∑ k, A k s * l (.inl k) := by
          rw [Finset.mul_sum]; apply Finset.sum_congr rfl; intro k _; ring
        have a2 : ∑ k, l (.inr k) * (G k s * y s) = y s * ∑ k, G k s * l (.inr k) := by
          rw [Finset.mul_sum]; apply Finset.sum_congr rfl; intro k _; ring
        rw [a1, a2]; ring
      rw [Finset.sum_congr rfl (fun s _ => this s), Finset.sum_sub_distrib, Finset.sum_sub_distrib,
        Finset.sum_neg_distrib, Finset.sum_comm, Finset.sum_comm (f := fun s k => l (.inr k) * (G k s * y s))]
      simp only [Finset.mul_sum]
    have e3 : kl x p = ∑ s, x s * (Real.log (x s) - Real.log (p s)) := rfl
    rw [e1, e3, e2 q, e2 x, hsum]
    have e4 : ∑ k, l (.inl k) * ∑ s, A k s * q s = ∑ k, l (.inl k) * ∑ s, A k s * x s := by
      apply Finset.sum_congr rfl; intro k _; rw [hA k, hqm.1 k]
    have e5 : ∑ k, l (.inr k) * ∑ s, G k s * x s = ∑ k, l (.inr k) * h k := by
      apply Finset.sum_congr rfl; intro k _; have := hcs k; linarith
    rw [e4, e5]
    simp only [mul_sub, Finset.sum_sub_distrib]
    ring
  have h1 : 0 ≤ ∑ k, l (.inr k) * (h k - ∑ s, G k s * q s) :=
    Finset.sum_nonneg fun k _ => mul_nonneg (hl k) (by linarith [hqm.2 k])
  have h2 := gibbs hq hx
  rw [hsum, sub_self] at h2
  constructor
  · linarith
  · intro hle
    apply gibbs_eq hq hx
    rw [hsum, sub_self]
    linarith

theorem normalizeVec_ok {p : Fin S → PyFloat ℝ} {prior : Fin S → ℝ} {strict : Bool}
    (h : normalizeVec p strict = .ok prior) :
    ∃ v : Fin S → ℝ, (∀ s, p s = .fin (v s)) ∧ (∀ s, 0 ≤ v s) ∧ (strict = true → ∀ s, 0 < v s) ∧ 0 < ∑ s, v s ∧
      (prior = v ∨ prior = fun s => v s / ∑ t, v t) := by
  unfold normalizeVec at h
  split at h
  · cases h
  · rename_i ps hps
    injection h with h
    obtain ⟨hacc, hps'⟩ := Probs.normalize_ok_iff.mp hps
    have hv : ∀ s, ∃ v, p s = PyFloat.fin v := fun s => hacc.finite _ (List.mem_ofFn.mpr ⟨s, rfl⟩)
    choose v hv using hv
    have hmem : ∀ s, PyFloat.fin (v s) ∈ List.ofFn p := fun s => List.mem_ofFn.mpr ⟨s, hv s⟩
    have hlist : (List.ofFn p).map PyFloat.val = List.ofFn v := by
      rw [List.map_ofFn]; congr 1; funext s; simp [hv, PyFloat.val]
    have hsum : ((List.ofFn p).map PyFloat.val).sum = ∑ s, v s := by rw [hlist, List.sum_ofFn]
    refine ⟨v, hv, fun s => (hacc.sign _ (hmem s)).2, fun hs s => (hacc.sign _ (hmem s)).1 hs, ?_, ?_⟩
    · rw [← hsum]; exact hacc.pos
    · rw [hsum, hlist] at hps'
      subst h
      split at hps'
      · left
        funext s; simp [hps']
      · right
        funext s; simp [hps', List.getD_eq_getElem?_getD]

end PyV.EP
