import Verif.Props.Stability
import Verif.Props.StressHelpers
import Mathlib.Analysis.SpecialFunctions.Log.Deriv
import Mathlib.Analysis.Convex.Deriv
import Mathlib.Algebra.Order.BigOperators.Ring.Finset

/-! # Property C279: the reported KL divergence bounds what a stress can do -/

namespace PyV.Props

open PyV PyV.Spec PyV.Perf

variable {T N M : ℕ}

private theorem log_add_inv {x : ℝ} (hx : 0 < x) : 0 ≤ Real.log x + 1 / x - 1 := by
  have := Real.log_le_sub_one_of_pos (inv_pos.2 hx)
  rw [Real.log_inv] at this
  rw [one_div]
  linarith

private noncomputable def slope (x : ℝ) : ℝ := (4 * x + 4) * Real.log x - 8 * (x - 1)

private noncomputable def gap (x : ℝ) : ℝ := (4 + 2 * x) * (x * Real.log x - x + 1) - 3 * (x - 1) ^ 2

private theorem gap_deriv {x : ℝ} (hx : 0 < x) : HasDerivAt gap (slope x) x := by
  unfold gap slope
  have h1 := Real.hasDerivAt_log hx.ne'
  have h2 : HasDerivAt (fun y : ℝ => y * Real.log y) (1 * Real.log x + x * x⁻¹) x := (hasDerivAt_id x).mul h1
  have h3 : HasDerivAt (fun y : ℝ => y * Real.log y - y + 1) (1 * Real.log x + x * x⁻¹ - 1) x := (h2.sub (hasDerivAt_id x)).add_const 1
  have h4 : HasDerivAt (fun y : ℝ => 4 + 2 * y) (2 * 1) x := ((hasDerivAt_id x).const_mul 2).const_add 4
  have h5 : HasDerivAt (fun y : ℝ => 3 * (y - 1) ^ 2) (3 * (2 * (x - 1) ^ 1 * 1)) x :=
    (((hasDerivAt_id x).sub_const 1).pow 2).const_mul 3
  have h := (h4.mul h3).sub h5
  refine h.congr_deriv ?_
  rw [mul_inv_cancel₀ hx.ne']
  ring

private theorem slope_deriv {x : ℝ} (hx : 0 < x) : HasDerivAt slope (4 * (Real.log x + 1 / x - 1)) x := by
  unfold slope
  have h1 := Real.hasDerivAt_log hx.ne'
  have h4 : HasDerivAt (fun y : ℝ => 4 * y + 4) (4 * 1) x := ((hasDerivAt_id x).const_mul 4).add_const 4
  have h5 : HasDerivAt (fun y : ℝ => 8 * (y - 1)) (8 * 1) x := ((hasDerivAt_id x).sub_const 1).const_mul 8
  refine ((h4.mul h1).sub h5).congr_deriv ?_
  field_simp
  ring

private theorem slope_mono : MonotoneOn slope (Set.Ioi 0) := by
  apply monotoneOn_of_deriv_nonneg (convex_Ioi 0)
  · exact fun x hx => (slope_deriv hx).continuousAt.continuousWithinAt
  · rw [interior_Ioi]
    exact fun x hx => (slope_deriv hx).differentiableAt.differentiableWithinAt
  · rw [interior_Ioi]
    intro x hx
    rw [(slope_deriv hx).deriv]
    exact mul_nonneg (by norm_num) (log_add_inv hx)

private theorem slope_one : slope 1 = 0 := by unfold slope; simp

private theorem gap_one : gap 1 = 0 := by unfold gap; simp

private theorem gap_nonneg {x : ℝ} (hx : 0 < x) : 0 ≤ gap x := by
  rw [← gap_one]
  rcases le_total 1 x with h | h
  · have hm : MonotoneOn gap (Set.Ici 1) := by
      apply monotoneOn_of_deriv_nonneg (convex_Ici 1)
      · exact fun y hy => (gap_deriv (lt_of_lt_of_le one_pos hy)).continuousAt.continuousWithinAt
      · rw [interior_Ici]
        exact fun y hy => (gap_deriv (one_pos.trans hy)).differentiableAt.differentiableWithinAt
      · rw [interior_Ici]
        intro y hy
        rw [(gap_deriv (one_pos.trans hy)).deriv, ← slope_one]
        exact slope_mono (Set.mem_Ioi.2 one_pos) (Set.mem_Ioi.2 (one_pos.trans hy)) (le_of_lt hy)
    exact hm (Set.self_mem_Ici) h h
  · have hm : AntitoneOn gap (Set.Ioc 0 1) := by
      apply antitoneOn_of_deriv_nonpos (convex_Ioc 0 1)
      · exact fun y hy => (gap_deriv hy.1).continuousAt.continuousWithinAt
      · rw [interior_Ioc]
        exact fun y hy => (gap_deriv hy.1).differentiableAt.differentiableWithinAt
      · rw [interior_Ioc]
        intro y hy
        rw [(gap_deriv hy.1).deriv, ← slope_one]
        exact slope_mono (Set.mem_Ioi.2 hy.1) (Set.mem_Ioi.2 one_pos) hy.2.le
    exact hm ⟨hx, h⟩ ⟨one_pos, le_rfl⟩ h

/-- One scenario of Pinsker's inequality. -/
private theorem pinsker_term {p q : ℝ} (hp : 0 < p) (hq : 0 < q) :
    3 * (q - p) ^ 2 ≤ (4 * p + 2 * q) * (q * Real.log (q / p) - q + p) := by
  have h := gap_nonneg (div_pos hq hp)
  unfold gap at h
  have h2 := mul_nonneg h (sq_nonneg p)
  have e : ((4 + 2 * (q / p)) * (q / p * Real.log (q / p) - q / p + 1) - 3 * (q / p - 1) ^ 2) * p ^ 2
      = (4 * p + 2 * q) * (q * Real.log (q / p) - q + p) - 3 * (q - p) ^ 2 := by
    field_simp
  rw [e] at h2
  linarith

/-- Pinsker's inequality for positive vectors of any total. -/
private theorem pinsker_any {p q : Fin T → ℝ} (hp0 : ∀ t, 0 < p t) (hq0 : ∀ t, 0 < q t) :
    (∑ t, |q t - p t|) ^ 2 ≤ (4 * ∑ t, p t + 2 * ∑ t, q t) / 3 * (relativeEntropy q p - ∑ t, q t + ∑ t, p t) := by
  have hb0 : ∀ t, 0 ≤ q t * Real.log (q t / p t) - q t + p t := fun t => by
    have := gibbs_term (hq0 t).le (hp0 t)
    rw [Real.log_div (hq0 t).ne' (hp0 t).ne']
    linarith
  have hsum : ∑ t, (q t * Real.log (q t / p t) - q t + p t) = relativeEntropy q p - ∑ t, q t + ∑ t, p t := by
    rw [Finset.sum_add_distrib, Finset.sum_sub_distrib]
    rfl
  have hsum2 : ∑ t, (4 * p t + 2 * q t) / 3 = (4 * ∑ t, p t + 2 * ∑ t, q t) / 3 := by
    rw [← Finset.sum_div, Finset.sum_add_distrib, ← Finset.mul_sum, ← Finset.mul_sum]
  rw [← hsum, ← hsum2]
  apply Finset.sum_sq_le_sum_mul_sum_of_sq_le_mul
  · exact fun t _ => by have := hp0 t; have := hq0 t; positivity
  · exact fun t _ => hb0 t
  · intro t _
    rw [sq_abs]
    have := pinsker_term (hp0 t) (hq0 t)
    linarith

/-- The share of probability that moves from one weighting to another. -/
noncomputable def moved (p q : Fin T → ℝ) : ℝ := (∑ t, |q t - p t|) / 2

/-- The total weight the clipping at `1e-16` can add. -/
noncomputable def clipRoom (T : ℕ) : ℝ := T / 10 ^ 16

private theorem clip_sum {p : Fin T → ℝ} (hp : IsProb p) :
    1 ≤ ∑ t, max (p t) (1 / 10 ^ 16) ∧ ∑ t, max (p t) (1 / 10 ^ 16) ≤ 1 + clipRoom T ∧
      ∑ t, |max (p t) (1 / 10 ^ 16) - p t| ≤ clipRoom T := by
  have hc : ∑ _t : Fin T, (1 : ℝ) / 10 ^ 16 = clipRoom T := by
    unfold clipRoom
    rw [Finset.sum_const, Finset.card_univ, Fintype.card_fin, nsmul_eq_mul]
    ring
  have e1 : ∀ t, 0 ≤ max (p t) (1 / 10 ^ 16) - p t := fun t => sub_nonneg.2 (le_max_left _ _)
  have e2 : ∀ t, max (p t) (1 / 10 ^ 16) - p t ≤ 1 / 10 ^ 16 := fun t => by
    rw [sub_le_iff_le_add]
    exact max_le (le_add_of_nonneg_left (by positivity)) (le_add_of_nonneg_right (hp.nonneg t))
  refine ⟨?_, ?_, ?_⟩
  · have h : ∑ t, p t ≤ ∑ t, max (p t) (1 / 10 ^ 16) := Finset.sum_le_sum fun t _ => le_max_left _ _
    rwa [hp.sum] at h
  · have h : ∑ t, max (p t) (1 / 10 ^ 16) ≤ ∑ t, (p t + 1 / 10 ^ 16) := Finset.sum_le_sum fun t _ => by have := e2 t; linarith
    rwa [Finset.sum_add_distrib, hp.sum, hc] at h
  · rw [← hc]
    exact Finset.sum_le_sum fun t _ => by rw [abs_of_nonneg (e1 t)]; exact e2 t

private theorem clipped_kl (q p : Fin T → ℝ) :
    klDivergence q p = relativeEntropy (fun t => max (q t) (1 / 10 ^ 16)) (fun t => max (p t) (1 / 10 ^ 16)) := rfl

private theorem clip_pos (p : Fin T → ℝ) (t : Fin T) : 0 < max (p t) (1 / 10 ^ 16 : ℝ) := lt_of_lt_of_le (by positivity) (le_max_right _ _)

/-- **C279** whatever the two weightings, the reported divergence bounds the share of probability that was moved (up to the clipping of
probabilities at `1e-16`). -/
theorem C279_moved {p q : Fin T → ℝ} (hp : IsProb p) (hq : IsProb q) :
    -clipRoom T ≤ klDivergence q p ∧
      moved p q ≤ Real.sqrt ((1 + clipRoom T) * (klDivergence q p + clipRoom T) / 2) + clipRoom T := by
  obtain ⟨p1, p2, p3⟩ := clip_sum hp
  obtain ⟨q1, q2, q3⟩ := clip_sum hq
  set p' : Fin T → ℝ := fun t => max (p t) (1 / 10 ^ 16) with hp'
  set q' : Fin T → ℝ := fun t => max (q t) (1 / 10 ^ 16) with hq'
  change 1 ≤ ∑ t, p' t at p1
  change 1 ≤ ∑ t, q' t at q1
  change ∑ t, p' t ≤ _ at p2
  change ∑ t, q' t ≤ _ at q2
  change ∑ t, |p' t - p t| ≤ _ at p3
  change ∑ t, |q' t - q t| ≤ _ at q3
  have hkl : klDivergence q p = relativeEntropy q' p' := rfl
  have hd : 0 ≤ clipRoom T := by unfold clipRoom; positivity
  have hg : 0 ≤ relativeEntropy q' p' - ∑ t, q' t + ∑ t, p' t := by
    have := gibbs (p := q') (q := p') (fun t => (clip_pos q t).le) (clip_pos p)
    have e : ∑ i, q' i * (Real.log (q' i) - Real.log (p' i)) = relativeEntropy q' p' :=
      Finset.sum_congr rfl fun t _ => by rw [Real.log_div (clip_pos q t).ne' (clip_pos p t).ne']
    rw [e] at this
    linarith
  have hP := pinsker_any (p := p') (q := q') (clip_pos p) (clip_pos q)
  refine ⟨by rw [hkl]; linarith, ?_⟩
  have hS : (∑ t, |q' t - p' t|) / 2 ≤ Real.sqrt ((1 + clipRoom T) * (klDivergence q p + clipRoom T) / 2) := by
    apply Real.le_sqrt_of_sq_le
    rw [div_pow, hkl]
    have h1 : (4 * ∑ t, p' t + 2 * ∑ t, q' t) / 3 ≤ 2 * (1 + clipRoom T) := by linarith
    have h2 : relativeEntropy q' p' - ∑ t, q' t + ∑ t, p' t ≤ relativeEntropy q' p' + clipRoom T := by linarith
    have h3 : (4 * ∑ t, p' t + 2 * ∑ t, q' t) / 3 * (relativeEntropy q' p' - ∑ t, q' t + ∑ t, p' t)
        ≤ 2 * (1 + clipRoom T) * (relativeEntropy q' p' + clipRoom T) := mul_le_mul h1 h2 hg (by positivity)
    linarith [hP.trans h3]
  have hT : ∑ t, |q t - p t| ≤ ∑ t, |q' t - p' t| + ∑ t, |q' t - q t| + ∑ t, |p' t - p t| := by
    rw [← Finset.sum_add_distrib, ← Finset.sum_add_distrib]
    refine Finset.sum_le_sum fun t _ => ?_
    have h1 := abs_sub_le (q t) (q' t) (p t)
    have h2 := abs_sub_le (q' t) (p' t) (p t)
    rw [abs_sub_comm (q t) (q' t)] at h1
    linarith
  unfold moved
  linarith

/-- **C279** with no probability below `1e-16` this is Pinsker's inequality. -/
theorem C279_pinsker {p q : Fin T → ℝ} (hp : IsProb p) (hq : IsProb q) (hq0 : ∀ t, 1 / 10 ^ 16 ≤ q t) (hp0 : ∀ t, 1 / 10 ^ 16 ≤ p t) :
    moved p q ≤ Real.sqrt (klDivergence q p / 2) := by
  have h := pinsker_any (p := p) (q := q) (fun t => lt_of_lt_of_le (by positivity) (hp0 t)) (fun t => lt_of_lt_of_le (by positivity) (hq0 t))
  rw [hp.sum, hq.sum, ← C62_is_kl q p hq0 hp0] at h
  apply Real.le_sqrt_of_sq_le
  unfold moved
  rw [div_pow]
  linarith

private theorem mean_moves {p q x : Fin T → ℝ} (hp : IsProb p) (hq : IsProb q) {D : ℝ} (hD : ∀ s t, x s - x t ≤ D) :
    |expect q x - expect p x| ≤ D * moved p q := by
  rw [abs_le]
  have h1 := expect_change (f := x) hp hq hD
  have h2 := expect_change (f := x) hq hp hD
  have e : ∑ t, |p t - q t| = ∑ t, |q t - p t| := Finset.sum_congr rfl fun t _ => abs_sub_comm _ _
  rw [e] at h2
  unfold moved
  constructor <;> linarith

private theorem cvar_shift {p x : Fin T → ℝ} {conf k r : ℝ} (h : IsCvar p (fun t => x t - k) conf r) : IsCvar p x conf (r - k) := by
  have e : ∀ c, ru p (fun t => x t - k) conf c = k + ru p x conf (c - k) := by
    intro c
    unfold ru
    have : (fun t => max (-(x t - k) - c) 0) = fun t => max (-(x t) - (c - k)) 0 := by
      funext t; congr 1; ring
    rw [this]; ring
  obtain ⟨⟨c, hc⟩, hm⟩ := h
  refine ⟨⟨c - k, ?_⟩, ?_⟩
  · rw [← hc, e]; ring
  · rintro _ ⟨a, rfl⟩
    have := hm ⟨a + k, rfl⟩
    rw [e, add_sub_cancel_right] at this
    linarith

private theorem cvar_moves_one {p q x : Fin T → ℝ} (hp : IsProb p) (hq : IsProb q) {D conf a b : ℝ} (h1 : conf < 1)
    (hD : ∀ s t, x s - x t ≤ D) (ha : IsCvar p x conf a) (hb : IsCvar q x conf b) : b ≤ a + D / (1 - conf) * moved p q := by
  obtain ⟨⟨c, rfl⟩, -⟩ := ha
  refine (hb.2 ⟨c, rfl⟩).trans ?_
  have hc : 0 < 1 - conf := by linarith
  have h := expect_change (f := fun t => max (-(x t) - c) 0) hp hq (D := D) (by
    intro s t
    have h2 := hD t s
    have h3 := hD s s
    rw [sub_self] at h3
    have h4 := le_max_left (-(x t) - c) 0
    have h5 := le_max_right (-(x t) - c) 0
    rcases le_total (-(x s) - c) 0 with h | h
    · rw [max_eq_right h]; linarith
    · rw [max_eq_left h]; linarith)
  unfold ru moved
  have h6 := div_le_div_of_nonneg_right h hc.le
  have h7 : D / (1 - conf) * ((∑ t, |q t - p t|) / 2) = D * ((∑ t, |q t - p t|) / 2) / (1 - conf) := by ring
  rw [h7]
  rw [sub_div] at h6
  linarith

private theorem cvar_moves {p q x : Fin T → ℝ} (hp : IsProb p) (hq : IsProb q) {D conf a b : ℝ} (h1 : conf < 1)
    (hD : ∀ s t, x s - x t ≤ D) (ha : IsCvar p x conf a) (hb : IsCvar q x conf b) : |b - a| ≤ D / (1 - conf) * moved p q := by
  have e : moved q p = moved p q := by
    unfold moved
    rw [Finset.sum_congr rfl fun t _ => abs_sub_comm (p t) (q t)]
  have h2 := cvar_moves_one hp hq h1 hD ha hb
  have h3 := cvar_moves_one hq hp h1 hD hb ha
  rw [e] at h3
  rw [abs_le]
  constructor <;> linarith

/-- What a stress of probabilities may do to a portfolio whose P&L ranges over an interval of length `D`, when a share `d` of the
probability is moved. -/
structure MovesAtMost (D d conf : ℝ) (demean : Bool) (nominal stressed : Metrics) : Prop where
  mean : |stressed.mean - nominal.mean| ≤ D * d
  cvar : |stressed.cvar - nominal.cvar| ≤ (D / (1 - conf) + if demean then D else 0) * d

/-- **C279** the divergence reported by `stress_test` for stressed probabilities bounds the change of the mean and of the CVaR of every
portfolio. -/
theorem C279_stress {argsort : (Fin T → ℝ) → Equiv.Perm (Fin T)} (hs : Risk.IsArgsort argsort) {w : Weights M ℝ}
    {R : Fin T → Fin N → ℝ} {assets : Option (List String)} {probabilities : Option (List (PyFloat ℝ))} {stressed : List (PyFloat ℝ)}
    {conf : ℝ} {demean : Bool} {rep : StressReport} {p q : List ℝ}
    (hr : Probs.resolve probabilities T false = .ok p) (hp : IsProb (toVec T p))
    (hq : Probs.resolve (some stressed) T false = .ok q) (hq' : IsProb (toVec T q)) (h1 : conf < 1)
    (h : stressTest argsort w R assets probabilities (some stressed) none conf demean = .ok rep) :
    ∃ W : Fin M → Fin N → ℝ, WeightsAre w assets W ∧ ∃ ms k, rep.stressed = some ms ∧ rep.kl = some k ∧ ∀ D : Fin M → ℝ,
      (∀ m s t, pnlOf R (W m) s - pnlOf R (W m) t ≤ D m) →
      List.Forall₂ (fun m (ns : Metrics × Metrics) =>
        MovesAtMost (D m) (Real.sqrt ((1 + clipRoom T) * (k + clipRoom T) / 2) + clipRoom T) conf demean ns.1 ns.2)
        (List.finRange M) (rep.nominal.zip ms) := by
  obtain ⟨W, hW, hst⟩ := stressTest_prob hs hr hp hq hq' h
  obtain ⟨ms, hms, hf⟩ := hst.stressed
  refine ⟨W, hW, ms, _, hms, hst.kl, fun D hD => ?_⟩
  have hn := hst.nominal
  rw [List.forall₂_iff_get] at hf hn ⊢
  have hl1 := hn.1
  have hl2 := hf.1
  refine ⟨by rw [List.length_zip, ← hl1, ← hl2, min_self], fun i hi h2 => ?_⟩
  have d1 := hn.2 i hi (by rw [← hl1]; exact hi)
  have d2 := hf.2 i hi (by rw [← hl2]; exact hi)
  simp only [List.get_eq_getElem] at d1 d2 ⊢
  rw [List.getElem_zip]
  set m := (List.finRange M)[i] with hm
  have hmv := (C279_moved hp hq').2
  have hT : Nonempty (Fin T) := by
    by_contra hc
    rw [not_nonempty_iff] at hc
    have := hp.sum
    simp at this
  obtain ⟨t0⟩ := hT
  have hD0 : 0 ≤ D m := by have := hD m t0 t0; rwa [sub_self] at this
  have hmean := mean_moves hp hq' (hD m)
  have hc : 0 < 1 - conf := by linarith
  refine ⟨?_, ?_⟩
  · show |(ms[i]'_).mean - (rep.nominal[i]'_).mean| ≤ _
    rw [d1.mean, d2.mean]
    exact hmean.trans (mul_le_mul_of_nonneg_left hmv hD0)
  · show |(ms[i]'_).cvar - (rep.nominal[i]'_).cvar| ≤ _
    have c1 := cvar_shift d1.cvar
    have c2 := cvar_shift d2.cvar
    have c3 := cvar_moves hp hq' h1 (hD m) c1 c2
    cases demean with
    | false =>
      simp only [Bool.false_eq_true, if_false, sub_zero, add_zero] at c3 ⊢
      exact c3.trans (mul_le_mul_of_nonneg_left hmv (by positivity))
    | true =>
      simp only [if_true] at c3 ⊢
      refine le_trans ?_ (mul_le_mul_of_nonneg_left hmv (by positivity))
      rw [add_mul]
      rw [abs_le] at c3 hmean ⊢
      constructor <;> linarith

/-- Two weightings of two scenarios: a tenth of the probability is moved. -/
example : IsProb ![(1 / 2 : ℝ), 1 / 2] ∧ IsProb ![(3 / 5 : ℝ), 2 / 5] ∧ moved ![(1 / 2 : ℝ), 1 / 2] ![3 / 5, 2 / 5] = 1 / 10 := by
  refine ⟨⟨fun t => ?_, ?_⟩, ⟨fun t => ?_, ?_⟩, ?_⟩
  · fin_cases t <;> norm_num
  · rw [Fin.sum_univ_two]; norm_num
  · fin_cases t <;> norm_num
  · rw [Fin.sum_univ_two]; norm_num
  · unfold moved
    rw [Fin.sum_univ_two]
    show (|(3 / 5 : ℝ) - 1 / 2| + |(2 / 5 : ℝ) - 1 / 2|) / 2 = 1 / 10
    rw [abs_of_nonneg (by norm_num), abs_of_nonpos (by norm_num)]
    norm_num

end PyV.Props
