import Verif.Lemmas.OptExist
import Mathlib.Topology.Sequences
import Mathlib.Order.Filter.AtTopBot.Archimedean
import Mathlib.Analysis.SpecialFunctions.Pow.Real

/-! # A convex quadratic that is bounded below on a polyhedron attains its minimum (Frank and Wolfe, 1956) -/

namespace PyV.Opt

open PyV PyV.Spec PyV.Spec.Opt Filter Topology

variable {V : Type} [Fintype V]

/-- The bilinear form of a matrix. -/
private def form (P : V → V → ℝ) (x y : V → ℝ) : ℝ := ∑ u, ∑ v, x u * P u v * y v

private def lin (c x : V → ℝ) : ℝ := ∑ v, c v * x v

private theorem form_cont (P : V → V → ℝ) : Continuous fun x : V → ℝ => form P x x := by unfold form; fun_prop

private theorem lin_cont (c : V → ℝ) : Continuous (lin c) := by unfold lin; fun_prop

private theorem lin_add (c x y : V → ℝ) (t : ℝ) : lin c (fun v => x v + t * y v) = lin c x + t * lin c y := by
  unfold lin
  rw [Finset.mul_sum, ← Finset.sum_add_distrib]
  exact Finset.sum_congr rfl fun v _ => by ring

private theorem lin_smul (c y : V → ℝ) (t : ℝ) : lin c (fun v => t * y v) = t * lin c y := by
  unfold lin
  rw [Finset.mul_sum]
  exact Finset.sum_congr rfl fun v _ => by ring

private theorem form_add {P : V → V → ℝ} (hs : ∀ u v, P u v = P v u) (x y : V → ℝ) (t : ℝ) :
    form P (fun v => x v + t * y v) (fun v => x v + t * y v) = form P x x + 2 * t * form P x y + t ^ 2 * form P y y := by
  have e : form P y x = form P x y := by
    unfold form
    rw [Finset.sum_comm]
    exact Finset.sum_congr rfl fun u _ => Finset.sum_congr rfl fun v _ => by rw [hs v u]; ring
  have : form P (fun v => x v + t * y v) (fun v => x v + t * y v) = form P x x + t * form P x y + t * form P y x + t ^ 2 * form P y y := by
    unfold form
    simp only [Finset.mul_sum, ← Finset.sum_add_distrib]
    exact Finset.sum_congr rfl fun u _ => Finset.sum_congr rfl fun v _ => by ring
  rw [this, e]; ring

private theorem form_smul (P : V → V → ℝ) (y : V → ℝ) (t : ℝ) : form P (fun v => t * y v) (fun v => t * y v) = t ^ 2 * form P y y := by
  unfold form
  simp only [Finset.mul_sum]
  exact Finset.sum_congr rfl fun u _ => Finset.sum_congr rfl fun v _ => by ring

private theorem form_null {P : V → V → ℝ} (hs : ∀ u v, P u v = P v u) (hp : ∀ x, 0 ≤ form P x x) {d : V → ℝ} (hd : form P d d = 0) (x : V → ℝ) :
    form P x d = 0 := by
  by_contra hne
  have h := hp fun v => x v + (-(form P x x + 1) / (2 * form P x d)) * d v
  rw [form_add hs, hd] at h
  have : 2 * (-(form P x x + 1) / (2 * form P x d)) * form P x d = -(form P x x + 1) := by field_simp
  linarith

/-- Squared Euclidean length. -/
private def sq (x : V → ℝ) : ℝ := ∑ v, x v * x v

private theorem sq_cont : Continuous (sq : (V → ℝ) → ℝ) := by unfold sq; fun_prop

private theorem sq_add (x y : V → ℝ) (t : ℝ) : sq (fun v => x v + t * y v) = sq x + 2 * t * lin x y + t ^ 2 * sq y := by
  unfold sq lin
  simp only [Finset.mul_sum, ← Finset.sum_add_distrib]
  exact Finset.sum_congr rfl fun v _ => by ring

private theorem sq_smul (y : V → ℝ) (t : ℝ) : sq (fun v => t * y v) = t ^ 2 * sq y := by
  unfold sq
  rw [Finset.mul_sum]
  exact Finset.sum_congr rfl fun v _ => by ring

private theorem compact_ball {S : Set (V → ℝ)} (hS : IsClosed S) (R : ℝ) : IsCompact (S ∩ {x | sq x ≤ R}) := by
  refine Metric.isCompact_of_isClosed_isBounded (hS.inter (isClosed_le sq_cont continuous_const)) ?_
  refine (isBounded_iff_forall_norm_le).2 ⟨Real.sqrt R, fun x hx => ?_⟩
  refine (pi_norm_le_iff_of_nonneg (Real.sqrt_nonneg _)).2 fun i => ?_
  rw [Real.norm_eq_abs]
  refine Real.abs_le_sqrt ?_
  have h1 : x i * x i ≤ sq x := Finset.single_le_sum (f := fun v => x v * x v) (fun v _ => mul_self_nonneg _) (Finset.mem_univ i)
  have h2 : sq x ≤ R := hx.2
  nlinarith

/-- The polyhedron of some rows. -/
private def Poly (L : List (Row V)) : Set (V → ℝ) := {x | ∀ r ∈ L, lin r.1 x ≤ r.2}

private theorem poly_closed (L : List (Row V)) : IsClosed (Poly L) := by
  have : Poly L = ⋂ r ∈ L, {x | lin r.1 x ≤ r.2} := by ext x; simp [Poly]
  rw [this]
  exact isClosed_biInter fun r _ => isClosed_le (lin_cont _) continuous_const

private theorem frank_wolfe {P : V → V → ℝ} (hs : ∀ u v, P u v = P v u) (hp : ∀ x, 0 ≤ form P x x) (c : V → ℝ) (L : List (Row V))
    {x0 : V → ℝ} (hx0 : x0 ∈ Poly L) {m : ℝ} (hm : ∀ x ∈ Poly L, m ≤ 1 / 2 * form P x x + lin c x) :
    ∃ x ∈ Poly L, ∀ y ∈ Poly L, 1 / 2 * form P x x + lin c x ≤ 1 / 2 * form P y y + lin c y := by
  by_contra hno
  push Not at hno
  set f : (V → ℝ) → ℝ := fun x => 1 / 2 * form P x x + lin c x with hf
  have hfc : Continuous f := (continuous_const.mul (form_cont P)).add (lin_cont c)
  -- the smallest minimiser in each ball
  have step : ∀ k : ℕ, ∃ x ∈ Poly L, sq x = sq x0 + k ∧ f x ≤ f x0 ∧ ∀ y ∈ Poly L, sq y ≤ sq x0 + k → f y ≤ f x → sq x ≤ sq y := by
    intro k
    have hk : (0:ℝ) ≤ k := Nat.cast_nonneg k
    have h0 : x0 ∈ Poly L ∩ {x | sq x ≤ sq x0 + k} := ⟨hx0, show sq x0 ≤ sq x0 + k by linarith⟩
    obtain ⟨a, ha, hmin⟩ := (compact_ball (poly_closed L) (sq x0 + k)).exists_isMinOn ⟨x0, h0⟩ hfc.continuousOn
    have hmin' : ∀ y ∈ Poly L, sq y ≤ sq x0 + k → f a ≤ f y := fun y h1 h2 => hmin ⟨h1, h2⟩
    obtain ⟨x, hx, hsm⟩ := ((compact_ball (poly_closed L) (sq x0 + k)).inter_right (isClosed_le hfc (continuous_const (y := f a)))).exists_isMinOn
      ⟨a, ha, le_refl (f a)⟩ sq_cont.continuousOn
    obtain ⟨⟨hx1, hx2⟩, hx3⟩ := hx
    have hx2 : sq x ≤ sq x0 + k := hx2
    have hx3 : f x ≤ f a := hx3
    refine ⟨x, hx1, ?_, hx3.trans (hmin' _ h0.1 h0.2), fun y h1 h2 h3 => hsm ⟨⟨h1, h2⟩, h3.trans hx3⟩⟩
    by_contra hne
    have hlt : sq x < sq x0 + k := lt_of_le_of_ne hx2 hne
    obtain ⟨y, hy, hfy⟩ := hno x hx1
    -- a short step towards y stays in the ball and lowers f
    set d : V → ℝ := fun v => y v - x v with hd
    have hcont : Continuous fun t : ℝ => sq (fun v => x v + t * d v) := by
      simp only [sq_add]; fun_prop
    have hnear : ∀ᶠ t : ℝ in 𝓝 0, sq (fun v => x v + t * d v) < sq x0 + k := by
      refine hcont.continuousAt.eventually_lt continuousAt_const ?_
      simpa using hlt
    obtain ⟨e, he, hball⟩ := Metric.eventually_nhds_iff.1 hnear
    set t : ℝ := min (e / 2) 1 with ht
    have ht0 : 0 < t := lt_min (by linarith) one_pos
    have ht1 : t ≤ 1 := min_le_right _ _
    have hte : t < e := lt_of_le_of_lt (min_le_left _ _) (by linarith)
    have hb := hball (y := t) (by rw [Real.dist_eq, sub_zero, abs_of_pos ht0]; exact hte)
    have hyx : y = fun v => x v + 1 * d v := by funext v; simp [hd]
    have hin : (fun v => x v + t * d v) ∈ Poly L := by
      intro r hr
      have k1 := hx1 r hr
      have k2 := hy r hr
      rw [hyx, lin_add] at k2
      rw [lin_add]
      nlinarith
    have k1 := hmin' _ hin hb.le
    have hval : f (fun v => x v + t * d v) = f x + t * (form P x d + lin c d) + 1 / 2 * t ^ 2 * form P d d := by
      simp only [hf]; rw [form_add hs, lin_add]; ring
    have hval1 : f y = f x + (form P x d + lin c d) + 1 / 2 * form P d d := by
      rw [hyx]; simp only [hf]; rw [form_add hs, lin_add]; ring
    have hfy : f y < f x := hfy
    have hdd := hp d
    have hxa : f a ≤ f x := hmin' _ hx1 hx2
    rw [hval] at k1
    rw [hval1] at hfy
    have hsl : form P x d + lin c d + 1 / 2 * form P d d < 0 := by linarith
    have : t * (form P x d + lin c d) + 1 / 2 * t ^ 2 * form P d d ≤ t * (form P x d + lin c d + 1 / 2 * form P d d) := by
      nlinarith [mul_nonneg (mul_nonneg ht0.le (by linarith : 0 ≤ 1 - t)) hdd]
    have := mul_neg_of_pos_of_neg ht0 hsl
    linarith
  choose X hX1 hX2 hX3 hX4 using step
  -- directions
  set s : ℕ → ℝ := fun k => Real.sqrt (sq x0 + k) with hsdef
  have hsq0 : 0 ≤ sq x0 := Finset.sum_nonneg fun v _ => mul_self_nonneg _
  have hs2 : ∀ k, s k ^ 2 = sq x0 + k := fun k => Real.sq_sqrt (by positivity)
  have hsinf : Tendsto s atTop atTop := by
    refine Real.tendsto_sqrt_atTop.comp ?_
    exact tendsto_atTop_add_const_left _ _ tendsto_natCast_atTop_atTop
  set U : ℕ → V → ℝ := fun k v => (s k)⁻¹ * X k v with hU
  have hUball : ∀ k, U k ∈ (Set.univ : Set (V → ℝ)) ∩ {x | sq x ≤ 1} := by
    intro k
    refine ⟨trivial, ?_⟩
    show sq (fun v => (s k)⁻¹ * X k v) ≤ 1
    rw [sq_smul, hX2, ← hs2]
    by_cases h : s k = 0
    · rw [h]; norm_num
    · rw [← mul_pow, inv_mul_cancel₀ h]; norm_num
  obtain ⟨d, -, φ, hφ, hlim⟩ := (compact_ball isClosed_univ 1).tendsto_subseq hUball
  have hsφ : Tendsto (s ∘ φ) atTop atTop := hsinf.comp hφ.tendsto_atTop
  have hpos : ∀ᶠ k in atTop, 0 < (s ∘ φ) k := hsφ.eventually_gt_atTop 0
  have hXU : ∀ k, 0 < s k → X k = fun v => s k * U k v := by
    intro k hk
    funext v
    simp only [hU]
    rw [mul_inv_cancel_left₀ hk.ne']
  have hinv : Tendsto (fun k => ((s ∘ φ) k)⁻¹) atTop (𝓝 0) := tendsto_inv_atTop_zero.comp hsφ
  have hlinlim : ∀ g : V → ℝ, Tendsto (fun k => lin g (U (φ k))) atTop (𝓝 (lin g d)) := fun g =>
    ((lin_cont g).tendsto d).comp hlim
  -- unit length
  have hd1 : sq d = 1 := by
    have h1 : Tendsto (fun k => sq (U (φ k))) atTop (𝓝 (sq d)) := (sq_cont.tendsto d).comp hlim
    refine tendsto_nhds_unique (h1.congr' ?_) tendsto_const_nhds
    filter_upwards [hpos] with k hk
    show sq (fun v => (s (φ k))⁻¹ * X (φ k) v) = 1
    have hk' : s (φ k) ≠ 0 := hk.ne'
    rw [sq_smul, hX2, ← hs2, ← mul_pow, inv_mul_cancel₀ hk', one_pow]
  -- recession direction
  have hrec : ∀ r ∈ L, lin r.1 d ≤ 0 := by
    intro r hr
    have h1 : Tendsto (fun k => r.2 * ((s ∘ φ) k)⁻¹) atTop (𝓝 0) := by simpa using hinv.const_mul r.2
    refine le_of_tendsto_of_tendsto (hlinlim r.1) h1 ?_
    filter_upwards [hpos] with k hk
    have h2 := hX1 (φ k) r hr
    show lin r.1 (fun v => (s (φ k))⁻¹ * X (φ k) v) ≤ r.2 * (s (φ k))⁻¹
    rw [lin_smul, mul_comm r.2]
    exact mul_le_mul_of_nonneg_left h2 (inv_pos.2 hk).le
  have hquad : form P d d = 0 := by
    refine le_antisymm ?_ (hp d)
    have h1 : Tendsto (fun k => form P (U (φ k)) (U (φ k))) atTop (𝓝 (form P d d)) := ((form_cont P).tendsto d).comp hlim
    have h2 : Tendsto (fun k => 2 * (f x0 * ((s ∘ φ) k)⁻¹ - lin c (U (φ k))) * ((s ∘ φ) k)⁻¹) atTop (𝓝 (2 * (f x0 * 0 - lin c d) * 0)) :=
      (((hinv.const_mul _).sub (hlinlim c)).const_mul 2).mul hinv
    rw [mul_zero] at h2
    refine le_of_tendsto_of_tendsto h1 h2 ?_
    filter_upwards [hpos] with k hk
    have h3 := hX3 (φ k)
    have hk : 0 < s (φ k) := hk
    rw [hXU _ hk] at h3
    simp only [hf] at h3
    rw [form_smul, lin_smul] at h3
    simp only [Function.comp]
    have e : 2 * ((1 / 2 * form P x0 x0 + lin c x0) * (s (φ k))⁻¹ - lin c (U (φ k))) * (s (φ k))⁻¹ =
      2 * ((1 / 2 * form P x0 x0 + lin c x0) - s (φ k) * lin c (U (φ k))) / s (φ k) ^ 2 := by
      field_simp
    show _ ≤ 2 * ((1 / 2 * form P x0 x0 + lin c x0) * (s (φ k))⁻¹ - lin c (U (φ k))) * (s (φ k))⁻¹
    rw [e, le_div_iff₀ (by positivity)]
    linarith
  have hcross := form_null hs hp hquad
  have hlinc : lin c d = 0 := by
    refine le_antisymm ?_ ?_
    · have h1 : Tendsto (fun k => f x0 * ((s ∘ φ) k)⁻¹) atTop (𝓝 0) := by simpa using hinv.const_mul (f x0)
      refine le_of_tendsto_of_tendsto (hlinlim c) h1 ?_
      filter_upwards [hpos] with k hk
      have h3 := hX3 (φ k)
      have hk : 0 < s (φ k) := hk
      have h4 := hp (X (φ k))
      have h5 : lin c (X (φ k)) ≤ f x0 := by
        have : f (X (φ k)) = 1 / 2 * form P (X (φ k)) (X (φ k)) + lin c (X (φ k)) := rfl
        linarith
      show lin c (fun v => (s (φ k))⁻¹ * X (φ k) v) ≤ f x0 * (s (φ k))⁻¹
      rw [lin_smul, mul_comm (f x0)]
      exact mul_le_mul_of_nonneg_left h5 (inv_pos.2 hk).le
    · by_contra hneg
      push Not at hneg
      set t : ℝ := (f x0 - m + 1) / -lin c d with ht
      have hfm : m ≤ f x0 := hm x0 hx0
      have ht0 : 0 < t := div_pos (by linarith) (by linarith)
      have hin : (fun v => x0 v + t * d v) ∈ Poly L := by
        intro r hr
        rw [lin_add]
        have := hx0 r hr
        nlinarith [hrec r hr]
      have h1 := hm _ hin
      rw [form_add hs, lin_add, hquad, hcross] at h1
      have h2 : t * lin c d = -(f x0 - m + 1) := by rw [ht, div_neg, neg_mul, div_mul_cancel₀ _ hneg.ne]
      have h3 : f x0 = 1 / 2 * form P x0 x0 + lin c x0 := rfl
      linarith
  have hflat : ∀ x t, f (fun v => x v + t * d v) = f x := by
    intro x t
    simp only [hf]
    rw [form_add hs, lin_add, hquad, hcross, hlinc]; ring
  -- far out, one can step back along d
  have hrows : ∀ r ∈ L, ∀ᶠ k in atTop, lin r.1 (fun v => X (φ k) v + (-1) * d v) ≤ r.2 := by
    intro r hr
    rcases (hrec r hr).lt_or_eq with hlt | heq
    · have h1 : ∀ᶠ k in atTop, lin r.1 (U (φ k)) < lin r.1 d / 2 := (hlinlim r.1).eventually_lt_const (by linarith)
      have h2 : ∀ᶠ k in atTop, 2 + 2 * |r.2| / -lin r.1 d ≤ (s ∘ φ) k := hsφ.eventually_ge_atTop _
      filter_upwards [h1, h2, hpos] with k k1 k2 k3
      have k3 : 0 < s (φ k) := k3
      have k2 : 2 + 2 * |r.2| / -lin r.1 d ≤ s (φ k) := k2
      rw [lin_add, hXU _ k3, lin_smul]
      have hn : 0 < -lin r.1 d := by linarith
      have k4 : 2 * (-lin r.1 d) + 2 * |r.2| ≤ s (φ k) * (-lin r.1 d) := by
        have := mul_le_mul_of_nonneg_right k2 hn.le
        rwa [add_mul, div_mul_cancel₀ _ hn.ne'] at this
      have k5 := mul_lt_mul_of_pos_left k1 k3
      have k6 := neg_abs_le r.2
      linarith
    · filter_upwards with k
      rw [lin_add, heq]
      have := hX1 (φ k) r hr
      linarith
  have hall : ∀ᶠ k in atTop, ∀ r ∈ L, lin r.1 (fun v => X (φ k) v + (-1) * d v) ≤ r.2 := by
    clear_value f s U
    have : ∀ l : List (Row V), (∀ r ∈ l, r ∈ L) → ∀ᶠ k in atTop, ∀ r ∈ l, lin r.1 (fun v => X (φ k) v + (-1) * d v) ≤ r.2 := by
      intro l
      induction l with
      | nil => intro _; exact Filter.Eventually.of_forall fun k r hr => by cases hr
      | cons a l ih =>
        intro hl
        filter_upwards [hrows a (hl a (by simp)), ih fun r hr => hl r (by simp [hr])] with k k1 k2 r hr
        rcases List.mem_cons.1 hr with rfl | hr
        · exact k1
        · exact k2 r hr
    exact this L fun r hr => hr
  have hlen : ∀ᶠ k in atTop, sq (fun v => X (φ k) v + (-1) * d v) < sq (X (φ k)) := by
    have hdd : lin d d = 1 := hd1
    have h1 : ∀ᶠ k in atTop, 1 / 2 < lin d (U (φ k)) := (hlinlim d).eventually_const_lt (by rw [hdd]; norm_num)
    have h2 : ∀ᶠ k in atTop, 2 ≤ (s ∘ φ) k := hsφ.eventually_ge_atTop _
    filter_upwards [h1, h2] with k k1 k2
    have k2 : 2 ≤ s (φ k) := k2
    rw [sq_add, hd1]
    have k3 : lin (X (φ k)) d = s (φ k) * lin d (U (φ k)) := by
      have : lin (X (φ k)) d = lin d (X (φ k)) := by unfold lin; exact Finset.sum_congr rfl fun v _ => mul_comm _ _
      rw [this]
      conv_lhs => rw [hXU (φ k) (by linarith)]
      exact lin_smul _ _ _
    rw [k3]
    nlinarith
  obtain ⟨k, k1, k2⟩ := (hall.and hlen).exists
  have := hX4 (φ k) _ k1 (by rw [← hX2]; exact k2.le) (hflat _ _).le
  exact absurd k2 (not_lt.2 this)

/-- **Frank–Wolfe.** A convex quadratic programme without second-order cones that is feasible and bounded below has an optimal point. -/
theorem exists_optimal {pr : Prog V} (hconv : Convex pr) (hsoc : pr.soc = []) (hne : ∃ x, Feasible pr x)
    (hb : ∃ m, ∀ x, Feasible pr x → m ≤ value pr x) : ∃ x, Optimal pr x := by
  obtain ⟨x0, hx0⟩ := hne
  obtain ⟨m, hm⟩ := hb
  set L : List (Row V) := pr.lin ++ pr.eq ++ pr.eq.map fun r => (fun v => -(r.1 v), -r.2) with hL
  have hneg : ∀ (g x : V → ℝ), lin (fun v => -(g v)) x = -lin g x := by
    intro g x; unfold lin; rw [← Finset.sum_neg_distrib]; exact Finset.sum_congr rfl fun v _ => by ring
  have hiff : ∀ x, x ∈ Poly L ↔ Feasible pr x := by
    intro x
    have hl : ∀ (r : Row V), slack x r = r.2 - lin r.1 x := fun r => rfl
    constructor
    · intro h
      refine ⟨fun r hr => ?_, fun r hr => ?_, fun r hr => ?_⟩
      · rw [hl]; have := h r (by simp [hL, hr]); linarith
      · rw [hsoc] at hr; cases hr
      · rw [hl]
        have h1 := h r (by simp [hL, hr])
        have h2 := h (fun v => -(r.1 v), -r.2) (by
          rw [hL]; exact List.mem_append_right _ (List.mem_map.2 ⟨r, hr, rfl⟩))
        rw [hneg] at h2
        dsimp only at h2
        linarith
    · intro h r hr
      rw [hL, List.mem_append, List.mem_append] at hr
      rcases hr with (hr | hr) | hr
      · have := h.lin r hr; rw [hl] at this; linarith
      · have := h.eq r hr; rw [hl] at this; linarith
      · obtain ⟨r', hr', rfl⟩ := List.mem_map.1 hr
        have := h.eq r' hr'; rw [hl] at this
        rw [hneg]; dsimp only; linarith
  obtain ⟨x, hx, hmin⟩ := frank_wolfe hconv.1 hconv.2 pr.c L ((hiff x0).2 hx0) (m := m) (fun x hx => hm x ((hiff x).1 hx))
  exact ⟨x, (hiff x).1 hx, fun y hy => hmin y ((hiff y).2 hy)⟩

end PyV.Opt
