import Verif.Props.BlackLittermanInvariance
import Mathlib.Topology.Instances.Matrix

/-! # Properties C248, C249: firmer, certain and vague Black–Litterman views -/

namespace PyV.Props

open PyV PyV.FV PyV.BL PyV.Spec.BL Matrix

variable {N K : ℕ}

/-- The uncertainty left about a combination `x` of the means is the least of the uncertainty of hedging it with the views. -/
private theorem left_le {V : Matrix (Fin N) (Fin N) ℝ} (hV : V.PosSemidef) {P : Matrix (Fin K) (Fin N) ℝ} {om : Matrix (Fin K) (Fin K) ℝ}
    (hO : om.PosSemidef) (hu : IsUnit (P * V * Pᵀ + om).det) (x : Fin N → ℝ) (k : Fin K → ℝ) :
    x ⬝ᵥ (V *ᵥ x) - x ⬝ᵥ ((V * Pᵀ * ((P * V * Pᵀ + om)⁻¹ * (P * V))) *ᵥ x) ≤
      x ⬝ᵥ (V *ᵥ x) - 2 * (k ⬝ᵥ (P *ᵥ (V *ᵥ x))) + k ⬝ᵥ ((P * V * Pᵀ + om) *ᵥ k) := by
  have hVs := symm_of_psd hV
  have hA : (P * V * Pᵀ + om).PosSemidef := by
    refine PosSemidef.add ?_ hO
    have := hV.mul_mul_conjTranspose_same P
    rwa [conjTranspose_eq_transpose_of_trivial] at this
  rw [sandwich hVs]
  generalize P *ᵥ (V *ᵥ x) = y
  generalize hAA : P * V * Pᵀ + om = A at *
  set z := A⁻¹ *ᵥ y with hz
  have hAz : A *ᵥ z = y := by rw [hz, mulVec_mulVec, mul_nonsing_inv _ hu, one_mulVec]
  have h0 := quad_nonneg hA (k - z)
  have hs := symm_of_psd hA
  rw [mulVec_sub, sub_dotProduct, dotProduct_sub, dotProduct_sub, hAz, dot_mulVec_symm hs z k, hAz] at h0
  rw [dotProduct_comm y z]
  linarith

private theorem left_eq {V : Matrix (Fin N) (Fin N) ℝ} (hV : V.PosSemidef) {P : Matrix (Fin K) (Fin N) ℝ} {om : Matrix (Fin K) (Fin K) ℝ}
    (hu : IsUnit (P * V * Pᵀ + om).det) (x : Fin N → ℝ) : ∃ k : Fin K → ℝ,
    x ⬝ᵥ (V *ᵥ x) - x ⬝ᵥ ((V * Pᵀ * ((P * V * Pᵀ + om)⁻¹ * (P * V))) *ᵥ x) =
      x ⬝ᵥ (V *ᵥ x) - 2 * (k ⬝ᵥ (P *ᵥ (V *ᵥ x))) + k ⬝ᵥ ((P * V * Pᵀ + om) *ᵥ k) := by
  refine ⟨(P * V * Pᵀ + om)⁻¹ *ᵥ (P *ᵥ (V *ᵥ x)), ?_⟩
  rw [sandwich (symm_of_psd hV), mulVec_mulVec (M := P * V * Pᵀ + om), mul_nonsing_inv _ hu, one_mulVec]
  rw [dotProduct_comm (P *ᵥ (V *ᵥ x))]
  ring

/-- Views held at least as firmly, possibly with others besides: in the order given, the first views are the same ones and their uncertainty is no
larger. -/
def Firmer (a a' : Args N) : Prop :=
  (∃ extra, a'.views = a.views ++ extra) ∧
  match a.omega, a'.omega with
  | .none, .none => True
  | .idzorek, .idzorek => ∀ k c c', k < a.views.length → HasConfidence a.conf (a.views.map Prod.fst) k c →
      HasConfidence a'.conf (a'.views.map Prod.fst) k c' → c ≤ c'
  | .vec l, .vec l' => ∀ (k : ℕ) (x x' : ℝ), l[k]? = some x → l'[k]? = some x' → x' ≤ x
  | .mat m f, .mat m' f' => ∀ z : ℕ → ℝ, ∑ i : Fin m, ∑ j : Fin m, z i * f' i j * z j ≤ ∑ i : Fin m, ∑ j : Fin m, z i * f i j * z j
  | _, _ => False

private def spread {K' : ℕ} (ι : Fin K → Fin K') (z : Fin K → ℝ) (j : Fin K') : ℝ := ∑ i, if ι i = j then z i else 0

private theorem spread_dot {K' : ℕ} (ι : Fin K → Fin K') (z : Fin K → ℝ) (w : Fin K' → ℝ) : spread ι z ⬝ᵥ w = ∑ i, z i * w (ι i) := by
  unfold spread dotProduct
  simp only [Finset.sum_mul, ite_mul, zero_mul]
  rw [Finset.sum_comm]
  exact Finset.sum_congr rfl fun i _ => by simp

private theorem spread_quad {K' : ℕ} (ι : Fin K → Fin K') (z : Fin K → ℝ) (M : Matrix (Fin K') (Fin K') ℝ) :
    spread ι z ⬝ᵥ (M *ᵥ spread ι z) = ∑ i, ∑ j, z i * M (ι i) (ι j) * z j := by
  rw [spread_dot]
  refine Finset.sum_congr rfl fun i _ => ?_
  have : (M *ᵥ spread ι z) (ι i) = ∑ j, z j * M (ι i) (ι j) := by
    rw [mulVec, dotProduct_comm, spread_dot]
  rw [this, Finset.mul_sum]
  exact Finset.sum_congr rfl fun j _ => by ring

private theorem quad_sum (z : Fin K → ℝ) (M : Matrix (Fin K) (Fin K) ℝ) : z ⬝ᵥ (M *ᵥ z) = ∑ i, ∑ j, z i * M i j * z j := by
  unfold dotProduct mulVec dotProduct
  refine Finset.sum_congr rfl fun i _ => ?_
  rw [Finset.mul_sum]
  exact Finset.sum_congr rfl fun j _ => by ring

private theorem firmer_le {K' : ℕ} {V : Matrix (Fin N) (Fin N) ℝ} (hV : V.PosSemidef) {P : Matrix (Fin K) (Fin N) ℝ} {om : Matrix (Fin K) (Fin K) ℝ}
    (hu : IsUnit (P * V * Pᵀ + om).det) {P' : Matrix (Fin K') (Fin N) ℝ} {om' : Matrix (Fin K') (Fin K') ℝ} (hO' : om'.PosSemidef)
    (hu' : IsUnit (P' * V * P'ᵀ + om').det) (ι : Fin K → Fin K') (hP : ∀ i, P' (ι i) = P i)
    (ho : ∀ z : Fin K → ℝ, ∑ i, ∑ j, z i * om' (ι i) (ι j) * z j ≤ ∑ i, ∑ j, z i * om i j * z j) (x : Fin N → ℝ) :
    x ⬝ᵥ (V *ᵥ x) - x ⬝ᵥ ((V * P'ᵀ * ((P' * V * P'ᵀ + om')⁻¹ * (P' * V))) *ᵥ x) ≤
      x ⬝ᵥ (V *ᵥ x) - x ⬝ᵥ ((V * Pᵀ * ((P * V * Pᵀ + om)⁻¹ * (P * V))) *ᵥ x) := by
  obtain ⟨k, hk⟩ := left_eq hV hu x
  rw [hk]
  refine (left_le hV hO' hu' x (spread ι k)).trans ?_
  have e1 : spread ι k ⬝ᵥ (P' *ᵥ (V *ᵥ x)) = k ⬝ᵥ (P *ᵥ (V *ᵥ x)) := by
    rw [spread_dot]
    unfold mulVec
    simp only [hP]
    rfl
  have e2 : ∀ i j, (P' * V * P'ᵀ) (ι i) (ι j) = (P * V * Pᵀ) i j := by
    intro i j
    simp only [Matrix.mul_apply, Matrix.transpose_apply, hP]
  rw [e1, spread_quad, quad_sum k]
  have e3 : ∑ i, ∑ j, k i * (P' * V * P'ᵀ + om') (ι i) (ι j) * k j = ∑ i, ∑ j, k i * (P * V * Pᵀ) i j * k j + ∑ i, ∑ j, k i * om' (ι i) (ι j) * k j := by
    rw [← Finset.sum_add_distrib]
    refine Finset.sum_congr rfl fun i _ => ?_
    rw [← Finset.sum_add_distrib]
    exact Finset.sum_congr rfl fun j _ => by rw [Matrix.add_apply, e2]; ring
  have e4 : ∑ i, ∑ j, k i * (P * V * Pᵀ + om) i j * k j = ∑ i, ∑ j, k i * (P * V * Pᵀ) i j * k j + ∑ i, ∑ j, k i * om i j * k j := by
    rw [← Finset.sum_add_distrib]
    refine Finset.sum_congr rfl fun i _ => ?_
    rw [← Finset.sum_add_distrib]
    exact Finset.sum_congr rfl fun j _ => by rw [Matrix.add_apply]; ring
  rw [e3, e4]
  have := ho k
  linarith

private theorem diag_le {K' : ℕ} {om : Matrix (Fin K) (Fin K) ℝ} {om' : Matrix (Fin K') (Fin K') ℝ} {ι : Fin K → Fin K'} (hι : Function.Injective ι)
    (h : ∀ i j, i ≠ j → om i j = 0) (h' : ∀ i j, i ≠ j → om' i j = 0) (hd : ∀ i, om' (ι i) (ι i) ≤ om i i) (z : Fin K → ℝ) :
    ∑ i, ∑ j, z i * om' (ι i) (ι j) * z j ≤ ∑ i, ∑ j, z i * om i j * z j := by
  refine Finset.sum_le_sum fun i _ => ?_
  rw [Finset.sum_eq_single i (fun j _ hj => by rw [h' _ _ (fun e => hj (hι e).symm)]; ring) (by simp),
    Finset.sum_eq_single i (fun j _ hj => by rw [h _ _ (fun e => hj e.symm)]; ring) (by simp)]
  have := mul_le_mul_of_nonneg_left (hd i) (mul_self_nonneg (z i))
  linarith

private theorem odds_mono {c c' q : ℝ} (hq : 0 ≤ q) (h : c ≤ c') :
    (1 - max (1 / 10 ^ 6) (min c' (1 - 1 / 10 ^ 6))) / max (1 / 10 ^ 6) (min c' (1 - 1 / 10 ^ 6)) * q ≤
      (1 - max (1 / 10 ^ 6) (min c (1 - 1 / 10 ^ 6))) / max (1 / 10 ^ 6) (min c (1 - 1 / 10 ^ 6)) * q := by
  have hm : max (1 / 10 ^ 6) (min c (1 - 1 / 10 ^ 6)) ≤ max (1 / 10 ^ 6) (min c' (1 - 1 / 10 ^ 6)) := max_le_max le_rfl (min_le_min h le_rfl)
  have hp : (0:ℝ) < max (1 / 10 ^ 6) (min c (1 - 1 / 10 ^ 6)) := lt_max_of_lt_left (by norm_num)
  have hp' : (0:ℝ) < max (1 / 10 ^ 6) (min c' (1 - 1 / 10 ^ 6)) := lt_max_of_lt_left (by norm_num)
  refine mul_le_mul_of_nonneg_right ?_ hq
  rw [div_le_div_iff₀ hp' hp]
  nlinarith

/-- **C248** (partial) Stating further Black–Litterman views, or holding the same ones with more confidence (or less uncertainty), never increases the
posterior variance of any portfolio.  Missing: the first view, for which it fails (`C248_counterexample`). -/
theorem C248_firmer_partial {a a' : Args N} (hv : a.views ≠ []) (hS : a.sigma.PosSemidef) (htau : 0 ≤ a.tau)
    (hsig : a'.sigma = a.sigma) (hassets : a'.assets = a.assets) (htau' : a'.tau = a.tau) (huse : a'.idzorekUseTau = a.idzorekUseTau)
    (hU' : UserOmegaPsd a'.omega) (hf : Firmer a a') {r r' : (Fin N → ℝ) × Matrix (Fin N) (Fin N) ℝ}
    (h : BL.construct a = .ok r) (h' : BL.construct a' = .ok r') (x : Fin N → ℝ) : x ⬝ᵥ (r'.2 *ᵥ x) ≤ x ⬝ᵥ (r.2 *ᵥ x) := by
  obtain ⟨-, pi, rows, conf, -, hrows, hconf, hcase⟩ := construct_cases h
  obtain ⟨-, pi', rows', conf', -, hrows', hconf', hcase'⟩ := construct_cases h'
  rw [hsig, htau', huse] at hcase'
  rw [hassets] at hrows'
  rw [symmetrise_of_symm (symm_of_psd hS)] at hcase hcase'
  obtain ⟨⟨extra, hex⟩, hom⟩ := hf
  have F : List.Forall₂ (fun kv rt => viewRow a.assets kv = .ok rt) a.views rows := mapE_ok.1 hrows
  have F' : List.Forall₂ (fun kv rt => viewRow a.assets kv = .ok rt) a'.views rows' := mapE_ok.1 hrows'
  have hlen := F.length_eq
  have hlen' := F'.length_eq
  have hle : rows.length ≤ rows'.length := by rw [← hlen, ← hlen', hex, List.length_append]; omega
  set ι : Fin rows.length → Fin rows'.length := Fin.castLE hle with hι
  have hrow : ∀ k : Fin rows.length, rows'.get (ι k) = rows.get k := by
    intro k
    have h1 := (List.forall₂_iff_get.1 F).2 k (by rw [hlen]; exact k.2) k.2
    have h2 := (List.forall₂_iff_get.1 F').2 k (by rw [hlen']; exact (ι k).2) (ι k).2
    have e : a'.views.get ⟨k, by rw [hlen']; exact (ι k).2⟩ = a.views.get ⟨k, by rw [hlen]; exact k.2⟩ := by
      simp only [List.get_eq_getElem, hex]
      rw [List.getElem_append_left]
    rw [e, h1] at h2
    injection h2 with h2
    exact h2.symm
  rcases hcase with ⟨e, -⟩ | ⟨-, om, hbo, hpost⟩
  · rw [e] at hlen
    exact absurd (List.length_eq_zero_iff.1 hlen) hv
  rcases hcase' with ⟨e, -⟩ | ⟨-, om', hbo', hpost'⟩
  · rw [e, hex, List.length_append] at hlen'
    exact absurd (List.length_eq_zero_iff.1 (by simp at hlen'; simpa using hlen'.1)) hv
  have hO' := buildOmega_psd htau hS hU' hbo'
  have sp := omega_spec hconf hlen hbo
  have sp' : IsOmega a' a.sigma (fun k : Fin rows'.length => (rows'.get k).1) om' := omega_spec hconf' hlen' (by rw [huse, htau']; exact hbo')
  have hq : ∀ v : Fin N → ℝ, 0 ≤ v ⬝ᵥ (a.sigma *ᵥ v) := quad_nonneg hS
  have hle' : ∀ z : Fin rows.length → ℝ, ∑ i, ∑ j, z i * om' (ι i) (ι j) * z j ≤ ∑ i, ∑ j, z i * om i j * z j := by
    have hinj : Function.Injective ι := Fin.castLE_injective hle
    unfold IsOmega at sp sp'
    cases ho : a.omega with
    | none =>
      cases ho' : a'.omega with
      | none =>
        rw [ho] at sp; rw [ho'] at sp'
        refine diag_le hinj sp.1 sp'.1 fun i => ?_
        rw [sp.2, sp'.2, htau']
        dsimp only
        rw [hrow]; exact le_rfl
      | _ => rw [ho, ho'] at hom; exact hom.elim
    | idzorek =>
      cases ho' : a'.omega with
      | idzorek =>
        rw [ho] at sp; rw [ho'] at sp'
        rw [ho, ho'] at hom
        refine diag_le hinj sp.1 sp'.1 fun i => ?_
        obtain ⟨c, hc, e⟩ := sp.2 i
        obtain ⟨c', hc', e'⟩ := sp'.2 (ι i)
        dsimp only at e e'
        rw [e, e', huse, htau', hrow]
        refine odds_mono (mul_nonneg (by split_ifs <;> [exact htau; norm_num]) (hq _)) (hom i c c' (by rw [hlen]; exact i.2) hc hc')
      | _ => rw [ho, ho'] at hom; exact hom.elim
    | vec l =>
      cases ho' : a'.omega with
      | vec l' =>
        rw [ho] at sp; rw [ho'] at sp'
        rw [ho, ho'] at hom
        exact diag_le hinj sp.2.1 sp'.2.1 fun i => hom i _ _ (sp.2.2 i) (sp'.2.2 (ι i))
      | _ => rw [ho, ho'] at hom; exact hom.elim
    | mat m f =>
      cases ho' : a'.omega with
      | mat m' f' =>
        rw [ho] at sp; rw [ho'] at sp'
        rw [ho, ho'] at hom
        intro z
        have := hom (fun i => if hi : i < rows.length then z ⟨i, hi⟩ else 0)
        obtain ⟨em, sp⟩ := sp
        obtain ⟨-, sp'⟩ := sp'
        subst em
        simp only [Fin.is_lt, dif_pos, Fin.eta] at this
        simp only [sp, sp']
        exact this
      | _ => rw [ho, ho'] at hom; exact hom.elim
  obtain ⟨hu, -, hc⟩ := posterior_ok hpost
  obtain ⟨hu', -, hc'⟩ := posterior_ok hpost'
  have key := firmer_le (hS.smul htau) hu hO' hu' ι (fun i => by
    show (rows'.get (ι i)).1 = (rows.get i).1
    rw [hrow]) hle' x
  rw [hc, hc', quad_half_symm, quad_half_symm]
  simp only [sub_mulVec, add_mulVec, dotProduct_sub, dotProduct_add]
  linarith

private theorem one_posterior {pi : Fin 1 → ℝ} {P : Matrix (Fin 1) (Fin 1) ℝ} {Q : Fin 1 → ℝ} {om : Matrix (Fin 1) (Fin 1) ℝ}
    {r : (Fin 1 → ℝ) × Matrix (Fin 1) (Fin 1) ℝ} (hP : P 0 0 = 1) (ho : om 0 0 = 1) (h : posterior 1 1 pi P Q om = .ok r) : r.2 0 0 = 3 / 2 := by
  obtain ⟨hu, -, hc⟩ := posterior_ok h
  have hA : (P * ((1:ℝ) • (1 : Matrix (Fin 1) (Fin 1) ℝ)) * Pᵀ + om) 0 0 = 2 := by
    simp [Matrix.mul_apply, hP, ho]; norm_num
  have hi := congrFun (congrFun (nonsing_inv_mul _ hu) 0) 0
  rw [Matrix.mul_apply, Fin.sum_univ_one, hA, Matrix.one_apply_eq] at hi
  rw [hc]
  generalize (P * ((1:ℝ) • (1 : Matrix (Fin 1) (Fin 1) ℝ)) * Pᵀ + om)⁻¹ = B at hi
  simp [Matrix.mul_apply, hP]
  linarith

private theorem one_posterior' {K : ℕ} (hK : K = 1) {pi : Fin 1 → ℝ} {P : Matrix (Fin K) (Fin 1) ℝ} {Q : Fin K → ℝ} {om : Matrix (Fin K) (Fin K) ℝ}
    {r : (Fin 1 → ℝ) × Matrix (Fin 1) (Fin 1) ℝ} (hP : ∀ k, P k 0 = 1) (ho : ∀ k, om k k = 1) (h : posterior 1 1 pi P Q om = .ok r) : r.2 0 0 = 3 / 2 := by
  subst hK
  exact one_posterior (hP 0) (ho 0) h

/-- **C248 is false.** One asset with variance one: without views the covariance is the prior one; stating a first view, whatever it says, raises it by
half of `tau`, because the uncertainty about the mean is only counted when there are views. -/
theorem C248_counterexample (t : ℝ) (pi : Fin 1 → ℝ) :
    let a : Args 1 := ⟨1, ![.str "A"], none, none, 1, 1, true, some pi, [], .none, .none⟩
    ∃ r r', BL.construct a = .ok r ∧ BL.construct { a with views := [(.single (.str "A"), .scalar t)] } = .ok r' ∧ r.2 0 0 = 1 ∧ r'.2 0 0 = 3 / 2 := by
  intro a
  have hA : assetIndex a.assets (.str "A") = .ok 0 := by
    have : indexOf (![.str "A"] : Fin 1 → Label) (.str "A") = some 0 := by decide
    show assetIndex (![.str "A"] : Fin 1 → Label) (.str "A") = _
    simp [assetIndex, this]
  have hrows : buildViews a.assets [(.single (.str "A"), .scalar t)] = .ok [(Function.update (fun _ => 0) 0 1, t)] := by
    show mapE _ [(MKey.single (.str "A"), Val.scalar t)] = _
    simp only [mapE, pickRow, hA, target, bind, Except.bind]
  have hsym : symmetrise (1 : Matrix (Fin 1) (Fin 1) ℝ) = 1 := symmetrise_of_symm transpose_one
  have h0 : BL.construct a = .ok (pi, 1) := by
    show (if (1:ℝ) ≤ 0 then _ else _) = _
    rw [if_neg (by norm_num)]
    simp [priorPi, buildViews, mapE, parseConf, bind, Except.bind, a, hsym]
  obtain ⟨m, cov, hc, -⟩ := C31_processor (a := { a with views := [(.single (.str "A"), .scalar t)] }) PosDef.one one_pos one_pos (.inl ⟨rfl, rfl⟩)
    (pi := pi) rfl hrows (by simp)
  refine ⟨_, _, h0, hc, by simp, ?_⟩
  obtain ⟨-, pi', rows, conf, -, hr, hcf, hcase⟩ := construct_cases hc
  have hr1 : rows = [(Function.update (fun _ => 0) 0 1, t)] := by
    have := hrows.symm.trans hr
    injection this with this
    exact this.symm
  have hlen : rows.length = 1 := by rw [hr1]; rfl
  have hget : ∀ k : Fin rows.length, (rows.get k).1 = Function.update (fun _ => 0) 0 1 := by
    intro k
    have hm : ∀ y ∈ rows, y.1 = Function.update (fun _ => 0) 0 1 := by
      rw [hr1]; intro y hy; rw [List.mem_singleton.1 hy]
    exact hm _ (List.get_mem rows k)
  rcases hcase with ⟨e, -⟩ | ⟨-, om, hom, hpost⟩
  · rw [e] at hlen; cases hlen
  · have hs : symmetrise ({ a with views := [(.single (.str "A"), .scalar t)] } : Args 1).sigma = 1 := hsym
    rw [hs] at hom hpost
    have sp := omega_spec hcf (by rw [hlen]; rfl) hom
    refine one_posterior' hlen (fun k => ?_) (fun k => ?_) hpost
    · rw [Matrix.of_apply, hget]; simp
    · have := sp.2 k
      rw [this]
      show (1:ℝ) * ((rows.get k).1 ⬝ᵥ (1 *ᵥ (rows.get k).1)) = 1
      rw [hget]
      simp [Matrix.one_mulVec, dotProduct]

/-- What a posterior mean that meets a view looks like. -/
def MetBy (assets : Fin N → Label) (m : Fin N → ℝ) (kv : MKey × Val) : Prop :=
  ∃ t, Asks kv.2 t ∧ (∀ l i, kv.1 = .single l → Refers assets l i → m i = t) ∧
    ∀ l l' i j, kv.1 = .pair l l' → Refers assets l i → Refers assets l' j → i ≠ j → m i - m j = t

private theorem residual {tau : ℝ} {sigma : Matrix (Fin N) (Fin N) ℝ} {pi : Fin N → ℝ} {P : Matrix (Fin K) (Fin N) ℝ} {Q : Fin K → ℝ}
    {om : Matrix (Fin K) (Fin K) ℝ} {r : (Fin N → ℝ) × Matrix (Fin N) (Fin N) ℝ} (h : posterior tau sigma pi P Q om = .ok r) :
    ∃ s : Fin K → ℝ, P *ᵥ r.1 = Q - om *ᵥ s := by
  obtain ⟨hu, hm, -⟩ := posterior_ok h
  refine ⟨(P * (tau • sigma) * Pᵀ + om)⁻¹ *ᵥ (Q - P *ᵥ pi), ?_⟩
  have e : (P * (tau • sigma) * Pᵀ + om) *ᵥ ((P * (tau • sigma) * Pᵀ + om)⁻¹ *ᵥ (Q - P *ᵥ pi)) = Q - P *ᵥ pi := by
    rw [mulVec_mulVec, mul_nonsing_inv _ hu, one_mulVec]
  rw [add_mulVec] at e
  rw [hm, mulVec_add, mulVec_mulVec, ← Matrix.mul_assoc]
  generalize (P * (tau • sigma) * Pᵀ + om)⁻¹ *ᵥ (Q - P *ᵥ pi) = s at e ⊢
  rw [← sub_eq_zero] at e ⊢
  rw [← e]
  abel

private theorem row_met {assets : Fin N → Label} (ha : Function.Injective assets) {key : MKey} {row : Fin N → ℝ} {v : Val} {t : ℝ} (hr : IsRow assets key row)
    (ht : Asks v t) {m : Fin N → ℝ} (hm : row ⬝ᵥ m = t) : MetBy assets m (key, v) := by
  refine ⟨t, ht, fun l i hk hi => ?_, fun l l' i j hk hi hj hij => ?_⟩
  · rcases hr with ⟨b, k, hkey, hb, hdot⟩ | ⟨b, c, k, q, hkey, -⟩
    · rw [show key = _ from hk] at hkey
      injection hkey with hkey; subst hkey
      rw [← assetIndex_spec ha] at hi hb
      rw [hi] at hb; injection hb with hb; subst hb
      rw [← hdot m, hm]
    · rw [show key = _ from hk] at hkey; cases hkey
  · rcases hr with ⟨b, k, hkey, -⟩ | ⟨b, c, k, q, hkey, hb, hc, hdot, -⟩
    · rw [show key = _ from hk] at hkey; cases hkey
    · rw [show key = _ from hk] at hkey
      injection hkey with h1 h2; subst h1; subst h2
      rw [← assetIndex_spec ha] at hi hb hj hc
      rw [hi] at hb; injection hb with hb; subst hb
      rw [hj] at hc; injection hc with hc; subst hc
      rw [← hdot hij, hm]

/-- **C249** A view whose given uncertainty is zero is met exactly by the posterior mean, however uncertain the other views are. -/
theorem C249_certain {a : Args N} (ha : Function.Injective a.assets) {l : List ℝ} (ho : a.omega = .vec l) {r : (Fin N → ℝ) × Matrix (Fin N) (Fin N) ℝ}
    (h : BL.construct a = .ok r) (k : ℕ) {kv : MKey × Val} (hk : a.views[k]? = some kv) (hz : l[k]? = some 0) : MetBy a.assets r.1 kv := by
  obtain ⟨-, pi, rows, conf, -, hrows, hconf, hcase⟩ := construct_cases h
  have F := ((C131_views ha a.views).1 rows).1 hrows
  have hlen := F.length_eq
  obtain ⟨hk1, hk2⟩ := List.getElem?_eq_some_iff.1 hk
  rcases hcase with ⟨e, -⟩ | ⟨-, om, hom, hpost⟩
  · rw [e] at hlen
    rw [hlen] at hk1; exact absurd hk1 (by simp)
  have hk' : k < rows.length := by rw [← hlen]; exact hk1
  have sp := omega_spec hconf hlen hom
  unfold IsOmega at sp
  rw [ho] at sp
  obtain ⟨-, hoff, hdiag⟩ := sp
  have hd : om ⟨k, hk'⟩ ⟨k, hk'⟩ = 0 := by
    have := hdiag ⟨k, hk'⟩
    dsimp only at this
    rw [hz] at this
    injection this with this
    exact this.symm
  obtain ⟨s, hs⟩ := residual hpost
  have hrow := congrFun hs ⟨k, hk'⟩
  have h0 : (om *ᵥ s) ⟨k, hk'⟩ = 0 := by
    unfold mulVec dotProduct
    refine Finset.sum_eq_zero fun j _ => ?_
    by_cases hj : (⟨k, hk'⟩ : Fin rows.length) = j
    · show om _ j * s j = 0
      rw [← hj, hd, zero_mul]
    · show om _ j * s j = 0
      rw [hoff _ _ hj, zero_mul]
  rw [Pi.sub_apply, h0, sub_zero] at hrow
  obtain ⟨h1, h2⟩ := (List.forall₂_iff_get.1 F).2 k hk1 hk'
  have e : a.views.get ⟨k, hk1⟩ = kv := hk2
  rw [e] at h1 h2
  exact row_met ha h1 h2 hrow

private theorem inv_vanish (B W : Matrix (Fin K) (Fin K) ℝ) (hW : IsUnit W.det) :
    Filter.Tendsto (fun t : ℝ => (B + t • W)⁻¹) Filter.atTop (nhds 0) := by
  have hc : ContinuousAt (fun s : ℝ => (s • B + W)⁻¹) 0 := by
    have h1 : Continuous fun s : ℝ => s • B + W := by fun_prop
    have e : (fun s : ℝ => (s • B + W)⁻¹) = fun s => ((s • B + W).det)⁻¹ • (s • B + W).adjugate := by
      funext s; rw [Matrix.inv_def, Ring.inverse_eq_inv']
    rw [e]
    refine ContinuousAt.smul (ContinuousAt.inv₀ (h1.matrix_det).continuousAt ?_) (h1.matrix_adjugate).continuousAt
    rw [zero_smul, zero_add]; exact hW.ne_zero
  have h2 : Filter.Tendsto (fun t : ℝ => t⁻¹ • (t⁻¹ • B + W)⁻¹) Filter.atTop (nhds ((0:ℝ) • ((0:ℝ) • B + W)⁻¹)) :=
    (tendsto_inv_atTop_zero).smul (hc.tendsto.comp tendsto_inv_atTop_zero)
  rw [zero_smul] at h2
  refine h2.congr' ?_
  filter_upwards [Filter.eventually_gt_atTop (0:ℝ)] with t ht
  have e : B + t • W = t • (t⁻¹ • B + W) := by
    rw [smul_add, smul_smul, mul_inv_cancel₀ ht.ne', one_smul]
  rw [e]
  by_cases hd : IsUnit (t⁻¹ • B + W).det
  · have := Matrix.inv_smul' (t⁻¹ • B + W) (Units.mk0 t ht.ne') hd
    exact this.symm
  · have hd' : ¬ IsUnit (t • (t⁻¹ • B + W)).det := by
      rw [Matrix.det_smul, isUnit_iff_ne_zero, not_not] at *
      rw [hd, mul_zero]
    rw [nonsing_inv_apply_not_isUnit _ hd, nonsing_inv_apply_not_isUnit _ hd', smul_zero]

/-- **C249** As the given uncertainties of the views grow without bound, the posterior mean tends to the prior mean and the posterior covariance to
`(1 + tau)` times the prior one. -/
theorem C249_vague {a : Args N} (hS : a.sigmaᵀ = a.sigma) {pi : Fin N → ℝ} (hpi : a.pi = some pi) (hv : a.views ≠ []) {l : List ℝ} (hl : ∀ x ∈ l, 0 < x)
    {r : ℝ → (Fin N → ℝ) × Matrix (Fin N) (Fin N) ℝ} (h : ∀ t, 0 < t → BL.construct { a with omega := .vec (l.map (t * ·)) } = .ok (r t)) :
    Filter.Tendsto (fun t => (r t).1) Filter.atTop (nhds pi) ∧
      Filter.Tendsto (fun t => (r t).2) Filter.atTop (nhds ((1 + a.tau) • a.sigma)) := by
  obtain ⟨-, pi', rows, conf, -, hrows, -, -⟩ := construct_cases (h 1 one_pos)
  have hrne : rows ≠ [] := by
    rintro rfl
    have hF : List.Forall₂ (fun kv rt => viewRow a.assets kv = .ok rt) a.views [] := mapE_ok.1 hrows
    exact hv (List.length_eq_zero_iff.1 hF.length_eq)
  set P : Matrix (Fin rows.length) (Fin N) ℝ := Matrix.of (fun k => (rows.get k).1) with hP
  set Q : Fin rows.length → ℝ := fun k => (rows.get k).2 with hQ
  have hpost : ∀ t, 0 < t → l.length = rows.length ∧
      posterior a.tau a.sigma pi P Q (t • Matrix.diagonal fun k : Fin rows.length => l.getD k 0) = .ok (r t) := by
    intro t ht
    obtain ⟨-, pi2, rows2, conf2, hpi2, hrows2, -, hcase⟩ := construct_cases (h t ht)
    have e1 : rows2 = rows := by
      have := hrows2.symm.trans hrows
      injection this
    subst e1
    have e2 : pi2 = pi := by
      have : priorPi (symmetrise a.sigma) a.riskAversion a.pi a.marketWeights a.priorMean = .ok pi2 := hpi2
      rw [hpi] at this
      injection this with this
      exact this.symm
    subst e2
    rcases hcase with ⟨e, -⟩ | ⟨-, om, hom, hp⟩
    · exact absurd e hrne
    have hsym : symmetrise ({ a with omega := OmegaArg.vec (l.map (t * ·)) } : Args N).sigma = a.sigma := symmetrise_of_symm hS
    rw [hsym] at hom hp
    unfold buildOmega at hom
    dsimp only at hom
    split_ifs at hom with hlen
    injection hom with hom
    rw [List.length_map] at hlen
    refine ⟨hlen, ?_⟩
    have : om = t • Matrix.diagonal fun k : Fin rows2.length => l.getD k 0 := by
      rw [← hom]
      ext i j
      rw [Matrix.smul_apply]
      by_cases hij : i = j
      · subst hij
        rw [Matrix.diagonal_apply_eq, Matrix.diagonal_apply_eq, smul_eq_mul]
        have hi : (i : ℕ) < l.length := by rw [hlen]; exact i.2
        simp [List.getD_eq_getElem?_getD, List.getElem?_map, List.getElem?_eq_getElem hi]
      · rw [Matrix.diagonal_apply_ne _ hij, Matrix.diagonal_apply_ne _ hij, smul_zero]
    rw [← this]
    exact hp
  have hlen := (hpost 1 one_pos).1
  have hW : IsUnit (Matrix.diagonal fun k : Fin rows.length => l.getD k 0).det := by
    rw [Matrix.det_diagonal, isUnit_iff_ne_zero]
    refine Finset.prod_ne_zero_iff.2 fun k _ => ?_
    have hk : (k : ℕ) < l.length := by rw [hlen]; exact k.2
    rw [List.getD_eq_getElem?_getD, List.getElem?_eq_getElem hk, Option.getD_some]
    exact (hl _ (List.getElem_mem hk)).ne'
  have hinv := inv_vanish (P * (a.tau • a.sigma) * Pᵀ) _ hW
  constructor
  · have h1 : Filter.Tendsto (fun t : ℝ => pi + ((a.tau • a.sigma) * Pᵀ) *ᵥ
        ((P * (a.tau • a.sigma) * Pᵀ + t • Matrix.diagonal fun k : Fin rows.length => l.getD k 0)⁻¹ *ᵥ (Q - P *ᵥ pi))) Filter.atTop
        (nhds (pi + ((a.tau • a.sigma) * Pᵀ) *ᵥ ((0 : Matrix (Fin rows.length) (Fin rows.length) ℝ) *ᵥ (Q - P *ᵥ pi)))) := by
      have hcont : Continuous fun B : Matrix (Fin rows.length) (Fin rows.length) ℝ => pi + ((a.tau • a.sigma) * Pᵀ) *ᵥ (B *ᵥ (Q - P *ᵥ pi)) := by
        refine continuous_const.add (Continuous.matrix_mulVec continuous_const (Continuous.matrix_mulVec continuous_id continuous_const))
      exact (hcont.tendsto 0).comp hinv
    rw [zero_mulVec, mulVec_zero, add_zero] at h1
    refine h1.congr' ?_
    filter_upwards [Filter.eventually_gt_atTop (0:ℝ)] with t ht
    exact (posterior_ok (hpost t ht).2).2.1.symm
  · have hcont : Continuous fun B : Matrix (Fin rows.length) (Fin rows.length) ℝ =>
        (1 / 2 : ℝ) • ((a.sigma + a.tau • a.sigma - (a.tau • a.sigma) * Pᵀ * (B * (P * (a.tau • a.sigma)))) +
          (a.sigma + a.tau • a.sigma - (a.tau • a.sigma) * Pᵀ * (B * (P * (a.tau • a.sigma))))ᵀ) := by
      have hc : Continuous fun B : Matrix (Fin rows.length) (Fin rows.length) ℝ =>
          a.sigma + a.tau • a.sigma - (a.tau • a.sigma) * Pᵀ * (B * (P * (a.tau • a.sigma))) :=
        continuous_const.sub (Continuous.matrix_mul continuous_const (Continuous.matrix_mul continuous_id continuous_const))
      exact (continuous_const (y := (1 / 2 : ℝ))).smul (hc.add hc.matrix_transpose)
    have h2 := (hcont.tendsto 0).comp hinv
    have e0 : (1 / 2 : ℝ) • ((a.sigma + a.tau • a.sigma - (a.tau • a.sigma) * Pᵀ * ((0 : Matrix (Fin rows.length) (Fin rows.length) ℝ) * (P * (a.tau • a.sigma)))) +
          (a.sigma + a.tau • a.sigma - (a.tau • a.sigma) * Pᵀ * ((0 : Matrix (Fin rows.length) (Fin rows.length) ℝ) * (P * (a.tau • a.sigma))))ᵀ) =
        (1 + a.tau) • a.sigma := by
      rw [Matrix.zero_mul, Matrix.mul_zero, sub_zero, transpose_add, transpose_smul, hS, add_smul, one_smul, ← two_smul ℝ, smul_smul]
      norm_num
    rw [e0] at h2
    refine h2.congr' ?_
    filter_upwards [Filter.eventually_gt_atTop (0:ℝ)] with t ht
    exact (posterior_ok (hpost t ht).2).2.2.symm

/-- One asset, one view with a given uncertainty. -/
private noncomputable abbrev exOne (w : ℝ) : Args 1 :=
  ⟨1, ![.str "A"], none, none, 1, 1, true, some ![0], [(.single (.str "A"), .scalar 1)], .none, .vec [w]⟩

private theorem one_ok {K : ℕ} (hK : K = 1) {pi : Fin 1 → ℝ} {P : Matrix (Fin K) (Fin 1) ℝ} {Q : Fin K → ℝ} {om : Matrix (Fin K) (Fin K) ℝ}
    (hP : ∀ k, P k 0 = 1) (ho : ∀ k, 0 ≤ om k k) : ∃ r, posterior 1 1 pi P Q om = .ok r := by
  subst hK
  have hd : (P * ((1:ℝ) • (1 : Matrix (Fin 1) (Fin 1) ℝ)) * Pᵀ + om).det ≠ 0 := by
    rw [Matrix.det_fin_one]
    have := ho 0
    simp [Matrix.mul_apply, hP]
    linarith
  unfold posterior
  simp only [linSolve, hd, if_false]
  exact ⟨_, rfl⟩

private theorem exOne_ok {w : ℝ} (hw : 0 ≤ w) : ∃ r, BL.construct (exOne w) = .ok r := by
  have hA : assetIndex (![.str "A"] : Fin 1 → Label) (.str "A") = .ok 0 := by
    have : indexOf (![.str "A"] : Fin 1 → Label) (.str "A") = some 0 := by decide
    simp [assetIndex, this]
  have hrows : buildViews (![.str "A"] : Fin 1 → Label) [(.single (.str "A"), .scalar 1)] = .ok [(Function.update (fun _ => 0) 0 1, 1)] := by
    show mapE _ [(MKey.single (.str "A"), Val.scalar 1)] = _
    simp only [mapE, pickRow, hA, target, bind, Except.bind]
  have hsym : symmetrise (1 : Matrix (Fin 1) (Fin 1) ℝ) = 1 := symmetrise_of_symm transpose_one
  unfold BL.construct
  rw [if_neg (by norm_num)]
  dsimp only
  rw [hsym, hrows]
  obtain ⟨r, hr⟩ := one_ok (K := [((Function.update (fun _ => 0) 0 1 : Fin 1 → ℝ), (1:ℝ))].length) rfl (pi := ![0])
    (P := Matrix.of fun k => ([((Function.update (fun _ => 0) 0 1 : Fin 1 → ℝ), (1:ℝ))].get k).1)
    (Q := fun k => ([((Function.update (fun _ => 0) 0 1 : Fin 1 → ℝ), (1:ℝ))].get k).2)
    (om := Matrix.diagonal fun k => [w].getD k 0) (fun k => by fin_cases k; simp) (fun k => by fin_cases k; simpa using hw)
  refine ⟨r, ?_⟩
  simp only [priorPi, parseConf, buildOmega, bind, Except.bind]
  rw [if_neg (by simp)]
  simp only [List.length_singleton, if_true]
  exact hr

/-- Non-vacuity of C249: certain and ever vaguer views are accepted, and the certain one is met. -/
example : (∃ r, BL.construct (exOne 0) = .ok r ∧ r.1 0 = 1) ∧ ∃ r : ℝ → (Fin 1 → ℝ) × Matrix (Fin 1) (Fin 1) ℝ, ∀ t, 0 < t →
    BL.construct { exOne 2 with omega := .vec ([2].map (t * ·)) } = .ok (r t) := by
  constructor
  · obtain ⟨r, hr⟩ := exOne_ok (le_refl 0)
    have ha : Function.Injective (exOne 0).assets := fun i j _ => Subsingleton.elim i j
    obtain ⟨t, ht, h1, -⟩ := C249_certain ha rfl hr 0 (kv := (.single (.str "A"), .scalar 1)) rfl rfl
    refine ⟨r, hr, ?_⟩
    rcases ht with e | e
    · injection e with e
      rw [h1 (.str "A") 0 rfl (.inl rfl), e]
    · cases e
  · have : ∀ t : ℝ, ∃ r, 0 < t → BL.construct { exOne 2 with omega := .vec ([2].map (t * ·)) } = .ok r := by
      intro t
      by_cases ht : 0 < t
      · obtain ⟨r, hr⟩ := exOne_ok (w := t * 2) (by positivity)
        exact ⟨r, fun _ => hr⟩
      · exact ⟨0, fun h => absurd h ht⟩
    choose r hr using this
    exact ⟨r, hr⟩

/-- Non-vacuity of C248: a second view besides the first. -/
example : ∃ r r', BL.construct { exTwoViews with views := [(.pair (.str "A") (.str "B"), .scalar (1 / 20))] } = .ok r ∧ BL.construct exTwoViews = .ok r' ∧
    Firmer { exTwoViews with views := [(.pair (.str "A") (.str "B"), .scalar (1 / 20))] } exTwoViews ∧ ∀ x, x ⬝ᵥ (r'.2 *ᵥ x) ≤ x ⬝ᵥ (r.2 *ᵥ x) := by
  have hA : assetIndex exTwoViews.assets (.str "A") = .ok 0 := by
    have : indexOf exTwoViews.assets (.str "A") = some 0 := by decide
    simp [assetIndex, this]
  have hB : assetIndex exTwoViews.assets (.str "B") = .ok 1 := by
    have : indexOf exTwoViews.assets (.str "B") = some 1 := by decide
    simp [assetIndex, this]
  have hrows : ∃ rows, buildViews exTwoViews.assets exTwoViews.views = .ok rows := by
    refine ⟨[(Function.update (Function.update (fun _ => 0) 0 1) 1 (-1), 1 / 20), (Function.update (fun _ => 0) 0 1, 1 / 10)], ?_⟩
    show mapE _ [(MKey.pair (.str "A") (.str "B"), Val.scalar (1 / 20)), (MKey.single (.str "A"), Val.seq [1 / 10])] = _
    simp only [mapE, pickRow, hA, hB, target, bind, Except.bind]
  have hrows1 : ∃ rows, buildViews exTwoViews.assets [(.pair (.str "A") (.str "B"), .scalar (1 / 20))] = .ok rows := by
    refine ⟨[(Function.update (Function.update (fun _ => 0) 0 1) 1 (-1), 1 / 20)], ?_⟩
    show mapE _ [(MKey.pair (.str "A") (.str "B"), Val.scalar (1 / 20))] = _
    simp only [mapE, pickRow, hA, hB, target, bind, Except.bind]
  obtain ⟨rows, hrows⟩ := hrows
  obtain ⟨rows1, hrows1⟩ := hrows1
  have h1 : exTwoViews.sigma.PosDef := PosDef.one
  obtain ⟨m, cov, h, -⟩ := C31_processor h1 (by norm_num [exTwoViews]) (by norm_num [exTwoViews]) (Or.inl ⟨rfl, rfl⟩) (pi := ![1 / 10, 1 / 20]) rfl hrows
    (by simp [exTwoViews])
  obtain ⟨m1, cov1, h', -⟩ := C31_processor (a := { exTwoViews with views := [(.pair (.str "A") (.str "B"), .scalar (1 / 20))] }) h1
    (by norm_num [exTwoViews]) (by norm_num [exTwoViews]) (Or.inl ⟨rfl, rfl⟩) (pi := ![1 / 10, 1 / 20]) rfl hrows1 (by simp)
  have hF : Firmer { exTwoViews with views := [(.pair (.str "A") (.str "B"), .scalar (1 / 20))] } exTwoViews :=
    ⟨⟨[(.single (.str "A"), .seq [1 / 10])], rfl⟩, trivial⟩
  exact ⟨_, _, h', h, hF, C248_firmer_partial (a' := exTwoViews) (a := { exTwoViews with views := [(.pair (.str "A") (.str "B"), .scalar (1 / 20))] }) (by simp) h1.posSemidef (by norm_num [exTwoViews]) rfl rfl rfl rfl trivial hF h' h⟩

end PyV.Props
