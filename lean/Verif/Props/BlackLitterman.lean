import Verif.Lemmas.BlackLitterman
import Mathlib.Algebra.Order.Star.Real

/-! # Properties C31–C34: Black–Litterman -/

namespace PyV.Props

open PyV PyV.FV PyV.BL Matrix

variable {N K : ℕ}

theorem bl_stationary {V : Matrix (Fin N) (Fin N) ℝ} (hV : IsUnit V.det) {P : Matrix (Fin K) (Fin N) ℝ}
    {omega : Matrix (Fin K) (Fin K) ℝ} (hO : IsUnit omega.det) (hu : IsUnit (P * V * Pᵀ + omega).det)
    {pi m : Fin N → ℝ} {Q : Fin K → ℝ}
    (hm : m = pi + (V * Pᵀ) *ᵥ ((P * V * Pᵀ + omega)⁻¹ *ᵥ (Q - P *ᵥ pi))) :
    V⁻¹ *ᵥ (m - pi) = Pᵀ *ᵥ (omega⁻¹ *ᵥ (Q - P *ᵥ m)) := by
  set y := (P * V * Pᵀ + omega)⁻¹ *ᵥ (Q - P *ᵥ pi) with hy
  have hAy : (P * V * Pᵀ + omega) *ᵥ y = Q - P *ᵥ pi := by
    rw [hy, mulVec_mulVec, Matrix.mul_nonsing_inv _ hu, one_mulVec]
  have h1 : V⁻¹ *ᵥ (m - pi) = Pᵀ *ᵥ y := by
    rw [hm, add_sub_cancel_left, mulVec_mulVec, ← Matrix.mul_assoc, Matrix.nonsing_inv_mul _ hV, Matrix.one_mul]
  have h2 : Q - P *ᵥ m = omega *ᵥ y := by
    rw [hm, mulVec_add, mulVec_mulVec, ← Matrix.mul_assoc, ← sub_sub, ← hAy, add_mulVec, add_sub_cancel_left]
  rw [h1, h2, mulVec_mulVec y omega⁻¹ omega, Matrix.nonsing_inv_mul _ hO, one_mulVec]

/-- **C31** The returned mean solves the mixed-estimation normal equations. -/
theorem C31_normal_equations {tau : ℝ} (htau : 0 < tau) {sigma : Matrix (Fin N) (Fin N) ℝ} (hS : sigma.PosDef)
    {pi : Fin N → ℝ} {P : Matrix (Fin K) (Fin N) ℝ} {Q : Fin K → ℝ} {omega : Matrix (Fin K) (Fin K) ℝ}
    (hO : omega.PosDef) :
    ∃ m cov, posterior tau sigma pi P Q omega = .ok (m, cov) ∧
      ((tau • sigma)⁻¹ + Pᵀ * omega⁻¹ * P) *ᵥ m = (tau • sigma)⁻¹ *ᵥ pi + (Pᵀ * omega⁻¹) *ᵥ Q := by
  have hV : (tau • sigma).PosDef := hS.smul htau
  have hA : (P * (tau • sigma) * Pᵀ + omega).PosDef := by
    refine PosDef.posSemidef_add ?_ hO
    have := hV.posSemidef.mul_mul_conjTranspose_same P
    rwa [conjTranspose_eq_transpose_of_trivial] at this
  have hAd : (P * (tau • sigma) * Pᵀ + omega).det ≠ 0 := hA.det_pos.ne'
  have hex : ∃ r, posterior tau sigma pi P Q omega = .ok r := by
    unfold posterior
    simp only [linSolve, hAd, if_false]
    exact ⟨_, rfl⟩
  obtain ⟨⟨m, cov⟩, hr⟩ := hex
  obtain ⟨hu, hm, -⟩ := posterior_ok hr
  refine ⟨m, cov, hr, ?_⟩
  have hst := bl_stationary (isUnit_iff_ne_zero.mpr hV.det_pos.ne') (isUnit_iff_ne_zero.mpr hO.det_pos.ne') hu hm
  rw [mulVec_sub, mulVec_sub, mulVec_sub] at hst
  rw [add_mulVec, ← mulVec_mulVec, ← mulVec_mulVec, ← mulVec_mulVec, mulVec_sub] at *
  have := sub_eq_iff_eq_add.mp hst
  rw [this]
  simp only [mulVec_sub]
  abel

/-- **C31** The returned mean is the unique minimiser of the Gaussian posterior's negative log-density
`(m-π)'(τΣ)⁻¹(m-π) + (Q-Pm)'Ω⁻¹(Q-Pm)`. -/
theorem C31_posterior_mode {tau : ℝ} (htau : 0 < tau) {sigma : Matrix (Fin N) (Fin N) ℝ} (hS : sigma.PosDef)
    {pi : Fin N → ℝ} {P : Matrix (Fin K) (Fin N) ℝ} {Q : Fin K → ℝ} {omega : Matrix (Fin K) (Fin K) ℝ}
    (hO : omega.PosDef) {r : (Fin N → ℝ) × Matrix (Fin N) (Fin N) ℝ}
    (hr : posterior tau sigma pi P Q omega = .ok r) (m' : Fin N → ℝ) (hne : m' ≠ r.1) :
    (r.1 - pi) ⬝ᵥ ((tau • sigma)⁻¹ *ᵥ (r.1 - pi)) + (Q - P *ᵥ r.1) ⬝ᵥ (omega⁻¹ *ᵥ (Q - P *ᵥ r.1)) <
    (m' - pi) ⬝ᵥ ((tau • sigma)⁻¹ *ᵥ (m' - pi)) + (Q - P *ᵥ m') ⬝ᵥ (omega⁻¹ *ᵥ (Q - P *ᵥ m')) := by
  have hV : (tau • sigma).PosDef := hS.smul htau
  obtain ⟨hu, hm, -⟩ := posterior_ok hr
  have hst := bl_stationary (isUnit_iff_ne_zero.mpr hV.det_pos.ne') (isUnit_iff_ne_zero.mpr hO.det_pos.ne') hu hm
  set V := tau • sigma
  obtain ⟨m, cov⟩ := r
  simp only at *
  set d := m' - m with hd
  have e1 : m' - pi = (m - pi) + d := by rw [hd]; abel
  have e2 : Q - P *ᵥ m' = (Q - P *ᵥ m) - P *ᵥ d := by rw [hd, mulVec_sub]; abel
  have hVs : (V⁻¹)ᵀ = V⁻¹ := symm_of_psd hV.inv.posSemidef
  have hOs : (omega⁻¹)ᵀ = omega⁻¹ := symm_of_psd hO.inv.posSemidef
  have hP : ∀ (a : Fin N → ℝ) (b : Fin K → ℝ), a ⬝ᵥ (Pᵀ *ᵥ b) = (P *ᵥ a) ⬝ᵥ b := by
    intro a b
    rw [dotProduct_mulVec, ← mulVec_transpose, transpose_transpose]
  have q1 : (m - pi + d) ⬝ᵥ (V⁻¹ *ᵥ (m - pi + d)) =
      (m - pi) ⬝ᵥ (V⁻¹ *ᵥ (m - pi)) + 2 * (d ⬝ᵥ (V⁻¹ *ᵥ (m - pi))) + d ⬝ᵥ (V⁻¹ *ᵥ d) := by
    rw [mulVec_add, dotProduct_add, add_dotProduct, add_dotProduct, dot_mulVec_symm hVs (m - pi) d]; ring
  have q2 : (Q - P *ᵥ m - P *ᵥ d) ⬝ᵥ (omega⁻¹ *ᵥ (Q - P *ᵥ m - P *ᵥ d)) =
      (Q - P *ᵥ m) ⬝ᵥ (omega⁻¹ *ᵥ (Q - P *ᵥ m)) - 2 * ((P *ᵥ d) ⬝ᵥ (omega⁻¹ *ᵥ (Q - P *ᵥ m))) +
        (P *ᵥ d) ⬝ᵥ (omega⁻¹ *ᵥ (P *ᵥ d)) := by
    generalize Q - P *ᵥ m = u
    generalize P *ᵥ d = v
    rw [mulVec_sub, dotProduct_sub, sub_dotProduct, sub_dotProduct, dot_mulVec_symm hOs u v]; ring
  have cross : d ⬝ᵥ (V⁻¹ *ᵥ (m - pi)) = (P *ᵥ d) ⬝ᵥ (omega⁻¹ *ᵥ (Q - P *ᵥ m)) := by rw [hst, hP]
  have hdne : d ≠ 0 := sub_ne_zero.mpr hne
  have p1 : 0 < d ⬝ᵥ (V⁻¹ *ᵥ d) := by simpa using hV.inv.dotProduct_mulVec_pos hdne
  have p2 := quad_nonneg hO.inv.posSemidef (P *ᵥ d)
  rw [e1, e2, q1, q2, cross]
  linarith

theorem construct_cases {a : Args N} {r : (Fin N → ℝ) × Matrix (Fin N) (Fin N) ℝ} (h : BL.construct a = .ok r) :
    0 < a.riskAversion ∧ ∃ pi rows conf, priorPi (symmetrise a.sigma) a.riskAversion a.pi a.marketWeights a.priorMean = .ok pi ∧
      buildViews a.assets a.views = .ok rows ∧ parseConf a.conf (a.views.map Prod.fst) = .ok conf ∧
      ((rows = [] ∧ r = (pi, symmetrise a.sigma)) ∨
       (rows ≠ [] ∧ ∃ om, buildOmega a.omega conf a.idzorekUseTau a.tau (symmetrise a.sigma)
          (Matrix.of (fun k : Fin rows.length => (rows.get k).1)) = .ok om ∧
        posterior a.tau (symmetrise a.sigma) pi (Matrix.of (fun k : Fin rows.length => (rows.get k).1))
          (fun k => (rows.get k).2) om = .ok r)) := by
  unfold BL.construct at h
  simp only at h
  split at h
  · cases h
  · rename_i hra
    refine ⟨not_le.mp hra, ?_⟩
    simp only [bind_ok] at h
    obtain ⟨pi, hpi, rows, hrows, conf, hconf, h⟩ := h
    refine ⟨pi, rows, conf, hpi, hrows, hconf, ?_⟩
    split at h
    · rename_i he
      injection h with h
      exact Or.inl ⟨he, h.symm⟩
    · rename_i he
      rw [bind_ok] at h
      obtain ⟨om, hom, h⟩ := h
      exact Or.inr ⟨he, om, hom, h⟩

/-- What is asked of a user-supplied view covariance; nothing for `None` and `"idzorek"`. -/
def UserOmegaPsd : OmegaArg → Prop
  | .none => True
  | .idzorek => True
  | .vec l => ∀ x ∈ l, 0 ≤ x
  | .mat m f => (Matrix.of (fun i j : Fin m => f i j)).PosSemidef

theorem clipConf_bounds (c : ℝ) : 1 / 10 ^ 6 ≤ clipConf c ∧ clipConf c ≤ 1 - 1 / 10 ^ 6 := by
  unfold clipConf
  refine ⟨le_min (le_max_right _ _) (by norm_num), min_le_right _ _⟩

theorem buildOmega_psd {omega : OmegaArg} {conf : Option (List ℝ)} {useTau : Bool} {tau : ℝ} (htau : 0 ≤ tau)
    {sigma : Matrix (Fin N) (Fin N) ℝ} (hS : sigma.PosSemidef) {P : Matrix (Fin K) (Fin N) ℝ}
    {om : Matrix (Fin K) (Fin K) ℝ} (hU : UserOmegaPsd omega)
    (h : buildOmega omega conf useTau tau sigma P = .ok om) : om.PosSemidef := by
  have hV : (tau • sigma).PosSemidef := hS.smul htau
  unfold buildOmega at h
  simp only at h
  split at h
  · split at h
    · cases h
    · rename_i c
      injection h with h; subst h
      apply PosSemidef.diagonal
      intro k
      have hb := clipConf_bounds (c.getD k 0)
      have hpos : (0:ℝ) < 1 / 10 ^ 6 := by positivity
      have hbase : (if useTau = true then tau • sigma else sigma).PosSemidef := by split <;> assumption
      exact mul_nonneg (div_nonneg (by linarith) (by linarith)) (quad_nonneg hbase (P k))
  · injection h with h; subst h
    apply PosSemidef.diagonal
    intro k
    have := hV.mul_mul_conjTranspose_same P
    rw [conjTranspose_eq_transpose_of_trivial] at this
    exact this.diag_nonneg
  · rename_i l
    split at h
    · rename_i hl
      injection h with h; subst h
      apply PosSemidef.diagonal
      intro k
      have : (k : ℕ) < l.length := by rw [hl]; exact k.2
      simp only [List.getD_eq_getElem?_getD, List.getElem?_eq_getElem this, Option.getD_some]
      exact hU _ (List.getElem_mem _)
    · cases h
  · rename_i m f
    split at h
    · rename_i hm
      subst hm
      injection h with h; subst h
      exact hU
    · cases h

/-- **C32** For a symmetric PSD prior covariance, `τ ≥ 0` and any of the view-covariance options (PSD if user-supplied),
whenever the constructor returns, the posterior covariance is symmetric and lies between Σ and (1+τ)Σ: for every
portfolio the posterior variance is at least the prior one and at most (1+τ) times it. -/
theorem C32_covariance_bounds {a : Args N} (hS : a.sigma.PosSemidef) (htau : 0 ≤ a.tau) (hU : UserOmegaPsd a.omega)
    {r : (Fin N → ℝ) × Matrix (Fin N) (Fin N) ℝ} (h : BL.construct a = .ok r) :
    r.2ᵀ = r.2 ∧ r.2.PosSemidef ∧ ∀ x : Fin N → ℝ, x ⬝ᵥ (a.sigma *ᵥ x) ≤ x ⬝ᵥ (r.2 *ᵥ x) ∧
      x ⬝ᵥ (r.2 *ᵥ x) ≤ (1 + a.tau) * (x ⬝ᵥ (a.sigma *ᵥ x)) := by
  obtain ⟨-, pi, rows, conf, -, -, -, hcase⟩ := construct_cases h
  rw [symmetrise_of_symm (symm_of_psd hS)] at hcase
  suffices hmain : r.2ᵀ = r.2 ∧ ∀ x : Fin N → ℝ, x ⬝ᵥ (a.sigma *ᵥ x) ≤ x ⬝ᵥ (r.2 *ᵥ x) ∧
      x ⬝ᵥ (r.2 *ᵥ x) ≤ (1 + a.tau) * (x ⬝ᵥ (a.sigma *ᵥ x)) by
    refine ⟨hmain.1, ?_, hmain.2⟩
    refine .of_dotProduct_mulVec_nonneg ?_ (fun x => ?_)
    · rw [IsHermitian, conjTranspose_eq_transpose_of_trivial]; exact hmain.1
    · have := (hmain.2 x).1
      have h0 := quad_nonneg hS x
      simpa using h0.trans this
  rcases hcase with ⟨-, rfl⟩ | ⟨-, om, hom, hpost⟩
  · refine ⟨symm_of_psd hS, fun x => ⟨le_rfl, ?_⟩⟩
    have h0 := quad_nonneg hS x
    have := mul_nonneg htau h0
    simp only
    linarith
  · have hV : (a.tau • a.sigma).PosSemidef := hS.smul htau
    have hO := buildOmega_psd htau hS hU hom
    obtain ⟨hu, -, hc⟩ := posterior_ok hpost
    rw [hc]
    constructor
    · rw [transpose_smul, transpose_add, transpose_transpose, add_comm]
    · intro x
      rw [quad_half_symm]
      obtain ⟨b1, b2⟩ := cov_bounds hV hO hu x
      rw [sub_mulVec, add_mulVec, dotProduct_sub, dotProduct_add]
      have e : x ⬝ᵥ ((a.tau • a.sigma) *ᵥ x) = a.tau * (x ⬝ᵥ (a.sigma *ᵥ x)) := by
        rw [smul_mulVec, dotProduct_smul, smul_eq_mul]
      constructor
      · linarith
      · rw [e] at *; linarith

/-- **C32** (no views) The prior is returned unchanged: mean π, covariance Σ (not (1+τ)Σ). -/
theorem C32_no_views {a : Args N} (hv : a.views = []) {r : (Fin N → ℝ) × Matrix (Fin N) (Fin N) ℝ}
    (hS : a.sigmaᵀ = a.sigma) (h : BL.construct a = .ok r) :
    r.2 = a.sigma ∧ (∀ p, a.pi = some p → r.1 = p) ∧
      (∀ m, a.pi = none → a.marketWeights = none → a.priorMean = some m → r.1 = m) := by
  obtain ⟨-, pi, rows, conf, hpi, hrows, -, hcase⟩ := construct_cases h
  rw [symmetrise_of_symm hS] at hcase hpi
  rw [hv] at hrows
  injection hrows with hrows
  subst hrows
  rcases hcase with ⟨-, rfl⟩ | ⟨hne, -⟩
  · refine ⟨rfl, ?_, ?_⟩
    · intro p hp
      unfold priorPi at hpi
      simp only [hp] at hpi
      injection hpi with hpi; exact hpi.symm
    · intro m h1 h2 h3
      unfold priorPi at hpi
      simp only [h1, h2, h3] at hpi
      injection hpi with hpi; exact hpi.symm
  · exact absurd rfl hne

theorem single_view_tilt {K : ℕ} {tau : ℝ} {sigma : Matrix (Fin N) (Fin N) ℝ} {pi : Fin N → ℝ}
    {P : Matrix (Fin K) (Fin N) ℝ} {Q : Fin K → ℝ} {om : Matrix (Fin K) (Fin K) ℝ} {row : Fin N → ℝ} {t c : ℝ}
    (hc : 0 < c) (hK : K = 1) (hP : ∀ k, P k = row) (hQ : ∀ k, Q k = t)
    (hom : ∀ k, om k k = (1 - c) / c * (row ⬝ᵥ ((tau • sigma) *ᵥ row)))
    {r : (Fin N → ℝ) × Matrix (Fin N) (Fin N) ℝ} (h : posterior tau sigma pi P Q om = .ok r) :
    row ⬝ᵥ r.1 = row ⬝ᵥ pi + c * (t - row ⬝ᵥ pi) := by
  subst hK
  obtain ⟨hu, hm, -⟩ := posterior_ok h
  generalize tau • sigma = V at *
  set w := row ⬝ᵥ (V *ᵥ row) with hw
  have hPV : ∀ x : Fin N → ℝ, (P *ᵥ x) 0 = row ⬝ᵥ x := by
    intro x; show P 0 ⬝ᵥ x = _; rw [hP]
  have hVP : ∀ y : Fin 1 → ℝ, (V * Pᵀ) *ᵥ y = y 0 • (V *ᵥ row) := by
    intro y
    rw [← mulVec_mulVec]
    have : Pᵀ *ᵥ y = y 0 • row := by
      funext i
      simp [mulVec, dotProduct, transpose_apply, hP, mul_comm]
    rw [this, mulVec_smul]
  have hentry : (P * V * Pᵀ + om) 0 0 = w / c := by
    have e1 : (P * V * Pᵀ) 0 0 = w := by
      have : (P * V * Pᵀ) 0 0 = (P *ᵥ ((V * Pᵀ) *ᵥ (fun _ => 1))) 0 := by
        rw [mulVec_mulVec, ← Matrix.mul_assoc]
        simp [mulVec, dotProduct]
      rw [this, hVP, hPV]
      simp [hw]
    rw [Matrix.add_apply, e1, hom]
    field_simp
    ring
  have hdet : (P * V * Pᵀ + om).det = w / c := by
    rw [← hentry]
    exact Matrix.det_unique _
  have hw0 : w ≠ 0 := by
    intro hc0
    rw [hdet, hc0, zero_div] at hu
    exact absurd hu (by simp)
  set y := (P * V * Pᵀ + om)⁻¹ *ᵥ (Q - P *ᵥ pi) with hy
  have hAy : (P * V * Pᵀ + om) *ᵥ y = Q - P *ᵥ pi := by
    rw [hy, mulVec_mulVec, Matrix.mul_nonsing_inv _ hu, one_mulVec]
  have h0 := congrFun hAy 0
  have hl : ((P * V * Pᵀ + om) *ᵥ y) 0 = w / c * y 0 := by
    rw [← hentry]
    simp [mulVec, dotProduct]
  rw [hl, Pi.sub_apply, hPV, hQ] at h0
  rw [hm, dotProduct_add, hVP, dotProduct_smul, smul_eq_mul, ← hw, ← h0]
  field_simp

/-- **C33** One view, `omega = "idzorek"`, `idzorek_use_tau = True`, confidence `c` (given as a scalar): the posterior
return of the view portfolio moves exactly the (clipped) fraction `c` of the way from the prior view return to the target.
-/
theorem C33_idzorek_tilt {a : Args N} {key : MKey} {v : Val} {c : ℝ} (hviews : a.views = [(key, v)])
    (homega : a.omega = .idzorek) (huse : a.idzorekUseTau = true) (hconf : a.conf = .scalar c)
    (hS : a.sigmaᵀ = a.sigma) {r : (Fin N → ℝ) × Matrix (Fin N) (Fin N) ℝ} (h : BL.construct a = .ok r) :
    ∃ pi row t, priorPi a.sigma a.riskAversion a.pi a.marketWeights a.priorMean = .ok pi ∧
      pickRow a.assets key = .ok row ∧ target v = .ok t ∧
      row ⬝ᵥ r.1 = row ⬝ᵥ pi + clipConf c * (t - row ⬝ᵥ pi) ∧
      (1 / 10 ^ 6 ≤ c → c ≤ 1 - 1 / 10 ^ 6 → clipConf c = c) := by
  obtain ⟨-, pi, rows, conf, hpi, hrows, hcf, hcase⟩ := construct_cases h
  rw [symmetrise_of_symm hS] at hcase hpi
  rw [hviews] at hrows hcf
  unfold buildViews at hrows
  rw [mapE_ok] at hrows
  cases hrows with
  | cons h1 h2 =>
    cases h2
    simp only [bind_ok] at h1
    obtain ⟨t, ht, row, hrow, h1⟩ := h1
    injection h1 with h1; subst h1
    refine ⟨pi, row, t, hpi, hrow, ht, ?_, ?_⟩
    · rcases hcase with ⟨hc, -⟩ | ⟨-, om, hom, hpost⟩
      · cases hc
      · rw [hconf] at hcf
        simp only [parseConf, List.map_cons, List.map_nil] at hcf
        injection hcf with hcf; subst hcf
        rw [homega, huse] at hom
        unfold buildOmega at hom
        simp only [if_true] at hom
        injection hom with hom
        have hb := (clipConf_bounds c).1
        have hcpos : 0 < clipConf c := lt_of_lt_of_le (by positivity) hb
        exact single_view_tilt (row := row) (t := t) hcpos rfl (fun k => by
          have : k = 0 := Fin.eq_zero k
          subst this; rfl) (fun k => by
          have : k = 0 := Fin.eq_zero k
          subst this; rfl) (fun k => by
          have : k = 0 := Fin.eq_zero k
          subst this; rw [← hom, diagonal_apply_eq]; rfl) hpost
    · intro h1 h2
      unfold clipConf
      rw [max_eq_left h1, min_eq_left h2]

/-- **C34** The rows of the pick matrix: `P m` is `mᵢ` for an absolute view on `i`, and `mᵢ - mⱼ` for a relative view on
distinct assets `i`, `j`; and the rows come out in view order with their targets. -/
theorem C34_pick_matrix_partial {assets : Fin N → Label} (m : Fin N → ℝ) :
    (∀ a row, pickRow assets (.single a) = .ok row → ∃ i, assetIndex assets a = .ok i ∧ row ⬝ᵥ m = m i) ∧
    (∀ a b row, pickRow assets (.pair a b) = .ok row →
      ∃ i j, assetIndex assets a = .ok i ∧ assetIndex assets b = .ok j ∧ (i ≠ j → row ⬝ᵥ m = m i - m j)) ∧
    (∀ views rows, buildViews assets views = .ok rows →
      List.Forall₂ (fun kv rt => pickRow assets kv.1 = .ok rt.1 ∧ target kv.2 = .ok rt.2) views rows) := by
  refine ⟨?_, ?_, ?_⟩
  · intro a row h
    simp only [pickRow, bind_ok] at h
    obtain ⟨i, hi, h⟩ := h
    injection h with h; subst h
    refine ⟨i, hi, ?_⟩
    simp only [dotProduct]
    rw [Finset.sum_eq_single i]
    · simp
    · intro j _ hj; simp [hj]
    · simp
  · intro a b row h
    simp only [pickRow, bind_ok] at h
    obtain ⟨i, hi, j, hj, h⟩ := h
    injection h with h; subst h
    refine ⟨i, j, hi, hj, fun hij => ?_⟩
    have : ∀ k, Function.update (Function.update (fun _ : Fin N => (0:ℝ)) i 1) j (-1) k =
        (if k = i then 1 else 0) - (if k = j then 1 else 0) := by
      intro k
      by_cases h1 : k = j
      · subst h1
        simp [Ne.symm hij]
      · by_cases h2 : k = i
        · subst h2; simp [h1]
        · simp [h1, h2]
    simp only [dotProduct, this, sub_mul, Finset.sum_sub_distrib, ite_mul, one_mul, zero_mul, Finset.sum_ite_eq',
      Finset.mem_univ, if_true]
  · intro views rows h
    unfold buildViews at h
    rw [mapE_ok] at h
    refine h.imp ?_
    intro kv rt hkv
    simp only [bind_ok] at hkv
    obtain ⟨t, ht, row, hrow, hkv⟩ := hkv
    injection hkv with hkv; subst hkv
    exact ⟨hrow, ht⟩

/-- **C34** is false of the code for a degenerate key `(A, A)`: instead of the zero row (or an error) it produces the
absolute view `-m_A`. -/
theorem C34_counterexample {assets : Fin N → Label} (a : Label) (i : Fin N) (h : assetIndex assets a = .ok i)
    (m : Fin N → ℝ) : ∃ row, pickRow assets (.pair a a) = .ok row ∧ row ⬝ᵥ m = -m i := by
  refine ⟨Function.update (Function.update (fun _ => 0) i 1) i (-1), ?_, ?_⟩
  · simp [pickRow, h, bind, Except.bind]
  · simp only [dotProduct]
    rw [Finset.sum_eq_single i]
    · simp
    · intro j _ hj; simp [hj]
    · simp


theorem pickRow_ne_zero {assets : Fin N → Label} {key : MKey} {row : Fin N → ℝ} (h : pickRow assets key = .ok row) :
    row ≠ 0 := by
  cases key with
  | single a =>
    simp only [pickRow, bind_ok] at h
    obtain ⟨i, hi, h⟩ := h
    injection h with h; subst h
    intro hc
    have := congrFun hc i
    simp at this
  | pair a b =>
    simp only [pickRow, bind_ok] at h
    obtain ⟨i, hi, j, hj, h⟩ := h
    injection h with h; subst h
    intro hc
    have := congrFun hc j
    simp at this

theorem buildViews_rows_ne_zero {assets : Fin N → Label} {views : List (MKey × Val)} {rows : List ((Fin N → ℝ) × ℝ)}
    (h : buildViews assets views = .ok rows) (k : Fin rows.length) : (rows.get k).1 ≠ 0 := by
  have h2 := (C34_pick_matrix_partial (assets := assets) (fun _ => (0:ℝ))).2.2 views rows h
  have hk : (k : ℕ) < views.length := by rw [h2.length_eq]; exact k.2
  have := (List.forall₂_iff_get.mp h2).2 k hk k.2
  exact pickRow_ne_zero this.1

/-- `omega=None`, or `"idzorek"` with scalar or per-key confidences (no positional array of the wrong length). -/
def AutoOmega (a : Args N) : Prop := (a.omega = .none ∧ a.conf = .none) ∨ (a.omega = .idzorek ∧ ∃ c, a.conf = .scalar c) ∨
  (a.omega = .idzorek ∧ ∃ d, a.conf = .dict d)

theorem auto_omega_posDef {a : Args N} (ha : AutoOmega a) (hS : a.sigma.PosDef) (htau : 0 < a.tau)
    {K : ℕ} {P : Matrix (Fin K) (Fin N) ℝ} (hP : ∀ k, P k ≠ 0) {conf : Option (List ℝ)}
    (hconf : parseConf a.conf (a.views.map Prod.fst) = .ok conf) :
    ∃ om, buildOmega a.omega conf a.idzorekUseTau a.tau a.sigma P = .ok om ∧ om.PosDef := by
  have hV : (a.tau • a.sigma).PosDef := hS.smul htau
  have hclip : ∀ c : ℝ, 0 < (1 - clipConf c) / clipConf c := by
    intro c
    have hb := clipConf_bounds c
    have : (0:ℝ) < 1 / 10 ^ 6 := by positivity
    exact div_pos (by linarith) (by linarith)
  have hid : ∀ c : List ℝ, ∃ om, buildOmega .idzorek (some c) a.idzorekUseTau a.tau a.sigma P = .ok om ∧ om.PosDef := by
    intro c
    refine ⟨_, rfl, PosDef.diagonal (fun k => mul_pos (hclip _) ?_)⟩
    have hbase : (if a.idzorekUseTau = true then a.tau • a.sigma else a.sigma).PosDef := by split <;> assumption
    simpa using hbase.dotProduct_mulVec_pos (hP k)
  rcases ha with ⟨h, -⟩ | ⟨h, c, hc⟩ | ⟨h, d, hd⟩
  · rw [h]
    refine ⟨_, rfl, PosDef.diagonal (fun k => ?_)⟩
    have e : (P * (a.tau • a.sigma) * Pᵀ) k k = P k ⬝ᵥ ((a.tau • a.sigma) *ᵥ P k) := by
      rw [Matrix.mul_assoc, Matrix.mul_apply]
      rfl
    rw [e]
    simpa using hV.dotProduct_mulVec_pos (hP k)
  · rw [h]
    rw [hc] at hconf
    injection hconf with hconf; subst hconf
    exact hid _
  · rw [h]
    rw [hd] at hconf
    injection hconf with hconf; subst hconf
    exact hid _

/-- **C31** (end to end) With a positive definite prior covariance, `τ > 0`, positive risk aversion and an automatically
built view covariance (`omega=None` or `"idzorek"` with scalar or dictionary confidences), the processor succeeds on every
non-empty set of views that resolve, and the posterior mean it returns solves the normal equations of the Gaussian
posterior for exactly the pick rows and targets of the views. -/
theorem C31_processor {a : Args N} (hS : a.sigma.PosDef) (htau : 0 < a.tau) (hra : 0 < a.riskAversion)
    (ha : AutoOmega a) {pi : Fin N → ℝ}
    (hpi : priorPi a.sigma a.riskAversion a.pi a.marketWeights a.priorMean = .ok pi)
    {rows : List ((Fin N → ℝ) × ℝ)} (hrows : buildViews a.assets a.views = .ok rows) (hne : a.views ≠ []) :
    ∃ m cov, BL.construct a = .ok (m, cov) ∧ ∃ om : Matrix (Fin rows.length) (Fin rows.length) ℝ, om.PosDef ∧
      ((a.tau • a.sigma)⁻¹ + (Matrix.of (fun k : Fin rows.length => (rows.get k).1))ᵀ * om⁻¹ *
          Matrix.of (fun k : Fin rows.length => (rows.get k).1)) *ᵥ m =
        (a.tau • a.sigma)⁻¹ *ᵥ pi + ((Matrix.of (fun k : Fin rows.length => (rows.get k).1))ᵀ * om⁻¹) *ᵥ
          (fun k => (rows.get k).2) := by
  have hsym := symmetrise_of_symm (symm_of_psd hS.posSemidef)
  have hlen : rows.length = a.views.length :=
    ((C34_pick_matrix_partial (assets := a.assets) (fun _ => (0:ℝ))).2.2 _ _ hrows).length_eq.symm
  have hrne : rows ≠ [] := by
    intro hc
    rw [hc] at hlen
    exact hne (List.length_eq_zero_iff.mp hlen.symm)
  have hcf : ∃ conf, parseConf a.conf (a.views.map Prod.fst) = .ok conf := by
    rcases ha with ⟨_, hc⟩ | ⟨_, c, hc⟩ | ⟨_, d, hc⟩ <;> rw [hc] <;> exact ⟨_, rfl⟩
  obtain ⟨conf, hconf⟩ := hcf
  obtain ⟨om, hom, hOp⟩ := auto_omega_posDef (P := Matrix.of (fun k : Fin rows.length => (rows.get k).1)) ha hS htau
    (fun k => buildViews_rows_ne_zero hrows k) hconf
  obtain ⟨m, cov, hpost, heq⟩ := C31_normal_equations htau hS (pi := pi)
    (P := Matrix.of (fun k : Fin rows.length => (rows.get k).1)) (Q := fun k => (rows.get k).2) hOp
  refine ⟨m, cov, ?_, om, hOp, heq⟩
  unfold BL.construct
  simp only [hsym]
  rw [if_neg (not_le.mpr hra), hpi]
  show (buildViews a.assets a.views >>= _) = _
  rw [hrows]
  show (parseConf a.conf (a.views.map Prod.fst) >>= _) = _
  rw [hconf]
  show (if rows = [] then _ else _) = _
  rw [if_neg hrne]
  show (buildOmega a.omega conf a.idzorekUseTau a.tau a.sigma _ >>= _) = _
  rw [hom]
  exact hpost

/-- **C33** read on the assets: an absolute view `E[R_i] = t` held with confidence `c` moves the posterior mean of asset
`i` exactly the fraction `c` of the way from its prior mean to `t`; a relative view does so for the spread. -/
theorem C33_idzorek_asset {a : Args N} {key : MKey} {v : Val} {c : ℝ} (hviews : a.views = [(key, v)])
    (homega : a.omega = .idzorek) (huse : a.idzorekUseTau = true) (hconf : a.conf = .scalar c)
    (hc1 : 1 / 10 ^ 6 ≤ c) (hc2 : c ≤ 1 - 1 / 10 ^ 6)
    (hS : a.sigmaᵀ = a.sigma) {r : (Fin N → ℝ) × Matrix (Fin N) (Fin N) ℝ} (h : BL.construct a = .ok r) :
    ∃ pi t, priorPi a.sigma a.riskAversion a.pi a.marketWeights a.priorMean = .ok pi ∧ target v = .ok t ∧
      (∀ A, key = .single A → ∃ i, assetIndex a.assets A = .ok i ∧ r.1 i = pi i + c * (t - pi i)) ∧
      (∀ A B, key = .pair A B → ∃ i j, assetIndex a.assets A = .ok i ∧ assetIndex a.assets B = .ok j ∧
        (i ≠ j → r.1 i - r.1 j = (pi i - pi j) + c * (t - (pi i - pi j)))) := by
  obtain ⟨pi, row, t, hpi, hrow, ht, htilt, hclip⟩ := C33_idzorek_tilt hviews homega huse hconf hS h
  rw [hclip hc1 hc2] at htilt
  refine ⟨pi, t, hpi, ht, ?_, ?_⟩
  · rintro A rfl
    obtain ⟨i, hi, e1⟩ := (C34_pick_matrix_partial (assets := a.assets) r.1).1 A row hrow
    obtain ⟨i', hi', e2⟩ := (C34_pick_matrix_partial (assets := a.assets) pi).1 A row hrow
    rw [hi] at hi'
    injection hi' with hi'; subst hi'
    rw [e1, e2] at htilt
    exact ⟨i, hi, htilt⟩
  · rintro A B rfl
    obtain ⟨i, j, hi, hj, e1⟩ := (C34_pick_matrix_partial (assets := a.assets) r.1).2.1 A B row hrow
    obtain ⟨i', j', hi', hj', e2⟩ := (C34_pick_matrix_partial (assets := a.assets) pi).2.1 A B row hrow
    rw [hi] at hi'
    rw [hj] at hj'
    injection hi' with hi'; subst hi'
    injection hj' with hj'; subst hj'
    refine ⟨i, j, hi, hj, fun hij => ?_⟩
    rw [e1 hij, e2 hij] at htilt
    exact htilt

/-! ### A concrete processor meeting the hypotheses: two assets, identity covariance, "A beats B by 2%" held at 50%. -/

/-- Example constructor arguments. -/
noncomputable def exArgs : Args 2 where
  sigma := 1
  assets := ![.str "A", .str "B"]
  priorMean := some (fun _ => 0)
  marketWeights := none
  riskAversion := 1
  tau := 1 / 20
  idzorekUseTau := true
  pi := none
  views := [(.pair (.str "A") (.str "B"), .scalar (1 / 50))]
  conf := .scalar (1 / 2)
  omega := .idzorek

theorem exArgs_views : ∃ row, buildViews exArgs.assets exArgs.views = .ok [(row, 1 / 50)] := by
  refine ⟨Function.update (Function.update (fun _ => 0) 0 1) 1 (-1), ?_⟩
  have hA : assetIndex exArgs.assets (.str "A") = .ok 0 := by
    have : indexOf exArgs.assets (.str "A") = some 0 := by decide
    simp [assetIndex, this]
  have hB : assetIndex exArgs.assets (.str "B") = .ok 1 := by
    have : indexOf exArgs.assets (.str "B") = some 1 := by decide
    simp [assetIndex, this]
  show mapE _ [(MKey.pair (.str "A") (.str "B"), Val.scalar (1 / 50))] = _
  simp only [mapE, pickRow, hA, hB, target, bind, Except.bind]

/-- The hypotheses of `C31_processor`, `C32_covariance_bounds` and `C33_idzorek_asset` are met. -/
example : exArgs.sigma.PosDef ∧ exArgs.sigma.PosSemidef ∧ 0 < exArgs.tau ∧ 0 < exArgs.riskAversion ∧ AutoOmega exArgs ∧
    UserOmegaPsd exArgs.omega ∧ exArgs.sigmaᵀ = exArgs.sigma ∧ ∃ r, BL.construct exArgs = .ok r := by
  obtain ⟨row, hrow⟩ := exArgs_views
  have h1 : exArgs.sigma.PosDef := PosDef.one
  have h2 : 0 < exArgs.tau := by norm_num [exArgs]
  have h3 : 0 < exArgs.riskAversion := by norm_num [exArgs]
  have h4 : AutoOmega exArgs := Or.inr (Or.inl ⟨rfl, _, rfl⟩)
  obtain ⟨m, cov, h, -⟩ := C31_processor h1 h2 h3 h4 (pi := fun _ => 0) rfl hrow (by simp [exArgs])
  exact ⟨h1, h1.posSemidef, h2, h3, h4, trivial, transpose_one, _, h⟩

end PyV.Props
