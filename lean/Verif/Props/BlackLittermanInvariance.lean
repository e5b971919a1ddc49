import Verif.Props.BlackLittermanApi

/-! # C194–C197: how the Black–Litterman posterior depends on targets, order and units -/

namespace PyV.Props

open PyV PyV.BL PyV.FV Matrix

variable {N n : ℕ}

/-- Everything after the views have become rows (views.py:1378-1395, 1564-1595). -/
noncomputable def tailOf (omega : OmegaArg) (conf : Option (List ℝ)) (useTau : Bool) (tau : ℝ) (sigma : Matrix (Fin N) (Fin N) ℝ) (pi : Fin N → ℝ)
    (rows : List ((Fin N → ℝ) × ℝ)) : Except PyErr ((Fin N → ℝ) × Matrix (Fin N) (Fin N) ℝ) :=
  if rows = [] then .ok (pi, sigma)
  else do
    let om ← buildOmega omega conf useTau tau sigma (Matrix.of fun k : Fin rows.length => (rows.get k).1)
    posterior tau sigma pi (Matrix.of fun k : Fin rows.length => (rows.get k).1) (fun k => (rows.get k).2) om

theorem construct_eq (a : Args N) : BL.construct a =
    if a.riskAversion ≤ 0 then .error .valueError
    else (priorPi (symmetrise a.sigma) a.riskAversion a.pi a.marketWeights a.priorMean).bind fun pi =>
      (buildViews a.assets a.views).bind fun rows =>
      (parseConf a.conf (a.views.map Prod.fst)).bind fun conf => tailOf a.omega conf a.idzorekUseTau a.tau (symmetrise a.sigma) pi rows := by
  rfl

theorem tail_eq {K : ℕ} (omega : OmegaArg) (conf : Option (List ℝ)) (useTau : Bool) (tau : ℝ) (sigma : Matrix (Fin N) (Fin N) ℝ) (pi : Fin N → ℝ)
    (rows : List ((Fin N → ℝ) × ℝ)) (hK : rows.length = K) (hne : K ≠ 0) (r : Fin K → (Fin N → ℝ) × ℝ) (hr : rows = List.ofFn r) :
    tailOf omega conf useTau tau sigma pi rows =
      (buildOmega omega conf useTau tau sigma (Matrix.of fun k => (r k).1)).bind fun om =>
        posterior tau sigma pi (Matrix.of fun k => (r k).1) (fun k => (r k).2) om := by
  subst hK
  have e : r = rows.get := by
    apply List.ofFn_injective
    rw [← hr, List.ofFn_get]
  subst e
  unfold tailOf
  rw [if_neg (fun h => hne (by simp [h]))]
  rfl

/-! ## Posterior under a change of indices or units -/

private theorem linSolve_equiv {K : ℕ} (e : Equiv.Perm (Fin K)) (A : Matrix (Fin K) (Fin K) ℝ) (b : Fin K → ℝ) :
    linSolve (A.submatrix e e) (b ∘ e) = (linSolve A b).map (fun x => x ∘ e) := by
  unfold linSolve
  rw [det_submatrix_equiv_self]
  split
  · rfl
  · refine congrArg Except.ok ?_
    rw [inv_submatrix_equiv, submatrix_mulVec_equiv]
    simp [Function.comp_assoc]

private theorem posterior_views {K : ℕ} (e : Equiv.Perm (Fin K)) (tau : ℝ) (sigma : Matrix (Fin N) (Fin N) ℝ) (pi : Fin N → ℝ) (P : Matrix (Fin K) (Fin N) ℝ)
    (Q : Fin K → ℝ) (om : Matrix (Fin K) (Fin K) ℝ) :
    posterior tau sigma pi (P.submatrix e id) (Q ∘ e) (om.submatrix e e) = posterior tau sigma pi P Q om := by
  have h1 : P.submatrix e id * (tau • sigma) * (P.submatrix e id)ᵀ + om.submatrix e e = (P * (tau • sigma) * Pᵀ + om).submatrix e e := by
    ext i j; simp [Matrix.mul_apply]
  have h2 : Q ∘ e - P.submatrix e id *ᵥ pi = (Q - P *ᵥ pi) ∘ e := by
    funext i; rfl
  unfold posterior
  simp only [h1, h2, linSolve_equiv]
  cases hs : linSolve (P * (tau • sigma) * Pᵀ + om) (Q - P *ᵥ pi) with
  | error _ => rfl
  | ok shift =>
    have h3 : (tau • sigma * (P.submatrix e id)ᵀ) *ᵥ (shift ∘ e) = (tau • sigma * Pᵀ) *ᵥ shift := by
      have : tau • sigma * (P.submatrix e id)ᵀ = (tau • sigma * Pᵀ).submatrix id e := rfl
      rw [this]
      funext i
      simp only [mulVec, dotProduct, submatrix_apply, id, Function.comp]
      exact Equiv.sum_comp e (fun k => (tau • sigma * Pᵀ) i k * shift k)
    have h4 : tau • sigma * (P.submatrix e id)ᵀ * (((P * (tau • sigma) * Pᵀ + om).submatrix e e)⁻¹ * (P.submatrix e id * (tau • sigma))) =
        tau • sigma * Pᵀ * ((P * (tau • sigma) * Pᵀ + om)⁻¹ * (P * (tau • sigma))) := by
      have a1 : tau • sigma * (P.submatrix e id)ᵀ = (tau • sigma * Pᵀ).submatrix id e := rfl
      have a2 : P.submatrix e id * (tau • sigma) = (P * (tau • sigma)).submatrix e id := rfl
      rw [a1, a2, inv_submatrix_equiv, submatrix_mul_equiv, submatrix_mul_equiv, submatrix_id_id]
    simp only [Except.map, h3, h4]

private theorem posterior_assets {K : ℕ} (τ : Equiv.Perm (Fin N)) (tau : ℝ) (sigma : Matrix (Fin N) (Fin N) ℝ) (pi : Fin N → ℝ) (P : Matrix (Fin K) (Fin N) ℝ)
    (Q : Fin K → ℝ) (om : Matrix (Fin K) (Fin K) ℝ) :
    posterior tau (sigma.submatrix τ τ) (pi ∘ τ) (P.submatrix id τ) Q om =
      (posterior tau sigma pi P Q om).map (fun r => (r.1 ∘ τ, r.2.submatrix τ τ)) := by
  have h0 : tau • sigma.submatrix τ τ = (tau • sigma).submatrix τ τ := rfl
  have h0' : (P.submatrix id τ)ᵀ = Pᵀ.submatrix τ id := rfl
  have hA : P.submatrix id τ * (tau • sigma).submatrix τ τ = (P * (tau • sigma)).submatrix id τ := by rw [submatrix_mul_equiv]
  have hB : (tau • sigma).submatrix τ τ * Pᵀ.submatrix τ id = (tau • sigma * Pᵀ).submatrix τ id := by rw [submatrix_mul_equiv]
  have h1 : (P * (tau • sigma)).submatrix id τ * Pᵀ.submatrix τ id = P * (tau • sigma) * Pᵀ := by rw [submatrix_mul_equiv, submatrix_id_id]
  have h2 : Q - P.submatrix id τ *ᵥ (pi ∘ τ) = Q - P *ᵥ pi := by
    congr 1
    funext k
    simp only [mulVec, dotProduct, submatrix_apply, id, Function.comp]
    exact Equiv.sum_comp τ (fun i => P k i * pi i)
  unfold posterior
  simp only [h0, h0', hA, hB, h1, h2]
  cases hs : linSolve (P * (tau • sigma) * Pᵀ + om) (Q - P *ᵥ pi) with
  | error _ => rfl
  | ok shift =>
    simp only [Except.map]
    refine congrArg Except.ok (Prod.ext ?_ ?_)
    · funext i; rfl
    · generalize (P * (tau • sigma) * Pᵀ + om)⁻¹ = B
      ext i j
      rfl

private theorem linSolve_smul {K : ℕ} {k : ℝ} (hk : k ≠ 0) (A : Matrix (Fin K) (Fin K) ℝ) (b : Fin K → ℝ) :
    linSolve (k ^ 2 • A) (k • b) = (linSolve A b).map (fun x => k⁻¹ • x) := by
  have hk2 : k ^ 2 ≠ 0 := pow_ne_zero 2 hk
  unfold linSolve
  rw [det_smul]
  by_cases hd : A.det = 0
  · rw [if_pos hd, if_pos (by rw [hd, mul_zero])]; rfl
  · rw [if_neg hd, if_neg (mul_ne_zero (pow_ne_zero _ hk2) hd)]
    refine congrArg Except.ok ?_
    have hi : (k ^ 2 • A)⁻¹ = (k ^ 2)⁻¹ • A⁻¹ := by
      apply inv_eq_right_inv
      rw [smul_mul_smul_comm, mul_inv_cancel₀ hk2, one_smul, mul_nonsing_inv _ (isUnit_iff_ne_zero.2 hd)]
    rw [hi, smul_mulVec, mulVec_smul, smul_smul]
    congr 1
    field_simp

private theorem posterior_units {K : ℕ} {k : ℝ} (hk : k ≠ 0) (tau : ℝ) (sigma : Matrix (Fin N) (Fin N) ℝ) (pi : Fin N → ℝ) (P : Matrix (Fin K) (Fin N) ℝ)
    (Q : Fin K → ℝ) (om : Matrix (Fin K) (Fin K) ℝ) :
    posterior tau (k ^ 2 • sigma) (k • pi) P (k • Q) (k ^ 2 • om) =
      (posterior tau sigma pi P Q om).map (fun r => (k • r.1, k ^ 2 • r.2)) := by
  have hk2 : k ^ 2 ≠ 0 := pow_ne_zero 2 hk
  have h0 : tau • k ^ 2 • sigma = k ^ 2 • (tau • sigma) := smul_comm _ _ _
  have h1 : P * (k ^ 2 • (tau • sigma)) * Pᵀ + k ^ 2 • om = k ^ 2 • (P * (tau • sigma) * Pᵀ + om) := by
    rw [Matrix.mul_smul, Matrix.smul_mul, smul_add]
  have h2 : k • Q - P *ᵥ (k • pi) = k • (Q - P *ᵥ pi) := by rw [mulVec_smul, smul_sub]
  unfold posterior
  simp only [h0, h1, h2, linSolve_smul hk]
  cases hs : linSolve (P * (tau • sigma) * Pᵀ + om) (Q - P *ᵥ pi) with
  | error _ => rfl
  | ok shift =>
    have hd : (P * (tau • sigma) * Pᵀ + om).det ≠ 0 := by
      intro hd
      unfold linSolve at hs
      rw [if_pos hd] at hs; cases hs
    have hi : (k ^ 2 • (P * (tau • sigma) * Pᵀ + om))⁻¹ = (k ^ 2)⁻¹ • (P * (tau • sigma) * Pᵀ + om)⁻¹ := by
      apply inv_eq_right_inv
      rw [smul_mul_smul_comm, mul_inv_cancel₀ hk2, one_smul, mul_nonsing_inv _ (isUnit_iff_ne_zero.2 hd)]
    have hm : k ^ 2 • (tau • sigma) * Pᵀ * ((k ^ 2)⁻¹ • (P * (tau • sigma) * Pᵀ + om)⁻¹ * (P * (k ^ 2 • (tau • sigma)))) =
        k ^ 2 • (tau • sigma * Pᵀ * ((P * (tau • sigma) * Pᵀ + om)⁻¹ * (P * (tau • sigma)))) := by
      generalize (P * (tau • sigma) * Pᵀ + om)⁻¹ = B
      generalize tau • sigma = V
      rw [Matrix.smul_mul, Matrix.smul_mul, Matrix.mul_smul P, Matrix.smul_mul, Matrix.mul_smul B, smul_smul, inv_mul_cancel₀ hk2, one_smul]
    simp only [Except.map, hi, hm]
    refine congrArg Except.ok (Prod.ext ?_ ?_)
    · show k • pi + (k ^ 2 • (tau • sigma) * Pᵀ) *ᵥ (k⁻¹ • shift) = k • (pi + (tau • sigma * Pᵀ) *ᵥ shift)
      rw [Matrix.smul_mul, smul_mulVec, mulVec_smul, smul_smul, smul_add]
      congr 2
      field_simp
    · generalize tau • sigma * Pᵀ * ((P * (tau • sigma) * Pᵀ + om)⁻¹ * (P * (tau • sigma))) = M
      generalize tau • sigma = V
      ext i j
      simp only [Matrix.smul_apply, Matrix.add_apply, Matrix.sub_apply, transpose_apply, smul_eq_mul]
      ring

/-! ## C195: the order of views -/

/-- Confidences for reordered views: a list of confidences is reordered with the views, other forms stay as they are. -/
inductive ConfReordered (σ : Equiv.Perm (Fin n)) : ConfArg → ConfArg → Prop
  | none : ConfReordered σ .none .none
  | scalar (c : ℝ) : ConfReordered σ (.scalar c) (.scalar c)
  | dict (d : List (MKey × ℝ)) : ConfReordered σ (.dict d) (.dict d)
  | array (x : Fin n → ℝ) : ConfReordered σ (.array (List.ofFn x)) (.array (List.ofFn (x ∘ σ)))

/-- View uncertainties for reordered views: rows and columns are reordered with the views. -/
inductive OmegaReordered (σ : Equiv.Perm (Fin n)) : OmegaArg → OmegaArg → Prop
  | none : OmegaReordered σ .none .none
  | idzorek : OmegaReordered σ .idzorek .idzorek
  | vec (x : Fin n → ℝ) : OmegaReordered σ (.vec (List.ofFn x)) (.vec (List.ofFn (x ∘ σ)))
  | mat (f f' : ℕ → ℕ → ℝ) (h : ∀ i j : Fin n, f' i j = f (σ i) (σ j)) : OmegaReordered σ (.mat n f) (.mat n f')

private theorem forall_ofFn {α β : Type*} {R : α → β → Prop} {g : Fin n → α} {h : Fin n → β} (H : ∀ j, R (g j) (h j)) :
    List.Forall₂ R (List.ofFn g) (List.ofFn h) := by
  rw [List.forall₂_iff_get]
  refine ⟨by simp, fun i h1 h2 => ?_⟩
  simp only [List.get_eq_getElem, List.getElem_ofFn]
  exact H _

/-- The row and the target of one view (views.py:1438-1465). -/
noncomputable def viewRow (assets : Fin N → Label) (kv : MKey × Val) : Except PyErr ((Fin N → ℝ) × ℝ) := do
  let t ← target kv.2
  let row ← pickRow assets kv.1
  .ok (row, t)

private theorem viewRow_error {assets : Fin N → Label} {kv : MKey × Val} {e : PyErr} (h : viewRow assets kv = .error e) : e = .valueError := by
  unfold viewRow at h
  cases ht : target kv.2 with
  | error e' =>
    rw [ht] at h
    injection h with h; subst h
    unfold target at ht
    split at ht <;> first | (cases ht; rfl) | cases ht
  | ok t =>
    rw [ht] at h
    cases hp : pickRow assets kv.1 with
    | error e' =>
      have := pickRow_error hp
      rw [hp] at h
      injection h with h
      rw [← h, this]
    | ok row => rw [hp] at h; cases h

private theorem mapE_ofFn {α β : Type*} (f : α → Except PyErr β) (hf : ∀ a e, f a = .error e → e = .valueError) (v : Fin n → α) :
    (∃ r : Fin n → β, (∀ k, f (v k) = .ok (r k)) ∧ mapE f (List.ofFn v) = .ok (List.ofFn r)) ∨
      ((∃ k, f (v k) = .error .valueError) ∧ mapE f (List.ofFn v) = .error .valueError) := by
  cases h : mapE f (List.ofFn v) with
  | ok rs =>
    left
    have h' := (mapE_ok.1 h)
    have hl : rs.length = n := by rw [← h'.length_eq, List.length_ofFn]
    subst hl
    refine ⟨rs.get, fun k => ?_, by rw [List.ofFn_get]⟩
    rw [List.forall₂_iff_get] at h'
    have := h'.2 k (by simp) k.2
    simpa using this
  | error e =>
    right
    obtain ⟨a, ha, h1⟩ := mapE_error h
    obtain rfl := hf _ _ h1
    rw [List.mem_ofFn] at ha
    obtain ⟨k, rfl⟩ := ha
    exact ⟨⟨k, h1⟩, rfl⟩

private theorem views_perm (σ : Equiv.Perm (Fin n)) (assets : Fin N → Label) (v : Fin n → MKey × Val) :
    (∃ r : Fin n → (Fin N → ℝ) × ℝ, buildViews assets (List.ofFn v) = .ok (List.ofFn r) ∧
        buildViews assets (List.ofFn (v ∘ σ)) = .ok (List.ofFn (r ∘ σ))) ∨
      (buildViews assets (List.ofFn v) = .error .valueError ∧ buildViews assets (List.ofFn (v ∘ σ)) = .error .valueError) := by
  have e : ∀ l, buildViews assets l = mapE (viewRow assets) l := fun l => rfl
  rw [e, e]
  rcases mapE_ofFn (viewRow assets) (fun _ _ => viewRow_error) v with ⟨r, h1, h2⟩ | ⟨⟨k, h1⟩, h2⟩
  · left
    exact ⟨r, h2, mapE_ok.2 (forall_ofFn fun k => h1 _)⟩
  · right
    refine ⟨h2, ?_⟩
    rcases mapE_ofFn (viewRow assets) (fun _ _ => viewRow_error) (v ∘ σ) with ⟨r, h3, -⟩ | ⟨-, h4⟩
    · have := h3 (σ.symm k)
      simp only [Function.comp, Equiv.apply_symm_apply] at this
      rw [h1] at this; cases this
    · exact h4

/-- Confidences of reordered views agree position by position. -/
private def ConfRel (σ : Equiv.Perm (Fin n)) (c c' : Option (List ℝ)) : Prop :=
  (c = none ∧ c' = none) ∨ ∃ l l', c = some l ∧ c' = some l' ∧ ∀ k : Fin n, l'.getD k 0 = l.getD (σ k) 0

private theorem conf_perm {σ : Equiv.Perm (Fin n)} {c c' : ConfArg} (h : ConfReordered σ c c') (key : Fin n → MKey) :
    ∃ x x', parseConf c (List.ofFn key) = .ok x ∧ parseConf c' (List.ofFn (key ∘ σ)) = .ok x' ∧ ConfRel σ x x' := by
  cases h with
  | none => exact ⟨_, _, rfl, rfl, .inl ⟨rfl, rfl⟩⟩
  | scalar c => exact ⟨_, _, rfl, rfl, .inr ⟨_, _, rfl, rfl, fun k => by simp⟩⟩
  | dict d => exact ⟨_, _, rfl, rfl, .inr ⟨_, _, rfl, rfl, fun k => by simp⟩⟩
  | array x =>
    have e : ∀ (y : Fin n → ℝ) (ks : Fin n → MKey), parseConf (.array (List.ofFn y)) (List.ofFn ks) = .ok (some (List.ofFn y)) := by
      intro y ks
      show (if _ then _ else _) = _
      rw [if_neg (by simp)]
    exact ⟨_, _, e _ _, e _ _, .inr ⟨_, _, rfl, rfl, fun k => by simp⟩⟩

private theorem omega_perm {σ : Equiv.Perm (Fin n)} {o o' : OmegaArg} (h : OmegaReordered σ o o') {c c' : Option (List ℝ)} (hc : ConfRel σ c c') (useTau : Bool)
    (tau : ℝ) (sigma : Matrix (Fin N) (Fin N) ℝ) (P : Matrix (Fin n) (Fin N) ℝ) :
    buildOmega o' c' useTau tau sigma (P.submatrix σ id) = (buildOmega o c useTau tau sigma P).map (fun om => om.submatrix σ σ) := by
  cases h with
  | none =>
    refine congrArg Except.ok ?_
    ext i j
    by_cases hij : i = j
    · subst hij; simp [Matrix.mul_apply]
    · simp [Matrix.diagonal_apply_ne _ hij, Matrix.diagonal_apply_ne _ (σ.injective.ne hij)]
  | idzorek =>
    rcases hc with ⟨rfl, rfl⟩ | ⟨l, l', rfl, rfl, hl⟩
    · rfl
    · refine congrArg Except.ok ?_
      ext i j
      by_cases hij : i = j
      · subst hij
        simp only [Matrix.submatrix_apply, Matrix.diagonal_apply_eq, hl]
        rfl
      · simp [Matrix.diagonal_apply_ne _ hij, Matrix.diagonal_apply_ne _ (σ.injective.ne hij)]
  | vec x =>
    have e : ∀ (y : Fin n → ℝ) (c : Option (List ℝ)) (P : Matrix (Fin n) (Fin N) ℝ),
        buildOmega (.vec (List.ofFn y)) c useTau tau sigma P = .ok (Matrix.diagonal y) := by
      intro y c P
      show (if _ then _ else _) = _
      rw [if_pos (by simp)]
      refine congrArg (fun z => Except.ok (Matrix.diagonal z)) (funext fun k => by simp)
    rw [e, e]
    refine congrArg Except.ok ?_
    ext i j
    by_cases hij : i = j
    · subst hij; simp
    · simp [Matrix.diagonal_apply_ne _ hij, Matrix.diagonal_apply_ne _ (σ.injective.ne hij)]
  | mat f f' hf =>
    show (if _ then _ else _) = _
    rw [if_pos rfl]
    have : buildOmega (.mat n f) c useTau tau sigma P = .ok (Matrix.of (fun i j => f i j)) := if_pos rfl
    rw [this]
    refine congrArg Except.ok ?_
    ext i j
    exact hf i j

/-- **C195.** The order in which views are given does not matter: with confidences and view uncertainties listed in the same order as the views, any
reordering gives the same posterior mean and covariance (or the same error). -/
theorem C195_view_order (σ : Equiv.Perm (Fin n)) (a : Args N) (v : Fin n → MKey × Val) (hv : a.views = List.ofFn v) {conf' : ConfArg} {omega' : OmegaArg}
    (hc : ConfReordered σ a.conf conf') (ho : OmegaReordered σ a.omega omega') :
    BL.construct { a with views := List.ofFn (v ∘ σ), conf := conf', omega := omega' } = BL.construct a := by
  rw [construct_eq, construct_eq]
  simp only [hv]
  split
  · rfl
  cases priorPi (symmetrise a.sigma) a.riskAversion a.pi a.marketWeights a.priorMean with
  | error e => rfl
  | ok pi =>
    simp only [Except.bind]
    rcases views_perm σ a.assets v with ⟨r, h1, h2⟩ | ⟨h1, h2⟩
    · rw [h1, h2]
      obtain ⟨x, x', h3, h4, h5⟩ := conf_perm hc (fun k => (v k).1)
      have k1 : (List.ofFn v).map Prod.fst = List.ofFn (fun k => (v k).1) := by rw [List.map_ofFn]; rfl
      have k2 : (List.ofFn (v ∘ σ)).map Prod.fst = List.ofFn ((fun k => (v k).1) ∘ σ) := by rw [List.map_ofFn]; rfl
      rw [k1, k2, h3, h4]
      simp only
      by_cases hn : n = 0
      · subst hn
        simp [tailOf]
      · rw [tail_eq _ _ _ _ _ _ _ (by simp) hn (r ∘ σ) rfl, tail_eq _ _ _ _ _ _ _ (by simp) hn r rfl]
        have e1 : (Matrix.of fun k => ((r ∘ σ) k).1) = (Matrix.of fun k => (r k).1).submatrix σ id := rfl
        rw [e1, omega_perm ho h5]
        cases buildOmega a.omega x a.idzorekUseTau a.tau (symmetrise a.sigma) (Matrix.of fun k => (r k).1) with
        | error e => rfl
        | ok om => exact posterior_views σ _ _ _ _ (fun k => (r k).2) _
    · rw [h1, h2]

/-! ## C196: the order of assets -/

/-- The call with the assets listed in another order: covariance, labels, prior mean, market weights. -/
abbrev assetsOrdered (τ : Equiv.Perm (Fin N)) (a : Args N) : Args N :=
  { a with sigma := a.sigma.submatrix τ τ, assets := a.assets ∘ τ, priorMean := a.priorMean.map (· ∘ τ)
           marketWeights := a.marketWeights.map (· ∘ τ), pi := a.pi.map (· ∘ τ) }

/-- The view refers to assets by their labels (not by position). -/
def NamesAssets (assets : Fin N → Label) : MKey → Prop
  | .single a => ∃ i, assets i = a
  | .pair a b => (∃ i, assets i = a) ∧ ∃ j, assets j = b

private theorem indexOf_name {assets : Fin N → Label} (ha : Function.Injective assets) (i : Fin N) : indexOf assets (assets i) = some i := by
  cases h : indexOf assets (assets i) with
  | none => exact absurd rfl (indexOf_none h i)
  | some j => rw [ha (indexOf_some h)]

theorem assetIndex_name {assets : Fin N → Label} (ha : Function.Injective assets) (i : Fin N) : assetIndex assets (assets i) = .ok i := by
  unfold assetIndex
  rw [indexOf_name ha]

private theorem assetIndex_order {assets : Fin N → Label} (ha : Function.Injective assets) (τ : Equiv.Perm (Fin N)) (i : Fin N) :
    assetIndex (assets ∘ τ) (assets i) = .ok (τ.symm i) := by
  have := assetIndex_name (ha.comp τ.injective) (τ.symm i)
  simpa using this

private theorem update_order (τ : Equiv.Perm (Fin N)) (f : Fin N → ℝ) (i : Fin N) (x : ℝ) :
    Function.update (f ∘ τ) (τ.symm i) x = Function.update f i x ∘ τ := by
  funext j
  by_cases h : τ j = i
  · subst h; simp
  · have h' : j ≠ τ.symm i := fun e => h (by simp [e])
    simp [Function.update_of_ne h', Function.update_of_ne h]

private theorem pickRow_order {assets : Fin N → Label} (ha : Function.Injective assets) (τ : Equiv.Perm (Fin N)) {key : MKey} (hk : NamesAssets assets key) :
    ∃ row, pickRow assets key = .ok row ∧ pickRow (assets ∘ τ) key = .ok (row ∘ τ) := by
  have z : (fun _ => 0 : Fin N → ℝ) = (fun _ => 0) ∘ τ := rfl
  cases key with
  | single a =>
    obtain ⟨i, rfl⟩ := hk
    refine ⟨Function.update (fun _ => 0) i 1, ?_, ?_⟩
    · simp [pickRow, assetIndex_name ha, bind, Except.bind]
    · simp only [pickRow, assetIndex_order ha, bind, Except.bind]
      rw [z, update_order]
      rfl
  | pair a b =>
    obtain ⟨⟨i, rfl⟩, j, rfl⟩ := hk
    refine ⟨Function.update (Function.update (fun _ => 0) i 1) j (-1), ?_, ?_⟩
    · simp [pickRow, assetIndex_name ha, bind, Except.bind]
    · simp only [pickRow, assetIndex_order ha, bind, Except.bind]
      rw [z, update_order, update_order]
      rfl

private theorem views_order {assets : Fin N → Label} (ha : Function.Injective assets) (τ : Equiv.Perm (Fin N)) {views : List (MKey × Val)}
    (hk : ∀ kv ∈ views, NamesAssets assets kv.1) :
    buildViews (assets ∘ τ) views = (buildViews assets views).map (List.map fun rt => (rt.1 ∘ τ, rt.2)) := by
  have e : ∀ (as : Fin N → Label) l, buildViews as l = mapE (viewRow as) l := fun _ l => rfl
  simp only [e]
  induction views with
  | nil => rfl
  | cons kv l ih =>
    have ih := ih fun kv h => hk kv (List.mem_cons_of_mem _ h)
    obtain ⟨row, h1, h2⟩ := pickRow_order ha τ (hk kv List.mem_cons_self)
    have hr : viewRow (assets ∘ τ) kv = (viewRow assets kv).map fun rt => (rt.1 ∘ τ, rt.2) := by
      unfold viewRow
      rw [h1, h2]
      cases target kv.2 <;> rfl
    simp only [mapE, hr, ih]
    cases viewRow assets kv with
    | error _ => rfl
    | ok _ => cases mapE (viewRow assets) l <;> rfl

private theorem symmetrise_order (τ : Equiv.Perm (Fin N)) (S : Matrix (Fin N) (Fin N) ℝ) : symmetrise (S.submatrix τ τ) = (symmetrise S).submatrix τ τ := by
  unfold symmetrise
  by_cases h : ∀ i j, |S i j - S j i| ≤ 1 / 10 ^ 8 + 1 / 10 ^ 5 * |S j i|
  · rw [if_pos h]
    exact if_pos fun i j => h (τ i) (τ j)
  · rw [if_neg h, if_neg]
    · rfl
    · intro h'
      apply h
      intro i j
      have := h' (τ.symm i) (τ.symm j)
      simpa using this

private theorem prior_order (τ : Equiv.Perm (Fin N)) (S : Matrix (Fin N) (Fin N) ℝ) (ra : ℝ) (pi mw pm : Option (Fin N → ℝ)) :
    priorPi (S.submatrix τ τ) ra (pi.map (· ∘ τ)) (mw.map (· ∘ τ)) (pm.map (· ∘ τ)) = (priorPi S ra pi mw pm).map (· ∘ τ) := by
  unfold priorPi
  cases pi with
  | some p => rfl
  | none =>
    cases mw with
    | some w =>
      have hs : ∑ i, (w ∘ τ) i = ∑ i, w i := Equiv.sum_comp τ w
      simp only [Option.map_none, Option.map_some, hs]
      split
      · rfl
      · refine congrArg Except.ok ?_
        funext i
        simp only [Pi.smul_apply, smul_eq_mul, mulVec, dotProduct, submatrix_apply, Function.comp]
        congr 1
        exact Equiv.sum_comp τ (fun j => S (τ i) j * (w j / ∑ j, w j))
    | none => cases pm <;> rfl

private theorem omega_order {K : ℕ} (τ : Equiv.Perm (Fin N)) (o : OmegaArg) (c : Option (List ℝ)) (useTau : Bool) (tau : ℝ) (S : Matrix (Fin N) (Fin N) ℝ)
    (P : Matrix (Fin K) (Fin N) ℝ) : buildOmega o c useTau tau (S.submatrix τ τ) (P.submatrix id τ) = buildOmega o c useTau tau S P := by
  have hq : ∀ (V : Matrix (Fin N) (Fin N) ℝ) k, (P.submatrix id τ) k ⬝ᵥ (V.submatrix τ τ *ᵥ (P.submatrix id τ) k) = P k ⬝ᵥ (V *ᵥ P k) := by
    intro V k
    simp only [dotProduct, mulVec, submatrix_apply, id]
    rw [← Equiv.sum_comp τ (fun i => P k i * ∑ j, V i j * P k j)]
    exact Finset.sum_congr rfl fun i _ => by rw [← Equiv.sum_comp τ (fun j => V (τ i) j * P k j)]
  cases o with
  | none =>
    refine congrArg (fun z => Except.ok (Matrix.diagonal z)) (funext fun k => ?_)
    have : P.submatrix id τ * (tau • S.submatrix τ τ) * (P.submatrix id τ)ᵀ = P * (tau • S) * Pᵀ := by
      have h0 : tau • S.submatrix τ τ = (tau • S).submatrix τ τ := rfl
      have h0' : (P.submatrix id τ)ᵀ = Pᵀ.submatrix τ id := rfl
      rw [h0, h0', submatrix_mul_equiv, submatrix_mul_equiv, submatrix_id_id]
    rw [this]
  | idzorek =>
    cases c with
    | none => rfl
    | some c =>
      refine congrArg (fun z => Except.ok (Matrix.diagonal z)) (funext fun k => ?_)
      congr 1
      cases useTau with
      | false => exact hq S k
      | true => exact hq (tau • S) k
  | vec l => rfl
  | mat m f => rfl

/-- **C196.** The order of the assets does not matter: listing covariance, labels, prior mean and market weights in another order gives the posterior mean and
covariance in that order (or the same error), provided the views name assets by their labels. -/
theorem C196_asset_order (τ : Equiv.Perm (Fin N)) (a : Args N) (ha : Function.Injective a.assets) (hk : ∀ kv ∈ a.views, NamesAssets a.assets kv.1) :
    BL.construct (assetsOrdered τ a) = (BL.construct a).map (fun r => (r.1 ∘ τ, r.2.submatrix τ τ)) := by
  rw [construct_eq, construct_eq]
  by_cases hra : a.riskAversion ≤ 0
  · rw [if_pos hra, if_pos hra]; rfl
  rw [if_neg hra, if_neg hra]
  rw [symmetrise_order, prior_order, views_order ha τ hk]
  cases priorPi (symmetrise a.sigma) a.riskAversion a.pi a.marketWeights a.priorMean with
  | error e => rfl
  | ok pi =>
    cases buildViews a.assets a.views with
    | error e => rfl
    | ok rows =>
      cases parseConf a.conf (a.views.map Prod.fst) with
      | error e => rfl
      | ok conf =>
        simp only [Except.bind, Except.map]
        by_cases hn : rows.length = 0
        · rw [List.length_eq_zero_iff] at hn
          subst hn
          rfl
        · rw [tail_eq (K := rows.length) _ _ _ _ _ _ _ (by simp) hn (fun k => ((rows.get k).1 ∘ τ, (rows.get k).2))
              (by rw [← List.ofFn_get rows, List.map_ofFn, List.ofFn_get]; rfl),
            tail_eq (K := rows.length) _ _ _ _ _ _ _ rfl hn rows.get (by rw [List.ofFn_get])]
          have e1 : (Matrix.of fun k : Fin rows.length => (rows.get k).1 ∘ τ) = (Matrix.of fun k => (rows.get k).1).submatrix id τ := rfl
          simp only [e1, omega_order]
          cases buildOmega a.omega conf a.idzorekUseTau a.tau (symmetrise a.sigma) (Matrix.of fun k : Fin rows.length => (rows.get k).1) with
          | error e => rfl
          | ok om => exact posterior_assets τ _ _ _ _ _ _

/-! ## C197: units -/

/-- A view value in other units. -/
def Val.times (k : ℝ) : Val → Val
  | .scalar t => .scalar (k * t)
  | .seq l => .seq (l.map (k * ·))

/-- A view uncertainty in other units: given variances are multiplied by `k²`. -/
def OmegaArg.times (k : ℝ) : OmegaArg → OmegaArg
  | .none => .none
  | .idzorek => .idzorek
  | .vec l => .vec (l.map (k ^ 2 * ·))
  | .mat m f => .mat m (fun i j => k ^ 2 * f i j)

/-- The call with returns expressed in other units (`k = 100`: per cent): means and targets times `k`, covariances times `k²`, risk aversion divided by
`k`. -/
noncomputable abbrev inUnits (k : ℝ) (a : Args N) : Args N :=
  { a with sigma := k ^ 2 • a.sigma, priorMean := a.priorMean.map (k • ·), pi := a.pi.map (k • ·), riskAversion := a.riskAversion / k
           views := a.views.map (fun kv => (kv.1, Val.times k kv.2)), omega := OmegaArg.times k a.omega }

private theorem views_units (k : ℝ) (assets : Fin N → Label) (views : List (MKey × Val)) :
    buildViews assets (views.map (fun kv => (kv.1, Val.times k kv.2))) = (buildViews assets views).map (List.map fun rt => (rt.1, k * rt.2)) := by
  have e : ∀ l, buildViews assets l = mapE (viewRow assets) l := fun l => rfl
  simp only [e]
  induction views with
  | nil => rfl
  | cons kv l ih =>
    have hr : viewRow assets (kv.1, Val.times k kv.2) = (viewRow assets kv).map fun rt => (rt.1, k * rt.2) := by
      obtain ⟨key, v⟩ := kv
      unfold viewRow
      have ht : target (Val.times k v) = (target v).map (k * ·) := by
        cases v with
        | scalar t => rfl
        | seq l => rcases l with _ | ⟨t, _ | ⟨u, l⟩⟩ <;> rfl
      rw [ht]
      cases target v with
      | error _ => rfl
      | ok t => cases pickRow assets key <;> simp [bind, Except.bind, Except.map]
    simp only [List.map_cons, mapE, hr, ih]
    cases viewRow assets kv with
    | error _ => rfl
    | ok _ => cases mapE (viewRow assets) l <;> rfl

private theorem prior_units {k : ℝ} (hk : k ≠ 0) (S : Matrix (Fin N) (Fin N) ℝ) (ra : ℝ) (pi mw pm : Option (Fin N → ℝ)) :
    priorPi (k ^ 2 • S) (ra / k) (pi.map (k • ·)) mw (pm.map (k • ·)) = (priorPi S ra pi mw pm).map (k • ·) := by
  unfold priorPi
  cases pi with
  | some p => rfl
  | none =>
    cases mw with
    | some w =>
      simp only [Option.map_none]
      split
      · rfl
      · refine congrArg Except.ok ?_
        show _ = k • (ra • (S *ᵥ _))
        rw [smul_mulVec, smul_smul, smul_smul]
        congr 1
        field_simp
    | none => cases pm <;> rfl

private theorem omega_units {K : ℕ} {k : ℝ} (o : OmegaArg) (c : Option (List ℝ)) (useTau : Bool) (tau : ℝ) (S : Matrix (Fin N) (Fin N) ℝ)
    (P : Matrix (Fin K) (Fin N) ℝ) :
    buildOmega (OmegaArg.times k o) c useTau tau (k ^ 2 • S) P = (buildOmega o c useTau tau S P).map (k ^ 2 • ·) := by
  have hd : ∀ d : Fin K → ℝ, Matrix.diagonal (k ^ 2 • d) = k ^ 2 • Matrix.diagonal d := fun d => diagonal_smul _ _
  cases o with
  | none =>
    refine congrArg Except.ok ?_
    simp only [← hd]
    refine congrArg Matrix.diagonal (funext fun i => ?_)
    rw [smul_comm tau, Matrix.mul_smul, Matrix.smul_mul]
    rfl
  | idzorek =>
    cases c with
    | none => rfl
    | some c =>
      refine congrArg Except.ok ?_
      simp only [← hd]
      refine congrArg Matrix.diagonal (funext fun i => ?_)
      cases useTau with
      | false =>
        simp only [Bool.false_eq_true, if_false, Pi.smul_apply, smul_eq_mul, smul_mulVec, dotProduct_smul]
        ring
      | true =>
        simp only [if_true, Pi.smul_apply, smul_eq_mul, smul_mulVec, dotProduct_smul]
        ring
  | vec l =>
    show (if _ then _ else _) = _
    rw [List.length_map]
    by_cases h : l.length = K
    · have e : buildOmega (.vec l) c useTau tau S P = .ok (Matrix.diagonal (fun k => l.getD k 0)) := if_pos h
      rw [if_pos h, e]
      refine congrArg Except.ok ?_
      simp only [← hd]
      refine congrArg Matrix.diagonal (funext fun i => ?_)
      simp [List.getD, h]
    · have e : buildOmega (.vec l) c useTau tau S P = .error .valueError := if_neg h
      rw [if_neg h, e]
      rfl
  | mat m f =>
    show (if _ then _ else _) = _
    by_cases h : m = K
    · have e : buildOmega (.mat m f) c useTau tau S P = .ok (Matrix.of (fun i j => f i j)) := if_pos h
      rw [if_pos h, e]
      rfl
    · have e : buildOmega (.mat m f) c useTau tau S P = .error .valueError := if_neg h
      rw [if_neg h, e]
      rfl

/-- **C197.** The posterior does not depend on the units of returns: with means and view targets multiplied by `k > 0`, covariances (and given view
variances) by `k²` and the risk aversion divided by `k`, the posterior mean is multiplied by `k` and the posterior covariance by `k²`. -/
theorem C197_units {k : ℝ} (hk : 0 < k) (a : Args N) (hS : a.sigmaᵀ = a.sigma) :
    BL.construct (inUnits k a) = (BL.construct a).map (fun r => (k • r.1, k ^ 2 • r.2)) := by
  have hS' : (k ^ 2 • a.sigma)ᵀ = k ^ 2 • a.sigma := by rw [transpose_smul, hS]
  rw [construct_eq, construct_eq]
  have hra : a.riskAversion / k ≤ 0 ↔ a.riskAversion ≤ 0 := by
    rw [div_le_iff₀ hk, zero_mul]
  simp only [hra, symmetrise_of_symm hS, symmetrise_of_symm hS']
  by_cases hr : a.riskAversion ≤ 0
  · rw [if_pos hr, if_pos hr]; rfl
  rw [if_neg hr, if_neg hr]
  rw [prior_units hk.ne', views_units]
  have hkeys : (a.views.map (fun kv => (kv.1, Val.times k kv.2))).map Prod.fst = a.views.map Prod.fst := by
    rw [List.map_map]; rfl
  rw [hkeys]
  cases priorPi a.sigma a.riskAversion a.pi a.marketWeights a.priorMean with
  | error e => rfl
  | ok pi =>
    cases buildViews a.assets a.views with
    | error e => rfl
    | ok rows =>
      cases parseConf a.conf (a.views.map Prod.fst) with
      | error e => rfl
      | ok conf =>
        simp only [Except.bind, Except.map]
        by_cases hn : rows.length = 0
        · rw [List.length_eq_zero_iff] at hn
          subst hn
          rfl
        · rw [tail_eq (K := rows.length) _ _ _ _ _ _ _ (by simp) hn (fun i => ((rows.get i).1, k * (rows.get i).2))
              (by rw [← List.ofFn_get rows, List.map_ofFn, List.ofFn_get]; rfl),
            tail_eq (K := rows.length) _ _ _ _ _ _ _ rfl hn rows.get (by rw [List.ofFn_get])]
          simp only [omega_units]
          cases buildOmega a.omega conf a.idzorekUseTau a.tau a.sigma (Matrix.of fun k : Fin rows.length => (rows.get k).1) with
          | error e => rfl
          | ok om => exact posterior_units hk.ne' _ _ _ _ _ _

/-! ## C194: the targets of the views -/

open PyV.Spec.BL in
/-- The view asks for what the prior mean `pi` already says: the target of an absolute view is the asset's prior mean, that of a relative view the difference
of the prior means of two different assets. -/
def AgreesWith (assets : Fin N → Label) (pi : Fin N → ℝ) (kv : MKey × Val) : Prop :=
  ∃ t, Asks kv.2 t ∧ (∀ a i, kv.1 = .single a → Refers assets a i → t = pi i) ∧
    ∀ a b i j, kv.1 = .pair a b → Refers assets a i → Refers assets b j → i ≠ j ∧ t = pi i - pi j

private theorem row_of {assets : Fin N → Label} (ha : Function.Injective assets) {kv : MKey × Val} {rt : (Fin N → ℝ) × ℝ} (h : viewRow assets kv = .ok rt) :
    Spec.BL.Asks kv.2 rt.2 ∧ ((∃ l i, kv.1 = .single l ∧ Spec.BL.Refers assets l i ∧ ∀ m, rt.1 ⬝ᵥ m = m i) ∨
      ∃ l l' i j, kv.1 = .pair l l' ∧ Spec.BL.Refers assets l i ∧ Spec.BL.Refers assets l' j ∧ (i ≠ j → ∀ m, rt.1 ⬝ᵥ m = m i - m j)) := by
  unfold viewRow at h
  simp only [bind_ok] at h
  obtain ⟨t, ht, row, hrow, h⟩ := h
  injection h with h; subst h
  refine ⟨(target_spec _ _).1 ht, ?_⟩
  obtain ⟨key, v⟩ := kv
  cases key with
  | single l =>
    simp only [pickRow, bind_ok] at hrow
    obtain ⟨i, hi, h⟩ := hrow
    injection h with h; subst h
    exact Or.inl ⟨l, i, rfl, (assetIndex_spec ha _ _).1 hi, single_dot i⟩
  | pair l l' =>
    simp only [pickRow, bind_ok] at hrow
    obtain ⟨i, hi, j, hj, h⟩ := hrow
    injection h with h; subst h
    exact Or.inr ⟨l, l', i, j, rfl, (assetIndex_spec ha _ _).1 hi, (assetIndex_spec ha _ _).1 hj, fun hij => pair_dot i j hij⟩

private theorem asks_unique {v : Val} {t u : ℝ} (h : Spec.BL.Asks v t) (h' : Spec.BL.Asks v u) : t = u := by
  rw [← target_spec] at h h'
  rw [h] at h'
  injection h'

/-- **C194.** Views that only repeat the prior leave the mean where it is: whatever the confidences and uncertainties, if every view asks for the value the
prior mean already has, the posterior mean is the prior mean. -/
theorem C194_agreeing_views {a : Args N} (ha : Function.Injective a.assets) {pi : Fin N → ℝ} (hpi : a.pi = some pi)
    (hv : ∀ kv ∈ a.views, AgreesWith a.assets pi kv) {r : (Fin N → ℝ) × Matrix (Fin N) (Fin N) ℝ} (h : BL.construct a = .ok r) : r.1 = pi := by
  obtain ⟨-, pi', rows, conf, hpi', hrows, -, hcase⟩ := construct_cases h
  rw [hpi] at hpi'
  injection hpi' with hpi'; subst hpi'
  rcases hcase with ⟨-, rfl⟩ | ⟨-, om, -, hpost⟩
  · rfl
  obtain ⟨-, hm, -⟩ := posterior_ok hpost
  have hz : (fun k : Fin rows.length => (rows.get k).2) - (Matrix.of fun k : Fin rows.length => (rows.get k).1) *ᵥ pi = 0 := by
    have hF : List.Forall₂ (fun kv rt => viewRow a.assets kv = .ok rt) a.views rows := mapE_ok.1 hrows
    funext k
    obtain ⟨hl, hF⟩ := List.forall₂_iff_get.1 hF
    have hk : (k : ℕ) < a.views.length := by rw [hl]; exact k.2
    have e := hF k hk k.2
    obtain ⟨t, h1, h2, h3⟩ := hv (a.views.get ⟨k, hk⟩) (List.get_mem _ _)
    obtain ⟨h4, h5⟩ := row_of ha e
    have ht := asks_unique h1 h4
    have hq : (rows.get k).1 ⬝ᵥ pi = (rows.get k).2 := by
      rcases h5 with ⟨l, i, e1, e2, e3⟩ | ⟨l, l', i, j, e1, e2, e2', e3⟩
      · have := h2 l i e1 e2
        rw [ht] at this
        exact (e3 pi).trans this.symm
      · obtain ⟨hij, this⟩ := h3 l l' i j e1 e2 e2'
        rw [ht] at this
        exact (e3 hij pi).trans this.symm
    show (rows.get k).2 - (rows.get k).1 ⬝ᵥ pi = 0
    rw [hq, sub_self]
  rw [hm, hz, mulVec_zero, mulVec_zero, add_zero]

/-- The same views, asking for other numbers. -/
abbrev withTargets (a : Args N) (keys : Fin n → MKey) (t : Fin n → ℝ) : Args N :=
  { a with views := List.ofFn fun k => (keys k, Val.scalar (t k)) }

private theorem posterior_affine {K : ℕ} {tau : ℝ} {sigma : Matrix (Fin N) (Fin N) ℝ} {pi : Fin N → ℝ} {P : Matrix (Fin K) (Fin N) ℝ} {Q : Fin K → ℝ}
    (Q' : Fin K → ℝ) (θ : ℝ) {om : Matrix (Fin K) (Fin K) ℝ} {r : (Fin N → ℝ) × Matrix (Fin N) (Fin N) ℝ} (h : posterior tau sigma pi P Q om = .ok r) :
    ∃ m', posterior tau sigma pi P Q' om = .ok (m', r.2) ∧
      posterior tau sigma pi P ((1 - θ) • Q + θ • Q') om = .ok ((1 - θ) • r.1 + θ • m', r.2) := by
  obtain ⟨hu, hm, hc⟩ := posterior_ok h
  have e : ∀ q, posterior tau sigma pi P q om =
      .ok (pi + ((tau • sigma) * Pᵀ) *ᵥ ((P * (tau • sigma) * Pᵀ + om)⁻¹ *ᵥ (q - P *ᵥ pi)), r.2) := by
    intro q
    unfold posterior linSolve
    simp only [if_neg hu.ne_zero]
    rw [hc]
  refine ⟨_, e Q', ?_⟩
  rw [e, hm]
  refine congrArg (fun z => Except.ok (z, r.2)) ?_
  have hz : (1 - θ) • Q + θ • Q' - P *ᵥ pi = (1 - θ) • (Q - P *ᵥ pi) + θ • (Q' - P *ᵥ pi) := by
    funext k
    simp only [Pi.sub_apply, Pi.add_apply, Pi.smul_apply, smul_eq_mul]
    ring
  rw [hz, mulVec_add, mulVec_add, mulVec_smul, mulVec_smul, mulVec_smul, mulVec_smul]
  generalize ((tau • sigma) * Pᵀ) *ᵥ _ = x
  generalize ((tau • sigma) * Pᵀ) *ᵥ _ = y
  funext k
  simp only [Pi.add_apply, Pi.smul_apply, smul_eq_mul]
  ring

/-- **C194** (targets) The numbers asked for move only the mean, and linearly: if the views can be processed with some targets they can be with any, the
posterior covariance is the same, and targets between two sets of targets give the mean between the two means. -/
theorem C194_targets {a : Args N} {keys : Fin n → MKey} {t : Fin n → ℝ} (u : Fin n → ℝ) (θ : ℝ) {r : (Fin N → ℝ) × Matrix (Fin N) (Fin N) ℝ}
    (h : BL.construct (withTargets a keys t) = .ok r) :
    ∃ m', BL.construct (withTargets a keys u) = .ok (m', r.2) ∧
      BL.construct (withTargets a keys ((1 - θ) • t + θ • u)) = .ok ((1 - θ) • r.1 + θ • m', r.2) := by
  rw [construct_eq] at h
  have hkeys : ∀ q : Fin n → ℝ, (List.ofFn fun k => (keys k, Val.scalar (q k))).map Prod.fst = List.ofFn keys := by
    intro q; rw [List.map_ofFn]; rfl
  by_cases hra : a.riskAversion ≤ 0
  · rw [if_pos hra] at h; cases h
  rw [if_neg hra] at h
  have e : ∀ l, buildViews a.assets l = mapE (viewRow a.assets) l := fun l => rfl
  cases hpi : priorPi (symmetrise a.sigma) a.riskAversion a.pi a.marketWeights a.priorMean with
  | error e => rw [hpi] at h; cases h
  | ok pi =>
  rw [hpi] at h
  rcases mapE_ofFn (viewRow a.assets) (fun _ _ => viewRow_error) (fun k => (keys k, Val.scalar (t k))) with ⟨p, h1, h2⟩ | ⟨-, h2⟩
  swap
  · simp only [Except.bind, e, h2] at h; cases h
  have hp : ∀ q : Fin n → ℝ, buildViews a.assets (List.ofFn fun k => (keys k, Val.scalar (q k))) = .ok (List.ofFn fun k => ((p k).1, q k)) := by
    intro q
    refine mapE_ok.2 (forall_ofFn fun k => ?_)
    have := h1 k
    unfold viewRow at this
    simp only [bind_ok] at this
    obtain ⟨t', -, row, hrow, this⟩ := this
    injection this with this
    show (do let t ← target (Val.scalar (q k)); let row ← pickRow a.assets (keys k); .ok (row, t)) = _
    rw [hrow, ← this]
    rfl
  cases hcf : parseConf a.conf (List.ofFn keys) with
  | error e => simp only [Except.bind, hp, hkeys, hcf] at h; cases h
  | ok conf =>
  have hall : ∀ q, BL.construct (withTargets a keys q) = tailOf a.omega conf a.idzorekUseTau a.tau (symmetrise a.sigma) pi (List.ofFn fun k => ((p k).1, q k)) := by
    intro q
    rw [construct_eq, if_neg hra, hpi]
    simp only [Except.bind, hp, hkeys, hcf]
  simp only [Except.bind, hp, hkeys, hcf] at h
  simp only [hall]
  by_cases hn : n = 0
  · subst hn
    have e0 : ∀ q : Fin 0 → ℝ, tailOf a.omega conf a.idzorekUseTau a.tau (symmetrise a.sigma) pi (List.ofFn fun k : Fin 0 => ((p k).1, q k)) = .ok (pi, symmetrise a.sigma) :=
      fun q => if_pos rfl
    rw [e0] at h
    injection h with h; subst h
    refine ⟨pi, e0 _, (e0 _).trans ?_⟩
    refine congrArg (fun z => Except.ok (z, _)) ?_
    funext k
    simp only [Pi.add_apply, Pi.smul_apply, smul_eq_mul]
    ring
  · simp only [fun q : Fin n → ℝ => tail_eq a.omega conf a.idzorekUseTau a.tau (symmetrise a.sigma) pi (List.ofFn fun k => ((p k).1, q k)) (by simp) hn
      (fun k => ((p k).1, q k)) rfl] at h ⊢
    cases hom : buildOmega a.omega conf a.idzorekUseTau a.tau (symmetrise a.sigma) (Matrix.of fun k => (p k).1) with
    | error e => rw [hom] at h; cases h
    | ok om =>
      rw [hom] at h
      exact posterior_affine u θ h

/-- **C194** (halfway) With the default view uncertainty a single view moves the quantity it speaks about exactly half of the way from its prior value to the
target. -/
theorem C194_halfway {a : Args N} (ha : Function.Injective a.assets) (hS : a.sigmaᵀ = a.sigma) {pi : Fin N → ℝ} (hpi : a.pi = some pi) (ho : a.omega = .none)
    {key : MKey} {v : Val} (hv : a.views = [(key, v)]) {r : (Fin N → ℝ) × Matrix (Fin N) (Fin N) ℝ} (h : BL.construct a = .ok r) :
    ∃ t, Spec.BL.Asks v t ∧ (∀ l i, key = .single l → Spec.BL.Refers a.assets l i → r.1 i = (pi i + t) / 2) ∧
      ∀ l l' i j, key = .pair l l' → Spec.BL.Refers a.assets l i → Spec.BL.Refers a.assets l' j → i ≠ j → r.1 i - r.1 j = (pi i - pi j + t) / 2 := by
  obtain ⟨-, pi', rows, conf, hpi', hrows, -, hcase⟩ := construct_cases h
  rw [hpi] at hpi'
  injection hpi' with hpi'; subst hpi'
  rw [symmetrise_of_symm hS] at hcase
  have hF : List.Forall₂ (fun kv rt => viewRow a.assets kv = .ok rt) a.views rows := mapE_ok.1 hrows
  rw [hv] at hF
  cases hF with
  | cons h1 h2 =>
    rename_i rt _
    cases h2
    rcases hcase with ⟨hc, -⟩ | ⟨-, om, hom, hpost⟩
    · cases hc
    rw [ho] at hom
    injection hom with hom
    have e0 : ∀ k : Fin [rt].length, [rt].get k = rt := fun k => by
      have : k = 0 := Fin.eq_zero k
      subst this; rfl
    have key2 := single_view_tilt (row := rt.1) (t := rt.2) (c := 1 / 2) (by norm_num) rfl (fun k => by
        show ([rt].get k).1 = _; rw [e0]) (fun k => by show ([rt].get k).2 = _; rw [e0]) (fun k => by
        rw [← hom, diagonal_apply_eq, Matrix.mul_assoc, show ((1 : ℝ) - 1 / 2) / (1 / 2) = 1 by norm_num, one_mul]
        have : k = 0 := Fin.eq_zero k
        subst this
        show rt.1 ⬝ᵥ _ = _
        rfl) hpost
    obtain ⟨h4, h5⟩ := row_of ha h1
    refine ⟨rt.2, h4, ?_, ?_⟩
    · intro l i hk hr
      rcases h5 with ⟨l', i', e1, e2, e3⟩ | ⟨l', l'', i', j', e1, -⟩
      · simp only at e1
        rw [hk] at e1
        injection e1 with e1; subst e1
        have : i' = i := by
          rw [← assetIndex_spec ha] at hr e2
          rw [hr] at e2; injection e2 with e2; exact e2.symm
        subst this
        rw [e3, e3] at key2
        rw [key2]; ring
      · simp only at e1
        rw [hk] at e1; cases e1
    · intro l l' i j hk hr hr' hij
      rcases h5 with ⟨l2, i', e1, -⟩ | ⟨l2, l2', i', j', e1, e2, e2', e3⟩
      · simp only at e1
        rw [hk] at e1; cases e1
      · simp only at e1
        rw [hk] at e1
        injection e1 with e1 e1'; subst e1; subst e1'
        rw [← assetIndex_spec ha] at hr hr' e2 e2'
        rw [hr] at e2; injection e2 with e2; subst e2
        rw [hr'] at e2'; injection e2' with e2'; subst e2'
        rw [e3 hij, e3 hij] at key2
        rw [key2]; ring

/-! ### A concrete call: two assets with prior means 10% and 5%, "A beats B by 5%" and "A returns 10%", default uncertainty -/

/-- Example arguments with two views. -/
noncomputable def exTwoViews : Args 2 where
  sigma := 1
  assets := ![.str "A", .str "B"]
  priorMean := none
  marketWeights := none
  riskAversion := 1
  tau := 1 / 20
  idzorekUseTau := true
  pi := some ![1 / 10, 1 / 20]
  views := [(.pair (.str "A") (.str "B"), .scalar (1 / 20)), (.single (.str "A"), .seq [1 / 10])]
  conf := .none
  omega := .none

/-- The hypotheses of C194–C197 hold of it, and the call succeeds. -/
example : Function.Injective exTwoViews.assets ∧ exTwoViews.sigmaᵀ = exTwoViews.sigma ∧ (∀ kv ∈ exTwoViews.views, NamesAssets exTwoViews.assets kv.1) ∧
    (∀ kv ∈ exTwoViews.views, AgreesWith exTwoViews.assets ![1 / 10, 1 / 20] kv) ∧ ConfReordered (Equiv.swap (0 : Fin 2) 1) exTwoViews.conf exTwoViews.conf ∧
    OmegaReordered (Equiv.swap (0 : Fin 2) 1) exTwoViews.omega exTwoViews.omega ∧ ∃ cov, BL.construct exTwoViews = .ok (![1 / 10, 1 / 20], cov) := by
  have ha : Function.Injective exTwoViews.assets := by
    intro i j h
    revert h
    fin_cases i <;> fin_cases j <;> simp [exTwoViews]
  have hA : assetIndex exTwoViews.assets (.str "A") = .ok 0 := by
    have : indexOf exTwoViews.assets (.str "A") = some 0 := by decide
    simp [assetIndex, this]
  have hB : assetIndex exTwoViews.assets (.str "B") = .ok 1 := by
    have : indexOf exTwoViews.assets (.str "B") = some 1 := by decide
    simp [assetIndex, this]
  have hag : ∀ kv ∈ exTwoViews.views, AgreesWith exTwoViews.assets ![1 / 10, 1 / 20] kv := by
    have hm : ∀ kv ∈ exTwoViews.views, kv = (.pair (.str "A") (.str "B"), .scalar (1 / 20)) ∨ kv = (.single (.str "A"), .seq [1 / 10]) := by
      intro kv h
      simpa [exTwoViews] using h
    intro kv h
    rcases hm kv h with rfl | rfl
    · refine ⟨1 / 20, Or.inl rfl, fun a i h => by (cases h), fun a b i j h hi hj => ?_⟩
      injection h with h h'; subst h; subst h'
      rw [← assetIndex_spec ha] at hi hj
      rw [hA] at hi; rw [hB] at hj
      injection hi with hi; injection hj with hj; subst hi; subst hj
      norm_num
    · refine ⟨1 / 10, Or.inr rfl, fun a i h hi => ?_, fun a b i j h => by (cases h)⟩
      injection h with h; subst h
      rw [← assetIndex_spec ha] at hi
      rw [hA] at hi
      injection hi with hi; subst hi
      norm_num
  have hn : ∀ kv ∈ exTwoViews.views, NamesAssets exTwoViews.assets kv.1 := by
    have hm : ∀ kv ∈ exTwoViews.views, kv = (.pair (.str "A") (.str "B"), .scalar (1 / 20)) ∨ kv = (.single (.str "A"), .seq [1 / 10]) := by
      intro kv h
      simpa [exTwoViews] using h
    intro kv h
    rcases hm kv h with rfl | rfl
    · exact ⟨⟨0, rfl⟩, ⟨1, rfl⟩⟩
    · exact ⟨0, rfl⟩
  have hrows : ∃ rows, buildViews exTwoViews.assets exTwoViews.views = .ok rows := by
    refine ⟨[(Function.update (Function.update (fun _ => 0) 0 1) 1 (-1), 1 / 20), (Function.update (fun _ => 0) 0 1, 1 / 10)], ?_⟩
    show mapE _ [(MKey.pair (.str "A") (.str "B"), Val.scalar (1 / 20)), (MKey.single (.str "A"), Val.seq [1 / 10])] = _
    simp only [mapE, pickRow, hA, hB, target, bind, Except.bind]
  obtain ⟨rows, hrows⟩ := hrows
  have h1 : exTwoViews.sigma.PosDef := PosDef.one
  obtain ⟨m, cov, h, -⟩ := C31_processor h1 (by norm_num [exTwoViews]) (by norm_num [exTwoViews]) (Or.inl ⟨rfl, rfl⟩) (pi := ![1 / 10, 1 / 20]) rfl hrows
    (by simp [exTwoViews])
  have hm := C194_agreeing_views ha rfl hag h
  refine ⟨ha, transpose_one, hn, hag, .none, .none, cov, ?_⟩
  rw [h]
  simp only at hm
  rw [hm]

end PyV.Props
