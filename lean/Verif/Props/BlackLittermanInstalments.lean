import Verif.Props.BlackLittermanFirmer
import Mathlib.LinearAlgebra.Matrix.NonsingularInverse

/-! # C268: Black–Litterman views in instalments -/

namespace PyV.Props

open PyV PyV.FV PyV.BL PyV.Spec.BL Matrix

variable {N K : ℕ}

/-- Information form of a posterior: the estimation covariance is the inverse of the total information, and the mean balances the prior and
the views by their information. -/
theorem information_form {tau : ℝ} (htau : 0 < tau) {sigma : Matrix (Fin N) (Fin N) ℝ} (hS : sigma.PosDef)
    {pi : Fin N → ℝ} {P : Matrix (Fin K) (Fin N) ℝ} {Q : Fin K → ℝ} {omega : Matrix (Fin K) (Fin K) ℝ}
    (hO : omega.PosDef) {r : (Fin N → ℝ) × Matrix (Fin N) (Fin N) ℝ} (hr : posterior tau sigma pi P Q omega = .ok r) :
    ((tau • sigma)⁻¹ + Pᵀ * omega⁻¹ * P).PosDef ∧ r.2 - sigma = ((tau • sigma)⁻¹ + Pᵀ * omega⁻¹ * P)⁻¹ ∧
    ((tau • sigma)⁻¹ + Pᵀ * omega⁻¹ * P) *ᵥ r.1 = (tau • sigma)⁻¹ *ᵥ pi + (Pᵀ * omega⁻¹) *ᵥ Q := by
  have hV : (tau • sigma).PosDef := hS.smul htau
  obtain ⟨m, cov, hr', hne⟩ := C31_normal_equations htau hS (pi := pi) (P := P) (Q := Q) hO
  rw [hr] at hr'
  injection hr' with hr'
  have hI : ((tau • sigma)⁻¹ + Pᵀ * omega⁻¹ * P).PosDef := by
    refine PosDef.add_posSemidef hV.inv ?_
    have := hO.inv.posSemidef.mul_mul_conjTranspose_same Pᵀ
    rwa [conjTranspose_eq_transpose_of_trivial, transpose_transpose] at this
  refine ⟨hI, ?_, by rw [hr']; exact hne⟩
  obtain ⟨hu, -, hc⟩ := posterior_ok hr
  have huV : IsUnit (tau • sigma).det := isUnit_iff_ne_zero.mpr hV.det_pos.ne'
  have huO : IsUnit omega.det := isUnit_iff_ne_zero.mpr hO.det_pos.ne'
  have hw := Matrix.add_mul_mul_inv_eq_sub (tau • sigma)⁻¹ Pᵀ omega⁻¹ P
    ((Matrix.isUnit_iff_isUnit_det _).mpr (by rw [Matrix.isUnit_nonsing_inv_det_iff]; exact huV))
    ((Matrix.isUnit_iff_isUnit_det _).mpr (by rw [Matrix.isUnit_nonsing_inv_det_iff]; exact huO))
    (by
      rw [Matrix.nonsing_inv_nonsing_inv _ huV, Matrix.nonsing_inv_nonsing_inv _ huO, Matrix.isUnit_iff_isUnit_det, add_comm]
      exact hu)
  rw [Matrix.nonsing_inv_nonsing_inv _ huV, Matrix.nonsing_inv_nonsing_inv _ huO, add_comm omega] at hw
  have hmid : sigma + tau • sigma - (tau • sigma) * Pᵀ * ((P * (tau • sigma) * Pᵀ + omega)⁻¹ * (P * (tau • sigma))) =
      sigma + ((tau • sigma)⁻¹ + Pᵀ * omega⁻¹ * P)⁻¹ := by
    rw [hw, add_sub_assoc]
    simp only [Matrix.mul_assoc]
  have hsym : (sigma + ((tau • sigma)⁻¹ + Pᵀ * omega⁻¹ * P)⁻¹)ᵀ = sigma + ((tau • sigma)⁻¹ + Pᵀ * omega⁻¹ * P)⁻¹ := by
    rw [transpose_add, symm_of_psd hS.posSemidef, symm_of_psd hI.inv.posSemidef]
  rw [hc, hmid, hsym, ← two_smul ℝ, smul_smul]
  norm_num

private theorem sum_pairs {α β : Type*} [AddCommMonoid β] (f : α → ℝ → β) (r : List α) (l : List ℝ) (h : l.length = r.length) :
    ∑ k : Fin r.length, f (r.get k) (l.getD k 0) = ((r.zip l).map (fun p => f p.1 p.2)).sum := by
  induction r generalizing l with
  | nil => simp
  | cons a r ih =>
    cases l with
    | nil => simp at h
    | cons x l =>
      have := ih l (by simpa using h)
      rw [List.zip_cons_cons, List.map_cons, List.sum_cons, ← this]
      exact Fin.sum_univ_succ _

private theorem sum_append {α β : Type*} [AddCommMonoid β] (f : α → ℝ → β) {r r' : List α} {l l' : List ℝ} (h : l.length = r.length)
    (h' : l'.length = r'.length) : ∑ k : Fin (r ++ r').length, f ((r ++ r').get k) ((l ++ l').getD k 0) =
      ∑ k : Fin r.length, f (r.get k) (l.getD k 0) + ∑ k : Fin r'.length, f (r'.get k) (l'.getD k 0) := by
  rw [sum_pairs f (r ++ r') (l ++ l') (by simp [h, h']), sum_pairs f r l h, sum_pairs f r' l' h', List.zip_append h.symm, List.map_append,
    List.sum_append]

private theorem diag_inv {K : ℕ} {d : Fin K → ℝ} (hd : ∀ k, 0 < d k) : (Matrix.diagonal d)⁻¹ = Matrix.diagonal (fun k => (d k)⁻¹) := by
  refine Matrix.inv_eq_right_inv ?_
  rw [Matrix.diagonal_mul_diagonal, ← Matrix.diagonal_one]
  congr 1
  funext k
  exact mul_inv_cancel₀ (hd k).ne'

private theorem info_entry {K : ℕ} {d : Fin K → ℝ} (hd : ∀ k, 0 < d k) (P : Matrix (Fin K) (Fin N) ℝ) (i j : Fin N) :
    (Pᵀ * (Matrix.diagonal d)⁻¹ * P) i j = ∑ k, P k i * (d k)⁻¹ * P k j := by
  rw [diag_inv hd, Matrix.mul_apply]
  exact Finset.sum_congr rfl fun k _ => by rw [Matrix.mul_diagonal, Matrix.transpose_apply]

private theorem score_entry {K : ℕ} {d : Fin K → ℝ} (hd : ∀ k, 0 < d k) (P : Matrix (Fin K) (Fin N) ℝ) (Q : Fin K → ℝ) (i : Fin N) :
    ((Pᵀ * (Matrix.diagonal d)⁻¹) *ᵥ Q) i = ∑ k, P k i * (d k)⁻¹ * Q k := by
  rw [diag_inv hd]
  show ∑ k, (Pᵀ * diagonal fun k => (d k)⁻¹) i k * Q k = _
  refine Finset.sum_congr rfl fun k _ => ?_
  rw [Matrix.mul_diagonal, Matrix.transpose_apply]

/-- The later call: the mean of the first call is the prior mean, what the first call added to the covariance is the prior covariance, `tau`
is one. -/
def laterCall (a : Args N) (first : (Fin N → ℝ) × Matrix (Fin N) (Fin N) ℝ) (more : List (MKey × Val)) (omega : List ℝ) : Args N :=
  { a with sigma := first.2 - a.sigma, tau := 1, pi := some first.1, views := more, omega := .vec omega }

/-- All views in one call. -/
def oneCall (a : Args N) (more : List (MKey × Val)) (before after : List ℝ) : Args N :=
  { a with views := a.views ++ more, omega := .vec (before ++ after) }

private theorem diag_posDef {K : ℕ} {d : Fin K → ℝ} (hd : ∀ k, 0 < d k) : (Matrix.diagonal d).PosDef :=
  Matrix.PosDef.diagonal hd

private theorem split_views {α β : Type*} {R : α → β → Prop} {l₁ l₂ : List α} {l : List β} (h : List.Forall₂ R (l₁ ++ l₂) l) :
    ∃ r1 r2, List.Forall₂ R l₁ r1 ∧ List.Forall₂ R l₂ r2 ∧ l = r1 ++ r2 := by
  induction l₁ generalizing l with
  | nil => exact ⟨[], l, .nil, h, rfl⟩
  | cons a l₁ ih =>
    cases h with
    | cons hab hl =>
      obtain ⟨r1, r2, h1, h2, rfl⟩ := ih hl
      exact ⟨_ :: r1, r2, .cons hab h1, h2, rfl⟩

private theorem construct_of {a : Args N} (hra : 0 < a.riskAversion) {pi : Fin N → ℝ}
    (hpi : priorPi (symmetrise a.sigma) a.riskAversion a.pi a.marketWeights a.priorMean = .ok pi)
    {rows : List ((Fin N → ℝ) × ℝ)} (hrows : buildViews a.assets a.views = .ok rows) (hconf : a.conf = .none) (hne : rows ≠ [])
    {l : List ℝ} (hom : a.omega = .vec l) (hlen : l.length = rows.length) :
    BL.construct a = posterior a.tau (symmetrise a.sigma) pi (Matrix.of (fun k : Fin rows.length => (rows.get k).1))
      (fun k => (rows.get k).2) (Matrix.diagonal (fun k : Fin rows.length => l.getD k 0)) := by
  unfold BL.construct
  simp only
  rw [if_neg (not_le.mpr hra), hpi, hrows, hconf, hom]
  show (if rows = [] then _ else _) = _
  rw [if_neg hne]
  unfold buildOmega
  simp only
  rw [if_pos hlen]
  rfl

/-- **C268** (partial) Views can be entered in instalments: stating some views first and the others in a second call gives the same posterior
mean as stating all of them at once, and the same uncertainty about the mean, provided the second call starts from the *estimation* covariance
(posterior covariance minus Sigma, with tau = 1).  Missing: feeding the posterior straight back (`C268_counterexample`). -/
theorem C268_instalments_partial {a : Args N} (hS : a.sigma.PosDef) (htau : 0 < a.tau) (hconf : a.conf = .none) {before after : List ℝ}
    (hom : a.omega = .vec before) (hb : ∀ x ∈ before, 0 < x) (ha : ∀ x ∈ after, 0 < x) (hlen : before.length = a.views.length)
    (hv : a.views ≠ []) {more : List (MKey × Val)} (hmore : more ≠ []) {all : (Fin N → ℝ) × Matrix (Fin N) (Fin N) ℝ}
    (h : BL.construct (oneCall a more before after) = .ok all) :
    ∃ first second, BL.construct a = .ok first ∧ BL.construct (laterCall a first more after) = .ok second ∧
      second.1 = all.1 ∧ second.2 - (first.2 - a.sigma) = all.2 - a.sigma := by
  obtain ⟨hra, pi, rows, conf, hpi, hrows, hcf, hcase⟩ := construct_cases h
  have hsymS := symm_of_psd hS.posSemidef
  change 0 < a.riskAversion at hra
  change priorPi (symmetrise a.sigma) a.riskAversion a.pi a.marketWeights a.priorMean = _ at hpi
  change buildViews a.assets (a.views ++ more) = _ at hrows
  change parseConf a.conf _ = _ at hcf
  change (_ ∨ (rows ≠ [] ∧ ∃ om, buildOmega (.vec (before ++ after)) conf a.idzorekUseTau a.tau (symmetrise a.sigma) _ = _ ∧
    posterior a.tau (symmetrise a.sigma) pi _ _ om = _)) at hcase
  have F : List.Forall₂ (fun kv rt => viewRow a.assets kv = .ok rt) (a.views ++ more) rows := mapE_ok.1 hrows
  obtain ⟨r1, r2, hr1, hr2, rfl⟩ := split_views F
  have hl1 : before.length = r1.length := hlen.trans hr1.length_eq
  have hne1 : r1 ≠ [] := by
    rintro rfl
    exact hv (List.forall₂_nil_right_iff.mp hr1)
  have hne2 : r2 ≠ [] := by
    rintro rfl
    exact hmore (List.forall₂_nil_right_iff.mp hr2)
  rcases hcase with ⟨hc, -⟩ | ⟨-, om, hom', hpost⟩
  · exact absurd hc (by simp [hne1])
  unfold buildOmega at hom'
  simp only at hom'
  split at hom'
  swap
  · cases hom'
  rename_i hlenJ
  injection hom' with hom'
  have hl2 : after.length = r2.length := by
    rw [List.length_append, List.length_append] at hlenJ
    omega
  have pos : ∀ {l : List ℝ} {n : ℕ}, l.length = n → (∀ x ∈ l, 0 < x) → ∀ k : Fin n, 0 < l.getD k 0 := by
    intro l n hn hp k
    have hk : (k : ℕ) < l.length := by rw [hn]; exact k.2
    rw [List.getD_eq_getElem?_getD, List.getElem?_eq_getElem hk, Option.getD_some]
    exact hp _ (List.getElem_mem hk)
  have p1 := pos hl1 hb
  have p2 := pos hl2 ha
  have pJ := pos hlenJ (fun x hx => (List.mem_append.mp hx).elim (hb x) (ha x))
  rw [symmetrise_of_symm hsymS] at hpi hpost
  rw [← hom'] at hpost
  obtain ⟨-, hJc, hJm⟩ := information_form htau hS (diag_posDef pJ) hpost
  -- first call
  obtain ⟨m1, c1, hp1, -⟩ := C31_normal_equations htau hS (pi := pi) (P := Matrix.of (fun k : Fin r1.length => (r1.get k).1))
    (Q := fun k => (r1.get k).2) (diag_posDef p1)
  obtain ⟨hI1, hc1, hm1⟩ := information_form htau hS (diag_posDef p1) hp1
  simp only at hc1 hm1
  have hfirst : BL.construct a = .ok (m1, c1) := by
    rw [construct_of hra (by rw [symmetrise_of_symm hsymS]; exact hpi) (mapE_ok.2 hr1) hconf hne1 hom hl1, symmetrise_of_symm hsymS]
    exact hp1
  -- second call
  have hS2 : (c1 - a.sigma).PosDef := by rw [hc1]; exact hI1.inv
  obtain ⟨m2, c2, hp2, -⟩ := C31_normal_equations one_pos hS2 (pi := m1) (P := Matrix.of (fun k : Fin r2.length => (r2.get k).1))
    (Q := fun k => (r2.get k).2) (diag_posDef p2)
  obtain ⟨-, hc2, hm2⟩ := information_form one_pos hS2 (diag_posDef p2) hp2
  simp only at hc2 hm2
  have hsecond : BL.construct (laterCall a (m1, c1) more after) = .ok (m2, c2) := by
    have hs : symmetrise (c1 - a.sigma) = c1 - a.sigma := symmetrise_of_symm (symm_of_psd hS2.posSemidef)
    rw [construct_of (a := laterCall a (m1, c1) more after) hra (pi := m1) rfl (mapE_ok.2 hr2) hconf hne2 rfl hl2]
    show posterior 1 (symmetrise (c1 - a.sigma)) m1 _ _ _ = _
    rw [hs]
    exact hp2
  refine ⟨(m1, c1), (m2, c2), hfirst, hsecond, ?_⟩
  simp only
  have hu1 : IsUnit ((a.tau • a.sigma)⁻¹ + (Matrix.of fun k : Fin r1.length => (r1.get k).1)ᵀ *
      (Matrix.diagonal fun k : Fin r1.length => before.getD k 0)⁻¹ * Matrix.of fun k : Fin r1.length => (r1.get k).1).det :=
    isUnit_iff_ne_zero.mpr hI1.det_pos.ne'
  have hinv : (((1:ℝ) • (c1 - a.sigma))⁻¹ : Matrix (Fin N) (Fin N) ℝ) = (a.tau • a.sigma)⁻¹ + (Matrix.of fun k : Fin r1.length => (r1.get k).1)ᵀ *
      (Matrix.diagonal fun k : Fin r1.length => before.getD k 0)⁻¹ * Matrix.of fun k : Fin r1.length => (r1.get k).1 := by
    rw [one_smul, hc1, Matrix.nonsing_inv_nonsing_inv _ hu1]
  have hinfo : (Matrix.of fun k : Fin (r1 ++ r2).length => ((r1 ++ r2).get k).1)ᵀ *
      (Matrix.diagonal fun k : Fin (r1 ++ r2).length => (before ++ after).getD k 0)⁻¹ *
        (Matrix.of fun k : Fin (r1 ++ r2).length => ((r1 ++ r2).get k).1) =
      (Matrix.of fun k : Fin r1.length => (r1.get k).1)ᵀ *
        (Matrix.diagonal fun k : Fin r1.length => before.getD k 0)⁻¹ * (Matrix.of fun k : Fin r1.length => (r1.get k).1) +
      (Matrix.of fun k : Fin r2.length => (r2.get k).1)ᵀ *
        (Matrix.diagonal fun k : Fin r2.length => after.getD k 0)⁻¹ * (Matrix.of fun k : Fin r2.length => (r2.get k).1) := by
    ext i j
    rw [Matrix.add_apply, info_entry pJ, info_entry p1, info_entry p2]
    exact sum_append (fun (r : (Fin N → ℝ) × ℝ) x => r.1 i * x⁻¹ * r.1 j) hl1 hl2
  have hscore : ((Matrix.of fun k : Fin (r1 ++ r2).length => ((r1 ++ r2).get k).1)ᵀ *
      (Matrix.diagonal fun k : Fin (r1 ++ r2).length => (before ++ after).getD k 0)⁻¹) *ᵥ (fun k => ((r1 ++ r2).get k).2) =
      ((Matrix.of fun k : Fin r1.length => (r1.get k).1)ᵀ *
        (Matrix.diagonal fun k : Fin r1.length => before.getD k 0)⁻¹) *ᵥ (fun k => (r1.get k).2) +
      ((Matrix.of fun k : Fin r2.length => (r2.get k).1)ᵀ *
        (Matrix.diagonal fun k : Fin r2.length => after.getD k 0)⁻¹) *ᵥ (fun k => (r2.get k).2) := by
    funext i
    rw [Pi.add_apply, score_entry pJ, score_entry p1, score_entry p2]
    exact sum_append (fun (r : (Fin N → ℝ) × ℝ) x => r.1 i * x⁻¹ * r.2) hl1 hl2
  rw [hinv] at hc2 hm2
  rw [hinfo, ← add_assoc] at hJc hJm
  rw [hscore, ← add_assoc, ← hm1] at hJm
  refine ⟨?_, by rw [hc2, hJc]⟩
  obtain ⟨hI2, -, -⟩ := information_form one_pos hS2 (diag_posDef p2) hp2
  rw [hinv] at hI2
  have heq := hm2.trans hJm.symm
  have hinj := Matrix.mulVec_injective_iff_isUnit.mpr ((Matrix.isUnit_iff_isUnit_det _).mpr (isUnit_iff_ne_zero.mpr hI2.det_pos.ne'))
  exact hinj heq

/-- Two unrelated assets; a first view about A. -/
noncomputable def exUnrelated : Args 2 :=
  ⟨1, ![.str "A", .str "B"], none, none, 1, 1, true, some (fun _ => 0), [(.single (.str "A"), .scalar 1)], .none, .vec [1]⟩

/-- A later view about B. -/
def exMore : List (MKey × Val) := [(.single (.str "B"), .scalar 1)]

private def rowA : Fin 2 → ℝ := Function.update (fun _ => 0) 0 1
private def rowB : Fin 2 → ℝ := Function.update (fun _ => 0) 1 1

private theorem ex_views : buildViews exUnrelated.assets exUnrelated.views = .ok [(rowA, 1)] ∧
    buildViews exUnrelated.assets exMore = .ok [(rowB, 1)] ∧
    buildViews exUnrelated.assets (exUnrelated.views ++ exMore) = .ok [(rowA, 1), (rowB, 1)] := by
  have hA : assetIndex exUnrelated.assets (.str "A") = .ok 0 := by
    have : indexOf exUnrelated.assets (.str "A") = some 0 := by decide
    simp [assetIndex, this]
  have hB : assetIndex exUnrelated.assets (.str "B") = .ok 1 := by
    have : indexOf exUnrelated.assets (.str "B") = some 1 := by decide
    simp [assetIndex, this]
  refine ⟨?_, ?_, ?_⟩
  · show mapE _ [(MKey.single (.str "A"), Val.scalar 1)] = _
    simp only [mapE, pickRow, hA, target, bind, Except.bind, rowA]
  · show mapE _ [(MKey.single (.str "B"), Val.scalar 1)] = _
    simp only [mapE, pickRow, hB, target, bind, Except.bind, rowB]
  · show mapE _ [(MKey.single (.str "A"), Val.scalar 1), (MKey.single (.str "B"), Val.scalar 1)] = _
    simp only [mapE, pickRow, hA, hB, target, bind, Except.bind, rowA, rowB]

/-- **C268** (false of the code) Feeding a posterior straight back as the next prior counts the uncertainty of the mean twice: two unrelated
assets, a view about A, then a view about B.  Stated together the mean of B moves half way to its view; with the first posterior
as the prior of the second call it moves two thirds of the way. -/
theorem C268_counterexample : ∃ all first again, BL.construct (oneCall exUnrelated exMore [1] [1]) = .ok all ∧
    BL.construct exUnrelated = .ok first ∧
    BL.construct { exUnrelated with sigma := first.2, pi := some first.1, views := exMore, omega := .vec [1] } = .ok again ∧
    all.1 1 = 1 / 2 ∧ again.1 1 = 2 / 3 := by
  obtain ⟨v1, v2, v3⟩ := ex_views
  have hs1 : symmetrise (1 : Matrix (Fin 2) (Fin 2) ℝ) = 1 := symmetrise_of_symm transpose_one
  -- together
  have cJ := construct_of (a := oneCall exUnrelated exMore [1] [1]) (pi := fun _ => 0) (by norm_num [oneCall, exUnrelated]) rfl v3 rfl (by simp)
    (l := [1, 1]) rfl rfl
  -- first
  have c1 := construct_of (a := exUnrelated) (pi := fun _ => 0) (by norm_num [exUnrelated]) rfl v1 rfl (by simp) (l := [1]) rfl rfl
  change _ = posterior 1 (symmetrise (1 : Matrix (Fin 2) (Fin 2) ℝ)) _ _ _ _ at cJ
  change _ = posterior 1 (symmetrise (1 : Matrix (Fin 2) (Fin 2) ℝ)) _ _ _ _ at c1
  rw [hs1] at cJ c1
  have p2 : ∀ k : Fin [(rowA, (1:ℝ)), (rowB, (1:ℝ))].length, (0:ℝ) < [1, 1].getD k 0 := by
    intro k; fin_cases k <;> simp
  have p1 : ∀ (x : (Fin 2 → ℝ) × ℝ) (k : Fin [x].length), (0:ℝ) < [1].getD k 0 := by
    intro x k; fin_cases k; simp
  have one : (1 : Matrix (Fin 2) (Fin 2) ℝ).PosDef := PosDef.one
  obtain ⟨mJ, covJ, hJ, -⟩ := C31_normal_equations one_pos one (pi := fun _ => 0)
    (P := Matrix.of (fun k : Fin [(rowA, (1:ℝ)), (rowB, (1:ℝ))].length => ([(rowA, (1:ℝ)), (rowB, (1:ℝ))].get k).1))
    (Q := fun k => ([(rowA, (1:ℝ)), (rowB, (1:ℝ))].get k).2) (diag_posDef p2)
  obtain ⟨-, -, hJm⟩ := information_form one_pos one (diag_posDef p2) hJ
  obtain ⟨m1, cov1, h1, -⟩ := C31_normal_equations one_pos one (pi := fun _ => 0)
    (P := Matrix.of (fun k : Fin [(rowA, (1:ℝ))].length => ([(rowA, (1:ℝ))].get k).1))
    (Q := fun k => ([(rowA, (1:ℝ))].get k).2) (diag_posDef (p1 (rowA, 1)))
  obtain ⟨-, hc1, hm1⟩ := information_form one_pos one (diag_posDef (p1 (rowA, 1))) h1
  simp only at hJm hc1 hm1
  have infoA : (Matrix.of fun k : Fin [(rowA, (1:ℝ))].length => ([(rowA, (1:ℝ))].get k).1)ᵀ *
      (Matrix.diagonal fun k : Fin [(rowA, (1:ℝ))].length => [(1:ℝ)].getD k 0)⁻¹ *
        (Matrix.of fun k : Fin [(rowA, (1:ℝ))].length => ([(rowA, (1:ℝ))].get k).1) = Matrix.diagonal ![1, 0] := by
    ext i j
    rw [info_entry (p1 (rowA, 1))]
    fin_cases i <;> fin_cases j <;> simp [rowA]
  have infoB : (Matrix.of fun k : Fin [(rowB, (1:ℝ))].length => ([(rowB, (1:ℝ))].get k).1)ᵀ *
      (Matrix.diagonal fun k : Fin [(rowB, (1:ℝ))].length => [(1:ℝ)].getD k 0)⁻¹ *
        (Matrix.of fun k : Fin [(rowB, (1:ℝ))].length => ([(rowB, (1:ℝ))].get k).1) = Matrix.diagonal ![0, 1] := by
    ext i j
    rw [info_entry (p1 (rowB, 1))]
    fin_cases i <;> fin_cases j <;> simp [rowB]
  have infoJ : (Matrix.of fun k : Fin [(rowA, (1:ℝ)), (rowB, (1:ℝ))].length => ([(rowA, (1:ℝ)), (rowB, (1:ℝ))].get k).1)ᵀ *
      (Matrix.diagonal fun k : Fin [(rowA, (1:ℝ)), (rowB, (1:ℝ))].length => [(1:ℝ), 1].getD k 0)⁻¹ *
        (Matrix.of fun k : Fin [(rowA, (1:ℝ)), (rowB, (1:ℝ))].length => ([(rowA, (1:ℝ)), (rowB, (1:ℝ))].get k).1) = Matrix.diagonal ![1, 1] := by
    ext i j
    rw [info_entry p2]
    fin_cases i <;> fin_cases j <;> simp [rowA, rowB, Fin.sum_univ_two]
  have e1 : ((1:ℝ) • (1 : Matrix (Fin 2) (Fin 2) ℝ))⁻¹ = Matrix.diagonal ![1, 1] := by
    rw [one_smul, inv_one, ← Matrix.diagonal_one]
    congr 1
    funext i
    fin_cases i <;> rfl
  rw [e1, infoJ, Matrix.diagonal_add] at hJm
  rw [e1, infoA, Matrix.diagonal_add] at hc1
  have hcov : cov1 = Matrix.diagonal ![3 / 2, 2] := by
    rw [diag_inv (by intro k; fin_cases k <;> norm_num)] at hc1
    have := sub_eq_iff_eq_add.mp hc1
    rw [this, ← Matrix.diagonal_one, Matrix.diagonal_add]
    congr 1
    funext i
    fin_cases i <;> norm_num
  have hm1B : m1 1 = 0 := by
    have := congrFun hm1 1
    rw [e1, infoA, Matrix.diagonal_add, Pi.add_apply, score_entry (p1 (rowA, 1)), Matrix.mulVec_diagonal, Matrix.mulVec_diagonal] at this
    simpa [rowA] using this
  have hP : cov1.PosDef := by
    rw [hcov]
    exact diag_posDef (by intro k; fin_cases k <;> norm_num)
  have hs2 : symmetrise cov1 = cov1 := symmetrise_of_symm (symm_of_psd hP.posSemidef)
  have c2 := construct_of (a := { exUnrelated with sigma := cov1, pi := some m1, views := exMore, omega := .vec [1] }) (pi := m1)
    (by norm_num [exUnrelated]) rfl v2 rfl (by simp) (l := [1]) rfl rfl
  change _ = posterior 1 (symmetrise cov1) _ _ _ _ at c2
  rw [hs2] at c2
  obtain ⟨m2, cov2, h2, -⟩ := C31_normal_equations one_pos hP (pi := m1)
    (P := Matrix.of (fun k : Fin [(rowB, (1:ℝ))].length => ([(rowB, (1:ℝ))].get k).1))
    (Q := fun k => ([(rowB, (1:ℝ))].get k).2) (diag_posDef (p1 (rowB, 1)))
  obtain ⟨-, -, hm2⟩ := information_form one_pos hP (diag_posDef (p1 (rowB, 1))) h2
  simp only at hm2
  refine ⟨(mJ, covJ), (m1, cov1), (m2, cov2), cJ.trans hJ, c1.trans h1, c2.trans h2, ?_, ?_⟩
  · have := congrFun hJm 1
    rw [Pi.add_apply, score_entry p2, Matrix.mulVec_diagonal, Matrix.mulVec_diagonal] at this
    simp [rowA, rowB, Fin.sum_univ_two] at this
    simp only
    linarith
  · have := congrFun hm2 1
    rw [infoB, hcov, one_smul, diag_inv (by intro k; fin_cases k <;> norm_num), Matrix.diagonal_add, Pi.add_apply,
      score_entry (p1 (rowB, 1)), Matrix.mulVec_diagonal, Matrix.mulVec_diagonal, hm1B] at this
    simp [rowB] at this
    simp only
    linarith

/-- The instalments of the example, taken the right way, agree with the single call. -/
example : ∃ all first second, BL.construct (oneCall exUnrelated exMore [1] [1]) = .ok all ∧ BL.construct exUnrelated = .ok first ∧
    BL.construct (laterCall exUnrelated first exMore [1]) = .ok second ∧ second.1 = all.1 := by
  obtain ⟨all, -, -, hall, -⟩ := C268_counterexample
  obtain ⟨first, second, h1, h2, h3, -⟩ := C268_instalments_partial (a := exUnrelated) (before := [1]) (after := [1]) (more := exMore)
    PosDef.one one_pos rfl rfl (by simp) (by simp) rfl (by simp [exUnrelated]) (by simp [exMore]) hall
  exact ⟨all, first, second, hall, h1, h2, h3⟩

end PyV.Props
