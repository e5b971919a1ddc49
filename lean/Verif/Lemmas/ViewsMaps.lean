import Verif.Props.ViewsRanges
import Mathlib.Data.Fin.Tuple.Sort

/-! # Reordering scenarios, assets and views: how the rows and the passes move -/

namespace PyV.FV

open PyV PyV.Spec

variable {S N : ℕ}

/-- The same rows, read along a relabelling of the scenarios. -/
def Rows.along (π : Equiv.Perm (Fin S)) (r : Rows S) : Rows S :=
  ⟨r.eq.map (fun p => (p.1 ∘ π, p.2)), r.ineq.map (fun p => (p.1 ∘ π, p.2))⟩

/-- `r'` holds exactly the rows of `r`, read along `π`, in any order. -/
def RowRel (π : Equiv.Perm (Fin S)) (r r' : Rows S) : Prop :=
  (∀ p, p ∈ r'.eq ↔ p ∈ (r.along π).eq) ∧ ∀ p, p ∈ r'.ineq ↔ p ∈ (r.along π).ineq

theorem RowRel.refl (π : Equiv.Perm (Fin S)) (r : Rows S) : RowRel π r (r.along π) := ⟨fun _ => Iff.rfl, fun _ => Iff.rfl⟩

theorem sum_along (π : Equiv.Perm (Fin S)) (a q : Fin S → ℝ) : ∑ s, (a ∘ π) s * (q ∘ π) s = ∑ s, a s * q s :=
  Equiv.sum_comp π (fun s => a s * q s)

theorem RowRel.meets {π : Equiv.Perm (Fin S)} {r r' : Rows S} (h : RowRel π r r') (q : Fin S → ℝ) :
    MeetsRows r' (q ∘ π) ↔ MeetsRows r q := by
  unfold MeetsRows
  refine and_congr ?_ ?_
  · simp only [h.1, Rows.along, List.mem_map]
    constructor
    · intro hh p hp
      rw [← sum_along π]
      exact hh _ ⟨p, hp, rfl⟩
    · rintro hh _ ⟨p, hp, rfl⟩
      rw [sum_along]
      exact hh p hp
  · simp only [h.2, Rows.along, List.mem_map]
    constructor
    · intro hh p hp
      rw [← sum_along π]
      exact hh _ ⟨p, hp, rfl⟩
    · rintro hh _ ⟨p, hp, rfl⟩
      rw [sum_along]
      exact hh p hp

private theorem empty_iff_mem {α : Type} {l : List α} : l.isEmpty = true ↔ ∀ p, p ∉ l := by
  rw [List.isEmpty_iff, List.eq_nil_iff_forall_not_mem]

theorem RowRel.empty {π : Equiv.Perm (Fin S)} {r r' : Rows S} (h : RowRel π r r') :
    (r'.eq.isEmpty && r'.ineq.isEmpty) = (r.eq.isEmpty && r.ineq.isEmpty) := by
  have e1 : r'.eq.isEmpty = r.eq.isEmpty := by
    rw [Bool.eq_iff_iff, empty_iff_mem, empty_iff_mem]
    simp only [h.1, Rows.along, List.mem_map]
    constructor
    · intro hh p hp; exact hh _ ⟨p, hp, rfl⟩
    · rintro hh _ ⟨p, hp, -⟩; exact hh p hp
  have e2 : r'.ineq.isEmpty = r.ineq.isEmpty := by
    rw [Bool.eq_iff_iff, empty_iff_mem, empty_iff_mem]
    simp only [h.2, Rows.along, List.mem_map]
    constructor
    · intro hh p hp; exact hh _ ⟨p, hp, rfl⟩
    · rintro hh _ ⟨p, hp, -⟩; exact hh p hp
  rw [e1, e2]

theorem isProb_along (π : Equiv.Perm (Fin S)) (q : Fin S → ℝ) : IsProb (q ∘ π) ↔ IsProb q := by
  constructor
  · rintro ⟨h1, h2⟩
    refine ⟨fun s => ?_, ?_⟩
    · have := h1 (π.symm s)
      simpa using this
    · rw [← h2]; exact (Equiv.sum_comp π q).symm
  · rintro ⟨h1, h2⟩
    exact ⟨fun s => h1 _, by rw [← h2]; exact Equiv.sum_comp π q⟩

theorem kl_along (π : Equiv.Perm (Fin S)) (q p : Fin S → ℝ) : kl (q ∘ π) (p ∘ π) = kl q p :=
  Equiv.sum_comp π (fun s => q s * (Real.log (q s) - Real.log (p s)))

private theorem comp_symm (π : Equiv.Perm (Fin S)) (q : Fin S → ℝ) : (q ∘ π.symm) ∘ π = q := by
  funext s; simp

theorem RowRel.kl {π : Equiv.Perm (Fin S)} {r r' : Rows S} (h : RowRel π r r') (prior q : Fin S → ℝ) :
    IsKlPosterior (prior ∘ π) r' (q ∘ π) ↔ IsKlPosterior prior r q := by
  unfold IsKlPosterior
  refine and_congr ⟨fun hh s => by simpa using hh (π.symm s), fun hh s => hh _⟩
    (and_congr (isProb_along π q) (and_congr (h.meets q) ?_))
  constructor
  · intro hh q' h1 h2
    have := hh (q' ∘ π) ((isProb_along π q').2 h1) ((h.meets q').2 h2)
    rw [kl_along, kl_along] at this
    refine ⟨this.1, fun hle => ?_⟩
    have e := this.2 hle
    funext s
    have := congrFun e (π.symm s)
    simpa using this
  · intro hh q' h1 h2
    have key := hh (q' ∘ π.symm)
      ((isProb_along π _).1 (by rw [comp_symm]; exact h1)) ((h.meets _).1 (by rw [comp_symm]; exact h2))
    have e : Spec.kl (q' ∘ π.symm) prior = Spec.kl q' (prior ∘ π) := by
      conv_rhs => rw [← comp_symm π q', kl_along]
    rw [e] at key
    rw [kl_along]
    refine ⟨key.1, fun hle => ?_⟩
    rw [← key.2 hle, comp_symm]

/-! ## Rows -/

theorem mapE_mem {α β : Type} {f : α → Except PyErr β} {l : List α} {rs : List β} (h : mapE f l = .ok rs) (r : β) :
    r ∈ rs ↔ ∃ a ∈ l, f a = .ok r := by
  rw [mapE_ok] at h
  induction h with
  | nil => simp
  | @cons a b l rs h1 h2 ih =>
    rw [List.mem_cons, ih]
    constructor
    · rintro (rfl | ⟨c, hc, hf⟩)
      · exact ⟨a, List.mem_cons_self, h1⟩
      · exact ⟨c, List.mem_cons_of_mem _ hc, hf⟩
    · rintro ⟨c, hc, hf⟩
      rcases List.mem_cons.1 hc with rfl | hc
      · rw [h1] at hf; injection hf with hf; exact .inl hf.symm
      · exact .inr ⟨c, hc, hf⟩

theorem mem_concat_eq {l : List (Rows S)} {p : (Fin S → ℝ) × ℝ} : p ∈ (Rows.concat l).eq ↔ ∃ r ∈ l, p ∈ r.eq := by
  induction l with
  | nil => simp [Rows.concat, Rows.empty]
  | cons a l ih =>
    have e : (Rows.concat (a :: l)).eq = a.eq ++ (Rows.concat l).eq := rfl
    rw [e, List.mem_append, ih]
    simp

theorem mem_concat_ineq {l : List (Rows S)} {p : (Fin S → ℝ) × ℝ} : p ∈ (Rows.concat l).ineq ↔ ∃ r ∈ l, p ∈ r.ineq := by
  induction l with
  | nil => simp [Rows.concat, Rows.empty]
  | cons a l ih =>
    have e : (Rows.concat (a :: l)).ineq = a.ineq ++ (Rows.concat l).ineq := rfl
    rw [e, List.mem_append, ih]
    simp

/-- Blocks of related rows are related. -/
theorem concat_rel {π : Equiv.Perm (Fin S)} {l l' : List (Rows S)} (h1 : ∀ r ∈ l, ∃ r' ∈ l', RowRel π r r')
    (h2 : ∀ r' ∈ l', ∃ r ∈ l, RowRel π r r') : RowRel π (Rows.concat l) (Rows.concat l') := by
  constructor
  · intro p
    rw [mem_concat_eq]
    simp only [Rows.along, List.mem_map, mem_concat_eq]
    constructor
    · rintro ⟨r', hr', hp⟩
      obtain ⟨r, hr, hrel⟩ := h2 r' hr'
      obtain ⟨p0, hp0, rfl⟩ := List.mem_map.1 ((hrel.1 p).1 hp)
      exact ⟨p0, ⟨r, hr, hp0⟩, rfl⟩
    · rintro ⟨p0, ⟨r, hr, hp0⟩, rfl⟩
      obtain ⟨r', hr', hrel⟩ := h1 r hr
      exact ⟨r', hr', (hrel.1 _).2 (List.mem_map.2 ⟨p0, hp0, rfl⟩)⟩
  · intro p
    rw [mem_concat_ineq]
    simp only [Rows.along, List.mem_map, mem_concat_ineq]
    constructor
    · rintro ⟨r', hr', hp⟩
      obtain ⟨r, hr, hrel⟩ := h2 r' hr'
      obtain ⟨p0, hp0, rfl⟩ := List.mem_map.1 ((hrel.2 p).1 hp)
      exact ⟨p0, ⟨r, hr, hp0⟩, rfl⟩
    · rintro ⟨p0, ⟨r, hr, hp0⟩, rfl⟩
      obtain ⟨r', hr', hrel⟩ := h1 r hr
      exact ⟨r', hr', (hrel.2 _).2 (List.mem_map.2 ⟨p0, hp0, rfl⟩)⟩

/-- Building rows view by view from two listings of the same views. -/
theorem build_rel {π : Equiv.Perm (Fin S)} {α : Type} {f f' : α → Except PyErr (Rows S)} {l l' : List α} (hl : ∀ a, a ∈ l' ↔ a ∈ l)
    (hf : ∀ a r, f a = .ok r → ∃ r', f' a = .ok r' ∧ RowRel π r r') {r : Rows S}
    (h : (do let rows ← mapE f l; Except.ok (Rows.concat rows)) = .ok r) :
    ∃ r', (do let rows ← mapE f' l'; Except.ok (Rows.concat rows)) = .ok r' ∧ RowRel π r r' := by
  simp only [bind_ok] at h
  obtain ⟨rows, h1, h2⟩ := h
  injection h2 with h2; subst h2
  obtain ⟨rows', h1'⟩ : ∃ rows', mapE f' l' = .ok rows' := by
    rw [Props.mapE_isOk_iff]
    intro a ha
    obtain ⟨r, hr⟩ := Props.mapE_isOk_iff.1 ⟨rows, h1⟩ a ((hl a).1 ha)
    obtain ⟨r', hr', -⟩ := hf a r hr
    exact ⟨r', hr'⟩
  refine ⟨Rows.concat rows', by simp only [bind_ok]; exact ⟨rows', h1', rfl⟩, concat_rel ?_ ?_⟩
  · intro r hr
    obtain ⟨a, ha, hfa⟩ := (mapE_mem h1 r).1 hr
    obtain ⟨r', hr', hrel⟩ := hf a r hfa
    exact ⟨r', (mapE_mem h1' r').2 ⟨a, (hl a).2 ha, hr'⟩, hrel⟩
  · intro r' hr'
    obtain ⟨a, ha, hfa⟩ := (mapE_mem h1' r').1 hr'
    obtain ⟨r, hr⟩ := Props.mapE_isOk_iff.1 ⟨rows, h1⟩ a ((hl a).1 ha)
    obtain ⟨r'', hr'', hrel⟩ := hf a r hr
    rw [hfa] at hr''
    injection hr'' with e
    subst e
    exact ⟨r, (mapE_mem h1 r).2 ⟨a, (hl a).1 ha, hr⟩, hrel⟩

theorem addRow_along (π : Equiv.Perm (Fin S)) (op : Op) (row : Fin S → ℝ) (raw : ℝ) :
    addRow op (row ∘ π) raw = (addRow op row raw).along π := by
  cases op <;> rfl

theorem viewRows_along (π : Equiv.Perm (Fin S)) {row : Fin S → ℝ} {rawOf : ℝ → Except PyErr ℝ} {v : ViewVal} {r : Rows S}
    (h : viewRows row rawOf v = .ok r) : ∃ r', viewRows (row ∘ π) rawOf v = .ok r' ∧ RowRel π r r' := by
  unfold viewRows at h ⊢
  rw [bind_ok] at h
  obtain ⟨specs, h1, h2⟩ := h
  obtain ⟨r', h3, h4⟩ := build_rel (π := π) (l' := specs)
    (f' := fun (p : Op × PyFloat ℝ) =>
      match p.2 with
      | .fin t => do let raw ← rawOf t; .ok (addRow p.1 (row ∘ π) raw)
      | _ => .error .other) (fun _ => Iff.rfl) (by
    rintro ⟨op, x⟩ r hr
    cases x with
    | fin t =>
      simp only [bind_ok] at hr ⊢
      obtain ⟨raw, e1, e2⟩ := hr
      injection e2 with e2; subst e2
      exact ⟨_, ⟨raw, e1, rfl⟩, by rw [addRow_along]; exact RowRel.refl _ _⟩
    | _ => cases hr) h2
  exact ⟨r', by rw [bind_ok]; exact ⟨specs, h1, h3⟩, h4⟩

/-- A label names the same asset after the assets are reordered. -/
theorem names_along {assets : Fin N → Label} (τ : Equiv.Perm (Fin N)) {key : Label} {i : Fin N} (h : Names assets key i) :
    Names (assets ∘ τ) key (τ.symm i) := by
  rcases h with h | ⟨h1, s, k, h2, h3, h4⟩
  · exact .inl (by simpa using h)
  · exact .inr ⟨fun j => h1 _, s, k, h2, h3, by simpa using h4⟩

section
variable {assets : Fin N → Label} (ha : Function.Injective assets) (R : Fin S → Fin N → ℝ) (π : Equiv.Perm (Fin S)) (τ : Equiv.Perm (Fin N))

/-- The scenario matrix with scenarios and assets reordered. -/
abbrev reordered (R : Fin S → Fin N → ℝ) (π : Equiv.Perm (Fin S)) (τ : Equiv.Perm (Fin N)) : Fin S → Fin N → ℝ := fun s i => R (π s) (τ i)

include ha

theorem assetIdx_along {key : Label} {i : Fin N} (h : assetIdx assets key = .ok i) :
    assetIdx (assets ∘ τ) key = .ok (τ.symm i) :=
  assetIdx_of_names (ha.comp τ.injective) (names_along τ (assetIdx_ok h))

theorem buildMean_rel {views views' : List (MKey × ViewVal)} (hv : ∀ a, a ∈ views' ↔ a ∈ views) {r : Rows S}
    (h : buildMean assets R views = .ok r) :
    ∃ r', buildMean (assets ∘ τ) (reordered R π τ) views' = .ok r' ∧ RowRel π r r' := by
  unfold buildMean at h ⊢
  refine build_rel hv (fun kv r hr => ?_) h
  rw [bind_ok] at hr
  obtain ⟨row, h1, h2⟩ := hr
  obtain ⟨r', h3, h4⟩ := viewRows_along π h2
  refine ⟨r', ?_, h4⟩
  rw [bind_ok]
  refine ⟨row ∘ π, ?_, h3⟩
  cases hk : kv.1 with
  | single a =>
    simp only [hk, meanRow, bind_ok] at h1 ⊢
    obtain ⟨i, e1, e2⟩ := h1
    injection e2 with e2; subst e2
    exact ⟨_, assetIdx_along ha τ e1, by simp only [reordered, Equiv.apply_symm_apply]; rfl⟩
  | pair a b =>
    simp only [hk, meanRow, bind_ok] at h1 ⊢
    obtain ⟨i, e1, j, e2, e3⟩ := h1
    injection e3 with e3; subst e3
    exact ⟨_, assetIdx_along ha τ e1, _, assetIdx_along ha τ e2, by simp only [reordered, Equiv.apply_symm_apply]; rfl⟩

private theorem single_rel {α : Type} {lab : α → Label} {val : α → ViewVal} {row row' : α → Fin N → Fin S → ℝ}
    {raw raw' : α → Fin N → ℝ → Except PyErr ℝ} (hrow : ∀ a i, row' a (τ.symm i) = row a i ∘ π) (hraw : ∀ a i, raw' a (τ.symm i) = raw a i)
    {a : α} {r : Rows S}
    (h : (do let i ← assetIdx assets (lab a); viewRows (row a i) (raw a i) (val a)) = .ok r) :
    ∃ r', (do let i ← assetIdx (assets ∘ τ) (lab a); viewRows (row' a i) (raw' a i) (val a)) = .ok r' ∧ RowRel π r r' := by
  rw [bind_ok] at h
  obtain ⟨i, h1, h2⟩ := h
  obtain ⟨r', h3, h4⟩ := viewRows_along π h2
  refine ⟨r', ?_, h4⟩
  rw [bind_ok]
  exact ⟨_, assetIdx_along ha τ h1, by rw [hrow, hraw]; exact h3⟩

theorem buildVol_rel {views views' : List (Label × ViewVal)} (hv : ∀ a, a ∈ views' ↔ a ∈ views) {mu : Fin N → ℝ} {r : Rows S}
    (h : buildVol assets R mu views = .ok r) :
    ∃ r', buildVol (assets ∘ τ) (reordered R π τ) (mu ∘ τ) views' = .ok r' ∧ RowRel π r r' := by
  unfold buildVol at h ⊢
  refine build_rel hv (fun kv r hr => ?_) h
  exact single_rel ha π τ (lab := Prod.fst) (val := Prod.snd) (row := fun _ i s => R s i ^ 2)
    (row' := fun _ i s => reordered R π τ s i ^ 2)
    (raw := fun _ i t => if t ≤ 0 then .error .valueError else .ok (t ^ 2 + mu i ^ 2))
    (raw' := fun _ i t => if t ≤ 0 then .error .valueError else .ok (t ^ 2 + (mu ∘ τ) i ^ 2))
    (fun _ i => by funext s; simp [reordered]) (fun _ i => by funext t; simp) hr

theorem buildVar_rel {views views' : List (Label × ViewVal)} (hv : ∀ a, a ∈ views' ↔ a ∈ views) {mu : Fin N → ℝ} {r : Rows S}
    (h : buildVar assets R mu views = .ok r) :
    ∃ r', buildVar (assets ∘ τ) (reordered R π τ) (mu ∘ τ) views' = .ok r' ∧ RowRel π r r' := by
  unfold buildVar at h ⊢
  refine build_rel hv (fun kv r hr => ?_) h
  exact single_rel ha π τ (lab := Prod.fst) (val := Prod.snd) (row := fun _ i s => R s i ^ 2)
    (row' := fun _ i s => reordered R π τ s i ^ 2)
    (raw := fun _ i t => if t < 0 then .error .valueError else .ok (t + mu i ^ 2))
    (raw' := fun _ i t => if t < 0 then .error .valueError else .ok (t + (mu ∘ τ) i ^ 2))
    (fun _ i => by funext s; simp [reordered]) (fun _ i => by funext t; simp) hr

theorem buildSkew_rel {views views' : List (Label × ViewVal)} (hv : ∀ a, a ∈ views' ↔ a ∈ views) {mu var : Fin N → ℝ} {r : Rows S}
    (h : buildSkew assets R mu var views = .ok r) :
    ∃ r', buildSkew (assets ∘ τ) (reordered R π τ) (mu ∘ τ) (var ∘ τ) views' = .ok r' ∧ RowRel π r r' := by
  unfold buildSkew at h ⊢
  refine build_rel hv (fun kv r hr => ?_) h
  rw [bind_ok] at hr
  obtain ⟨i, h1, h2⟩ := hr
  split at h2
  · cases h2
  · rename_i hlt
    obtain ⟨r', h3, h4⟩ := viewRows_along π h2
    refine ⟨r', ?_, h4⟩
    rw [bind_ok]
    refine ⟨_, assetIdx_along ha τ h1, ?_⟩
    rw [if_neg (by simpa using hlt)]
    simpa [reordered, Function.comp_def] using h3

theorem buildCorr_rel {views views' : List ((Label × Label) × ViewVal)} (hv : ∀ a, a ∈ views' ↔ a ∈ views) {mu var : Fin N → ℝ} {r : Rows S}
    (h : buildCorr assets R mu var views = .ok r) :
    ∃ r', buildCorr (assets ∘ τ) (reordered R π τ) (mu ∘ τ) (var ∘ τ) views' = .ok r' ∧ RowRel π r r' := by
  unfold buildCorr at h ⊢
  refine build_rel hv (fun kv r hr => ?_) h
  simp only [bind_ok] at hr
  obtain ⟨i, h1, j, h2, h3⟩ := hr
  obtain ⟨r', h4, h5⟩ := viewRows_along π h3
  refine ⟨r', ?_, h5⟩
  simp only [bind_ok]
  refine ⟨_, assetIdx_along ha τ h1, _, assetIdx_along ha τ h2, ?_⟩
  simpa [reordered, Function.comp_def] using h4

theorem buildQuantile_rel {views views' : List (Label × (ℝ × ViewVal))} (hv : ∀ a, a ∈ views' ↔ a ∈ views) {r : Rows S}
    (h : buildQuantile assets R views = .ok r) :
    ∃ r', buildQuantile (assets ∘ τ) (reordered R π τ) views' = .ok r' ∧ RowRel π r r' := by
  unfold buildQuantile at h ⊢
  refine build_rel hv (fun kv r hr => ?_) h
  exact single_rel ha π τ (lab := Prod.fst) (α := Label × (ℝ × ViewVal)) (val := fun kv => kv.2.2) (row := fun kv i s => if R s i ≤ kv.2.1 then 1 else 0)
    (row' := fun kv i s => if reordered R π τ s i ≤ kv.2.1 then 1 else 0)
    (raw := fun _ _ t => if ¬ (0 < t ∧ t < 1) then .error .valueError else .ok t)
    (raw' := fun _ _ t => if ¬ (0 < t ∧ t < 1) then .error .valueError else .ok t)
    (fun _ i => by funext s; simp [reordered]) (fun _ i => rfl) hr

end

/-! ## Passes -/

theorem meanOf_along (R : Fin S → Fin N → ℝ) (π : Equiv.Perm (Fin S)) (τ : Equiv.Perm (Fin N)) (q : Fin S → ℝ) :
    meanOf (reordered R π τ) (q ∘ π) = meanOf R q ∘ τ := by
  funext i
  exact Equiv.sum_comp π (fun s => R s (τ i) * q s)

theorem varOf_along (R : Fin S → Fin N → ℝ) (π : Equiv.Perm (Fin S)) (τ : Equiv.Perm (Fin N)) (mu : Fin N → ℝ) (q : Fin S → ℝ) :
    varOf (reordered R π τ) (mu ∘ τ) (q ∘ π) = varOf R mu q ∘ τ := by
  funext i
  exact Equiv.sum_comp π (fun s => (R s (τ i) - mu (τ i)) ^ 2 * q s)

theorem npVarW_along (R : Fin S → Fin N → ℝ) (π : Equiv.Perm (Fin S)) (τ : Equiv.Perm (Fin N)) (p : Fin S → ℝ) :
    npVarW (reordered R π τ) (p ∘ π) = npVarW R p ∘ τ := by
  funext i
  have e1 : ∑ s, R (π s) (τ i) * p (π s) = ∑ s, R s (τ i) * p s := Equiv.sum_comp π (fun s => R s (τ i) * p s)
  have e2 : ∑ s, p (π s) = ∑ s, p s := Equiv.sum_comp π p
  simp only [npVarW, reordered, Function.comp_apply, e1, e2]
  congr 1
  exact Equiv.sum_comp π (fun s => (R s (τ i) - (∑ s, R s (τ i) * p s) / ∑ s, p s) ^ 2 * p s)

theorem doEp_along {ep : Ep S} (hep : EpExact ep) {π : Equiv.Perm (Fin S)} {r r' : Rows S} (h : RowRel π r r') {p q : Fin S → ℝ}
    (hd : doEp ep p r = .ok q) : doEp ep (p ∘ π) r' = .ok (q ∘ π) := by
  unfold doEp at hd ⊢
  rw [hep] at hd ⊢
  have hrel : RowRel π ⟨r.eq ++ [(fun _ => 1, 1)], r.ineq⟩ ⟨r'.eq ++ [(fun _ => 1, 1)], r'.ineq⟩ := ⟨fun x => ?_, h.2⟩
  · exact (hrel.kl p q).2 hd
  rw [List.mem_append, h.1]
  simp only [Rows.along, List.map_append, List.mem_append, List.map_cons, List.map_nil]
  rfl

/-- What makes two lists of moment blocks say the same. -/
def BlockRel (π : Equiv.Perm (Fin S)) (τ : Equiv.Perm (Fin N)) (b b' : Bool × ((Fin N → ℝ) → (Fin N → ℝ) → Except PyErr (Rows S))) : Prop :=
  b'.1 = b.1 ∧ ∀ mu var r, b.2 mu var = .ok r → ∃ r', b'.2 (mu ∘ τ) (var ∘ τ) = .ok r' ∧ RowRel π r r'

theorem sequential_along {ep : Ep S} (hep : EpExact ep) (R : Fin S → Fin N → ℝ) {π : Equiv.Perm (Fin S)} {τ : Equiv.Perm (Fin N)}
    {blocks blocks' : List (Bool × ((Fin N → ℝ) → (Fin N → ℝ) → Except PyErr (Rows S)))}
    (hb : List.Forall₂ (BlockRel π τ) blocks blocks') : ∀ {p q : Fin S → ℝ} {mu var : Fin N → ℝ},
      sequentialPass ep p R blocks mu var = .ok q →
      sequentialPass ep (p ∘ π) (reordered R π τ) blocks' (mu ∘ τ) (var ∘ τ) = .ok (q ∘ π) := by
  induction hb with
  | nil =>
    intro p q mu var h
    unfold sequentialPass at h ⊢
    injection h with h; subst h; rfl
  | @cons b b' l l' h1 h2 ih =>
    obtain ⟨present, build⟩ := b
    obtain ⟨present', build'⟩ := b'
    obtain ⟨e, hr⟩ := h1
    simp only at e hr
    subst e
    intro p q mu var h
    unfold sequentialPass at h ⊢
    cases present' with
    | false => exact ih h
    | true =>
      simp only [if_true, bind_ok] at h ⊢
      obtain ⟨r, e1, q1, e2, e3⟩ := h
      obtain ⟨r', e1', hrel⟩ := hr mu var r e1
      refine ⟨r', e1', _, doEp_along hep hrel e2, ?_⟩
      rw [meanOf_along, varOf_along]
      exact ih e3

/-- Two listings of the same views (CVaR views in the same order). -/
structure SameViews (v v' : Views) : Prop where
  mean : ∀ a, a ∈ v'.mean ↔ a ∈ v.mean
  vol : ∀ a, a ∈ v'.vol ↔ a ∈ v.vol
  var : ∀ a, a ∈ v'.var ↔ a ∈ v.var
  skew : ∀ a, a ∈ v'.skew ↔ a ∈ v.skew
  corr : ∀ a, a ∈ v'.corr ↔ a ∈ v.corr
  quantile : ∀ a, a ∈ v'.quantile ↔ a ∈ v.quantile
  cvar : v'.cvar = v.cvar

theorem isEmpty_congr {α : Type} {l l' : List α} (h : ∀ a, a ∈ l' ↔ a ∈ l) : l'.isEmpty = l.isEmpty := by
  rw [Bool.eq_iff_iff, empty_iff_mem, empty_iff_mem]
  exact forall_congr' fun a => not_congr (h a)

section
variable {ep : Ep S} (hep : EpExact ep) {assets : Fin N → Label} (ha : Function.Injective assets) (R : Fin S → Fin N → ℝ)
  (π : Equiv.Perm (Fin S)) (τ : Equiv.Perm (Fin N)) {v v' : Views} (hv : SameViews v v')

include hep ha hv

theorem linPoint_along {p : Fin S → ℝ} {mu var mu1 var1 : Fin N → ℝ} (h : linPoint ep p assets R v mu var = .ok (mu1, var1)) :
    linPoint ep (p ∘ π) (assets ∘ τ) (reordered R π τ) v' (mu ∘ τ) (var ∘ τ) = .ok (mu1 ∘ τ, var1 ∘ τ) := by
  unfold linPoint at h ⊢
  rw [isEmpty_congr hv.mean, isEmpty_congr hv.vol, isEmpty_congr hv.var, isEmpty_congr hv.skew, isEmpty_congr hv.corr]
  split at h
  · rename_i hc
    rw [if_pos hc]
    simp only [bind_ok] at h ⊢
    obtain ⟨r, e1, q, e2, e3⟩ := h
    obtain ⟨r', e1', hrel⟩ := buildMean_rel ha R π τ hv.mean e1
    refine ⟨r', e1', _, doEp_along hep hrel e2, ?_⟩
    injection e3 with e3
    injection e3 with e3 e4
    subst e3 e4
    rw [meanOf_along, varOf_along]
  · rename_i hc
    rw [if_neg hc]
    injection h with h
    injection h with h1 h2
    subst h1 h2; rfl

theorem simultaneous_along {p q : Fin S → ℝ} {mu var : Fin N → ℝ} (h : simultaneousPass ep p assets R v mu var = .ok q) :
    simultaneousPass ep (p ∘ π) (assets ∘ τ) (reordered R π τ) v' (mu ∘ τ) (var ∘ τ) = .ok (q ∘ π) := by
  unfold simultaneousPass at h ⊢
  simp only [bind_ok] at h ⊢
  obtain ⟨⟨mu', var'⟩, hl, r1, h1, r2, h2, r3, h3, r4, h4, r5, h5, h⟩ := h
  obtain ⟨s1, g1, k1⟩ := buildMean_rel ha R π τ hv.mean h1
  obtain ⟨s2, g2, k2⟩ := buildVol_rel ha R π τ hv.vol h2
  obtain ⟨s3, g3, k3⟩ := buildVar_rel ha R π τ hv.var h3
  obtain ⟨s4, g4, k4⟩ := buildSkew_rel ha R π τ hv.skew h4
  obtain ⟨s5, g5, k5⟩ := buildCorr_rel ha R π τ hv.corr h5
  refine ⟨(mu' ∘ τ, var' ∘ τ), linPoint_along hep ha R π τ hv hl, s1, g1, s2, g2, s3, g3, s4, g4, s5, g5, ?_⟩
  have hrel : RowRel π (Rows.concat [r1, r2, r3, r4, r5]) (Rows.concat [s1, s2, s3, s4, s5]) := by
    refine concat_rel ?_ ?_
    · intro r hr
      simp only [List.mem_cons, List.not_mem_nil, or_false] at hr
      rcases hr with rfl | rfl | rfl | rfl | rfl
      exacts [⟨_, by simp, k1⟩, ⟨_, by simp, k2⟩, ⟨_, by simp, k3⟩, ⟨_, by simp, k4⟩, ⟨_, by simp, k5⟩]
    · intro r hr
      simp only [List.mem_cons, List.not_mem_nil, or_false] at hr
      rcases hr with rfl | rfl | rfl | rfl | rfl
      exacts [⟨_, by simp, k1⟩, ⟨_, by simp, k2⟩, ⟨_, by simp, k3⟩, ⟨_, by simp, k4⟩, ⟨_, by simp, k5⟩]
  rw [hrel.empty]
  split at h
  · rename_i hc
    rw [if_pos hc]
    injection h with h; subst h; rfl
  · rename_i hc
    rw [if_neg hc]
    exact doEp_along hep hrel h

theorem momentPass_along {p q : Fin S → ℝ} {sequential : Bool} {mu var : Fin N → ℝ}
    (h : momentPass ep p assets R v sequential mu var = .ok q) :
    momentPass ep (p ∘ π) (assets ∘ τ) (reordered R π τ) v' sequential (mu ∘ τ) (var ∘ τ) = .ok (q ∘ π) := by
  unfold momentPass at h ⊢
  cases sequential with
  | false => exact simultaneous_along hep ha R π τ hv h
  | true =>
    refine sequential_along hep R ?_ h
    unfold blocksOf
    rw [isEmpty_congr hv.mean, isEmpty_congr hv.vol, isEmpty_congr hv.var, isEmpty_congr hv.skew, isEmpty_congr hv.corr]
    exact .cons ⟨rfl, fun _ _ _ h => buildMean_rel ha R π τ hv.mean h⟩ (.cons ⟨rfl, fun _ _ _ h => buildVol_rel ha R π τ hv.vol h⟩
      (.cons ⟨rfl, fun _ _ _ h => buildVar_rel ha R π τ hv.var h⟩ (.cons ⟨rfl, fun _ _ _ h => buildSkew_rel ha R π τ hv.skew h⟩
      (.cons ⟨rfl, fun _ _ _ h => buildCorr_rel ha R π τ hv.corr h⟩ .nil))))

theorem quantilePass_along {p q : Fin S → ℝ} (h : quantilePass ep assets R v.quantile p = .ok q) :
    quantilePass ep (assets ∘ τ) (reordered R π τ) v'.quantile (p ∘ π) = .ok (q ∘ π) := by
  unfold quantilePass at h ⊢
  rw [isEmpty_congr hv.quantile]
  split at h
  · rename_i hc
    rw [if_pos hc]
    injection h with h; subst h; rfl
  · rename_i hc
    rw [if_neg hc]
    simp only [bind_ok] at h ⊢
    obtain ⟨r, e1, e2⟩ := h
    obtain ⟨r', e1', hrel⟩ := buildQuantile_rel ha R π τ hv.quantile e1
    refine ⟨r', e1', ?_⟩
    rw [hrel.empty]
    split at e2
    · rename_i hc
      rw [if_pos hc]
      injection e2 with h; subst h; rfl
    · rename_i hc
      rw [if_neg hc]
      exact doEp_along hep hrel e2

end

/-! ## CVaR views -/

/-- The sorting permutation of distinct values is determined. -/
theorem argsort_unique {x : Fin S → ℝ} (hx : Function.Injective x) {σ σ' : Equiv.Perm (Fin S)} (h : Monotone (x ∘ σ)) (h' : Monotone (x ∘ σ')) :
    σ' = σ := by
  have := Tuple.unique_monotone h h'
  ext s
  exact congrArg _ (hx (congrFun this s)).symm

theorem klMasked_along (π : Equiv.Perm (Fin S)) (q p : Fin S → ℝ) : klMasked (q ∘ π) (p ∘ π) = klMasked q p :=
  Equiv.sum_comp π (fun s => if 0 < q s then q s * Real.log (q s / p s) else 0)

theorem solveForS_along {ep : Ep S} (hep : EpExact ep) (π σ : Equiv.Perm (Fin S)) (p x : Fin S → ℝ) (gamma target : ℝ) (s : ℤ) :
    solveForS ep (p ∘ π) (x ∘ π) (σ.trans π.symm) gamma target s =
      (solveForS ep p x σ gamma target s).map (fun c => (c.1 ∘ π, c.2)) := by
  have hrel : RowRel π (cvarRows x σ gamma target s) (cvarRows (x ∘ π) (σ.trans π.symm) gamma target s) := by
    constructor
    · intro y
      simp only [cvarRows, Rows.along, List.map_cons, List.map_nil]
      rfl
    · intro y
      simp [cvarRows, Rows.along]
  unfold solveForS
  cases h : ep p (cvarRows x σ gamma target s) with
  | ok q =>
    have h' : ep (p ∘ π) (cvarRows (x ∘ π) (σ.trans π.symm) gamma target s) = .ok (q ∘ π) := by
      rw [hep] at h ⊢
      exact (hrel.kl p q).2 h
    rw [h']
    simp [klMasked_along]
  | error e =>
    cases h' : ep (p ∘ π) (cvarRows (x ∘ π) (σ.trans π.symm) gamma target s) with
    | error e' => rfl
    | ok q' =>
      exfalso
      rw [hep, ← comp_symm π q', hrel.kl, ← hep] at h'
      rw [h] at h'; cases h'

theorem newtonLoop_along {solve solve' : ℤ → Option ((Fin S → ℝ) × ℝ)} (π : Equiv.Perm (Fin S)) (round : ℝ → ℤ)
    (hs : ∀ s, solve' s = (solve s).map (fun c => (c.1 ∘ π, c.2))) : ∀ (n : ℕ) (s : ℤ) (best : Option ((Fin S → ℝ) × ℝ)),
      newtonLoop solve' round n s (best.map (fun c => (c.1 ∘ π, c.2))) = (newtonLoop solve round n s best).map (fun c => (c.1 ∘ π, c.2)) := by
  have hsnd : ∀ s, (solve' s).map Prod.snd = (solve s).map Prod.snd := by
    intro s; rw [hs]; cases solve s <;> rfl
  intro n
  induction n with
  | zero => intro s best; rfl
  | succ n ih =>
    intro s best
    unfold newtonLoop
    rw [hsnd, hsnd, hsnd]
    cases newtonStep round S ((solve (max 1 (s - 1))).map Prod.snd) ((solve s).map Prod.snd)
        ((solve (min ((S : ℤ) - 2) (s + 1))).map Prod.snd) s with
    | none => rfl
    | some s' =>
      simp only [hs s']
      cases hc : solve s' with
      | none => exact ih s' best
      | some c =>
        cases best with
        | none => exact ih s' (some c)
        | some b =>
          simp only [Option.map_some]
          split
          · exact ih s' (some c)
          · exact ih s' (some b)

theorem solveCvarView_along {ep : Ep S} (hep : EpExact ep) {argsort : (Fin S → ℝ) → Equiv.Perm (Fin S)} (hs : Risk.IsArgsort argsort)
    (round : ℝ → ℤ) (π : Equiv.Perm (Fin S)) {x : Fin S → ℝ} (hx : π = 1 ∨ Function.Injective x) {gamma target : ℝ} {p q : Fin S → ℝ} {n : ℕ}
    (h : solveCvarView ep argsort round x gamma target p n = .ok q) :
    solveCvarView ep argsort round (x ∘ π) gamma target (p ∘ π) n = .ok (q ∘ π) := by
  rcases hx with rfl | hx
  · exact h
  have e : argsort (x ∘ π) = (argsort x).trans π.symm := by
    refine argsort_unique (hx.comp π.injective) (σ := (argsort x).trans π.symm) ?_ (hs _)
    have : (x ∘ π) ∘ ((argsort x).trans π.symm) = x ∘ argsort x := by funext s; simp
    rw [this]; exact hs x
  have e2 : initialCut (p ∘ π) ((argsort x).trans π.symm) gamma = initialCut p (argsort x) gamma := by
    unfold initialCut
    simp
  unfold solveCvarView at h ⊢
  simp only [e, e2] at h ⊢
  rw [solveForS_along hep, newtonLoop_along π round (fun s => solveForS_along hep π _ p x gamma target s)]
  revert h
  cases newtonLoop (solveForS ep p x (argsort x) gamma target) round n (initialCut p (argsort x) gamma)
    (solveForS ep p x (argsort x) gamma target (initialCut p (argsort x) gamma)) with
  | none => intro h; cases h
  | some c =>
    obtain ⟨q', k⟩ := c
    intro h
    simp only at h
    injection h with h; subst h; rfl

theorem cvarPass_along {ep : Ep S} (hep : EpExact ep) {argsort : (Fin S → ℝ) → Equiv.Perm (Fin S)} (hs : Risk.IsArgsort argsort)
    (round : ℝ → ℤ) {assets : Fin N → Label} (ha : Function.Injective assets) (R : Fin S → Fin N → ℝ)
    (π : Equiv.Perm (Fin S)) (τ : Equiv.Perm (Fin N)) : ∀ {l : List (Label × (ℝ × ℝ))} {p q : Fin S → ℝ},
      (∀ kv ∈ l, ∀ i, Names assets kv.1 i → π = 1 ∨ Function.Injective (fun s => R s i)) →
      cvarPass ep argsort round assets R l p = .ok q →
      cvarPass ep argsort round (assets ∘ τ) (reordered R π τ) l (p ∘ π) = .ok (q ∘ π)
  | [], p, q, _, h => by
    unfold cvarPass at h ⊢
    injection h with h; subst h; rfl
  | kv :: rest, p, q, hd, h => by
    unfold cvarPass at h ⊢
    simp only [bind_ok] at h ⊢
    obtain ⟨i, h1, q1, h2, h3⟩ := h
    refine ⟨_, assetIdx_along ha τ h1, q1 ∘ π, ?_, cvarPass_along hep hs round ha R π τ (fun kv hkv => hd kv (List.mem_cons_of_mem _ hkv)) h3⟩
    have := solveCvarView_along hep hs round π (hd kv (by simp) i (assetIdx_ok h1)) h2
    simpa [reordered, Function.comp_def] using this

/-- The whole computation, reordered. -/
theorem computePosterior_along {ep : Ep S} (hep : EpExact ep) {argsort : (Fin S → ℝ) → Equiv.Perm (Fin S)} (hs : Risk.IsArgsort argsort)
    (round : ℝ → ℤ) {assets : Fin N → Label} (ha : Function.Injective assets) (R : Fin S → Fin N → ℝ)
    (π : Equiv.Perm (Fin S)) (τ : Equiv.Perm (Fin N)) {v v' : Views} (hv : SameViews v v')
    (hd : ∀ kv ∈ v.cvar, ∀ i, Names assets kv.1 i → π = 1 ∨ Function.Injective (fun s => R s i)) {p0 q : Fin S → ℝ} {sequential : Bool}
    (h : computePosterior ep argsort round p0 assets R v sequential = .ok q) :
    computePosterior ep argsort round (p0 ∘ π) (assets ∘ τ) (reordered R π τ) v' sequential = .ok (q ∘ π) := by
  unfold computePosterior at h ⊢
  simp only at h ⊢
  rw [isEmpty_congr hv.mean, isEmpty_congr hv.vol, isEmpty_congr hv.var, isEmpty_congr hv.skew, isEmpty_congr hv.corr, hv.cvar,
    isEmpty_congr hv.quantile]
  split at h
  · rename_i hc
    rw [if_pos hc]
    injection h with h; subst h; rfl
  · rename_i hc
    rw [if_neg hc]
    simp only [bind_ok] at h ⊢
    obtain ⟨q1, h1, q2, h2, h3⟩ := h
    refine ⟨q1 ∘ π, ?_, q2 ∘ π, quantilePass_along hep ha R π τ hv h2, cvarPass_along hep hs round ha R π τ hd h3⟩
    rw [meanOf_along, npVarW_along]
    exact momentPass_along hep ha R π τ hv h1

end PyV.FV
