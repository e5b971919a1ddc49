import Verif.Props.ViewsInvariance

/-! # C230: the unit in which returns are expressed does not matter to views -/

namespace PyV.Props

open PyV PyV.FV PyV.Spec

variable {S N : ℕ}

/-! ## Specification -/

/-- A float in a unit `k` times smaller. -/
noncomputable def floatTimes (k : ℝ) : PyFloat ℝ → PyFloat ℝ
  | .fin x => .fin (k * x)
  | x => x

/-- A view with all its numbers multiplied by `k`. -/
noncomputable def viewTimes (k : ℝ) : ViewVal → ViewVal
  | .scalar x => .scalar (floatTimes k x)
  | .spec op x => .spec op (floatTimes k x)
  | .between lo hi => .between (floatTimes k lo) (floatTimes k hi)
  | .bad => .bad

/-- Views of one kind, the numbers of the view on `κ` multiplied by `k κ`. -/
noncomputable def vecTimes {κ : Type} (assets : Fin N → Label) (key : Label → κ) (k : κ → ℝ) : VecViews κ → VecViews κ
  | .none => .none
  | .dict d => .dict (d.map fun kv => (kv.1, viewTimes (k kv.1) kv.2))
  | .vector x => .vector (x.mapIdx fun i y => if h : i < N then floatTimes (k (key (assets ⟨i, h⟩))) y else y)

/-- The unit of a mean view: that of its (first) asset. -/
def unitOf (c : Label → ℝ) : MKey → ℝ
  | .single x => c x
  | .pair x _ => c x

/-- CVaR views, the targets multiplied by the unit of their asset. -/
noncomputable def cvarTimes (assets : Fin N → Label) (c : Label → ℝ) : CvarViews → CvarViews
  | .none => .none
  | .dict d => .dict (d.map fun kv => (kv.1, (c kv.1 * kv.2.1, kv.2.2)))
  | .vector x => .vector (x.mapIdx fun i y => if h : i < N then c (assets ⟨i, h⟩) * y else y)

/-- The views, for returns of asset `x` expressed in a unit `c x` times smaller: targets of mean, volatility, CVaR and the thresholds of
quantile views are multiplied by `c x`, variances by `(c x)²`; skewness, correlations and probabilities are pure numbers. -/
noncomputable def argsInUnits (assets : Fin N → Label) (c : Label → ℝ) (a : ViewArgs) : ViewArgs where
  mean := vecTimes assets MKey.single (unitOf c) a.mean
  vol := vecTimes assets id c a.vol
  var := vecTimes assets id (fun x => c x ^ 2) a.var
  skew := a.skew
  corr := a.corr
  cvar := cvarTimes assets c a.cvar
  quantile := a.quantile.map fun kv => (kv.1, (c kv.1 * kv.2.1, kv.2.2))
  rankMean := a.rankMean
  sequential := a.sequential

/-- The scenarios with the returns of asset `x` multiplied by `c x`. -/
noncomputable def sourceInUnits (c : Label → ℝ) (src : Source) : Source :=
  { src with R := fun s i => c (src.assets i) * src.R s i }

/-- A sort that only compares: its permutation depends on the order of the values only. -/
def Compares {S : ℕ} (argsort : (Fin S → ℝ) → Equiv.Perm (Fin S)) : Prop :=
  ∀ x y : Fin S → ℝ, (∀ s t, x s ≤ x t ↔ y s ≤ y t) → argsort x = argsort y

/-- Assets that a relative mean view or the ranking compares have the same unit. -/
def ComparedAlike (c : Label → ℝ) (a : ViewArgs) : Prop :=
  (∀ d, a.mean = .dict d → ∀ kv ∈ d, ∀ x y, kv.1 = .pair x y → c x = c y) ∧ ∀ l, a.rankMean = some l → ∀ x ∈ l, ∀ y ∈ l, c x = c y

/-- The labels with a skewness view. -/
def HasSkewView (assets : Fin N → Label) (a : ViewArgs) (x : Label) : Prop :=
  (∃ d, a.skew = .dict d ∧ ∃ v, (x, v) ∈ d) ∨ ((∃ l, a.skew = .vector l) ∧ ∃ i, assets i = x)

/-! ## Proof: rows -/

/-- Rows multiplied by positive numbers. -/
private def Sc (r r' : Rows S) : Prop :=
  List.Forall₂ (fun p p' => ∃ d : ℝ, 0 < d ∧ (∀ s, p'.1 s = d * p.1 s) ∧ p'.2 = d * p.2) r.eq r'.eq ∧
  List.Forall₂ (fun p p' => ∃ d : ℝ, 0 < d ∧ (∀ s, p'.1 s = d * p.1 s) ∧ p'.2 = d * p.2) r.ineq r'.ineq

private theorem sc_refl (r : Rows S) : Sc r r :=
  ⟨List.forall₂_same.2 fun _ _ => ⟨1, one_pos, fun _ => (one_mul _).symm, (one_mul _).symm⟩,
    List.forall₂_same.2 fun _ _ => ⟨1, one_pos, fun _ => (one_mul _).symm, (one_mul _).symm⟩⟩

private theorem sc_append {a b a' b' : Rows S} (h : Sc a a') (k : Sc b b') : Sc (a.append b) (a'.append b') :=
  ⟨List.rel_append h.1 k.1, List.rel_append h.2 k.2⟩

private theorem sc_concat : ∀ {l l' : List (Rows S)}, List.Forall₂ Sc l l' → Sc (Rows.concat l) (Rows.concat l')
  | _, _, .nil => sc_refl _
  | _ :: _, _ :: _, .cons h t => sc_append h (sc_concat t)

private theorem sc_empty {r r' : Rows S} (h : Sc r r') : (r'.eq.isEmpty && r'.ineq.isEmpty) = (r.eq.isEmpty && r.ineq.isEmpty) := by
  obtain ⟨h1, h2⟩ := h
  have e : ∀ {α : Type} {T : α → α → Prop} {l l' : List α}, List.Forall₂ T l l' → l'.isEmpty = l.isEmpty := by
    intro α T l l' hl; cases hl <;> rfl
  rw [e h1, e h2]

private theorem sc_meets {r r' : Rows S} (h : Sc r r') (q : Fin S → ℝ) : MeetsRows r' q ↔ MeetsRows r q := by
  have key : ∀ {p p' : (Fin S → ℝ) × ℝ} {d : ℝ}, (∀ s, p'.1 s = d * p.1 s) → ∑ s, p'.1 s * q s = d * ∑ s, p.1 s * q s := by
    intro p p' d hd
    rw [Finset.mul_sum]
    exact Finset.sum_congr rfl fun s _ => by rw [hd]; ring
  have heq : ∀ {l l' : List ((Fin S → ℝ) × ℝ)}, List.Forall₂ (fun p p' => ∃ d : ℝ, 0 < d ∧ (∀ s, p'.1 s = d * p.1 s) ∧ p'.2 = d * p.2) l l' →
      ((∀ p ∈ l', ∑ s, p.1 s * q s = p.2) ↔ ∀ p ∈ l, ∑ s, p.1 s * q s = p.2) := by
    intro l l' hl
    induction hl with
    | nil => simp
    | @cons p p' l l' hp _ ih =>
      obtain ⟨d, hd, h1, h2⟩ := hp
      simp only [List.forall_mem_cons, ih, key h1, h2]
      rw [mul_right_inj' hd.ne']
  have hle : ∀ {l l' : List ((Fin S → ℝ) × ℝ)}, List.Forall₂ (fun p p' => ∃ d : ℝ, 0 < d ∧ (∀ s, p'.1 s = d * p.1 s) ∧ p'.2 = d * p.2) l l' →
      ((∀ p ∈ l', ∑ s, p.1 s * q s ≤ p.2) ↔ ∀ p ∈ l, ∑ s, p.1 s * q s ≤ p.2) := by
    intro l l' hl
    induction hl with
    | nil => simp
    | @cons p p' l l' hp _ ih =>
      obtain ⟨d, hd, h1, h2⟩ := hp
      simp only [List.forall_mem_cons, ih, key h1, h2]
      rw [mul_le_mul_iff_right₀ hd]
  exact and_congr (heq h.1) (hle h.2)

private theorem ep_sc {ep : Ep S} (hep : EpExact ep) {r r' : Rows S} (h : Sc r r') (p q : Fin S → ℝ) : ep p r' = .ok q ↔ ep p r = .ok q := by
  rw [hep, hep]
  unfold IsKlPosterior
  simp only [sc_meets h]

private theorem doEp_sc {ep : Ep S} (hep : EpExact ep) {r r' : Rows S} (h : Sc r r') (p q : Fin S → ℝ) : doEp ep p r' = .ok q ↔ doEp ep p r = .ok q :=
  ep_sc hep (r := ⟨r.eq ++ [(fun _ => 1, 1)], r.ineq⟩) (r' := ⟨r'.eq ++ [(fun _ => 1, 1)], r'.ineq⟩)
    ⟨List.rel_append h.1 (sc_refl ⟨[(fun _ => 1, 1)], []⟩).1, h.2⟩ p q

/-- Success of the first leads to success of the second with the same rows, multiplied. -/
private def Lead (x y : Except PyErr (Rows S)) : Prop := ∀ r, x = .ok r → ∃ r', y = .ok r' ∧ Sc r r'

private theorem addRow_sc {d : ℝ} (hd : 0 < d) (op : Op) {row row' : Fin S → ℝ} (hr : ∀ s, row' s = d * row s) {b b' : ℝ} (hb : b' = d * b) :
    Sc (addRow op row b) (addRow op row' b') := by
  have h1 : ∃ e : ℝ, 0 < e ∧ (∀ s, row' s = e * row s) ∧ b' = e * b := ⟨d, hd, hr, hb⟩
  have h2 : ∃ e : ℝ, 0 < e ∧ (∀ s, -row' s = e * -row s) ∧ -b' = e * -b :=
    ⟨d, hd, fun s => by rw [hr]; ring, by rw [hb]; ring⟩
  cases op <;> first
    | exact ⟨.cons h1 .nil, .nil⟩
    | exact ⟨.nil, .cons h1 .nil⟩
    | exact ⟨.nil, .cons h2 .nil⟩

private theorem parse_times {k : ℝ} (hk : 0 < k) {v : ViewVal} {l : List (Op × PyFloat ℝ)} (h : parseViewSpecs v = .ok l) :
    parseViewSpecs (viewTimes k v) = .ok (l.map fun p => (p.1, floatTimes k p.2)) := by
  have hfin : ∀ x : PyFloat ℝ, (floatTimes k x).isFinite = x.isFinite := by intro x; cases x <;> rfl
  have hlt : ∀ x y : PyFloat ℝ, PyFloat.lt (floatTimes k x) (floatTimes k y) = PyFloat.lt x y := by
    intro x y
    cases x <;> cases y <;> first | rfl | (simp only [floatTimes, PyFloat.lt, mul_lt_mul_iff_right₀ hk])
  cases v with
  | bad => cases h
  | scalar x =>
    simp only [parseViewSpecs, parseView, viewTimes, hfin, bind, Except.bind] at h ⊢
    by_cases hx : x.isFinite = true
    · rw [if_pos hx] at h ⊢; injection h with h; subst h; rfl
    · rw [if_neg hx] at h; cases h
  | spec op x =>
    simp only [parseViewSpecs, parseView, viewTimes, hfin, bind, Except.bind] at h ⊢
    by_cases hx : x.isFinite = true
    · rw [if_pos hx] at h ⊢; injection h with h; subst h; rfl
    · rw [if_neg hx] at h; cases h
  | between lo hi =>
    simp only [parseViewSpecs, viewTimes, hlt] at h ⊢
    split at h
    · cases h
    · rename_i hx
      rw [if_neg hx]
      injection h with h; subst h; rfl

private theorem viewRows_lead {row row' : Fin S → ℝ} {rawOf rawOf' : ℝ → Except PyErr ℝ} {d k : ℝ} (hd : 0 < d) (hk : 0 < k)
    (hrow : ∀ s, row' s = d * row s) (hraw : ∀ t b, rawOf t = .ok b → rawOf' (k * t) = .ok (d * b)) (v : ViewVal) :
    Lead (viewRows row rawOf v) (viewRows row' rawOf' (viewTimes k v)) := by
  intro r hr
  unfold viewRows at hr ⊢
  simp only [bind_ok] at hr ⊢
  obtain ⟨l, h1, rs, h2, h3⟩ := hr
  injection h3 with h3; subst h3
  have key : ∀ (l : List (Op × PyFloat ℝ)) (rs : List (Rows S)), mapE (fun (p : Op × PyFloat ℝ) =>
      match p.2 with
      | .fin t => do let raw ← rawOf t; (.ok (addRow p.1 row raw) : Except PyErr (Rows S))
      | _ => .error .other) l = .ok rs →
      ∃ rs', mapE (fun (p : Op × PyFloat ℝ) =>
        match p.2 with
        | .fin t => do let raw ← rawOf' t; (.ok (addRow p.1 row' raw) : Except PyErr (Rows S))
        | _ => .error .other) (l.map fun p => (p.1, floatTimes k p.2)) = .ok rs' ∧ List.Forall₂ Sc rs rs' := by
    intro l
    induction l with
    | nil => intro rs h; injection h with h; subst h; exact ⟨[], rfl, .nil⟩
    | cons p l ih =>
      intro rs h
      obtain ⟨op, t⟩ := p
      simp only [mapE] at h
      cases t with
      | fin t =>
        simp only [bind, Except.bind] at h
        cases hb : rawOf t with
        | error e => rw [hb] at h; cases h
        | ok b =>
          rw [hb] at h
          dsimp only at h
          split at h
          · cases h
          · rename_i rs0 hrs0
            injection h with h; subst h
            obtain ⟨rs', e1, e2⟩ := ih rs0 hrs0
            refine ⟨addRow op row' (d * b) :: rs', ?_, .cons (addRow_sc hd op hrow rfl) e2⟩
            have ef : floatTimes k (.fin t) = .fin (k * t) := rfl
            simp only [List.map_cons, mapE, ef, hraw t b hb, bind, Except.bind]
            have e1' := e1
            simp only [bind, Except.bind] at e1'
            rw [e1']
      | nan => cases h
      | posInf => cases h
      | negInf => cases h
  obtain ⟨rs', e1, e2⟩ := key l rs h2
  exact ⟨_, ⟨_, parse_times hk h1, rs', e1, rfl⟩, sc_concat e2⟩

private theorem build_lead {α : Type} {f f' : α → Except PyErr (Rows S)} {g : α → α} : ∀ {l : List α} (_ : ∀ a ∈ l, Lead (f a) (f' (g a))),
    Lead (mapE f l >>= fun x => .ok (Rows.concat x)) (mapE f' (l.map g) >>= fun x => .ok (Rows.concat x)) := by
  intro l hl r hr
  rw [bind_ok] at hr
  obtain ⟨rs, h1, h2⟩ := hr
  injection h2 with h2; subst h2
  have key : ∀ (l : List α) (_ : ∀ a ∈ l, Lead (f a) (f' (g a))) (rs : List (Rows S)), mapE f l = .ok rs →
      ∃ rs', mapE f' (l.map g) = .ok rs' ∧ List.Forall₂ Sc rs rs' := by
    intro l
    induction l with
    | nil => intro _ rs h; injection h with h; subst h; exact ⟨[], rfl, .nil⟩
    | cons a l ih =>
      intro hl rs h
      simp only [mapE] at h
      cases ha : f a with
      | error e => rw [ha] at h; cases h
      | ok b =>
        rw [ha] at h
        dsimp only at h
        split at h
        · cases h
        · rename_i rs0 hrs0
          injection h with h; subst h
          obtain ⟨b', e1, e2⟩ := hl a (by simp) b ha
          obtain ⟨rs', e3, e4⟩ := ih (fun x hx => hl x (List.mem_cons_of_mem _ hx)) rs0 hrs0
          refine ⟨b' :: rs', ?_, .cons e2 e4⟩
          simp only [List.map_cons, mapE, e1, e3]
  obtain ⟨rs', e1, e2⟩ := key l hl rs h1
  exact ⟨_, by rw [bind_ok]; exact ⟨rs', e1, rfl⟩, sc_concat e2⟩

/-! ## Proof: the blocks -/

/-- Units are positive and a digit string has the unit of the integer label it stands for. -/
private def Units (assets : Fin N → Label) (c : Label → ℝ) : Prop := (∀ x, 0 < c x) ∧ ∀ x i, assetIdx assets x = .ok i → c x = c (assets i)

section
variable {assets : Fin N → Label} {c : Label → ℝ} (R : Fin S → Fin N → ℝ)

/-- The scenarios in the new units. -/
private abbrev sc (assets : Fin N → Label) (c : Label → ℝ) (R : Fin S → Fin N → ℝ) : Fin S → Fin N → ℝ := fun s i => c (assets i) * R s i

private theorem idx_lead {x : Label} {f f' : Fin N → Except PyErr (Rows S)} (h : ∀ i, assetIdx assets x = .ok i → Lead (f i) (f' i)) :
    Lead (assetIdx assets x >>= f) (assetIdx assets x >>= f') := by
  intro r hr
  rw [bind_ok] at hr
  obtain ⟨i, h1, h2⟩ := hr
  obtain ⟨r', h3, h4⟩ := h i h1 r h2
  exact ⟨r', by rw [bind_ok]; exact ⟨i, h1, h3⟩, h4⟩

private theorem mean_lead (hc : Units assets c) {l : List (MKey × ViewVal)} (hl : ∀ kv ∈ l, ∀ x y, kv.1 = .pair x y → c x = c y) :
    Lead (buildMean assets R l) (buildMean assets (sc assets c R) (l.map fun kv => (kv.1, viewTimes (unitOf c kv.1) kv.2))) := by
  refine build_lead (g := fun kv : MKey × ViewVal => (kv.1, viewTimes (unitOf c kv.1) kv.2)) fun kv hkv => ?_
  obtain ⟨k, v⟩ := kv
  cases k with
  | single x =>
    intro r hr
    simp only [meanRow, bind_ok] at hr ⊢
    obtain ⟨row, ⟨i, h1, h2⟩, h3⟩ := hr
    injection h2 with h2; subst h2
    obtain ⟨r', h4, h5⟩ := viewRows_lead (row' := fun s => c (assets i) * R s i) (rawOf' := fun t => .ok t) (hc.1 (assets i)) (hc.1 x) (fun s => rfl)
      (fun t b hb => by injection hb with hb; subst hb; rw [hc.2 x i h1]) v r h3
    exact ⟨r', ⟨_, ⟨i, h1, rfl⟩, h4⟩, h5⟩
  | pair x y =>
    intro r hr
    simp only [meanRow, bind_ok] at hr ⊢
    obtain ⟨row, ⟨i, h1, j, h1', h2⟩, h3⟩ := hr
    injection h2 with h2; subst h2
    have hxy := hl _ hkv x y rfl
    obtain ⟨r', h4, h5⟩ := viewRows_lead (row' := fun s => c (assets i) * R s i - c (assets j) * R s j) (rawOf' := fun t => .ok t) (hc.1 x) (hc.1 x)
      (fun s => by rw [← hc.2 x i h1, ← hc.2 y j h1', ← hxy]; ring) (fun t b hb => by injection hb with hb; subst hb; rfl) v r h3
    exact ⟨r', ⟨_, ⟨i, h1, j, h1', rfl⟩, h4⟩, h5⟩

private theorem vol_lead (hc : Units assets c) (l : List (Label × ViewVal)) (mu : Fin N → ℝ) :
    Lead (buildVol assets R mu l) (buildVol assets (sc assets c R) (fun i => c (assets i) * mu i) (l.map fun kv => (kv.1, viewTimes (c kv.1) kv.2))) := by
  refine build_lead (g := fun kv : Label × ViewVal => (kv.1, viewTimes (c kv.1) kv.2)) fun kv _ => idx_lead fun i hi => ?_
  have h0 := hc.1 (assets i)
  refine viewRows_lead (d := c (assets i) ^ 2) (pow_pos h0 2) (hc.1 kv.1) (fun s => by ring) (fun t b hb => ?_) kv.2
  rw [hc.2 _ i hi]
  split at hb
  · cases hb
  · rename_i ht
    injection hb with hb; subst hb
    rw [if_neg (by push Not at ht ⊢; positivity)]
    refine congrArg Except.ok ?_
    ring

private theorem var_lead (hc : Units assets c) (l : List (Label × ViewVal)) (mu : Fin N → ℝ) :
    Lead (buildVar assets R mu l) (buildVar assets (sc assets c R) (fun i => c (assets i) * mu i) (l.map fun kv => (kv.1, viewTimes (c kv.1 ^ 2) kv.2))) := by
  refine build_lead (g := fun kv : Label × ViewVal => (kv.1, viewTimes (c kv.1 ^ 2) kv.2)) fun kv _ => idx_lead fun i hi => ?_
  have h0 := hc.1 (assets i)
  refine viewRows_lead (d := c (assets i) ^ 2) (pow_pos h0 2) (pow_pos (hc.1 kv.1) 2) (fun s => by ring) (fun t b hb => ?_) kv.2
  rw [hc.2 _ i hi]
  split at hb
  · cases hb
  · rename_i ht
    injection hb with hb; subst hb
    rw [if_neg (by push Not at ht ⊢; positivity)]
    refine congrArg Except.ok ?_
    ring

private theorem times_one (v : ViewVal) : viewTimes 1 v = v := by
  have h : ∀ x : PyFloat ℝ, floatTimes 1 x = x := by intro x; cases x <;> simp [floatTimes]
  cases v <;> simp [viewTimes, h]

private theorem skew_lead (hc : Units assets c) {l : List (Label × ViewVal)} (hl : ∀ kv ∈ l, 1 ≤ c kv.1) (mu var : Fin N → ℝ) :
    Lead (buildSkew assets R mu var l) (buildSkew assets (sc assets c R) (fun i => c (assets i) * mu i) (fun i => c (assets i) ^ 2 * var i) l) := by
  have key := build_lead (g := fun kv : Label × ViewVal => kv) (l := l)
    (f := fun kv => do
      let i ← assetIdx assets kv.1
      if var i < 1 / 10 ^ 12 then .error .valueError
      else viewRows (fun s => R s i ^ 3) (fun t => .ok (t * Real.sqrt (var i) ^ 3 + 3 * mu i * var i + mu i ^ 3)) kv.2)
    (f' := fun kv => do
      let i ← assetIdx assets kv.1
      if c (assets i) ^ 2 * var i < 1 / 10 ^ 12 then .error .valueError
      else viewRows (fun s => (c (assets i) * R s i) ^ 3) (fun t => .ok (t * Real.sqrt (c (assets i) ^ 2 * var i) ^ 3 +
        3 * (c (assets i) * mu i) * (c (assets i) ^ 2 * var i) + (c (assets i) * mu i) ^ 3)) kv.2) ?_
  · rw [List.map_id'] at key
    exact key
  intro kv hkv
  refine idx_lead fun i hi => ?_
  have h0 := hc.1 (assets i)
  have h1 : 1 ≤ c (assets i) := by rw [← hc.2 _ i hi]; exact hl kv hkv
  intro r hr
  split at hr
  · cases hr
  rename_i hv
  push Not at hv
  have hv0 : 0 ≤ var i := le_trans (by positivity) hv
  rw [if_neg (not_lt.2 (hv.trans (le_mul_of_one_le_left hv0 (one_le_pow₀ h1))))]
  have hs : Real.sqrt (c (assets i) ^ 2 * var i) = c (assets i) * Real.sqrt (var i) := by
    rw [Real.sqrt_mul (sq_nonneg _), Real.sqrt_sq h0.le]
  have := viewRows_lead (row := fun s => R s i ^ 3) (row' := fun s => (c (assets i) * R s i) ^ 3) (d := c (assets i) ^ 3) (k := 1)
    (rawOf := fun t => .ok (t * Real.sqrt (var i) ^ 3 + 3 * mu i * var i + mu i ^ 3))
    (rawOf' := fun t => .ok (t * Real.sqrt (c (assets i) ^ 2 * var i) ^ 3 +
        3 * (c (assets i) * mu i) * (c (assets i) ^ 2 * var i) + (c (assets i) * mu i) ^ 3)) (pow_pos h0 3) one_pos (fun s => by ring)
    (fun t b hb => by
      injection hb with hb; subst hb
      refine congrArg Except.ok ?_
      rw [hs]; ring) kv.2
  rw [times_one] at this
  exact this r hr

private theorem corr_lead (hc : Units assets c) (l : List ((Label × Label) × ViewVal)) (mu var : Fin N → ℝ) :
    Lead (buildCorr assets R mu var l) (buildCorr assets (sc assets c R) (fun i => c (assets i) * mu i) (fun i => c (assets i) ^ 2 * var i) l) := by
  have key := build_lead (g := fun kv : (Label × Label) × ViewVal => kv) (l := l)
    (f := fun kv => do
      let i ← assetIdx assets kv.1.1
      let j ← assetIdx assets kv.1.2
      viewRows (fun s => R s i * R s j) (fun t => if ¬ (-1 ≤ t ∧ t ≤ 1) then .error .valueError
        else .ok (t * Real.sqrt (var i) * Real.sqrt (var j) + mu i * mu j)) kv.2)
    (f' := fun kv => do
      let i ← assetIdx assets kv.1.1
      let j ← assetIdx assets kv.1.2
      viewRows (fun s => (c (assets i) * R s i) * (c (assets j) * R s j)) (fun t => if ¬ (-1 ≤ t ∧ t ≤ 1) then .error .valueError
        else .ok (t * Real.sqrt (c (assets i) ^ 2 * var i) * Real.sqrt (c (assets j) ^ 2 * var j) + (c (assets i) * mu i) * (c (assets j) * mu j))) kv.2) ?_
  · rw [List.map_id'] at key
    exact key
  intro kv hkv
  refine idx_lead fun i hi => idx_lead fun j hj => ?_
  have hs : ∀ i, Real.sqrt (c (assets i) ^ 2 * var i) = c (assets i) * Real.sqrt (var i) := fun i => by
    rw [Real.sqrt_mul (sq_nonneg _), Real.sqrt_sq (hc.1 _).le]
  have := viewRows_lead (row := fun s => R s i * R s j) (row' := fun s => (c (assets i) * R s i) * (c (assets j) * R s j))
    (d := c (assets i) * c (assets j)) (k := 1)
    (rawOf := fun t => if ¬ (-1 ≤ t ∧ t ≤ 1) then .error .valueError
        else .ok (t * Real.sqrt (var i) * Real.sqrt (var j) + mu i * mu j))
    (rawOf' := fun t => if ¬ (-1 ≤ t ∧ t ≤ 1) then .error .valueError
        else .ok (t * Real.sqrt (c (assets i) ^ 2 * var i) * Real.sqrt (c (assets j) ^ 2 * var j) + (c (assets i) * mu i) * (c (assets j) * mu j)))
    (mul_pos (hc.1 _) (hc.1 _)) one_pos (fun s => by ring)
    (fun t b hb => by
      rw [one_mul]
      split at hb
      · cases hb
      · rename_i ht
        rw [if_neg ht]
        injection hb with hb; subst hb
        refine congrArg Except.ok ?_
        rw [hs, hs]; ring) kv.2
  rw [times_one] at this
  exact this

private theorem quantile_lead (hc : Units assets c) (l : List (Label × (ℝ × ViewVal))) :
    Lead (buildQuantile assets R l) (buildQuantile assets (sc assets c R) (l.map fun kv => (kv.1, (c kv.1 * kv.2.1, kv.2.2)))) := by
  refine build_lead (g := fun kv : Label × (ℝ × ViewVal) => (kv.1, (c kv.1 * kv.2.1, kv.2.2))) fun kv _ => idx_lead fun i hi => ?_
  have := viewRows_lead (row := fun s => if R s i ≤ kv.2.1 then (1 : ℝ) else 0) (row' := fun s => if c (assets i) * R s i ≤ c kv.1 * kv.2.1 then (1 : ℝ) else 0)
    (d := 1) (k := 1) (rawOf := fun t => if ¬ (0 < t ∧ t < 1) then .error .valueError else .ok t)
    (rawOf' := fun t => if ¬ (0 < t ∧ t < 1) then .error .valueError else .ok t) one_pos one_pos
    (fun s => by rw [hc.2 _ i hi, one_mul]; simp only [mul_le_mul_iff_right₀ (hc.1 (assets i))])
    (fun t b hb => by rw [one_mul, one_mul]; exact hb) kv.2.2
  rw [times_one] at this
  exact this

private theorem meanOf_units (q : Fin S → ℝ) : meanOf (sc assets c R) q = fun i => c (assets i) * meanOf R q i := by
  funext i
  unfold meanOf
  rw [Finset.mul_sum]
  exact Finset.sum_congr rfl fun s _ => by ring

private theorem varOf_units (mu : Fin N → ℝ) (q : Fin S → ℝ) :
    varOf (sc assets c R) (fun i => c (assets i) * mu i) q = fun i => c (assets i) ^ 2 * varOf R mu q i := by
  funext i
  unfold varOf
  rw [Finset.mul_sum]
  exact Finset.sum_congr rfl fun s _ => by ring

private theorem npCovW_units (q : Fin S → ℝ) : npCovW (sc assets c R) q = fun i j => c (assets i) * c (assets j) * npCovW R q i j := by
  funext i j
  have e : ∀ i, (∑ s, c (assets i) * R s i * q s) / ∑ s, q s = c (assets i) * ((∑ s, R s i * q s) / ∑ s, q s) := by
    intro i
    rw [← mul_div_assoc, Finset.mul_sum]
    congr 1
    exact Finset.sum_congr rfl fun s _ => by ring
  simp only [npCovW, Matrix.of_apply, e]
  generalize (∑ s, R s i * q s) / ∑ s, q s = x
  generalize (∑ s, R s j * q s) / ∑ s, q s = y
  rw [← mul_div_assoc, Finset.mul_sum]
  congr 1
  exact Finset.sum_congr rfl fun s _ => by ring

private theorem npVarW_units (q : Fin S → ℝ) : npVarW (sc assets c R) q = fun i => c (assets i) ^ 2 * npVarW R q i := by
  funext i
  have e : (∑ s, c (assets i) * R s i * q s) / ∑ s, q s = c (assets i) * ((∑ s, R s i * q s) / ∑ s, q s) := by
    rw [← mul_div_assoc, Finset.mul_sum]
    congr 1
    exact Finset.sum_congr rfl fun s _ => by ring
  simp only [npVarW, e]
  generalize (∑ s, R s i * q s) / ∑ s, q s = x
  rw [← mul_div_assoc, Finset.mul_sum]
  congr 1
  exact Finset.sum_congr rfl fun s _ => by ring

/-! ## Proof: the passes -/

private theorem sequential_lead {ep : Ep S} (hep : EpExact ep) : ∀ {bs bs' : List (Bool × ((Fin N → ℝ) → (Fin N → ℝ) → Except PyErr (Rows S)))}
    (_ : List.Forall₂ (fun b b' => b'.1 = b.1 ∧ ∀ mu var, Lead (b.2 mu var) (b'.2 (fun i => c (assets i) * mu i) (fun i => c (assets i) ^ 2 * var i))) bs bs')
    (p : Fin S → ℝ) (mu var : Fin N → ℝ) {q : Fin S → ℝ}, sequentialPass ep p R bs mu var = .ok q →
    sequentialPass ep p (sc assets c R) bs' (fun i => c (assets i) * mu i) (fun i => c (assets i) ^ 2 * var i) = .ok q
  | _, _, .nil, p, mu, var, q, h => h
  | (b, f) :: bs, (b', f') :: bs', .cons ⟨h1, h2⟩ hr, p, mu, var, q, h => by
    dsimp only at h1 h2
    subst h1
    simp only [sequentialPass] at h ⊢
    cases b' with
    | false => exact sequential_lead hep hr p mu var h
    | true =>
      simp only [if_true, bind_ok] at h ⊢
      obtain ⟨r, e1, q1, e2, e3⟩ := h
      obtain ⟨r', e4, e5⟩ := h2 mu var r e1
      refine ⟨r', e4, q1, (doEp_sc hep e5 p q1).2 e2, ?_⟩
      have := sequential_lead hep hr q1 _ _ e3
      rw [← varOf_units, ← meanOf_units] at this
      exact this

/-- The views in the new units. -/
private noncomputable def viewsInUnits (c : Label → ℝ) (v : Views) : Views :=
  ⟨v.mean.map fun kv => (kv.1, viewTimes (unitOf c kv.1) kv.2), v.vol.map fun kv => (kv.1, viewTimes (c kv.1) kv.2),
    v.var.map fun kv => (kv.1, viewTimes (c kv.1 ^ 2) kv.2), v.skew, v.corr, v.quantile.map fun kv => (kv.1, (c kv.1 * kv.2.1, kv.2.2)),
    v.cvar.map fun kv => (kv.1, (c kv.1 * kv.2.1, kv.2.2))⟩

private theorem moment_lead (hc : Units assets c) {ep : Ep S} (hep : EpExact ep) {v : Views} (hm : ∀ kv ∈ v.mean, ∀ x y, kv.1 = .pair x y → c x = c y)
    (hk : ∀ kv ∈ v.skew, 1 ≤ c kv.1) (p : Fin S → ℝ) (sequential : Bool) (mu var : Fin N → ℝ) {q : Fin S → ℝ}
    (h : momentPass ep p assets R v sequential mu var = .ok q) :
    momentPass ep p assets (sc assets c R) (viewsInUnits c v) sequential (fun i => c (assets i) * mu i) (fun i => c (assets i) ^ 2 * var i) = .ok q := by
  unfold momentPass at h ⊢
  cases sequential with
  | true =>
    simp only [if_true] at h ⊢
    refine sequential_lead R hep ?_ p mu var h
    refine .cons ⟨by simp [viewsInUnits], fun _ _ => mean_lead R hc hm⟩ (.cons ⟨by simp [viewsInUnits], fun mu _ => vol_lead R hc _ mu⟩
      (.cons ⟨by simp [viewsInUnits], fun mu _ => var_lead R hc _ mu⟩ (.cons ⟨rfl, fun mu var => skew_lead R hc hk mu var⟩
      (.cons ⟨rfl, fun mu var => corr_lead R hc _ mu var⟩ .nil))))
  | false =>
    simp only [Bool.false_eq_true, if_false] at h ⊢
    have hl : ∀ m w, linPoint ep p assets R v mu var = .ok (m, w) →
        linPoint ep p assets (sc assets c R) (viewsInUnits c v) (fun i => c (assets i) * mu i) (fun i => c (assets i) ^ 2 * var i) =
          .ok (fun i => c (assets i) * m i, fun i => c (assets i) ^ 2 * w i) := by
      intro m w hmw
      unfold linPoint at hmw ⊢
      have e : (!(viewsInUnits c v).mean.isEmpty && !((viewsInUnits c v).vol.isEmpty && (viewsInUnits c v).var.isEmpty && (viewsInUnits c v).skew.isEmpty && (viewsInUnits c v).corr.isEmpty)) =
          (!v.mean.isEmpty && !(v.vol.isEmpty && v.var.isEmpty && v.skew.isEmpty && v.corr.isEmpty)) := by simp [viewsInUnits]
      rw [e]
      split at hmw
      · rename_i hcond
        rw [if_pos hcond]
        simp only [bind_ok] at hmw ⊢
        obtain ⟨r, e1, q1, e2, e3⟩ := hmw
        injection e3 with e3
        obtain ⟨rfl, rfl⟩ := Prod.mk.inj e3
        obtain ⟨r', e4, e5⟩ := mean_lead R hc hm r e1
        refine ⟨r', e4, q1, (doEp_sc hep e5 p q1).2 e2, ?_⟩
        rw [meanOf_units, varOf_units]
      · rename_i hcond
        rw [if_neg hcond]
        injection hmw with hmw
        obtain ⟨rfl, rfl⟩ := Prod.mk.inj hmw
        rfl
    unfold simultaneousPass at h ⊢
    rw [bind_ok] at h ⊢
    obtain ⟨⟨m, w⟩, e1, h⟩ := h
    refine ⟨_, hl m w e1, ?_⟩
    simp only [bind_ok] at h ⊢
    obtain ⟨r1, f1, r2, f2, r3, f3, r4, f4, r5, f5, h⟩ := h
    obtain ⟨r1', g1, s1⟩ := mean_lead R hc hm r1 f1
    obtain ⟨r2', g2, s2⟩ := vol_lead R hc _ m r2 f2
    obtain ⟨r3', g3, s3⟩ := var_lead R hc _ m r3 f3
    obtain ⟨r4', g4, s4⟩ := skew_lead R hc hk m w r4 f4
    obtain ⟨r5', g5, s5⟩ := corr_lead R hc _ m w r5 f5
    refine ⟨r1', g1, r2', g2, r3', g3, r4', g4, r5', g5, ?_⟩
    have hall : Sc (Rows.concat [r1, r2, r3, r4, r5]) (Rows.concat [r1', r2', r3', r4', r5']) :=
      sc_concat (.cons s1 (.cons s2 (.cons s3 (.cons s4 (.cons s5 .nil)))))
    rw [sc_empty hall]
    split at h
    · rename_i hemp
      rw [if_pos hemp]
      exact h
    · rename_i hemp
      rw [if_neg hemp]
      exact (doEp_sc hep hall p q).2 h

private theorem cvar_lead (hc : Units assets c) {ep : Ep S} (hep : EpExact ep) {argsort : (Fin S → ℝ) → Equiv.Perm (Fin S)} (hs : Compares argsort)
    (round : ℝ → ℤ) : ∀ (l : List (Label × (ℝ × ℝ))) (p : Fin S → ℝ) {q : Fin S → ℝ}, cvarPass ep argsort round assets R l p = .ok q →
    cvarPass ep argsort round assets (sc assets c R) (l.map fun kv => (kv.1, (c kv.1 * kv.2.1, kv.2.2))) p = .ok q
  | [], p, q, h => h
  | kv :: l, p, q, h => by
    simp only [cvarPass, List.map_cons, bind_ok] at h ⊢
    obtain ⟨i, h1, q', h2, h3⟩ := h
    refine ⟨i, h1, q', ?_, cvar_lead hc hep hs round l q' h3⟩
    have h0 := hc.1 (assets i)
    rw [hc.2 _ i h1]
    have esort : argsort (fun s => c (assets i) * R s i) = argsort (fun s => R s i) :=
      hs _ _ fun s t => mul_le_mul_iff_right₀ h0
    have esolve : solveForS ep p (fun s => c (assets i) * R s i) (argsort fun s => R s i) kv.2.2 (c (assets i) * kv.2.1) =
        solveForS ep p (fun s => R s i) (argsort fun s => R s i) kv.2.2 kv.2.1 := by
      funext s
      have hrow : Sc (cvarRows (fun s => R s i) (argsort fun s => R s i) kv.2.2 kv.2.1 s)
          (cvarRows (fun s => c (assets i) * R s i) (argsort fun s => R s i) kv.2.2 (c (assets i) * kv.2.1) s) := by
        refine ⟨.cons ⟨1, one_pos, fun _ => (one_mul _).symm, (one_mul _).symm⟩ (.cons ⟨c (assets i), h0, fun t => ?_, by ring⟩
          (.cons ⟨1, one_pos, fun _ => (one_mul _).symm, (one_mul _).symm⟩ .nil)), .nil⟩
        dsimp only
        split <;> simp
      have hiff := ep_sc hep hrow p
      unfold solveForS
      cases e1 : ep p (cvarRows (fun s => R s i) (argsort fun s => R s i) kv.2.2 kv.2.1 s) with
      | ok x => rw [(hiff x).2 e1]
      | error e =>
        cases e2 : ep p (cvarRows (fun s => c (assets i) * R s i) (argsort fun s => R s i) kv.2.2 (c (assets i) * kv.2.1) s) with
        | ok x => rw [(hiff x).1 e2] at e1; cases e1
        | error e' => rfl
    unfold solveCvarView at h2 ⊢
    simp only [esort, esolve]
    exact h2

private theorem posterior_lead (hc : Units assets c) {ep : Ep S} (hep : EpExact ep) {argsort : (Fin S → ℝ) → Equiv.Perm (Fin S)} (hs : Compares argsort)
    (round : ℝ → ℤ) {v : Views} (hm : ∀ kv ∈ v.mean, ∀ x y, kv.1 = .pair x y → c x = c y)
    (hk : ∀ kv ∈ v.skew, 1 ≤ c kv.1) (p : Fin S → ℝ) (sequential : Bool) {q : Fin S → ℝ}
    (h : computePosterior ep argsort round p assets R v sequential = .ok q) :
    computePosterior ep argsort round p assets (sc assets c R) (viewsInUnits c v) sequential = .ok q := by
  unfold computePosterior at h ⊢
  dsimp only at h ⊢
  have e : ((viewsInUnits c v).mean.isEmpty && (viewsInUnits c v).vol.isEmpty && (viewsInUnits c v).var.isEmpty && (viewsInUnits c v).skew.isEmpty &&
      (viewsInUnits c v).corr.isEmpty && (viewsInUnits c v).cvar.isEmpty && (viewsInUnits c v).quantile.isEmpty) =
      (v.mean.isEmpty && v.vol.isEmpty && v.var.isEmpty && v.skew.isEmpty && v.corr.isEmpty && v.cvar.isEmpty && v.quantile.isEmpty) := by simp [viewsInUnits]
  rw [e]
  split at h
  · rename_i hcond
    rw [if_pos hcond]; exact h
  rename_i hcond
  rw [if_neg hcond]
  simp only [bind_ok] at h ⊢
  obtain ⟨q1, h1, q2, h2, h3⟩ := h
  refine ⟨q1, ?_, q2, ?_, cvar_lead R hc hep hs round _ q2 h3⟩
  · rw [meanOf_units, npVarW_units]
    exact moment_lead R hc hep hm hk p sequential _ _ h1
  · unfold quantilePass at h2 ⊢
    have e' : (viewsInUnits c v).quantile.isEmpty = v.quantile.isEmpty := by simp [viewsInUnits]
    rw [e']
    split at h2
    · rename_i hq
      rw [if_pos hq]; exact h2
    rename_i hq
    rw [if_neg hq]
    rw [bind_ok] at h2 ⊢
    obtain ⟨r, f1, f2⟩ := h2
    obtain ⟨r', f3, f4⟩ := quantile_lead R hc _ r f1
    refine ⟨r', f3, ?_⟩
    rw [sc_empty f4]
    split at f2
    · rename_i hemp
      rw [if_pos hemp]; exact f2
    · rename_i hemp
      rw [if_neg hemp]; exact (doEp_sc hep f4 q1 q2).2 f2

end

/-! ## Proof: the arguments -/

private theorem vec_units {κ : Type} {assets : Fin N → Label} {key : Label → κ} {k : κ → ℝ} {v : VecViews κ} {d : List (κ × ViewVal)}
    (h : vecToDict assets key v = .ok d) :
    vecToDict assets key (vecTimes assets key k v) = .ok (d.map fun kv => (kv.1, viewTimes (k kv.1) kv.2)) := by
  cases v with
  | none => injection h with h; subst h; rfl
  | dict d' => injection h with h; subst h; rfl
  | vector x =>
    simp only [vecToDict, vecTimes, List.length_mapIdx] at h ⊢
    split at h
    · rename_i hx
      rw [if_pos hx]
      injection h with h; subst h
      refine congrArg Except.ok ?_
      rw [List.map_map]
      refine List.map_congr_left fun i _ => ?_
      have hi : (i : ℕ) < x.length := by rw [hx]; exact i.2
      simp only [Function.comp_apply, viewTimes, List.getD_eq_getElem?_getD, List.getElem?_mapIdx, List.getElem?_eq_getElem hi, Option.map_some, Option.getD_some,
        i.2, dite_true]
    · cases h

private theorem cvarDict_units {assets : Fin N → Label} {c : Label → ℝ} {v : CvarViews} {d : List (Label × (ℝ × ℝ))} (h : cvarToDict assets v = .ok d) :
    cvarToDict assets (cvarTimes assets c v) = .ok (d.map fun kv => (kv.1, (c kv.1 * kv.2.1, kv.2.2))) := by
  cases v with
  | none => injection h with h; subst h; rfl
  | dict d' => injection h with h; subst h; rfl
  | vector x =>
    simp only [cvarToDict, cvarTimes, List.length_mapIdx] at h ⊢
    split at h
    · rename_i hx
      rw [if_pos hx]
      injection h with h; subst h
      refine congrArg Except.ok ?_
      rw [List.map_map]
      refine List.map_congr_left fun i _ => ?_
      have hi : (i : ℕ) < x.length := by rw [hx]; exact i.2
      simp only [Function.comp_apply, List.getD_eq_getElem?_getD, List.getElem?_mapIdx, List.getElem?_eq_getElem hi, Option.map_some, Option.getD_some,
        i.2, dite_true]
    · cases h

private theorem expand_units (c : Label → ℝ) : ∀ (l : List Label) (d : List (MKey × ViewVal)),
    expandRank (d.map fun kv => (kv.1, viewTimes (unitOf c kv.1) kv.2)) l = (expandRank d l).map fun kv => (kv.1, viewTimes (unitOf c kv.1) kv.2)
  | [], d => by simp [expandRank]
  | [_], d => by simp [expandRank]
  | a :: b :: l, d => by
    unfold expandRank
    rw [← expand_units c (b :: l)]
    congr 1
    have e : (d.map fun kv : MKey × ViewVal => (kv.1, viewTimes (unitOf c kv.1) kv.2)).any (fun kv => decide (kv.1 = .pair a b)) = d.any (fun kv => decide (kv.1 = .pair a b)) := by
      rw [List.any_map]; rfl
    rw [e]
    split
    · rfl
    · simp [viewTimes, floatTimes]

private theorem expand_pairs {c : Label → ℝ} : ∀ {l : List Label} (_ : ∀ x ∈ l, ∀ y ∈ l, c x = c y) {d : List (MKey × ViewVal)}
    (_ : ∀ kv ∈ d, ∀ x y, kv.1 = .pair x y → c x = c y), ∀ kv ∈ expandRank d l, ∀ x y, kv.1 = .pair x y → c x = c y
  | [], _, d, hd => by simpa [expandRank] using hd
  | [_], _, d, hd => by simpa [expandRank] using hd
  | a :: b :: l, hl, d, hd => by
    unfold expandRank
    refine expand_pairs (fun x hx y hy => hl x (List.mem_cons_of_mem _ hx) y (List.mem_cons_of_mem _ hy)) ?_
    split
    · exact hd
    · intro kv hkv
      rcases List.mem_append.1 hkv with h | h
      · exact hd kv h
      · simp only [List.mem_singleton] at h
        subst h
        rintro x y he
        injection he with h1 h2
        rw [← h1, ← h2]
        exact hl a (by simp) b (by simp)

private theorem views_units {assets : Fin N → Label} {c : Label → ℝ} {a : ViewArgs} {v : Views} (h : viewsOf assets a = .ok v) (ha : ComparedAlike c a)
    (hk : ∀ x, HasSkewView assets a x → 1 ≤ c x) :
    viewsOf assets (argsInUnits assets c a) = .ok (viewsInUnits c v) ∧ (∀ kv ∈ v.mean, ∀ x y, kv.1 = .pair x y → c x = c y) ∧
      ∀ kv ∈ v.skew, 1 ≤ c kv.1 := by
  unfold viewsOf at h ⊢
  simp only [bind_ok] at h ⊢
  obtain ⟨m, h1, vo, h2, va, h3, sk, h4, cv, h5, m', h6, h7⟩ := h
  injection h7 with h7; subst h7
  refine ⟨⟨_, vec_units h1, _, vec_units h2, _, vec_units (k := fun x => c x ^ 2) h3, sk, h4, _, cvarDict_units h5, _, ?_, rfl⟩, ?_, ?_⟩
  · change rankedDict _ a.rankMean = .ok (m'.map _)
    unfold rankedDict at h6 ⊢
    cases hr : a.rankMean with
    | none => rw [hr] at h6; injection h6 with h6; subst h6; rfl
    | some l =>
      rw [hr] at h6
      dsimp only at h6 ⊢
      split at h6
      · cases h6
      · rename_i hl
        rw [if_neg hl]
        injection h6 with h6; subst h6
        rw [expand_units]
  · have hm0 : ∀ kv ∈ m, ∀ x y, kv.1 = .pair x y → c x = c y := by
      cases hv : a.mean with
      | none => rw [hv] at h1; injection h1 with h1; subst h1; simp
      | dict d => rw [hv] at h1; injection h1 with h1; subst h1; exact ha.1 d hv
      | vector x =>
        rw [hv] at h1
        simp only [vecToDict] at h1
        split at h1
        · injection h1 with h1; subst h1
          intro kv hkv x y he
          obtain ⟨i, -, rfl⟩ := List.mem_map.1 hkv
          cases he
        · cases h1
    unfold rankedDict at h6
    cases hr : a.rankMean with
    | none => rw [hr] at h6; injection h6 with h6; subst h6; exact hm0
    | some l =>
      rw [hr] at h6
      dsimp only at h6
      split at h6
      · cases h6
      · injection h6 with h6; subst h6
        exact expand_pairs (ha.2 l hr) hm0
  · intro kv hkv
    refine hk kv.1 ?_
    cases hv : a.skew with
    | none => rw [hv] at h4; injection h4 with h4; subst h4; cases hkv
    | dict d => rw [hv] at h4; injection h4 with h4; subst h4; exact .inl ⟨d, hv, kv.2, hkv⟩
    | vector x =>
      rw [hv] at h4
      simp only [vecToDict] at h4
      split at h4
      · injection h4 with h4; subst h4
        obtain ⟨i, -, rfl⟩ := List.mem_map.1 hkv
        exact .inr ⟨⟨x, hv⟩, i, rfl⟩
      · cases h4

/-- **C230** (units in which no asset with a skewness view gets smaller numbers).  Express the returns of every asset `x` in a unit `c x` times
smaller, and the targets of its views accordingly: with exact entropy pooling the posterior probabilities are the same, posterior means are
multiplied by `c x` and covariances by `c x · c y`.  Assets that are compared with each other by a mean view must have the same unit. -/
theorem C230_units_partial {ep : (S : ℕ) → Ep S} (hep : ∀ S, EpExact (ep S)) {argsort : (S : ℕ) → (Fin S → ℝ) → Equiv.Perm (Fin S)}
    (hs : ∀ S, Compares (argsort S)) {round : ℝ → ℤ} {src : Source} (hlab : Function.Injective src.assets) {c : Label → ℝ} (hc : ∀ x, 0 < c x)
    (hn : ∀ x i, Names src.assets x i → c x = c (src.assets i)) {a : ViewArgs} (ha : ComparedAlike c a) (hk : ∀ x, HasSkewView src.assets a x → 1 ≤ c x)
    {q : Fin src.S → ℝ} {m : Fin src.N → ℝ} {C : Matrix (Fin src.N) (Fin src.N) ℝ}
    (h : process ep argsort round src a = .ok ⟨src.S, src.N, src.R, src.assets, src.pandas, q, m, C⟩) :
    process ep argsort round (sourceInUnits c src) (argsInUnits src.assets c a) =
      .ok ⟨src.S, src.N, fun s i => c (src.assets i) * src.R s i, src.assets, src.pandas, q, fun i => c (src.assets i) * m i,
        fun i j => c (src.assets i) * c (src.assets j) * C i j⟩ := by
  obtain ⟨S, N, R, assets, pandas, prior⟩ := src
  dsimp only at *
  have hU : Units assets c := ⟨hc, fun x i hi => hn x i ((assetIdx_ok hi))⟩
  unfold process at h
  simp only [bind_ok] at h
  obtain ⟨p0, h1, h⟩ := h
  split at h
  · cases h
  rename_i hN
  simp only [bind_ok] at h
  obtain ⟨v, h2, q', h3, h4⟩ := h
  have h4' := Except.ok.inj h4
  simp only [Processor.mk.injEq, heq_eq_eq, true_and] at h4'
  obtain ⟨rfl, rfl, rfl⟩ := h4'
  obtain ⟨g1, g2, g3⟩ := views_units h2 ha hk
  unfold process sourceInUnits
  rw [bind_ok]
  refine ⟨p0, h1, ?_⟩
  rw [if_neg hN]
  simp only [bind_ok]
  refine ⟨_, g1, q', posterior_lead R hU (hep S) (hs S) round g2 g3 p0 a.sequential h3, ?_⟩
  rw [← meanOf_units, ← npCovW_units]

/-- One skewness view, which the uniform prior on the scenarios −1, 0, 1 of `a` already meets. -/
noncomputable def noSkewArgs : ViewArgs := { skew := .dict [(.str "a", .scalar (.fin 0))] }

private theorem third_var : varAt (fun _ : Fin 3 => (1 : ℝ) / (3 : ℕ)) cexR 0 = 2 / 3 := by
  have v0 : cexR 0 0 = -1 := rfl
  have v1 : cexR 1 0 = 0 := rfl
  have v2 : cexR 2 0 = 1 := rfl
  simp only [varAt, expect, Fin.sum_univ_three, met_mean, v0, v1, v2]
  norm_num

private theorem noSkew_process (argsort : (S : ℕ) → (Fin S → ℝ) → Equiv.Perm (Fin S)) (round : ℝ → ℤ) :
    process (fun _ => optimalEp) argsort round ⟨3, 2, cexR, cexAssets, true, none⟩ noSkewArgs =
      .ok ⟨3, 2, cexR, cexAssets, true, fun _ => (1 : ℝ) / (3 : ℕ), meanAt (fun _ => (1 : ℝ) / (3 : ℕ)) cexR,
        Matrix.of (covUnder (fun _ => (1 : ℝ) / (3 : ℕ)) cexR)⟩ := by
  have v0 : cexR 0 0 = -1 := rfl
  have v1 : cexR 1 0 = 0 := rfl
  have v2 : cexR 2 0 = 1 := rfl
  refine (C188_satisfied_views_partial (fun _ => optimalEp_exact) argsort round (src := ⟨3, 2, cexR, cexAssets, true, none⟩) (by norm_num) (by norm_num)
    met_labels (by intro p h; cases h) rfl (v := ⟨[], [], [], [(.str "a", .scalar (.fin 0))], [], [], []⟩) rfl ?_ ?_ rfl).1
  · refine ⟨by simp, by simp, by simp, fun kv hkv => ?_, by simp, by simp, by simp⟩
    simp only [List.mem_cons, List.not_mem_nil, or_false] at hkv
    subst hkv
    exact ⟨⟨0, .inl rfl⟩, ⟨0, rfl⟩, fun t _ => trivial⟩
  · refine ⟨by simp, by simp, by simp, fun kv hkv => ?_, fun kv hkv i hi => ?_, by simp, by simp, by simp⟩
    · simp only [List.mem_cons, List.not_mem_nil, or_false] at hkv
      subst hkv
      refine ⟨0, .inl rfl, ?_⟩
      show skewAt _ _ _ = (0 : ℝ)
      unfold skewAt
      simp only [expect, Fin.sum_univ_three, met_mean, v0, v1, v2]
      norm_num
    · simp only [List.mem_cons, List.not_mem_nil, or_false] at hkv
      subst hkv
      have : i = 0 := names_unique met_labels hi (.inl rfl)
      subst this
      dsimp only
      rw [third_var]; norm_num

/-- **C230** fails for skewness views: scenarios −1, 0, 1 of `a` with the view that its skewness is zero (it is) give the prior, but the same
scenarios in units of ten millions raise `ValueError`, the variance being below the absolute bound 10⁻¹². -/
theorem C230_counterexample (argsort : (S : ℕ) → (Fin S → ℝ) → Equiv.Perm (Fin S)) (round : ℝ → ℤ) :
    (∃ P, process (fun _ => optimalEp) argsort round ⟨3, 2, cexR, cexAssets, true, none⟩ noSkewArgs = .ok P) ∧
    process (fun _ => optimalEp) argsort round (sourceInUnits (fun _ => 1 / 10 ^ 7) ⟨3, 2, cexR, cexAssets, true, none⟩)
      (argsInUnits cexAssets (fun _ => 1 / 10 ^ 7) noSkewArgs) = .error .valueError := by
  refine ⟨⟨_, noSkew_process argsort round⟩, ?_⟩
  have ia : assetIdx cexAssets (.str "a") = .ok 0 := by rfl
  have v0 : cexR 0 0 = -1 := rfl
  have v1 : cexR 1 0 = 0 := rfl
  have v2 : cexR 2 0 = 1 := rfl
  have hv : npVarW (fun s i => 1 / 10 ^ 7 * cexR s i) (fun _ : Fin 3 => (1 : ℝ) / ((3 : ℕ) : ℝ)) 0 < 1 / 10 ^ 12 := by
    simp only [npVarW, Fin.sum_univ_three, v0, v1, v2]
    norm_num
  have hb : ∀ mu, buildSkew cexAssets (fun s i => 1 / 10 ^ 7 * cexR s i) mu
      (npVarW (fun s i => 1 / 10 ^ 7 * cexR s i) (fun _ : Fin 3 => (1 : ℝ) / ((3 : ℕ) : ℝ))) [(.str "a", .scalar (.fin 0))] = .error .valueError := by
    intro mu
    simp only [buildSkew, mapE, ia, bind, Except.bind]
    rw [if_pos hv]
  have hviews : viewsOf cexAssets (argsInUnits cexAssets (fun _ => 1 / 10 ^ 7) noSkewArgs) = .ok ⟨[], [], [], [(.str "a", .scalar (.fin 0))], [], [], []⟩ := rfl
  have hseq : (argsInUnits cexAssets (fun _ => 1 / 10 ^ 7) noSkewArgs).sequential = false := rfl
  unfold process sourceInUnits
  rw [show priorOf (none : Option (Fin 3 → PyFloat ℝ)) = .ok (fun _ => 1 / ((3 : ℕ) : ℝ)) from rfl]
  simp only [bind, Except.bind]
  rw [if_neg (by norm_num), hviews, hseq]
  simp only [computePosterior, List.isEmpty_nil, List.isEmpty_cons, Bool.and_true, Bool.and_false, Bool.false_and, Bool.true_and, Bool.false_eq_true, if_false, momentPass, simultaneousPass, linPoint, bind, Except.bind,
    Bool.not_true, Bool.not_false]
  rw [show buildMean cexAssets (fun s i => 1 / 10 ^ 7 * cexR s i) [] = .ok Rows.empty from rfl]
  simp only
  rw [show ∀ mu, buildVol cexAssets (fun s i => 1 / 10 ^ 7 * cexR s i) mu [] = .ok Rows.empty from fun _ => rfl]
  simp only
  rw [show ∀ mu, buildVar cexAssets (fun s i => 1 / 10 ^ 7 * cexR s i) mu [] = .ok Rows.empty from fun _ => rfl]
  simp only
  rw [hb]

/-- A stable sort only compares. -/
theorem compares_sort : Compares (S := S) Tuple.sort := by
  intro x y h
  refine Tuple.eq_sort_iff.2 ?_
  obtain ⟨h1, h2⟩ := Tuple.eq_sort_iff.1 (rfl : Tuple.sort x = Tuple.sort x)
  refine ⟨fun i j hij => (h _ _).1 (h1 hij), fun i j hij he => h2 i j hij (le_antisymm ((h _ _).2 he.le) ((h _ _).2 he.ge))⟩

/-- C230: the skewness view in percent (`c = 100`), and the views of `metArgs` in any unit. -/
example (round : ℝ → ℤ) (k : ℝ) (hk : 0 < k) :
    (∃ P, process (fun _ => optimalEp) (fun _ => Tuple.sort) round (sourceInUnits (fun _ => 100) ⟨3, 2, cexR, cexAssets, true, none⟩)
      (argsInUnits cexAssets (fun _ => 100) noSkewArgs) = .ok P) ∧
    ∃ P, process (fun _ => optimalEp) (fun _ => Tuple.sort) round (sourceInUnits (fun _ => k) ⟨3, 2, cexR, cexAssets, true, none⟩)
      (argsInUnits cexAssets (fun _ => k) metArgs) = .ok P := by
  refine ⟨⟨_, C230_units_partial (fun _ => optimalEp_exact) (fun _ => compares_sort) (src := ⟨3, 2, cexR, cexAssets, true, none⟩) met_labels
    (fun _ => by norm_num) (fun _ _ _ => rfl) ⟨fun _ _ _ _ _ _ _ => rfl, fun _ _ _ _ _ _ => rfl⟩ (fun _ _ => by norm_num) (noSkew_process _ round)⟩,
    ⟨_, C230_units_partial (fun _ => optimalEp_exact) (fun _ => compares_sort) (src := ⟨3, 2, cexR, cexAssets, true, none⟩) met_labels
    (fun _ => hk) (fun _ _ _ => rfl) ⟨fun _ _ _ _ _ _ _ => rfl, fun _ _ _ _ _ _ => rfl⟩ (fun x hx => ?_) (met_process _ round)⟩⟩
  rcases hx with ⟨d, hd, -⟩ | ⟨⟨l, hl⟩, -⟩
  · cases hd
  · cases hl

end PyV.Props
