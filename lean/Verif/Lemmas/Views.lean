import Verif.Spec.Views
import Verif.Spec.Risk
import Verif.Lemmas.EntropyPooling

namespace PyV.FV

open PyV PyV.Spec

variable {S N : ℕ}

theorem bind_ok {α β : Type} {x : Except PyErr α} {f : α → Except PyErr β} {b : β} :
    (x >>= f) = .ok b ↔ ∃ a, x = .ok a ∧ f a = .ok b := by
  cases x with
  | error e => simp [bind, Except.bind]
  | ok a => simp [bind, Except.bind]

theorem mapE_ok {α β : Type*} {f : α → Except PyErr β} {l : List α} {r : List β} :
    mapE f l = .ok r ↔ List.Forall₂ (fun a b => f a = .ok b) l r := by
  induction l generalizing r with
  | nil => cases r <;> simp [mapE]
  | cons a l ih =>
    unfold mapE
    cases hf : f a with
    | error e => cases r <;> simp [hf]
    | ok b =>
      cases hm : mapE f l with
      | error e =>
        cases r with
        | nil => simp
        | cons b' r =>
          simp only [List.forall₂_cons, reduceCtorEq, false_iff, not_and]
          intro _ h
          rw [ih.mpr h] at hm; cases hm
      | ok bs =>
        cases r with
        | nil => simp
        | cons b' r =>
          simp only [List.forall₂_cons, Except.ok.injEq, List.cons.injEq, hf]
          constructor
          · rintro ⟨rfl, rfl⟩; exact ⟨rfl, ih.mp hm⟩
          · rintro ⟨rfl, h⟩
            rw [ih.mpr h] at hm; injection hm with hm
            exact ⟨rfl, hm.symm⟩

theorem indexOf_some {assets : Fin N → Label} {key : Label} {i : Fin N} (h : indexOf assets key = some i) :
    assets i = key := by
  have := List.find?_some h
  simpa using this

theorem indexOf_none {assets : Fin N → Label} {key : Label} (h : indexOf assets key = none) (j : Fin N) :
    assets j ≠ key := by
  unfold indexOf at h
  rw [List.find?_eq_none] at h
  simpa using h j (List.mem_finRange j)

theorem assetIdx_ok {assets : Fin N → Label} {key : Label} {i : Fin N} (h : assetIdx assets key = .ok i) :
    Names assets key i := by
  unfold assetIdx at h
  split at h
  · rename_i k hk
    injection h with h; subst h
    exact Or.inl (indexOf_some hk)
  · rename_i hk
    split at h
    · rename_i s
      split at h
      · rename_i k hd
        split at h
        · rename_i j hj
          injection h with h; subst h
          exact Or.inr ⟨indexOf_none hk, s, k, rfl, hd, indexOf_some hj⟩
        · cases h
      · cases h
    · cases h

/-- With distinct labels a key names at most one column. -/
theorem names_unique {assets : Fin N → Label} (ha : Function.Injective assets) {key : Label} {i j : Fin N}
    (hi : Names assets key i) (hj : Names assets key j) : i = j := by
  rcases hi with hi | ⟨hn, s, k, rfl, hd, hi⟩
  · rcases hj with hj | ⟨hn, _⟩
    · exact ha (hi.trans hj.symm)
    · exact absurd hi (hn i)
  · rcases hj with hj | ⟨_, s', k', hs, hd', hj⟩
    · exact absurd hj (hn j)
    · injection hs with hs; subst hs
      rw [hd] at hd'; injection hd' with hd'; subst hd'
      exact ha (hi.trans hj.symm)

/-- A named column is found. -/
theorem assetIdx_of_names {assets : Fin N → Label} (ha : Function.Injective assets) {key : Label} {i : Fin N}
    (hi : Names assets key i) : assetIdx assets key = .ok i := by
  have hex : ∃ j, assetIdx assets key = .ok j := by
    have find : ∀ {key : Label} {i : Fin N}, assets i = key → ∃ j, indexOf assets key = some j := by
      intro key i h
      cases hf : indexOf assets key with
      | some j => exact ⟨j, rfl⟩
      | none => exact absurd h (indexOf_none hf i)
    unfold assetIdx
    rcases hi with hi | ⟨hn, s, k, rfl, hd, hi⟩
    · obtain ⟨j, hj⟩ := find hi
      rw [hj]; exact ⟨j, rfl⟩
    · have : indexOf assets (.str s) = none := by
        cases hf : indexOf assets (.str s) with
        | none => rfl
        | some j => exact absurd (indexOf_some hf) (hn j)
      obtain ⟨j, hj⟩ := find hi
      rw [this]; simp only [hd, hj]; exact ⟨j, rfl⟩
  obtain ⟨j, hj⟩ := hex
  rw [hj, names_unique ha hi (assetIdx_ok hj)]

theorem meets_append {a b : Rows S} {q : Fin S → ℝ} : MeetsRows (a.append b) q ↔ MeetsRows a q ∧ MeetsRows b q := by
  unfold MeetsRows Rows.append
  simp only [List.mem_append, or_imp, forall_and]
  tauto

theorem meets_empty {q : Fin S → ℝ} : MeetsRows (Rows.empty : Rows S) q := by
  constructor <;> intro p hp <;> cases hp

theorem meets_concat {l : List (Rows S)} {q : Fin S → ℝ} : MeetsRows (Rows.concat l) q ↔ ∀ r ∈ l, MeetsRows r q := by
  induction l with
  | nil => simp [Rows.concat, meets_empty]
  | cons a l ih =>
    have : Rows.concat (a :: l) = a.append (Rows.concat l) := rfl
    rw [this, meets_append, ih]
    simp

/-- What one generated row says. -/
def OpSays (op : Op) (x t : ℝ) : Prop :=
  match op with
  | .eq => x = t
  | .le => x ≤ t
  | .lt => x ≤ t
  | _ => t ≤ x

theorem meets_addRow {op : Op} {row : Fin S → ℝ} {raw : ℝ} {q : Fin S → ℝ} :
    MeetsRows (addRow op row raw) q ↔ OpSays op (∑ s, row s * q s) raw := by
  unfold MeetsRows addRow OpSays
  cases op <;> simp [Finset.sum_neg_distrib]

/-- Meeting all rows of one view is meeting it at each parsed `(op, target)` with its right-hand side. -/
theorem meets_viewRows {row : Fin S → ℝ} {rawOf : ℝ → Except PyErr ℝ} {v : ViewVal} {r : Rows S} {q : Fin S → ℝ}
    (h : viewRows row rawOf v = .ok r) {x : ℝ}
    (hraw : ∀ op t raw, rawOf t = .ok raw → (OpSays op (∑ s, row s * q s) raw ↔ OpSays op x t)) :
    MeetsRows r q ↔ Says v x := by
  unfold viewRows at h
  rw [bind_ok] at h
  obtain ⟨specs, hspecs, h⟩ := h
  rw [bind_ok] at h
  obtain ⟨rows, hrows, h⟩ := h
  injection h with h; subst h
  rw [mapE_ok] at hrows
  rw [meets_concat]
  have step : ∀ (p : Op × PyFloat ℝ) (r : Rows S), (match p.2 with
      | .fin t => do let raw ← rawOf t; .ok (addRow p.1 row raw)
      | _ => .error .other) = Except.ok r → ∃ t, p.2 = .fin t ∧ (MeetsRows r q ↔ OpSays p.1 x t) := by
    intro p r hp
    cases hp2 : p.2 with
    | fin t =>
      rw [hp2] at hp
      simp only at hp
      rw [bind_ok] at hp
      obtain ⟨raw, hr, hp⟩ := hp
      injection hp with hp; subst hp
      exact ⟨t, rfl, by rw [meets_addRow]; exact hraw _ _ _ hr⟩
    | nan => rw [hp2] at hp; cases hp
    | posInf => rw [hp2] at hp; cases hp
    | negInf => rw [hp2] at hp; cases hp
  cases v with
  | between lo hi =>
    simp only [parseViewSpecs] at hspecs
    split at hspecs
    · cases hspecs
    · injection hspecs with hspecs; subst hspecs
      cases hrows with
      | cons h1 h2 =>
        cases h2 with
        | cons h2 h3 =>
          cases h3
          obtain ⟨t1, e1, i1⟩ := step _ _ h1
          obtain ⟨t2, e2, i2⟩ := step _ _ h2
          simp only at e1 e2
          subst e1; subst e2
          simp only [List.mem_cons, List.not_mem_nil, or_false, forall_eq_or_imp, forall_eq, i1, i2]
          simp [Says, OpSays]
  | scalar y =>
    simp only [parseViewSpecs, parseView, bind_ok] at hspecs
    obtain ⟨s, hs, hspecs⟩ := hspecs
    injection hspecs with hspecs; subst hspecs
    split at hs
    · injection hs with hs; subst hs
      cases hrows with
      | cons h1 h2 =>
        cases h2
        obtain ⟨t1, e1, i1⟩ := step _ _ h1
        simp only at e1; subst e1
        simp only [List.mem_cons, List.not_mem_nil, or_false, forall_eq, i1]
        simp [Says, OpSays]
    · cases hs
  | spec op y =>
    simp only [parseViewSpecs, parseView, bind_ok] at hspecs
    obtain ⟨s, hs, hspecs⟩ := hspecs
    injection hspecs with hspecs; subst hspecs
    split at hs
    · injection hs with hs; subst hs
      cases hrows with
      | cons h1 h2 =>
        cases h2
        obtain ⟨t1, e1, i1⟩ := step _ _ h1
        simp only at e1; subst e1
        simp only [List.mem_cons, List.not_mem_nil, or_false, forall_eq, i1]
        cases op <;> simp [Says, OpSays]
    · cases hs
  | bad =>
    simp [parseViewSpecs, parseView, bind, Except.bind] at hspecs

theorem forall₂_meets {α : Type} {f : α → Except PyErr (Rows S)} {l : List α} {rows : List (Rows S)} {q : Fin S → ℝ}
    {P : α → Prop} (h : List.Forall₂ (fun a b => f a = .ok b) l rows)
    (hP : ∀ a ∈ l, ∀ b, f a = .ok b → (MeetsRows b q ↔ P a)) : (∀ r ∈ rows, MeetsRows r q) ↔ ∀ a ∈ l, P a := by
  induction h with
  | nil => simp
  | cons h1 _ ih =>
    simp only [List.mem_cons, forall_eq_or_imp]
    rw [hP _ (by simp) _ h1, ih (fun a ha => hP a (List.mem_cons_of_mem _ ha))]

theorem build_meets {α : Type} {f : α → Except PyErr (Rows S)} {l : List α} {r : Rows S} {q : Fin S → ℝ}
    {P : α → Prop} (h : (do let l ← mapE f l; Except.ok (Rows.concat l)) = .ok r)
    (hP : ∀ a ∈ l, ∀ b, f a = .ok b → (MeetsRows b q ↔ P a)) : MeetsRows r q ↔ ∀ a ∈ l, P a := by
  rw [bind_ok] at h
  obtain ⟨rows, hr, h⟩ := h
  injection h with h; subst h
  rw [meets_concat]
  exact forall₂_meets (mapE_ok.mp hr) hP

theorem sum_eq_expect (q x : Fin S → ℝ) : ∑ s, x s * q s = expect q x := by
  unfold expect; apply Finset.sum_congr rfl; intro s _; ring

theorem second_moment {q : Fin S → ℝ} (hq : ∑ s, q s = 1) (R : Fin S → Fin N → ℝ) (i : Fin N) :
    ∑ s, R s i ^ 2 * q s = varAt q R i + meanAt q R i ^ 2 := by
  have hm : ∑ s, q s * R s i = meanAt q R i := rfl
  unfold varAt expect
  have : ∀ s, q s * (R s i - meanAt q R i) ^ 2 =
      R s i ^ 2 * q s - 2 * meanAt q R i * (q s * R s i) + meanAt q R i ^ 2 * q s := fun s => by ring
  simp only [this, Finset.sum_add_distrib, Finset.sum_sub_distrib, ← Finset.mul_sum, hq, hm]
  ring

theorem third_moment {q : Fin S → ℝ} (hq : ∑ s, q s = 1) (R : Fin S → Fin N → ℝ) (i : Fin N) :
    ∑ s, R s i ^ 3 * q s = expect q (fun s => (R s i - meanAt q R i) ^ 3) + 3 * meanAt q R i * varAt q R i +
      meanAt q R i ^ 3 := by
  have hm : ∑ s, q s * R s i = meanAt q R i := rfl
  have h2 := second_moment hq R i
  unfold expect
  have : ∀ s, q s * (R s i - meanAt q R i) ^ 3 =
      R s i ^ 3 * q s - 3 * meanAt q R i * (R s i ^ 2 * q s) + 3 * meanAt q R i ^ 2 * (q s * R s i)
        - meanAt q R i ^ 3 * q s := fun s => by ring
  simp only [this, Finset.sum_add_distrib, Finset.sum_sub_distrib, ← Finset.mul_sum, hq, hm, h2]
  ring

theorem cross_moment {q : Fin S → ℝ} (hq : ∑ s, q s = 1) (R : Fin S → Fin N → ℝ) (i j : Fin N) :
    ∑ s, R s i * R s j * q s = expect q (fun s => (R s i - meanAt q R i) * (R s j - meanAt q R j)) +
      meanAt q R i * meanAt q R j := by
  have hm : ∀ i, ∑ s, q s * R s i = meanAt q R i := fun _ => rfl
  unfold expect
  have : ∀ s, q s * ((R s i - meanAt q R i) * (R s j - meanAt q R j)) =
      R s i * R s j * q s - meanAt q R i * (q s * R s j) - meanAt q R j * (q s * R s i)
        + meanAt q R i * meanAt q R j * q s := fun s => by ring
  simp only [this, Finset.sum_add_distrib, Finset.sum_sub_distrib, ← Finset.mul_sum, hq, hm]
  ring

theorem meanOf_eq (R : Fin S → Fin N → ℝ) (q : Fin S → ℝ) (i : Fin N) : meanOf R q i = meanAt q R i := by
  unfold meanOf meanAt; exact sum_eq_expect q (fun s => R s i)

theorem varOf_eq (R : Fin S → Fin N → ℝ) (q : Fin S → ℝ) (i : Fin N) : varOf R (meanOf R q) q i = varAt q R i := by
  unfold varOf varAt; rw [sum_eq_expect q (fun s => (R s i - meanOf R q i) ^ 2)]; simp only [meanOf_eq]

theorem opSays_add (op : Op) (x t c : ℝ) : OpSays op (x + c) (t + c) ↔ OpSays op x t := by
  unfold OpSays; cases op <;> simp

theorem opSays_mul (op : Op) (x t : ℝ) {c : ℝ} (hc : 0 < c) : OpSays op (x * c) (t * c) ↔ OpSays op x t := by
  unfold OpSays; cases op <;> simp [hc, hc.ne']

theorem opSays_sq (op : Op) {x t : ℝ} (hx : 0 ≤ x) (ht : 0 ≤ t) : OpSays op (x ^ 2) (t ^ 2) ↔ OpSays op x t := by
  unfold OpSays
  cases op <;> simp [pow_left_inj₀ hx ht, pow_le_pow_iff_left₀ hx ht, pow_le_pow_iff_left₀ ht hx]

theorem buildMean_meets {assets : Fin N → Label} (ha : Function.Injective assets) {R : Fin S → Fin N → ℝ}
    {views : List (MKey × ViewVal)} {r : Rows S} {q : Fin S → ℝ} (h : buildMean assets R views = .ok r) :
    MeetsRows r q ↔ ∀ kv ∈ views, MeanHolds assets R q kv := by
  unfold buildMean at h
  refine build_meets h (fun kv _ b hb => ?_)
  obtain ⟨k, v⟩ := kv
  rw [bind_ok] at hb
  obtain ⟨row, hrow, hb⟩ := hb
  cases k with
  | single a =>
    simp only [meanRow, bind_ok] at hrow
    obtain ⟨i, hi, hrow⟩ := hrow
    injection hrow with hrow; subst hrow
    have hi' := assetIdx_ok hi
    rw [meets_viewRows (x := meanAt q R i) hb]
    · constructor
      · intro hs; exact ⟨i, hi', hs⟩
      · rintro ⟨j, hj, hs⟩; rw [names_unique ha hi' hj]; exact hs
    · intro op t raw hr
      injection hr with hr; subst hr
      rw [sum_eq_expect q (fun s => R s i)]; rfl
  | pair a c =>
    simp only [meanRow, bind_ok] at hrow
    obtain ⟨i, hi, j, hj, hrow⟩ := hrow
    injection hrow with hrow; subst hrow
    have hi' := assetIdx_ok hi
    have hj' := assetIdx_ok hj
    rw [meets_viewRows (x := meanAt q R i - meanAt q R j) hb]
    · constructor
      · intro hs; exact ⟨i, j, hi', hj', hs⟩
      · rintro ⟨i2, j2, hi2, hj2, hs⟩
        rw [names_unique ha hi' hi2, names_unique ha hj' hj2]; exact hs
    · intro op t raw hr
      injection hr with hr; subst hr
      have : ∑ s, (R s i - R s j) * q s = meanAt q R i - meanAt q R j := by
        unfold meanAt
        rw [← sum_eq_expect, ← sum_eq_expect, ← Finset.sum_sub_distrib]
        apply Finset.sum_congr rfl; intro s _; ring
      rw [this]

/-- Common shape of the single-asset moment blocks. -/
theorem single_meets {assets : Fin N → Label} (ha : Function.Injective assets)
    {f : Label × ViewVal → Except PyErr (Rows S)} {g : Fin N → ViewVal → Except PyErr (Rows S)}
    (hf : ∀ kv, f kv = (do let i ← assetIdx assets kv.1; g i kv.2))
    {views : List (Label × ViewVal)} {r : Rows S} {q : Fin S → ℝ} {stat : Fin N → ℝ}
    (h : (do let l ← mapE f views; Except.ok (Rows.concat l)) = .ok r)
    (hg : ∀ kv ∈ views, ∀ i, Names assets kv.1 i → ∀ b, g i kv.2 = .ok b → (MeetsRows b q ↔ Says kv.2 (stat i))) :
    MeetsRows r q ↔ ∀ kv ∈ views, ∃ i, Names assets kv.1 i ∧ Says kv.2 (stat i) := by
  refine build_meets h (fun kv hkv b hb => ?_)
  rw [hf, bind_ok] at hb
  obtain ⟨i, hi, hb⟩ := hb
  have hi' := assetIdx_ok hi
  rw [hg kv hkv i hi' b hb]
  constructor
  · intro hs; exact ⟨i, hi', hs⟩
  · rintro ⟨j, hj, hs⟩; rw [names_unique ha hi' hj]; exact hs

theorem varAt_nonneg {q : Fin S → ℝ} (hq : ∀ s, 0 ≤ q s) (R : Fin S → Fin N → ℝ) (i : Fin N) : 0 ≤ varAt q R i := by
  unfold varAt expect
  exact Finset.sum_nonneg (fun s _ => mul_nonneg (hq s) (sq_nonneg _))

theorem buildVol_meets {assets : Fin N → Label} (ha : Function.Injective assets) {R : Fin S → Fin N → ℝ}
    {views : List (Label × ViewVal)} {r : Rows S} {q : Fin S → ℝ} {mu : Fin N → ℝ} (hq : IsProb q)
    (h : buildVol assets R mu views = .ok r)
    (hmu : ∀ kv ∈ views, ∀ i, Names assets kv.1 i → meanAt q R i = mu i) :
    MeetsRows r q ↔ ∀ kv ∈ views, VolHolds assets R q kv := by
  unfold buildVol at h
  refine single_meets (stat := fun i => Real.sqrt (varAt q R i))
    (g := fun i v => viewRows (fun s => R s i ^ 2)
      (fun t => if t ≤ 0 then .error .valueError else .ok (t ^ 2 + mu i ^ 2)) v) ha (fun kv => rfl) h ?_
  intro kv hkv i hi b hb
  refine meets_viewRows hb (fun op t raw hr => ?_)
  split at hr
  · cases hr
  · rename_i ht
    injection hr with hr; subst hr
    rw [second_moment hq.sum, hmu kv hkv i hi, opSays_add]
    have hv := varAt_nonneg hq.nonneg R i
    rw [← opSays_sq op (Real.sqrt_nonneg _) (not_le.mp ht).le, Real.sq_sqrt hv]

theorem buildVar_meets {assets : Fin N → Label} (ha : Function.Injective assets) {R : Fin S → Fin N → ℝ}
    {views : List (Label × ViewVal)} {r : Rows S} {q : Fin S → ℝ} {mu : Fin N → ℝ} (hq : IsProb q)
    (h : buildVar assets R mu views = .ok r)
    (hmu : ∀ kv ∈ views, ∀ i, Names assets kv.1 i → meanAt q R i = mu i) :
    MeetsRows r q ↔ ∀ kv ∈ views, VarHolds assets R q kv := by
  unfold buildVar at h
  refine single_meets (stat := fun i => varAt q R i)
    (g := fun i v => viewRows (fun s => R s i ^ 2)
      (fun t => if t < 0 then .error .valueError else .ok (t + mu i ^ 2)) v) ha (fun kv => rfl) h ?_
  intro kv hkv i hi b hb
  refine meets_viewRows hb (fun op t raw hr => ?_)
  split at hr
  · cases hr
  · injection hr with hr; subst hr
    rw [second_moment hq.sum, hmu kv hkv i hi, opSays_add]

theorem buildSkew_meets {assets : Fin N → Label} (ha : Function.Injective assets) {R : Fin S → Fin N → ℝ}
    {views : List (Label × ViewVal)} {r : Rows S} {q : Fin S → ℝ} {mu var : Fin N → ℝ} (hq : IsProb q)
    (h : buildSkew assets R mu var views = .ok r)
    (hmu : ∀ kv ∈ views, ∀ i, Names assets kv.1 i → meanAt q R i = mu i ∧ varAt q R i = var i) :
    MeetsRows r q ↔ ∀ kv ∈ views, SkewHolds assets R q kv := by
  unfold buildSkew at h
  refine single_meets (stat := fun i => skewAt q R i)
    (g := fun i v => if var i < 1 / 10 ^ 12 then .error .valueError
      else viewRows (fun s => R s i ^ 3)
        (fun t => .ok (t * Real.sqrt (var i) ^ 3 + 3 * mu i * var i + mu i ^ 3)) v) ha (fun kv => rfl) h ?_
  intro kv hkv i hi b hb
  split at hb
  · cases hb
  rename_i hvar
  refine meets_viewRows hb (fun op t raw hr => ?_)
  injection hr with hr; subst hr
  obtain ⟨h1, h2⟩ := hmu kv hkv i hi
  have hpos : 0 < Real.sqrt (var i) ^ 3 := by
    apply pow_pos; apply Real.sqrt_pos.mpr
    have : (0:ℝ) < 1 / 10 ^ 12 := by positivity
    linarith [not_lt.mp hvar]
  rw [third_moment hq.sum, h1, h2, opSays_add, opSays_add]
  rw [← opSays_mul op (skewAt q R i) t hpos]
  unfold skewAt
  rw [h2, h1, div_mul_cancel₀ _ hpos.ne']

theorem buildCorr_meets {assets : Fin N → Label} (ha : Function.Injective assets) {R : Fin S → Fin N → ℝ}
    {views : List ((Label × Label) × ViewVal)} {r : Rows S} {q : Fin S → ℝ} {mu var : Fin N → ℝ} (hq : IsProb q)
    (h : buildCorr assets R mu var views = .ok r)
    (hmu : ∀ kv ∈ views, ∀ i, (Names assets kv.1.1 i ∨ Names assets kv.1.2 i) →
      meanAt q R i = mu i ∧ varAt q R i = var i ∧ 0 < var i) :
    MeetsRows r q ↔ ∀ kv ∈ views, CorrHolds assets R q kv := by
  unfold buildCorr at h
  refine build_meets h (fun kv hkv b hb => ?_)
  rw [bind_ok] at hb
  obtain ⟨i, hi, hb⟩ := hb
  rw [bind_ok] at hb
  obtain ⟨j, hj, hb⟩ := hb
  have hi' := assetIdx_ok hi
  have hj' := assetIdx_ok hj
  obtain ⟨h1, h2, h3⟩ := hmu kv hkv i (Or.inl hi')
  obtain ⟨k1, k2, k3⟩ := hmu kv hkv j (Or.inr hj')
  rw [meets_viewRows (x := corrAt q R i j) hb]
  · constructor
    · intro hs; exact ⟨i, j, hi', hj', hs⟩
    · rintro ⟨i2, j2, hi2, hj2, hs⟩
      rw [names_unique ha hi' hi2, names_unique ha hj' hj2]; exact hs
  · intro op t raw hr
    split at hr
    · cases hr
    · injection hr with hr; subst hr
      have hpos : 0 < Real.sqrt (var i) * Real.sqrt (var j) :=
        mul_pos (Real.sqrt_pos.mpr h3) (Real.sqrt_pos.mpr k3)
      rw [cross_moment hq.sum, h1, k1, opSays_add, mul_assoc t, ← opSays_mul op (corrAt q R i j) t hpos]
      unfold corrAt
      rw [h2, k2, h1, k1, div_mul_cancel₀ _ hpos.ne']

theorem buildQuantile_meets {assets : Fin N → Label} (ha : Function.Injective assets) {R : Fin S → Fin N → ℝ}
    {views : List (Label × (ℝ × ViewVal))} {r : Rows S} {q : Fin S → ℝ} (h : buildQuantile assets R views = .ok r) :
    MeetsRows r q ↔ ∀ kv ∈ views, QuantileHolds assets R q kv := by
  unfold buildQuantile at h
  refine build_meets h (fun kv _ b hb => ?_)
  rw [bind_ok] at hb
  obtain ⟨i, hi, hb⟩ := hb
  have hi' := assetIdx_ok hi
  rw [meets_viewRows (x := prob q (fun s => R s i ≤ kv.2.1)) hb]
  · constructor
    · intro hs; exact ⟨i, hi', hs⟩
    · rintro ⟨j, hj, hs⟩; rw [names_unique ha hi' hj]; exact hs
  · intro op t raw hr
    split at hr
    · cases hr
    · injection hr with hr; subst hr
      have : ∑ s, (if R s i ≤ kv.2.1 then (1:ℝ) else 0) * q s = prob q (fun s => R s i ≤ kv.2.1) := by
        unfold prob; apply Finset.sum_congr rfl; intro s _; split <;> simp
      rw [this]

end PyV.FV
