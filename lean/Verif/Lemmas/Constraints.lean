import Verif.Spec.Constraints
import Mathlib.Algebra.BigOperators.Ring.Finset
import Mathlib.Algebra.Order.BigOperators.Group.Finset
import Mathlib.Tactic.Linarith

set_option linter.unusedSectionVars false

/-! Row-by-row meaning of the constraint blocks. -/

namespace PyV.Con

open PyV PyV.Spec.Con

theorem mapE_ok {α β : Type*} {f : α → Except PyErr β} {l : List α} {r : List β} :
    mapE f l = .ok r ↔ List.Forall₂ (fun a b => f a = .ok b) l r := by
  induction l generalizing r with
  | nil => simp [mapE, eq_comm]
  | cons a l ih =>
    cases r with
    | nil =>
      simp only [mapE]
      split
      · simp
      · split <;> simp
    | cons b bs =>
      simp only [mapE, List.forall₂_cons]
      split
      · rename_i e he; simp [he]
      · rename_i b' hb
        split
        · rename_i e he
          have : ¬ List.Forall₂ (fun a b => f a = .ok b) l bs := by
            rw [← ih, he]; simp
          simp [this]
        · rename_i bs' hbs
          rw [← ih, hbs, hb]
          simp

theorem mapE_isOk {α β : Type*} {f : α → Except PyErr β} {l : List α} :
    (∃ r, mapE f l = .ok r) ↔ ∀ a ∈ l, ∃ b, f a = .ok b := by
  constructor
  · rintro ⟨r, h⟩ a ha
    rw [mapE_ok] at h
    induction h with
    | nil => simp at ha
    | cons hab _ ih =>
      rcases List.mem_cons.mp ha with rfl | h
      · exact ⟨_, hab⟩
      · exact ih h
  · intro h
    induction l with
    | nil => exact ⟨[], rfl⟩
    | cons a l ih =>
      obtain ⟨b, hb⟩ := h a (by simp)
      obtain ⟨bs, hbs⟩ := ih (fun x hx => h x (by simp [hx]))
      exact ⟨b :: bs, by simp [mapE, hb, hbs]⟩

variable {K : Type*} [Field K] [LinearOrder K] [IsStrictOrderedRing K]

/-- Rows of a block, related to `w` by `R`. -/
def Block.Sat {n : ℕ} (R : K → K → Prop) (b : Block n K) (w : Fin n → K) : Prop :=
  List.Forall₂ (fun row r => R (∑ i, row i * w i) r) b.rows b.rhs

def Block.Aligned {n : ℕ} (b : Block n K) : Prop := b.rows.length = b.rhs.length

theorem forall₂_append_iff {α β : Type*} {R : α → β → Prop} {a b : List α} {c d : List β}
    (h : a.length = c.length) :
    List.Forall₂ R (a ++ b) (c ++ d) ↔ List.Forall₂ R a c ∧ List.Forall₂ R b d := by
  induction a generalizing c with
  | nil => cases c with
    | nil => simp
    | cons => simp at h
  | cons x a ih => cases c with
    | nil => simp at h
    | cons y c =>
      simp only [List.cons_append, List.forall₂_cons]
      rw [ih (by simpa using h), and_assoc]

variable {n : ℕ}

theorem Block.sat_append {R : K → K → Prop} {a b : Block n K} (h : a.Aligned) (w : Fin n → K) :
    (a.append b).Sat R w ↔ a.Sat R w ∧ b.Sat R w := forall₂_append_iff h

theorem Block.aligned_append {a b : Block n K} (h : a.Aligned) (h' : b.Aligned) : (a.append b).Aligned := by
  unfold Block.Aligned Block.append at *
  simp [h, h']

theorem Block.aligned_join {l : List (Block n K)} (h : ∀ b ∈ l, b.Aligned) : (Block.join l).Aligned := by
  induction l with
  | nil => rfl
  | cons a l ih => exact Block.aligned_append (h a (by simp)) (ih fun b hb => h b (by simp [hb]))

theorem Block.sat_join {R : K → K → Prop} {l : List (Block n K)} (h : ∀ b ∈ l, b.Aligned) (w : Fin n → K) :
    (Block.join l).Sat R w ↔ ∀ b ∈ l, b.Sat R w := by
  induction l with
  | nil => simp [Block.join, Block.Sat]
  | cons a l ih =>
    have : Block.join (a :: l) = a.append (Block.join l) := rfl
    rw [this, Block.sat_append (h a (by simp)), ih (fun b hb => h b (by simp [hb]))]
    simp

/-- Meaning of a loop: all entries aligned and each entry's block equivalent to `P`. -/
theorem joinE_spec {α : Type*} {f : α → Except PyErr (Block n K)} {l : List α} {B : Block n K}
    {R : K → K → Prop} {P : α → (Fin n → K) → Prop}
    (hf : ∀ a ∈ l, ∀ b, f a = .ok b → b.Aligned ∧ ∀ w, b.Sat R w ↔ P a w)
    (h : joinE (mapE f l) = .ok B) : B.Aligned ∧ ∀ w, B.Sat R w ↔ ∀ a ∈ l, P a w := by
  unfold joinE at h
  split at h
  · cases h
  · rename_i bs hbs
    injection h with h
    subst h
    rw [mapE_ok] at hbs
    have hal : ∀ b ∈ bs, b.Aligned := by
      intro b hb
      obtain ⟨a, ha, hab⟩ : ∃ a ∈ l, f a = .ok b := by
        clear hf
        induction hbs with
        | nil => simp at hb
        | cons hab _ ih =>
          rcases List.mem_cons.mp hb with rfl | h
          · exact ⟨_, by simp, hab⟩
          · obtain ⟨a, ha, e⟩ := ih h; exact ⟨a, by simp [ha], e⟩
      exact (hf a ha b hab).1
    refine ⟨Block.aligned_join hal, fun w => ?_⟩
    rw [Block.sat_join hal]
    clear hal
    induction hbs with
    | nil => simp
    | @cons a b l' bs' hab _ ih =>
      have h1 := (hf a (by simp) b hab).2 w
      have h2 := ih (fun x hx => hf x (by simp [hx]))
      simp only [List.forall_mem_cons, h1, h2]

theorem joinE_isOk {α : Type*} {f : α → Except PyErr (Block n K)} {l : List α} :
    (∃ B, joinE (mapE f l) = .ok B) ↔ ∀ a ∈ l, ∃ b, f a = .ok b := by
  rw [← mapE_isOk]
  unfold joinE
  constructor
  · rintro ⟨B, h⟩
    split at h
    · cases h
    · rename_i r hr; exact ⟨r, hr⟩
  · rintro ⟨r, h⟩
    rw [h]; exact ⟨_, rfl⟩

theorem checkNumber_ok {x : PyFloat K} {v : K} : checkNumber x = .ok v ↔ x = .fin v := by
  cases x <;> simp [checkNumber]

theorem checkOpt_ok {x : Option (PyFloat K)} {v : Option K} :
    checkOpt x = .ok v ↔ x = v.map .fin := by
  cases x with
  | none => cases v <;> simp [checkOpt]
  | some x => cases x <;> cases v <;> simp [checkOpt, checkNumber]

theorem checkOpt_isOk {x : Option (PyFloat K)} : (∃ v, checkOpt x = .ok v) ↔ FinOpt x := by
  unfold FinOpt Fin'
  cases x with
  | none => simp [checkOpt]
  | some x => cases x <;> simp [checkOpt, checkNumber]

theorem checkPair_ok {lo hi : Option (PyFloat K)} {l u : Option K} :
    checkPair lo hi = .ok (l, u) ↔ lo = l.map .fin ∧ hi = u.map .fin ∧
      ∀ a b, l = some a → u = some b → a ≤ b := by
  unfold checkPair
  split
  · rename_i e he
    have : ¬ lo = l.map .fin := fun h => by rw [checkOpt_ok.mpr h] at he; cases he
    simp [this]
  · rename_i l' hl
    have hl' := checkOpt_ok.mp hl
    split
    · rename_i e he
      have : ¬ hi = u.map .fin := fun h => by rw [checkOpt_ok.mpr h] at he; cases he
      simp [this]
    · rename_i u' hu
      have hu' := checkOpt_ok.mp hu
      subst hl' hu'
      have inj : Function.Injective (Option.map (PyFloat.fin : K → PyFloat K)) :=
        Option.map_injective (fun a b h => by injection h)
      rw [inj.eq_iff, inj.eq_iff]
      rcases l' with _ | a <;> rcases u' with _ | b
      · simp only [Except.ok.injEq, Prod.mk.injEq]
        constructor
        · rintro ⟨rfl, rfl⟩; simp
        · rintro ⟨rfl, rfl, -⟩; simp
      · simp only [Except.ok.injEq, Prod.mk.injEq]
        constructor
        · rintro ⟨rfl, rfl⟩; simp
        · rintro ⟨rfl, rfl, -⟩; simp
      · simp only [Except.ok.injEq, Prod.mk.injEq]
        constructor
        · rintro ⟨rfl, rfl⟩; simp
        · rintro ⟨rfl, rfl, -⟩; simp
      · simp only
        split
        · rename_i hab
          constructor
          · intro h; cases h
          · rintro ⟨rfl, rfl, h⟩; exact absurd (h a b rfl rfl) (not_le.mpr hab)
        · rename_i hab
          simp only [Except.ok.injEq, Prod.mk.injEq]
          constructor
          · rintro ⟨rfl, rfl⟩
            refine ⟨rfl, rfl, fun x y hx hy => ?_⟩
            injection hx with hx; injection hy with hy; subst hx hy
            exact not_lt.mp hab
          · rintro ⟨rfl, rfl, -⟩; simp

theorem checkPair_isOk {lo hi : Option (PyFloat K)} : (∃ p, checkPair lo hi = .ok p) ↔ PairOK lo hi := by
  constructor
  · rintro ⟨⟨l, u⟩, h⟩
    obtain ⟨rfl, rfl, h3⟩ := checkPair_ok.mp h
    refine ⟨?_, ?_, ?_⟩
    · cases l <;> simp [FinOpt, Fin']
    · cases u <;> simp [FinOpt, Fin']
    · intro a b ha hb
      apply h3
      · cases l <;> simp_all
      · cases u <;> simp_all
  · rintro ⟨h1, h2, h3⟩
    obtain ⟨l, hl⟩ := checkOpt_isOk.mpr h1
    obtain ⟨u, hu⟩ := checkOpt_isOk.mpr h2
    rw [checkOpt_ok] at hl hu
    refine ⟨(l, u), checkPair_ok.mpr ⟨hl, hu, ?_⟩⟩
    rintro a b rfl rfl
    exact h3 a b (by simpa using hl) (by simpa using hu)

theorem sum_single_mul (w : Fin n → K) (i : Fin n) (s : K) :
    ∑ k, (Pi.single i s : Fin n → K) k * w k = s * w i := by
  rw [Finset.sum_eq_single i]
  · simp
  · intro b _ hb; simp [Pi.single_eq_of_ne hb]
  · simp

theorem sum_unitRow (w : Fin n → K) (i : Fin n) (s : K) :
    ∑ k, unitRow n (i : ℤ) s k * w k = s * w i := by
  unfold unitRow
  rw [Finset.sum_eq_single i]
  · simp
  · intro b _ hb
    have : ¬ ((b : ℕ) : ℤ) = ((i : ℕ) : ℤ) := fun h => hb (Fin.ext (by exact_mod_cast h))
    simp [this]
  · simp

theorem eye_sat {R : K → K → Prop} (s r : K) (w : Fin n → K) :
    Block.Sat R ⟨eyeRows n s, List.replicate n r⟩ w ↔ ∀ i, R (s * w i) r := by
  unfold Block.Sat eyeRows
  simp only
  have h : List.replicate n r = (List.finRange n).map (fun _ => r) := by
    rw [List.map_const']; simp
  rw [h, List.forall₂_map_left_iff, List.forall₂_map_right_iff, List.forall₂_same]
  simp [sum_single_mul]

theorem eye_aligned (s r : K) : Block.Aligned (⟨eyeRows n s, List.replicate n r⟩ : Block n K) := by
  simp [Block.Aligned, eyeRows]

theorem nil_aligned : Block.Aligned (⟨[], []⟩ : Block n K) := rfl

theorem nil_sat {R : K → K → Prop} (w : Fin n → K) : Block.Sat R (⟨[], []⟩ : Block n K) w ↔ True := by
  simp [Block.Sat]

theorem longBlock_spec (lo : Bool) :
    (longBlock n lo : Block n K).Aligned ∧ ∀ w, (longBlock n lo : Block n K).Sat (· ≤ ·) w ↔
      (lo = true → ∀ i, 0 ≤ w i) := by
  unfold longBlock
  cases lo with
  | true =>
    simp only [if_true]
    refine ⟨eye_aligned _ _, fun w => ?_⟩
    rw [eye_sat]
    simp
  | false => simpa using ⟨nil_aligned, fun w => by rw [nil_sat]; trivial⟩

theorem pairBlock_spec (l u : Option K) :
    (pairBlock n l u).Aligned ∧ ∀ w, (pairBlock n l u).Sat (· ≤ ·) w ↔
      ∀ i, AtLeast (l.map .fin) (w i) ∧ AtMost (u.map .fin) (w i) := by
  unfold pairBlock
  have h1 : ∀ l : Option K, Block.Aligned (match l with
      | some a => ⟨eyeRows n (-1), List.replicate n (-a)⟩ | none => ⟨[], []⟩ : Block n K) ∧
      ∀ w, Block.Sat (· ≤ ·) (match l with
      | some a => ⟨eyeRows n (-1), List.replicate n (-a)⟩ | none => ⟨[], []⟩ : Block n K) w ↔
        ∀ i, AtLeast (l.map .fin) (w i) := by
    intro l
    cases l with
    | none => exact ⟨nil_aligned, fun w => by rw [nil_sat]; simp [AtLeast]⟩
    | some a =>
      refine ⟨eye_aligned _ _, fun w => ?_⟩
      simp only
      rw [eye_sat]
      simp [AtLeast]
  have h2 : ∀ u : Option K, Block.Aligned (match u with
      | some b => ⟨eyeRows n 1, List.replicate n b⟩ | none => ⟨[], []⟩ : Block n K) ∧
      ∀ w, Block.Sat (· ≤ ·) (match u with
      | some b => ⟨eyeRows n 1, List.replicate n b⟩ | none => ⟨[], []⟩ : Block n K) w ↔
        ∀ i, AtMost (u.map .fin) (w i) := by
    intro u
    cases u with
    | none => exact ⟨nil_aligned, fun w => by rw [nil_sat]; simp [AtMost]⟩
    | some a =>
      refine ⟨eye_aligned _ _, fun w => ?_⟩
      simp only
      rw [eye_sat]
      simp [AtMost]
  refine ⟨Block.aligned_append (h1 l).1 (h2 u).1, fun w => ?_⟩
  exact (Block.sat_append (h1 l).1 w).trans (by rw [forall_and]; exact and_congr ((h1 l).2 w) ((h2 u).2 w))

theorem assetBlock_spec (idx : ℤ) (hidx : 0 ≤ idx ∧ idx < n) (l u : Option K) :
    (assetBlock n idx l u).Aligned ∧ ∀ w, (assetBlock n idx l u).Sat (· ≤ ·) w ↔
      ∀ i : Fin n, (i : ℤ) = idx → AtLeast (l.map .fin) (w i) ∧ AtMost (u.map .fin) (w i) := by
  obtain ⟨i, hi⟩ : ∃ i : Fin n, (i : ℤ) = idx := by
    refine ⟨⟨idx.toNat, by omega⟩, ?_⟩
    simp [hidx.1]
  subst hi
  have e : ∀ (w : Fin n → K), (∀ j : Fin n, (j : ℤ) = (i : ℤ) →
      AtLeast (l.map .fin) (w j) ∧ AtMost (u.map .fin) (w j)) ↔
      AtLeast (l.map .fin) (w i) ∧ AtMost (u.map .fin) (w i) := by
    intro w
    constructor
    · intro h; exact h i rfl
    · intro h j hj
      have : j = i := Fin.ext (by exact_mod_cast hj)
      rw [this]; exact h
  unfold assetBlock
  constructor
  · apply Block.aligned_append
    · cases l <;> rfl
    · cases u <;> rfl
  · intro w
    rw [e, Block.sat_append (by cases l <;> rfl)]
    apply and_congr
    · cases l with
      | none => simp [Block.Sat, AtLeast]
      | some a => simp [Block.Sat, AtLeast, sum_unitRow]
    · cases u with
      | none => simp [Block.Sat, AtMost]
      | some a => simp [Block.Sat, AtMost, sum_unitRow]

theorem boundsBlock_spec {b : Option (Bounds K)} {B : Block n K} (h : boundsBlock n b = .ok B) :
    B.Aligned ∧ ∀ w, B.Sat (· ≤ ·) w ↔ InBounds w b := by
  unfold boundsBlock at h
  split at h
  · injection h with h; subst h
    exact ⟨nil_aligned, fun w => by rw [nil_sat]; simp [InBounds]⟩
  · rename_i lo hi
    split at h
    · cases h
    · rename_i l u hp
      injection h with h; subst h
      obtain ⟨rfl, rfl, -⟩ := checkPair_ok.mp hp
      exact pairBlock_spec l u
  · rename_i l
    refine joinE_spec (P := fun e w => ∀ i : Fin n, (i : ℤ) = e.1 → AtLeast e.2.1 (w i) ∧ AtMost e.2.2 (w i))
      ?_ h
    intro a _ blk hb
    unfold dictEntry at hb
    split at hb
    · cases hb
    · rename_i hr
      split at hb
      · cases hb
      · rename_i l u hp
        injection hb with hb; subst hb
        obtain ⟨h1, h2, -⟩ := checkPair_ok.mp hp
        rw [h1, h2]
        exact assetBlock_spec _ (not_not.mp hr) l u
  · rename_i l
    split at h
    · cases h
    · rename_i hlen
      have hlen' : l.length = n := not_not.mp hlen
      have := joinE_spec (R := (· ≤ ·)) (P := fun (e : (Option (PyFloat K) × Option (PyFloat K)) × ℕ) w =>
          ∀ i : Fin n, (i : ℤ) = (e.2 : ℤ) → AtLeast e.1.1 (w i) ∧ AtMost e.1.2 (w i)) (l := l.zipIdx) ?_ h
      · refine ⟨this.1, fun w => (this.2 w).trans ?_⟩
        unfold InBounds
        simp only
        constructor
        · intro hh i e he
          refine hh (e, (i : ℕ)) ?_ i rfl
          rw [List.mem_zipIdx_iff_getElem?]
          exact he
        · rintro hh ⟨e, k⟩ hek i hi
          rw [List.mem_zipIdx_iff_getElem?] at hek
          have hik : (i : ℕ) = k := by exact_mod_cast hi
          refine hh i e ?_
          rw [hik]; exact hek
      · rintro ⟨e, k⟩ hmem blk hb
        have hk : k < n := by
          rw [List.mem_zipIdx_iff_getElem?] at hmem
          have := (List.getElem?_eq_some_iff.mp hmem).1
          rw [← hlen']; exact this
        unfold seqEntry at hb
        split at hb
        · cases hb
        · rename_i l u hp
          injection hb with hb; subst hb
          obtain ⟨h1, h2, -⟩ := checkPair_ok.mp hp
          simp only at h1 h2 ⊢
          rw [h1, h2]
          exact assetBlock_spec _ ⟨by omega, by exact_mod_cast hk⟩ l u

theorem boundsBlock_isOk {b : Option (Bounds K)} : (∃ B, boundsBlock n b = .ok B) ↔ BoundsOK n b := by
  unfold boundsBlock
  rcases b with _ | b
  · simp [BoundsOK]
  · rcases b with ⟨lo, hi⟩ | l | l
    · simp only [BoundsOK]
      rw [← checkPair_isOk]
      constructor
      · rintro ⟨B, h⟩
        split at h
        · cases h
        · exact ⟨_, by assumption⟩
      · rintro ⟨⟨l, u⟩, h⟩
        rw [h]; exact ⟨_, rfl⟩
    · simp only [BoundsOK]
      rw [joinE_isOk]
      apply forall₂_congr
      intro e _
      rw [← checkPair_isOk]
      unfold dictEntry
      constructor
      · rintro ⟨B, h⟩
        split at h
        · cases h
        · rename_i hr
          split at h
          · cases h
          · exact ⟨not_not.mp hr, _, by assumption⟩
      · rintro ⟨hr, ⟨l, u⟩, h⟩
        rw [if_neg (not_not.mpr hr), h]; exact ⟨_, rfl⟩
    · simp only [BoundsOK]
      by_cases hlen : l.length = n
      · rw [if_neg (not_not.mpr hlen), joinE_isOk]
        simp only [hlen, true_and]
        constructor
        · intro h e he
          obtain ⟨k, hk⟩ := List.mem_iff_getElem?.mp he
          obtain ⟨B, hB⟩ := h (e, k) (List.mem_zipIdx_iff_getElem?.mpr hk)
          rw [← checkPair_isOk]
          unfold seqEntry at hB
          split at hB
          · cases hB
          · exact ⟨_, by assumption⟩
        · rintro h ⟨e, k⟩ hek
          have he : e ∈ l := List.mem_of_getElem? (List.mem_zipIdx_iff_getElem?.mp hek)
          obtain ⟨⟨lo, hi⟩, hp⟩ := checkPair_isOk.mpr (h e he)
          unfold seqEntry
          simp only
          rw [hp]; exact ⟨_, rfl⟩
      · rw [if_pos hlen]
        simp [hlen]

theorem relEntry_spec {e : ℤ × ℤ × PyFloat K} {b : Block n K} (h : relEntry n e = .ok b) :
    b.Aligned ∧ ∀ w, b.Sat (· ≤ ·) w ↔ ∀ k, e.2.2 = .fin k → ∀ i j : Fin n, (i : ℤ) = e.1 → (j : ℤ) = e.2.1 →
      w i - w j ≤ k := by
  unfold relEntry at h
  split at h
  · cases h
  · rename_i hr
    have hr := not_not.mp hr
    split at h
    · cases h
    · rename_i hne
      split at h
      · cases h
      · rename_i k hk
        injection h with h; subst h
        rw [checkNumber_ok] at hk
        refine ⟨rfl, fun w => ?_⟩
        obtain ⟨⟨h1, h2⟩, h3, h4⟩ := hr
        obtain ⟨a, ha⟩ : ∃ i : Fin n, (i : ℤ) = e.1 := ⟨⟨e.1.toNat, by omega⟩, by simp [h1]⟩
        obtain ⟨b, hb⟩ : ∃ i : Fin n, (i : ℤ) = e.2.1 := ⟨⟨e.2.1.toNat, by omega⟩, by simp [h3]⟩
        have hab : a ≠ b := fun h => hne (by rw [← ha, ← hb, h])
        have hsum : ∑ m : Fin n, (if (m : ℤ) = e.2.1 then (-1:K) else if (m : ℤ) = e.1 then 1 else 0) * w m
            = w a - w b := by
          rw [← ha, ← hb]
          have : ∀ m : Fin n, (if (m : ℤ) = (b : ℤ) then (-1:K) else if (m : ℤ) = (a : ℤ) then 1 else 0) * w m
              = (if m = a then w m else 0) - (if m = b then w m else 0) := by
            intro m
            have e1 : ((m : ℤ) = (b : ℤ)) ↔ m = b := by rw [Fin.ext_iff]; norm_cast
            have e2 : ((m : ℤ) = (a : ℤ)) ↔ m = a := by rw [Fin.ext_iff]; norm_cast
            simp only [e1, e2]
            by_cases hm : m = b
            · simp [hm, Ne.symm hab]
            · by_cases hm2 : m = a <;> simp [hm, hm2, hab]
          rw [Finset.sum_congr rfl (fun m _ => this m), Finset.sum_sub_distrib]
          simp
        simp only [Block.Sat, List.forall₂_cons, List.Forall₂.nil, and_true, hsum]
        constructor
        · intro hle k' hk' i j hi hj
          rw [hk] at hk'; injection hk' with hk'; subst hk'
          have : i = a := Fin.ext (by have := hi.trans ha.symm; exact_mod_cast this)
          have h2 : j = b := Fin.ext (by have := hj.trans hb.symm; exact_mod_cast this)
          rw [this, h2]; exact hle
        · intro hh; exact hh k hk a b ha hb

theorem relEntry_isOk {e : ℤ × ℤ × PyFloat K} : (∃ b, relEntry n e = .ok b) ↔
    ((0 ≤ e.1 ∧ e.1 < n) ∧ (0 ≤ e.2.1 ∧ e.2.1 < n) ∧ e.1 ≠ e.2.1 ∧ Fin' e.2.2) := by
  unfold relEntry Fin'
  constructor
  · rintro ⟨b, h⟩
    split at h
    · cases h
    · rename_i hr
      have hr := not_not.mp hr
      split at h
      · cases h
      · rename_i hne
        split at h
        · cases h
        · rename_i k hk
          exact ⟨hr.1, hr.2, hne, k, checkNumber_ok.mp hk⟩
  · rintro ⟨h1, h2, h3, v, h4⟩
    rw [if_neg (not_not.mpr ⟨h1, h2⟩), if_neg h3, checkNumber_ok.mpr h4]
    exact ⟨_, rfl⟩

theorem sum_group_mul (l : List ℤ) (s : K) (w : Fin n → K) :
    ∑ m : Fin n, (if (m : ℤ) ∈ l then s else 0) * w m = s * groupWeight l w := by
  unfold groupWeight
  rw [Finset.mul_sum]
  apply Finset.sum_congr rfl
  intro m _
  split <;> simp

theorem groupEntry_spec {e : String × List ℤ × PyFloat K × PyFloat K} {b : Block n K}
    (h : groupEntry n e = .ok b) :
    b.Aligned ∧ ∀ w, b.Sat (· ≤ ·) w ↔ ∀ lo hi, e.2.2.1 = .fin lo → e.2.2.2 = .fin hi →
      lo ≤ groupWeight e.2.1 w ∧ groupWeight e.2.1 w ≤ hi := by
  unfold groupEntry at h
  split at h
  · cases h
  · split at h
    · cases h
    · rename_i lo hlo
      split at h
      · cases h
      · rename_i hi hhi
        split at h
        · cases h
        · injection h with h; subst h
          rw [checkNumber_ok] at hlo hhi
          refine ⟨rfl, fun w => ?_⟩
          simp only [Block.Sat, List.forall₂_cons, List.Forall₂.nil, and_true, sum_group_mul]
          constructor
          · rintro ⟨h1, h2⟩ lo' hi' hlo' hhi'
            rw [hlo] at hlo'; rw [hhi] at hhi'
            injection hlo' with hlo'; injection hhi' with hhi'; subst hlo' hhi'
            constructor <;> linarith
          · intro hh
            obtain ⟨h1, h2⟩ := hh lo hi hlo hhi
            constructor <;> linarith

theorem groupEntry_isOk {e : String × List ℤ × PyFloat K × PyFloat K} : (∃ b, groupEntry n e = .ok b) ↔
    ((∀ i ∈ e.2.1, 0 ≤ i ∧ i < n) ∧ ∃ lo hi, e.2.2.1 = .fin lo ∧ e.2.2.2 = .fin hi ∧ lo ≤ hi) := by
  unfold groupEntry
  constructor
  · rintro ⟨b, h⟩
    split at h
    · cases h
    · rename_i hr
      split at h
      · cases h
      · rename_i lo hlo
        split at h
        · cases h
        · rename_i hi hhi
          split at h
          · cases h
          · rename_i hle
            exact ⟨not_not.mp hr, lo, hi, checkNumber_ok.mp hlo, checkNumber_ok.mp hhi, not_lt.mp hle⟩
  · rintro ⟨h1, lo, hi, h2, h3, h4⟩
    rw [if_neg (not_not.mpr h1), checkNumber_ok.mpr h2, checkNumber_ok.mpr h3]
    simp only
    rw [if_neg (not_lt.mpr h4)]
    exact ⟨_, rfl⟩

theorem rowEntry_spec {R : K → K → Prop} {e : List K × PyFloat K} {b : Block n K} (h : rowEntry n e = .ok b) :
    b.Aligned ∧ ∀ w, b.Sat R w ↔ ∀ r, e.2 = .fin r → R (∑ i : Fin n, e.1.getD i 0 * w i) r := by
  unfold rowEntry at h
  split at h
  · cases h
  · split at h
    · cases h
    · rename_i r hr
      injection h with h; subst h
      rw [checkNumber_ok] at hr
      refine ⟨rfl, fun w => ?_⟩
      simp only [Block.Sat, List.forall₂_cons, List.Forall₂.nil, and_true]
      constructor
      · intro hh r' hr'
        rw [hr] at hr'; injection hr' with hr'; subst hr'; exact hh
      · intro hh; exact hh r hr

theorem rowEntry_isOk {e : List K × PyFloat K} : (∃ b, rowEntry n e = .ok b) ↔ (e.1.length = n ∧ Fin' e.2) := by
  unfold rowEntry Fin'
  constructor
  · rintro ⟨b, h⟩
    split at h
    · cases h
    · rename_i hr
      split at h
      · cases h
      · rename_i r hk
        exact ⟨not_not.mp hr, r, checkNumber_ok.mp hk⟩
  · rintro ⟨h1, v, h2⟩
    rw [if_neg (not_not.mpr h1), checkNumber_ok.mpr h2]
    exact ⟨_, rfl⟩

theorem totalBlock_spec (t : Option K) : (totalBlock n t : Block n K).Aligned ∧ ∀ w,
    (totalBlock n t : Block n K).Sat (· = ·) w ↔ ∀ v, t.map PyFloat.fin = some (.fin v) → ∑ i, w i = v := by
  cases t with
  | none => exact ⟨rfl, fun w => by simp [totalBlock, Block.Sat]⟩
  | some v => exact ⟨rfl, fun w => by simp [totalBlock, Block.Sat]⟩

theorem orNone_getD {α : Type*} (keep : Bool) (l : List α) : (orNone keep l).getD [] = l := by
  unfold orNone
  cases l with
  | nil => cases keep <;> rfl
  | cons => rfl

/-- Everything `build` does on success. -/
theorem build_spec {nAssets : ℤ} {c : Spec K} {rn : Bool} {m : Matrices nAssets.toNat K}
    (h : build nAssets c rn = .ok m) :
    (∀ w, MatLe m.G m.h w ∧ MatEq m.A m.b w ↔ Satisfies c w) ∧
    (m.G.getD []).length = (m.h.getD []).length ∧ (m.A.getD []).length = (m.b.getD []).length ∧
    (rn = true → m.G ≠ some [] ∧ m.h ≠ some [] ∧ m.A ≠ some [] ∧ m.b ≠ some []) ∧
    (m.G = none ↔ m.h = none) ∧ (m.A = none ↔ m.b = none) := by
  unfold build at h
  split at h
  · cases h
  simp only at h
  split at h
  · cases h
  rename_i t ht
  split at h
  · cases h
  rename_i bb hbb
  split at h
  · cases h
  rename_i rb hrb
  split at h
  · cases h
  rename_i gb hgb
  split at h
  · cases h
  rename_i ib hib
  split at h
  · cases h
  rename_i eb heb
  injection h with h
  subst h
  have hl := longBlock_spec (K := K) (n := nAssets.toNat) c.longOnly
  have hB := boundsBlock_spec hbb
  have hR := joinE_spec (R := (· ≤ ·)) (fun a _ b hb => relEntry_spec (e := a) hb) hrb
  have hG := joinE_spec (R := (· ≤ ·)) (fun a _ b hb => groupEntry_spec (e := a) hb) hgb
  have hI := joinE_spec (R := (· ≤ ·)) (fun a _ b hb => rowEntry_spec (R := (· ≤ ·)) (e := a) hb) hib
  have hE := joinE_spec (R := (· = ·)) (fun a _ b hb => rowEntry_spec (R := (· = ·)) (e := a) hb) heb
  have hT := totalBlock_spec (K := K) (n := nAssets.toNat) t
  have hGI := Block.aligned_append hG.1 hI.1
  have hRGI := Block.aligned_append hR.1 hGI
  have hBRGI := Block.aligned_append hB.1 hRGI
  have hall := Block.aligned_append hl.1 hBRGI
  have hTE := Block.aligned_append hT.1 hE.1
  refine ⟨fun w => ?_, ?_, ?_, ?_, ?_, ?_⟩
  · have e1 : MatLe (orNone (!rn) ((longBlock nAssets.toNat c.longOnly).append
        (bb.append (rb.append (gb.append ib)))).rows) (orNone (!rn) ((longBlock nAssets.toNat c.longOnly).append
        (bb.append (rb.append (gb.append ib)))).rhs) w ↔
        Block.Sat (· ≤ ·) ((longBlock nAssets.toNat c.longOnly).append
        (bb.append (rb.append (gb.append ib)))) w := by
      unfold MatLe; rw [orNone_getD, orNone_getD]; rfl
    have e2 : MatEq (orNone (!rn) ((totalBlock nAssets.toNat t).append eb).rows)
        (orNone (!rn) ((totalBlock nAssets.toNat t).append eb).rhs) w ↔
        Block.Sat (· = ·) ((totalBlock nAssets.toNat t).append eb) w := by
      unfold MatEq; rw [orNone_getD, orNone_getD]; rfl
    simp only
    rw [e1, e2, Block.sat_append hl.1, Block.sat_append hB.1, Block.sat_append hR.1, Block.sat_append hG.1,
      Block.sat_append hT.1, hl.2, hB.2, hR.2, hG.2, hI.2, hT.2, hE.2]
    rw [checkOpt_ok] at ht
    rw [← ht]
    constructor
    · rintro ⟨⟨h1, h2, h3, h4, h5⟩, h6, h7⟩
      exact ⟨h1, h6, h2, h3, h4, h5, h7⟩
    · rintro ⟨h1, h6, h2, h3, h4, h5, h7⟩
      exact ⟨⟨h1, h2, h3, h4, h5⟩, h6, h7⟩
  · simp only [orNone_getD]; exact hall
  · simp only [orNone_getD]; exact hTE
  · rintro rfl
    have : ∀ {α : Type _} (l : List α), orNone (!true) l ≠ some [] := by
      intro α l
      unfold orNone
      cases l <;> simp
    exact ⟨this _, this _, this _, this _⟩
  · have : ∀ {α β : Type _} (l : List α) (l' : List β), l.length = l'.length →
        (orNone (!rn) l = none ↔ orNone (!rn) l' = none) := by
      intro α β l l' h
      unfold orNone
      cases l <;> cases l' <;> simp_all
    exact this _ _ hall
  · have : ∀ {α β : Type _} (l : List α) (l' : List β), l.length = l'.length →
        (orNone (!rn) l = none ↔ orNone (!rn) l' = none) := by
      intro α β l l' h
      unfold orNone
      cases l <;> cases l' <;> simp_all
    exact this _ _ hTE

/-- Without inequality rows the limits other than total weight and equality rows exclude nothing. -/
theorem rows_of_limited {nAssets : ℤ} {c : Spec K} {m : Matrices nAssets.toNat K} (h : build nAssets c = .ok m)
    (hl : Limited nAssets.toNat c) : m.G ≠ none := by
  intro hG
  obtain ⟨x, hx⟩ := hl
  apply hx
  have h0 : build nAssets { c with totalWeight := none, eqRows := [] } = .ok { m with A := none, b := none } := by
    unfold build at h ⊢
    split at h
    · cases h
    rename_i hn
    rw [if_neg hn]
    simp only at h ⊢
    split at h
    · cases h
    split at h
    · cases h
    rename_i bb hbb
    split at h
    · cases h
    rename_i rb hrb
    split at h
    · cases h
    rename_i gb hgb
    split at h
    · cases h
    rename_i ib hib
    split at h
    · cases h
    injection h with h
    subst h
    simp only [checkOpt, hbb, hrb, hgb, hib, mapE, joinE]
    rfl
  obtain ⟨h1, -, -, -, h5, -⟩ := build_spec h0
  refine (h1 x).1 ⟨?_, ?_⟩
  · have hh : m.h = none := h5.1 hG
    rw [MatLe, show ({ m with A := none, b := none } : Matrices nAssets.toNat K).G = none from hG,
      show ({ m with A := none, b := none } : Matrices nAssets.toNat K).h = none from hh]
    simp
  · rw [MatEq]; simp

theorem build_isOk {nAssets : ℤ} {c : Spec K} {rn : Bool} :
    (∃ m, build nAssets c rn = .ok m) ↔ Valid nAssets c := by
  unfold build
  by_cases hn : nAssets ≤ 0
  · rw [if_pos hn]
    constructor
    · rintro ⟨m, h⟩; cases h
    · intro h; exact absurd h.pos (not_lt.mpr hn)
  rw [if_neg hn]
  have hcast : ((nAssets.toNat : ℕ) : ℤ) = nAssets := Int.toNat_of_nonneg (by omega)
  have hlen : ∀ l : List K, l.length = nAssets.toNat ↔ (l.length : ℤ) = nAssets := by
    intro l; omega
  constructor
  · rintro ⟨m, h⟩
    simp only at h
    split at h
    · cases h
    rename_i t ht
    split at h
    · cases h
    rename_i bb hbb
    split at h
    · cases h
    rename_i rb hrb
    split at h
    · cases h
    rename_i gb hgb
    split at h
    · cases h
    rename_i ib hib
    split at h
    · cases h
    rename_i eb heb
    refine ⟨by omega, checkOpt_isOk.mp ⟨_, ht⟩, boundsBlock_isOk.mp ⟨_, hbb⟩, ?_, ?_, ?_, ?_⟩
    · intro e he
      have := relEntry_isOk.mp (joinE_isOk.mp ⟨_, hrb⟩ e he)
      rwa [hcast] at this
    · intro e he
      have := groupEntry_isOk.mp (joinE_isOk.mp ⟨_, hgb⟩ e he)
      rwa [hcast] at this
    · intro e he
      have := rowEntry_isOk.mp (joinE_isOk.mp ⟨_, hib⟩ e he)
      rwa [hlen] at this
    · intro e he
      have := rowEntry_isOk.mp (joinE_isOk.mp ⟨_, heb⟩ e he)
      rwa [hlen] at this
  · intro hv
    obtain ⟨t, ht⟩ := checkOpt_isOk.mpr hv.total
    obtain ⟨bb, hbb⟩ := boundsBlock_isOk.mpr hv.bounds
    obtain ⟨rb, hrb⟩ := (joinE_isOk (f := relEntry nAssets.toNat) (l := c.relative)).mpr
      (fun e he => relEntry_isOk.mpr (by rw [hcast]; exact hv.relative e he))
    obtain ⟨gb, hgb⟩ := (joinE_isOk (f := groupEntry nAssets.toNat) (l := c.groups)).mpr
      (fun e he => groupEntry_isOk.mpr (by rw [hcast]; exact hv.groups e he))
    obtain ⟨ib, hib⟩ := (joinE_isOk (f := rowEntry nAssets.toNat) (l := c.ineqRows)).mpr
      (fun e he => rowEntry_isOk.mpr (by rw [hlen]; exact hv.ineq e he))
    obtain ⟨eb, heb⟩ := (joinE_isOk (f := rowEntry nAssets.toNat) (l := c.eqRows)).mpr
      (fun e he => rowEntry_isOk.mpr (by rw [hlen]; exact hv.eq e he))
    simp only [ht, hbb, hrb, hgb, hib, heb]
    exact ⟨_, rfl⟩

end PyV.Con
