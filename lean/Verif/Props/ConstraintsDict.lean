import Verif.Model.ConstraintsDict
import Verif.Props.Constraints

/-!
# Constraints given as a dictionary (C139)
-/

namespace PyV.Props

open PyV PyV.Con PyV.Spec.Con

variable {K : Type*} [Field K] [LinearOrder K] [IsStrictOrderedRing K]

/-- What a dictionary of constraints means for a weight vector: long-only and fully invested unless the dictionary says otherwise,
plus every recognised item; unrecognised keys mean nothing. -/
structure DictMeans {n : ℕ} (d : List (Item K)) (w : Fin n → K) : Prop where
  long : Item.longOnly false ∉ d → ∀ i, 0 ≤ w i
  budget : (∀ t, Item.totalWeight t ∉ d) → ∑ i, w i = 1
  total : ∀ t, Item.totalWeight (some (.fin t)) ∈ d → ∑ i, w i = t
  bounds : ∀ b, Item.bounds b ∈ d → InBounds w b
  relative : ∀ l, Item.relative l ∈ d → ∀ e ∈ l, ∀ k, e.2.2 = .fin k → ∀ i j : Fin n, (i : ℤ) = e.1 → (j : ℤ) = e.2.1 →
    w i - w j ≤ k
  groups : ∀ l, Item.groups l ∈ d → ∀ e ∈ l, ∀ lo hi, e.2.2.1 = .fin lo → e.2.2.2 = .fin hi →
    lo ≤ groupWeight e.2.1 w ∧ groupWeight e.2.1 w ≤ hi
  ineq : ∀ l, Item.ineqRows l ∈ d → ∀ e ∈ l, ∀ r, e.2 = .fin r → ∑ i : Fin n, e.1.getD i 0 * w i ≤ r
  eq : ∀ l, Item.eqRows l ∈ d → ∀ e ∈ l, ∀ r, e.2 = .fin r → ∑ i : Fin n, e.1.getD i 0 * w i = r

/-- A field set by at most one item of the dictionary is that item's value, or its default. -/
theorem fold_field {α : Type*} (proj : Con.Spec K → α) (sel : Item K → Option α)
    (hset : ∀ c it, proj (setItem c it) = (sel it).getD (proj c)) (d : List (Item K))
    (hu : d.Pairwise (fun x y => sel x = none ∨ sel y = none)) (c : Con.Spec K) :
    (∀ it ∈ d, ∀ a, sel it = some a → proj (d.foldl setItem c) = a) ∧
      ((∀ it ∈ d, sel it = none) → proj (d.foldl setItem c) = proj c) := by
  induction d generalizing c with
  | nil => simp
  | cons x d ih =>
    rw [List.pairwise_cons] at hu
    obtain ⟨ih1, ih2⟩ := ih hu.2 (setItem c x)
    simp only [List.foldl_cons]
    constructor
    · intro it hit a ha
      rcases List.mem_cons.mp hit with rfl | hit
      · have : ∀ y ∈ d, sel y = none := by
          intro y hy
          rcases hu.1 y hy with h | h
          · rw [h] at ha; cases ha
          · exact h
        rw [ih2 this, hset, ha]
        rfl
      · exact ih1 it hit a ha
    · intro hn
      rw [ih2 (fun it hit => hn it (List.mem_cons_of_mem _ hit)), hset, hn x List.mem_cons_self]
      rfl

theorem pair_of_nodup {α : Type*} {d : List (Item K)} (hd : (d.map Item.key).Nodup) (sel : Item K → Option α) (k : String)
    (hk : ∀ it, sel it ≠ none → it.key = k) : d.Pairwise (fun x y => sel x = none ∨ sel y = none) := by
  have h1 : d.Pairwise (fun x y => x.key ≠ y.key) := List.pairwise_map.mp hd
  refine h1.imp (fun {x y} hne => ?_)
  by_contra hcon
  push Not at hcon
  exact hne ((hk x hcon.1).trans (hk y hcon.2).symm)

theorem field_of_nodup {α : Type*} {d : List (Item K)} (hd : (d.map Item.key).Nodup) (proj : Con.Spec K → α)
    (sel : Item K → Option α) (k : String) (hset : ∀ c it, proj (setItem c it) = (sel it).getD (proj c))
    (hk : ∀ it, sel it ≠ none → it.key = k) :
    (∀ it ∈ d, ∀ a, sel it = some a → proj (fromDict d) = a) ∧
      ((∀ it ∈ d, sel it = none) → proj (fromDict d) = proj defaultSpec) :=
  fold_field proj sel hset d (pair_of_nodup hd sel k hk) defaultSpec

/-- **C139** a dictionary of constraints with distinct keys (in any order) means what it says: when matrices are built, the portfolios
they admit are exactly those that satisfy every recognised item, long-only and fully invested unless overridden; unrecognised keys
are ignored. -/
theorem C139_dict (nAssets : ℤ) (d : List (Item K)) (hd : (d.map Item.key).Nodup)
    (m : Matrices nAssets.toNat K) (h : toMatrices nAssets (fromDict d) = .ok m) (w : Fin nAssets.toNat → K) :
    (MatLe m.G m.h w ∧ MatEq m.A m.b w) ↔ DictMeans d w := by
  unfold toMatrices at h
  rw [(C10_matrices_mean_spec nAssets (fromDict d) true m h).1 w]
  have f1 := field_of_nodup hd (·.longOnly) (fun it => match it with | .longOnly b => some b | _ => none) "long_only"
    (by intro c it; cases it <;> rfl) (by intro it h; cases it <;> simp_all [Item.key])
  have f2 := field_of_nodup hd (·.totalWeight) (fun it => match it with | .totalWeight b => some b | _ => none) "total_weight"
    (by intro c it; cases it <;> rfl) (by intro it h; cases it <;> simp_all [Item.key])
  have f3 := field_of_nodup hd (·.bounds) (fun it => match it with | .bounds b => some b | _ => none) "bounds"
    (by intro c it; cases it <;> rfl) (by intro it h; cases it <;> simp_all [Item.key])
  have f4 := field_of_nodup hd (·.relative) (fun it => match it with | .relative b => some b | _ => none) "relative_bounds"
    (by intro c it; cases it <;> rfl) (by intro it h; cases it <;> simp_all [Item.key])
  have f5 := field_of_nodup hd (·.groups) (fun it => match it with | .groups b => some b | _ => none) "group_constraints"
    (by intro c it; cases it <;> rfl) (by intro it h; cases it <;> simp_all [Item.key])
  have f6 := field_of_nodup hd (·.ineqRows) (fun it => match it with | .ineqRows b => some b | _ => none) "additional_G_h"
    (by intro c it; cases it <;> rfl) (by intro it h; cases it <;> simp_all [Item.key])
  have f7 := field_of_nodup hd (·.eqRows) (fun it => match it with | .eqRows b => some b | _ => none) "additional_A_b"
    (by intro c it; cases it <;> rfl) (by intro it h; cases it <;> simp_all [Item.key])
  constructor
  · intro hs
    refine ⟨?_, ?_, ?_, ?_, ?_, ?_, ?_, ?_⟩
    · intro hno
      apply hs.long
      by_cases hb : ∃ b, Item.longOnly b ∈ d
      · obtain ⟨b, hb⟩ := hb
        have h1 := f1.1 _ hb b rfl
        rw [h1]
        cases b with
        | true => rfl
        | false => exact absurd hb hno
      · push Not at hb
        rw [f1.2 (by intro it hit; cases it <;> first | rfl | exact absurd hit (hb _))]
        rfl
    · intro hno
      apply hs.total
      rw [f2.2 (by intro it hit; cases it <;> first | rfl | exact absurd hit (hno _))]
      rfl
    · intro t ht; exact hs.total t (f2.1 _ ht _ rfl)
    · intro b hb; have := hs.bounds; rwa [f3.1 _ hb _ rfl] at this
    · intro l hl e he; exact hs.relative e (by rw [f4.1 _ hl _ rfl]; exact he)
    · intro l hl e he; exact hs.groups e (by rw [f5.1 _ hl _ rfl]; exact he)
    · intro l hl e he; exact hs.ineq e (by rw [f6.1 _ hl _ rfl]; exact he)
    · intro l hl e he; exact hs.eq e (by rw [f7.1 _ hl _ rfl]; exact he)
  · intro hm
    refine ⟨?_, ?_, ?_, ?_, ?_, ?_, ?_⟩
    · intro hl
      apply hm.long
      intro hf
      have h1 := f1.1 _ hf _ rfl
      rw [h1] at hl
      cases hl
    · intro t ht
      by_cases hb : ∃ b, Item.totalWeight b ∈ d
      · obtain ⟨b, hb⟩ := hb
        have h1 := f2.1 _ hb b rfl
        rw [h1] at ht
        rw [ht] at hb
        exact hm.total t hb
      · push Not at hb
        have h1 := f2.2 (by intro it hit; cases it <;> first | rfl | exact absurd hit (hb _))
        simp only [defaultSpec] at h1
        rw [h1] at ht
        injection ht with ht
        injection ht with ht
        rw [← ht]
        exact hm.budget hb
    · by_cases hb : ∃ b, Item.bounds b ∈ d
      · obtain ⟨b, hb⟩ := hb
        have h1 := f3.1 _ hb b rfl
        rw [h1]
        exact hm.bounds b hb
      · push Not at hb
        have h1 := f3.2 (by intro it hit; cases it <;> first | rfl | exact absurd hit (hb _))
        simp only [defaultSpec] at h1
        rw [h1]
        trivial
    · by_cases hb : ∃ b, Item.relative b ∈ d
      · obtain ⟨b, hb⟩ := hb
        have h1 := f4.1 _ hb b rfl
        rw [h1]
        exact hm.relative b hb
      · push Not at hb
        have h1 := f4.2 (by intro it hit; cases it <;> first | rfl | exact absurd hit (hb _))
        simp only [defaultSpec] at h1
        rw [h1]
        simp
    · by_cases hb : ∃ b, Item.groups b ∈ d
      · obtain ⟨b, hb⟩ := hb
        have h1 := f5.1 _ hb b rfl
        rw [h1]
        exact hm.groups b hb
      · push Not at hb
        have h1 := f5.2 (by intro it hit; cases it <;> first | rfl | exact absurd hit (hb _))
        simp only [defaultSpec] at h1
        rw [h1]
        simp
    · by_cases hb : ∃ b, Item.ineqRows b ∈ d
      · obtain ⟨b, hb⟩ := hb
        have h1 := f6.1 _ hb b rfl
        rw [h1]
        exact hm.ineq b hb
      · push Not at hb
        have h1 := f6.2 (by intro it hit; cases it <;> first | rfl | exact absurd hit (hb _))
        simp only [defaultSpec] at h1
        rw [h1]
        simp
    · by_cases hb : ∃ b, Item.eqRows b ∈ d
      · obtain ⟨b, hb⟩ := hb
        have h1 := f7.1 _ hb b rfl
        rw [h1]
        exact hm.eq b hb
      · push Not at hb
        have h1 := f7.2 (by intro it hit; cases it <;> first | rfl | exact absurd hit (hb _))
        simp only [defaultSpec] at h1
        rw [h1]
        simp

/-- **C139** two dictionaries with the same items build the same constraints, whatever the order of their keys; adding an
unrecognised key changes nothing. -/
theorem C139_order (nAssets : ℤ) (d d' : List (Item K)) (hd : (d.map Item.key).Nodup) (hp : d.Perm d') (key : String) :
    toMatrices nAssets (fromDict d') = toMatrices nAssets (fromDict d) ∧
      toMatrices nAssets (fromDict (d ++ [.other key])) = toMatrices nAssets (fromDict d) := by
  constructor
  · unfold toMatrices fromDict
    rw [List.Perm.foldl_eq' hp.symm]
    intro x hx y hy c
    have hx' := hp.mem_iff.mpr hx
    have hy' := hp.mem_iff.mpr hy
    by_cases hxy : x = y
    · rw [hxy]
    · have hk : x.key ≠ y.key := fun h => hxy (List.inj_on_of_nodup_map hd hx' hy' h)
      cases x <;> cases y <;> first | rfl | exact absurd rfl hk
  · simp [toMatrices, fromDict, setItem]

/-- The default, `Constraints.from_dict({})`, is the documented one. -/
example : (fromDict [] : Con.Spec ℚ) = defaultSpec := rfl

/-- A cap, a budget override and a misspelt key, accepted for three assets. -/
example : (([.bounds (some (.pair (some (.fin 0)) (some (.fin (1/2))))), .totalWeight (some (.fin 2)), .other "longonly"] :
      List (Item ℚ)).map Item.key).Nodup ∧
    ∃ m, toMatrices 3 (fromDict ([.bounds (some (.pair (some (.fin 0)) (some (.fin (1/2))))), .totalWeight (some (.fin 2)),
      .other "longonly"] : List (Item ℚ))) = .ok m := by
  refine ⟨by decide, (C11_rejects_iff_invalid _ _ _).1.mpr ⟨by norm_num, ?_, ?_, ?_, ?_, ?_, ?_⟩⟩
  · intro y hy; simp [fromDict, setItem] at hy; exact ⟨2, hy.symm⟩
  · refine ⟨?_, ?_, ?_⟩
    · intro y hy; injection hy with hy; exact ⟨0, hy.symm⟩
    · intro y hy; injection hy with hy; exact ⟨1/2, hy.symm⟩
    · intro a b ha hb
      simp only [Option.some.injEq, PyFloat.fin.injEq] at ha hb
      rw [← ha, ← hb]; norm_num
  all_goals intro e he; simp [fromDict, setItem, defaultSpec] at he

end PyV.Props
