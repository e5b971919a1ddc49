import Verif.Props.BlackLittermanApi
import Verif.Lemmas.Views
import Mathlib.Tactic

/-! # Property C166: what a label of a Black–Litterman view names -/

namespace PyV.Props

open PyV PyV.FV PyV.BL Matrix

variable {N : ℕ}

/-- What a view may call asset number `i`: its label; if no asset has that label, its position; and a string of digits stands for the
number it spells, as a label first and as a position otherwise. -/
def BlNames (assets : Fin N → Label) (key : Label) (i : Fin N) : Prop :=
  assets i = key ∨ ((∀ j, assets j ≠ key) ∧ (key = .int (i : ℕ) ∨
    ∃ s k, key = .str s ∧ digits? s = some k ∧ (assets i = .int k ∨ ((∀ j, assets j ≠ .int k) ∧ k = (i : ℕ)))))

private theorem index_some {assets : Fin N → Label} (ha : Function.Injective assets) {key : Label} {i : Fin N} :
    indexOf assets key = some i ↔ assets i = key := by
  constructor
  · exact fun h => indexOf_some h
  · intro h
    cases hf : indexOf assets key with
    | none => exact absurd h (indexOf_none hf i)
    | some j => rw [ha ((indexOf_some hf).trans h.symm)]

private theorem index_none {assets : Fin N → Label} {key : Label} : indexOf assets key = none ↔ ∀ j, assets j ≠ key := by
  constructor
  · exact fun h j => indexOf_none h j
  · intro h
    cases hf : indexOf assets key with
    | none => rfl
    | some j => exact absurd (indexOf_some hf) (h j)

private theorem position {k : ℤ} {i : Fin N} :
    (if h : 0 ≤ k ∧ k < N then (.ok ⟨k.toNat, by omega⟩ : Except PyErr (Fin N)) else .error .valueError) = .ok i ↔ k = (i : ℕ) := by
  by_cases h : 0 ≤ k ∧ k < N
  · rw [dif_pos h]
    constructor
    · intro e; injection e with e; subst e; simp [h.1]
    · intro e; congr 1; apply Fin.ext; simp [e]
  · rw [dif_neg h]
    constructor
    · intro e; cases e
    · intro e; exact absurd ⟨by omega, by have := i.isLt; omega⟩ h

private theorem position_error {k : ℤ} {e : PyErr}
    (h : (if h : 0 ≤ k ∧ k < N then (.ok ⟨k.toNat, by omega⟩ : Except PyErr (Fin N)) else .error .valueError) = .error e) :
    e = .valueError := by
  split at h
  · cases h
  · injection h with h; exact h.symm

/-- **C166** (labels) With distinct labels, a label of a view is resolved to asset `i` exactly when it names asset `i`; a label that names no
asset is a `ValueError`; and no label names two assets. -/
theorem C166_labels {assets : Fin N → Label} (ha : Function.Injective assets) (key : Label) :
    (∀ i, assetIndex assets key = .ok i ↔ BlNames assets key i) ∧
    ((∀ i, ¬ BlNames assets key i) → assetIndex assets key = .error .valueError) ∧
    ∀ i j, BlNames assets key i → BlNames assets key j → i = j := by
  have h1 : ∀ i, assetIndex assets key = .ok i ↔ BlNames assets key i := by
    intro i
    unfold assetIndex BlNames
    cases hf : indexOf assets key with
    | some j =>
      have hj := (index_some ha).mp hf
      simp only [Except.ok.injEq]
      constructor
      · rintro rfl; exact Or.inl hj
      · rintro (h | ⟨h, -⟩)
        · exact ha (hj.trans h.symm)
        · exact absurd hj (h j)
    | none =>
      have hn := index_none.mp hf
      simp only [hn i, false_or, hn, ne_eq, not_false_iff, implies_true, true_and]
      cases key with
      | int k =>
        simp only
        rw [position]
        constructor
        · rintro rfl; exact Or.inl rfl
        · rintro (h | ⟨s, k', h, -⟩)
          · injection h
          · cases h
      | str s =>
        simp only
        cases hd : digits? s with
        | none =>
          simp only
          constructor
          · intro h; cases h
          · rintro (h | ⟨s', k, h, hk, -⟩)
            · cases h
            · injection h with h; subst h; rw [hd] at hk; cases hk
        | some k =>
          simp only
          have hred : (((Label.str s) = .int ((i : ℕ) : ℤ)) ∨ ∃ s' k', Label.str s = .str s' ∧ digits? s' = some k' ∧
              (assets i = .int k' ∨ ((∀ j, assets j ≠ .int k') ∧ k' = ((i : ℕ) : ℤ)))) ↔
              (assets i = .int k ∨ ((∀ j, assets j ≠ .int k) ∧ k = ((i : ℕ) : ℤ))) := by
            constructor
            · rintro (h | ⟨s', k', h, hk, h2⟩)
              · cases h
              · injection h with h; subst h
                rw [hd] at hk; injection hk with hk; subst hk; exact h2
            · exact fun h => Or.inr ⟨s, k, rfl, hd, h⟩
          refine Iff.trans ?_ hred.symm
          cases hg : indexOf assets (.int k) with
          | some j =>
            have hj := (index_some ha).mp hg
            simp only [Except.ok.injEq]
            constructor
            · rintro rfl; exact Or.inl hj
            · rintro (h | ⟨h, -⟩)
              · exact ha (hj.trans h.symm)
              · exact absurd hj (h j)
          | none =>
            have hn' := index_none.mp hg
            simp only
            rw [position]
            exact ⟨fun h => Or.inr ⟨hn', h⟩, fun h => h.elim (fun h => absurd h (hn' i)) And.right⟩
  refine ⟨h1, fun hno => ?_, fun i j hi hj => ?_⟩
  · cases hr : assetIndex assets key with
    | ok i => exact absurd ((h1 i).mp hr) (hno i)
    | error e =>
      congr 1
      unfold assetIndex at hr
      cases hf : indexOf assets key with
      | some j => rw [hf] at hr; cases hr
      | none =>
        rw [hf] at hr
        cases key with
        | int k => exact position_error hr
        | str s =>
          simp only at hr
          cases hd : digits? s with
          | none => rw [hd] at hr; injection hr with hr; exact hr.symm
          | some k =>
            rw [hd] at hr
            simp only at hr
            cases hg : indexOf assets (.int k) with
            | some j => rw [hg] at hr; cases hr
            | none => rw [hg] at hr; exact position_error hr
  · have := ((h1 i).mpr hi).symm.trans ((h1 j).mpr hj)
    injection this

/-- **C166** (views) Applied to a mean vector, the row of a view gives the mean of the asset its label names, or the difference of the means
of the two distinct assets its labels name. -/
theorem C166_rows {assets : Fin N → Label} (ha : Function.Injective assets) (m : Fin N → ℝ) :
    (∀ a i, BlNames assets a i → ∃ row, pickRow assets (.single a) = .ok row ∧ row ⬝ᵥ m = m i) ∧
    ∀ a b i j, BlNames assets a i → BlNames assets b j → i ≠ j → ∃ row, pickRow assets (.pair a b) = .ok row ∧ row ⬝ᵥ m = m i - m j := by
  have hidx : ∀ {key i}, BlNames assets key i → assetIndex assets key = .ok i := fun {key i} h => ((C166_labels ha key).1 i).mpr h
  constructor
  · intro a i h
    have hr : pickRow assets (.single a) = .ok (Function.update (fun _ => 0) i 1) := by
      simp [pickRow, hidx h, bind, Except.bind]
    obtain ⟨i', hi', e⟩ := (C34_pick_matrix_partial (assets := assets) m).1 a _ hr
    rw [hidx h] at hi'; injection hi' with hi'; subst hi'
    exact ⟨_, hr, e⟩
  · intro a b i j h h' hij
    have hr : pickRow assets (.pair a b) = .ok (Function.update (Function.update (fun _ => 0) i 1) j (-1)) := by
      simp [pickRow, hidx h, hidx h', bind, Except.bind]
    obtain ⟨i', j', hi', hj', e⟩ := (C34_pick_matrix_partial (assets := assets) m).2.1 a b _ hr
    rw [hidx h] at hi'; injection hi' with hi'; subst hi'
    rw [hidx h'] at hj'; injection hj' with hj'; subst hj'
    exact ⟨_, hr, e hij⟩

/-- **C166** (labels in force) The assets of a prior covariance given as a DataFrame carry its row labels; those of an array are numbered
from zero, so that the number `k` names asset `k` and nothing else does, except a string of digits spelling it. -/
theorem C166_assets (x : Inputs) :
    (∀ l, x.labels = some l → x.assets = l) ∧
    (x.labels = none → Function.Injective x.assets ∧ ∀ key i, BlNames x.assets key i ↔ key = .int ((i : ℕ) : ℤ) ∨
      ∃ s, key = .str s ∧ digits? s = some ((i : ℕ) : ℤ)) := by
  constructor
  · intro l h
    unfold Inputs.assets
    rw [h]; rfl
  · intro h
    have he : ∀ i, x.assets i = .int ((i : ℕ) : ℤ) := by
      intro i; unfold Inputs.assets; rw [h]; rfl
    refine ⟨fun i j hij => ?_, fun key i => ?_⟩
    · rw [he, he] at hij
      injection hij with hij
      exact Fin.ext (by exact_mod_cast hij)
    · unfold BlNames
      constructor
      · rintro (h | ⟨h, h' | ⟨s, k, rfl, hk, h' | ⟨-, rfl⟩⟩⟩)
        · left; rw [← h, he]
        · exact Or.inl h'
        · rw [he] at h'; injection h' with h'; subst h'
          exact Or.inr ⟨s, rfl, hk⟩
        · exact Or.inr ⟨s, rfl, hk⟩
      · rintro (rfl | ⟨s, rfl, hk⟩)
        · exact Or.inl (he i)
        · refine Or.inr ⟨fun j hj => ?_, Or.inr ⟨s, _, rfl, hk, Or.inl (he i)⟩⟩
          rw [he] at hj; cases hj

/-- Integer labels win over positions: with assets labelled 1 and 0, the view on `0` is about the second asset. -/
example : BlNames (![.int 1, .int 0] : Fin 2 → Label) (.int 0) 1 ∧ ¬ BlNames (![.int 1, .int 0] : Fin 2 → Label) (.int 0) 0 := by
  refine ⟨Or.inl rfl, ?_⟩
  rintro (h | ⟨h, -⟩)
  · simp at h
  · exact h 1 rfl

end PyV.Props
