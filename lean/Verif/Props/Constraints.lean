import Verif.Lemmas.Constraints
import Mathlib.Tactic.NormNum
import Mathlib.Tactic.FinCases
import Mathlib.Data.Fin.VecNotation

set_option linter.unusedSectionVars false

/-! # Properties C10–C11: constraint matrices -/

namespace PyV.Props

open PyV PyV.Con PyV.Spec.Con

variable {K : Type*} [Field K] [LinearOrder K] [IsStrictOrderedRing K]

/-- A specification using every kind of constraint. -/
def exSpec : Con.Spec ℚ where
  longOnly := true
  totalWeight := some (.fin 1)
  bounds := some (.dict [(0, some (.fin (1/10)), none), (2, none, some (.fin (1/2)))])
  relative := [(0, 1, .fin (1/5))]
  groups := [("g", [0, 2, 2], .fin (3/10), .fin (8/10))]
  ineqRows := [([1, 1, 0], .fin (9/10))]
  eqRows := [([0, 1, -1], .fin 0)]

theorem exSpec_valid : Valid 3 exSpec := by
  refine ⟨by norm_num, ?_, ?_, ?_, ?_, ?_, ?_⟩
  · intro y hy; simp [exSpec] at hy; exact ⟨1, hy.symm⟩
  · intro e he
    simp at he
    rcases he with rfl | rfl
    · exact ⟨by simp, ⟨by intro y hy; injection hy with hy; exact ⟨_, hy.symm⟩, (by intro y hy; cases hy),
        (by intro a b _ hb; cases hb)⟩⟩
    · exact ⟨by simp, ⟨(by intro y hy; cases hy), by intro y hy; injection hy with hy; exact ⟨_, hy.symm⟩,
        (by intro a b ha; cases ha)⟩⟩
  · intro e he
    simp [exSpec] at he; subst he
    exact ⟨by norm_num, by norm_num, by norm_num, _, rfl⟩
  · intro e he
    simp [exSpec] at he; subst he
    refine ⟨?_, _, _, rfl, rfl, by norm_num⟩
    simp
  · intro e he
    simp [exSpec] at he; subst he
    exact ⟨by norm_num, _, rfl⟩
  · intro e he
    simp [exSpec] at he; subst he
    exact ⟨by norm_num, _, rfl⟩

/-- **C10** For every accepted specification, a weight vector satisfies `G w ≤ h`, `A w = b` exactly when it
satisfies the specification literally; rows and right-hand sides pair up; a missing matrix is returned as `None`
together with its right-hand side, and never as an empty array unless asked for. -/
theorem C10_matrices_mean_spec (nAssets : ℤ) (c : Con.Spec K) (rn : Bool) (m : Matrices nAssets.toNat K)
    (h : build nAssets c rn = .ok m) :
    (∀ w, (MatLe m.G m.h w ∧ MatEq m.A m.b w) ↔ Satisfies c w) ∧
    (m.G = none ↔ m.h = none) ∧ (m.A = none ↔ m.b = none) ∧
    (rn = true → m.G ≠ some [] ∧ m.h ≠ some [] ∧ m.A ≠ some [] ∧ m.b ≠ some []) := by
  obtain ⟨h1, -, -, h4, h5, h6⟩ := build_spec h
  exact ⟨h1, h5, h6, h4⟩

/-- Both directions are reachable: one vector satisfies `exSpec`, another violates only the group bound. -/
example : (∃ m, build 3 exSpec = .ok m) ∧ Satisfies exSpec (![4/10, 3/10, 3/10] : Fin 3 → ℚ) ∧
    ¬ Satisfies exSpec (![5/10, 1/10, 4/10] : Fin 3 → ℚ) := by
  refine ⟨build_isOk.mpr exSpec_valid, ?_, ?_⟩
  · refine ⟨?_, ?_, ?_, ?_, ?_, ?_, ?_⟩
    · intro _ i; fin_cases i <;> norm_num
    · intro t ht; simp [exSpec] at ht; subst ht; simp [Fin.sum_univ_three]; norm_num
    · intro e he i hi
      simp at he
      rcases he with rfl | rfl
      · have : i = 0 := Fin.ext (by simpa using hi)
        subst this
        refine ⟨?_, (by intro b hb; cases hb)⟩
        intro a ha; simp at ha; subst ha; norm_num
      · have : i = 2 := Fin.ext (by have h : ((i:ℕ):ℤ) = 2 := hi; exact_mod_cast h)
        subst this
        refine ⟨(by intro b hb; cases hb), ?_⟩
        intro a ha; simp at ha; subst ha
        show (3/10 : ℚ) ≤ 2⁻¹
        norm_num
    · intro e he k hk i j hi hj
      simp [exSpec] at he; subst he
      simp at hk; subst hk
      have : i = 0 := Fin.ext (by simpa using hi)
      have : j = 1 := Fin.ext (by have h : ((j:ℕ):ℤ) = 1 := hj; exact_mod_cast h)
      subst i j; norm_num
    · intro e he lo hi hlo hhi
      simp [exSpec] at he; subst he
      simp at hlo hhi; subst hlo hhi
      simp [groupWeight, Fin.sum_univ_three]; norm_num
    · intro e he r hr
      simp [exSpec] at he; subst he
      simp at hr; subst hr
      simp [Fin.sum_univ_three]; norm_num
    · intro e he r hr
      simp [exSpec] at he; subst he
      simp at hr; subst hr
      simp [Fin.sum_univ_three]
  · intro h
    have := (h.groups _ (List.mem_singleton.mpr rfl) _ _ rfl rfl).2
    simp [groupWeight, Fin.sum_univ_three] at this
    norm_num at this

/-- **C11** `build_G_h_A_b` raises exactly on the documented defects (and only `ValueError`/`IndexError`). -/
theorem C11_rejects_iff_invalid (nAssets : ℤ) (c : Con.Spec K) (rn : Bool) :
    ((∃ m, build nAssets c rn = .ok m) ↔ Valid nAssets c) ∧
    ((∃ e, build nAssets c rn = .error e) ↔ ¬ Valid nAssets c) := by
  refine ⟨build_isOk, ?_⟩
  rw [← build_isOk (rn := rn)]
  cases build nAssets c rn with
  | ok m => simp
  | error e => simp

/-- An unknown index and a crossed bound are rejected. -/
example : ¬ Valid 3 { exSpec with relative := [(0, 3, .fin 1)] } ∧
    ¬ Valid 3 { exSpec with bounds := some (.pair (some (.fin 1)) (some (.fin (1/2)))) } := by
  constructor
  · intro h
    have := (h.relative _ (List.mem_singleton.mpr rfl)).2.1.2
    norm_num at this
  · intro h
    have := h.bounds.2.2 1 (1/2) rfl rfl
    norm_num at this

/-- **C10** (defaults) `Constraints()` is long-only, fully invested: exactly the probability simplex. -/
theorem C10_default_is_simplex (n : ℕ) (hn : 0 < n) :
    ∃ m : Matrices n K, build (n : ℤ) (defaultSpec : Con.Spec K) = .ok m ∧
      ∀ w, (MatLe m.G m.h w ∧ MatEq m.A m.b w) ↔ (∀ i, 0 ≤ w i) ∧ ∑ i, w i = 1 := by
  obtain ⟨m, hm⟩ := (build_isOk (nAssets := (n : ℤ)) (c := (defaultSpec : Con.Spec K)) (rn := true)).mpr (by
    refine ⟨by exact_mod_cast hn, ?_, trivial, ?_, ?_, ?_, ?_⟩
    · intro y hy; injection hy with hy; exact ⟨1, hy.symm⟩
    all_goals intro e he; simp [defaultSpec] at he)
  refine ⟨m, hm, fun w => ((build_spec hm).1 w).trans ?_⟩
  constructor
  · intro h; exact ⟨h.long rfl, h.total 1 rfl⟩
  · rintro ⟨h1, h2⟩
    refine ⟨fun _ => h1, ?_, trivial, ?_, ?_, ?_, ?_⟩
    · intro t ht
      simp [defaultSpec] at ht
      rw [← ht]; exact h2
    all_goals intro e he; simp [defaultSpec] at he

end PyV.Props
