import Verif.Model.Performance
import Verif.Lemmas.Ensembles
import Mathlib.Tactic.FieldSimp
import Mathlib.Tactic.Linarith
import Mathlib.Order.Bounds.Basic

/-! # Lemmas about drawdowns, quantiles and label alignment -/

set_option linter.unusedSectionVars false

namespace PyV.Perf

open PyV

section field
variable {K : Type*} [Field K] [LinearOrder K] [IsStrictOrderedRing K]

theorem foldl_max_ge {α : Type*} (f : α → K) (l : List α) (a : K) : a ≤ l.foldl (fun m s => max m (f s)) a := by
  induction l generalizing a with
  | nil => exact le_rfl
  | cons x l ih => exact le_trans (le_max_left _ _) (ih _)

theorem foldl_max_mem_le {α : Type*} (f : α → K) (l : List α) (a : K) {x : α} (hx : x ∈ l) :
    f x ≤ l.foldl (fun m s => max m (f s)) a := by
  induction l generalizing a with
  | nil => cases hx
  | cons y l ih =>
    rcases List.mem_cons.mp hx with rfl | h
    · exact le_trans (le_max_right _ _) (foldl_max_ge f l _)
    · exact ih _ h

theorem foldl_max_attained {α : Type*} (f : α → K) (l : List α) (a : K) :
    l.foldl (fun m s => max m (f s)) a = a ∨ ∃ x ∈ l, l.foldl (fun m s => max m (f s)) a = f x := by
  induction l generalizing a with
  | nil => exact .inl rfl
  | cons y l ih =>
    simp only [List.foldl_cons]
    rcases ih (max a (f y)) with h | ⟨x, hx, h⟩
    · rcases max_choice a (f y) with hm | hm
      · left; rw [h, hm]
      · right; exact ⟨y, List.mem_cons_self .., by rw [h, hm]⟩
    · right; exact ⟨x, List.mem_cons_of_mem _ hx, h⟩

theorem runningMax_greatest {H : ℕ} (w : Fin H → K) (t : Fin H) : IsGreatest (w '' {s | s ≤ t}) (runningMax w t) := by
  unfold runningMax
  constructor
  · rcases foldl_max_attained w ((List.finRange H).filter (fun s => decide (s ≤ t))) (w t) with h | ⟨x, hx, h⟩
    · exact ⟨t, le_refl t, h.symm⟩
    · refine ⟨x, ?_, h.symm⟩
      simpa using (List.mem_filter.mp hx).2
  · rintro _ ⟨s, hs, rfl⟩
    exact foldl_max_mem_le w _ _ (List.mem_filter.mpr ⟨List.mem_finRange s, by simpa using hs⟩)

theorem listMax_ok {l : List K} (h : l ≠ []) : ∃ m, listMax l = .ok m ∧ IsGreatest {x | x ∈ l} m := by
  cases l with
  | nil => exact absurd rfl h
  | cons a l =>
    refine ⟨_, rfl, ?_, ?_⟩
    · rcases foldl_max_attained id l a with e | ⟨x, hx, e⟩
      · have : l.foldl max a = a := e
        simp [this]
      · have : l.foldl max a = x := e
        simp [this, hx]
    · rintro x hx
      rcases List.mem_cons.mp hx with rfl | hx
      · exact foldl_max_ge id l x
      · exact foldl_max_mem_le id l a hx

theorem listMax_greatest {l : List K} {m : K} (h : listMax l = .ok m) : IsGreatest {x | x ∈ l} m := by
  cases l with
  | nil => cases h
  | cons a l =>
    obtain ⟨m', h1, h2⟩ := listMax_ok (l := a :: l) (by simp)
    rw [h1] at h
    injection h with h
    exact h ▸ h2

theorem drawdown_eq {H : ℕ} {w : Fin H → K} (hw : ∀ t, 0 < w t) (t : Fin H) :
    ∃ s ≤ t, drawdown w t = (w s - w t) / w s ∧ ∀ r ≤ t, w r ≤ w s := by
  obtain ⟨⟨s, hs, he⟩, hub⟩ := runningMax_greatest w t
  refine ⟨s, hs, ?_, fun r hr => ?_⟩
  · unfold drawdown
    simp only
    rw [← he, if_pos (hw s)]
  · rw [he]; exact hub ⟨r, hr, rfl⟩

/-- The interpolated order statistic at a real position. -/
def interp [FloorRing K] (s : List K) (v : K) : K :=
  let lo := ⌊v⌋.toNat
  let hi := min (lo + 1) (s.length - 1)
  let a := (s[lo]?).getD 0
  let b := (s[hi]?).getD 0
  a + (v - (lo : K)) * (b - a)

theorem getD_mono {s : List K} (hs : s.Pairwise (· ≤ ·)) {i j : ℕ} (hij : i ≤ j) (hj : j < s.length) :
    (s[i]?).getD 0 ≤ (s[j]?).getD 0 := by
  rw [List.getElem?_eq_getElem (by omega), List.getElem?_eq_getElem hj]
  simp only [Option.getD_some]
  rcases hij.eq_or_lt with rfl | h
  · exact le_rfl
  · exact List.pairwise_iff_getElem.mp hs i j (by omega) hj h

theorem floor_facts [FloorRing K] {v : K} (h0 : 0 ≤ v) : ((⌊v⌋.toNat : ℕ) : K) ≤ v ∧ v < (⌊v⌋.toNat : ℕ) + 1 := by
  have h : ((⌊v⌋.toNat : ℕ) : ℤ) = ⌊v⌋ := Int.toNat_of_nonneg (Int.floor_nonneg.mpr h0)
  have hc : ((⌊v⌋.toNat : ℕ) : K) = (⌊v⌋ : K) := by
    rw [← Int.cast_natCast, h]
  rw [hc]
  exact ⟨Int.floor_le v, Int.lt_floor_add_one v⟩

theorem interp_bounds [FloorRing K] {s : List K} (hs : s.Pairwise (· ≤ ·)) {v : K} (h0 : 0 ≤ v)
    (h1 : ⌊v⌋.toNat < s.length) :
    (s[⌊v⌋.toNat]?).getD 0 ≤ interp s v ∧ interp s v ≤ (s[min (⌊v⌋.toNat + 1) (s.length - 1)]?).getD 0 := by
  obtain ⟨f1, f2⟩ := floor_facts h0
  have hab : (s[⌊v⌋.toNat]?).getD 0 ≤ (s[min (⌊v⌋.toNat + 1) (s.length - 1)]?).getD 0 :=
    getD_mono hs (by omega) (by omega)
  unfold interp
  simp only
  generalize (s[⌊v⌋.toNat]?).getD 0 = a at hab ⊢
  generalize (s[min (⌊v⌋.toNat + 1) (s.length - 1)]?).getD 0 = b at hab ⊢
  have hf0 : 0 ≤ v - (⌊v⌋.toNat : ℕ) := by linarith
  have hf1 : v - (⌊v⌋.toNat : ℕ) ≤ 1 := by linarith
  have hb : 0 ≤ b - a := by linarith
  have := mul_nonneg hf0 hb
  have := mul_le_mul_of_nonneg_right hf1 hb
  constructor <;> linarith

theorem interp_mono [FloorRing K] {s : List K} (hs : s.Pairwise (· ≤ ·)) {v v' : K} (h0 : 0 ≤ v) (hv : v ≤ v')
    (h1 : v' ≤ ((s.length - 1 : ℕ) : K)) (hl : s.length ≠ 0) : interp s v ≤ interp s v' := by
  have hlt : ∀ x : K, 0 ≤ x → x ≤ ((s.length - 1 : ℕ) : K) → ⌊x⌋.toNat < s.length := by
    intro x hx hx'
    obtain ⟨f1, -⟩ := floor_facts hx
    have : ((⌊x⌋.toNat : ℕ) : K) ≤ ((s.length - 1 : ℕ) : K) := le_trans f1 hx'
    have := Nat.cast_le.mp this
    omega
  have hb := interp_bounds hs h0 (hlt v h0 (le_trans hv h1))
  have hb' := interp_bounds hs (le_trans h0 hv) (hlt v' (le_trans h0 hv) h1)
  have hfl : ⌊v⌋.toNat ≤ ⌊v'⌋.toNat := Int.toNat_le_toNat (Int.floor_mono hv)
  rcases hfl.eq_or_lt with he | hlt'
  · have hab : (s[⌊v'⌋.toNat]?).getD 0 ≤ (s[min (⌊v'⌋.toNat + 1) (s.length - 1)]?).getD 0 :=
      getD_mono hs (by have := hlt v' (le_trans h0 hv) h1; omega) (by omega)
    unfold interp
    simp only
    rw [he]
    generalize (s[⌊v'⌋.toNat]?).getD 0 = a at hab ⊢
    generalize (s[min (⌊v'⌋.toNat + 1) (s.length - 1)]?).getD 0 = b at hab ⊢
    have := mul_le_mul_of_nonneg_right (sub_le_sub_right hv ((⌊v'⌋.toNat : ℕ) : K)) (sub_nonneg.mpr hab)
    linarith
  · refine le_trans hb.2 (le_trans ?_ hb'.1)
    exact getD_mono hs (by omega) (hlt v' (le_trans h0 hv) h1)

theorem sorted_sort (x : List K) : (x.insertionSort (· ≤ ·)).Pairwise (· ≤ ·) := by
  exact List.pairwise_insertionSort _ x

theorem quantile_ok [FloorRing K] {x : List K} (hx : x ≠ []) {q : K} (h0 : 0 ≤ q) (h1 : q ≤ 1) :
    ∃ y, quantile x q = .ok y ∧ y = interp (x.insertionSort (· ≤ ·)) (q * ((x.length - 1 : ℕ) : K)) := by
  unfold quantile quantileSorted
  have hl : x.length ≠ 0 := by simpa using hx
  simp only [List.length_insertionSort]
  rw [if_neg (by simp [h0, h1]), if_neg hl]
  exact ⟨_, rfl, by simp only [interp, List.length_insertionSort]⟩

theorem quantile_error [FloorRing K] {x : List K} {q y : K} (h : quantile x q = .ok y) : x ≠ [] ∧ 0 ≤ q ∧ q ≤ 1 := by
  unfold quantile quantileSorted at h
  split at h
  · cases h
  rename_i hq
  split at h
  · cases h
  rename_i hl
  rw [List.length_insertionSort] at hl
  exact ⟨by simpa using hl, by simpa using hq⟩

/-- Order statistics interpolate monotonically, between the smallest and the largest value. -/
theorem quantile_mono [FloorRing K] {x : List K} {q q' y y' : K} (h : quantile x q = .ok y) (h' : quantile x q' = .ok y')
    (hq : q ≤ q') : y ≤ y' := by
  obtain ⟨hx, h0, h1⟩ := quantile_error h
  obtain ⟨-, h0', h1'⟩ := quantile_error h'
  obtain ⟨_, e, rfl⟩ := quantile_ok hx h0 h1
  obtain ⟨_, e', rfl⟩ := quantile_ok hx h0' h1'
  rw [e] at h
  rw [e'] at h'
  injection h with h
  injection h' with h'
  rw [← h, ← h']
  have hc : (0 : K) ≤ ((x.length - 1 : ℕ) : K) := Nat.cast_nonneg _
  refine interp_mono (sorted_sort x) (mul_nonneg h0 hc) (mul_le_mul_of_nonneg_right hq hc) ?_ (by
    rw [List.length_insertionSort]; simpa using hx)
  rw [List.length_insertionSort]
  nlinarith

theorem quantile_bounds [FloorRing K] {x : List K} {q y m M : K} (h : quantile x q = .ok y) (hm : ∀ a ∈ x, m ≤ a) (hM : ∀ a ∈ x, a ≤ M) :
    m ≤ y ∧ y ≤ M := by
  obtain ⟨hx, h0, h1⟩ := quantile_error h
  obtain ⟨_, e, rfl⟩ := quantile_ok hx h0 h1
  rw [e] at h
  injection h with h
  rw [← h]
  have hc : (0 : K) ≤ ((x.length - 1 : ℕ) : K) := Nat.cast_nonneg _
  have hv : (0 : K) ≤ q * ((x.length - 1 : ℕ) : K) := mul_nonneg h0 hc
  have hl : x.length ≠ 0 := by simpa using hx
  have hlt : ⌊q * ((x.length - 1 : ℕ) : K)⌋.toNat < (x.insertionSort (· ≤ ·)).length := by
    obtain ⟨f1, -⟩ := floor_facts hv
    have : ((⌊q * ((x.length - 1 : ℕ) : K)⌋.toNat : ℕ) : K) ≤ ((x.length - 1 : ℕ) : K) := le_trans f1 (by nlinarith)
    have := Nat.cast_le.mp this
    rw [List.length_insertionSort]
    omega
  obtain ⟨b1, b2⟩ := interp_bounds (sorted_sort x) hv hlt
  have hmem : ∀ i, i < (x.insertionSort (· ≤ ·)).length →
      ((x.insertionSort (· ≤ ·))[i]?).getD 0 ∈ x := by
    intro i hi
    rw [List.getElem?_eq_getElem hi]
    exact (List.mem_insertionSort _).mp (List.getElem_mem hi)
  exact ⟨le_trans (hm _ (hmem _ hlt)) b1, le_trans b2 (hM _ (hmem _ (by omega)))⟩

end field

end PyV.Perf
