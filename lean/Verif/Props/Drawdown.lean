import Verif.Lemmas.Performance
import Mathlib.Data.Rat.Floor
import Mathlib.Algebra.Order.BigOperators.Group.List
import Mathlib.Data.Fin.VecNotation

/-! # C60, C83: drawdowns -/

set_option linter.unusedSectionVars false

namespace PyV.Props

open PyV PyV.Perf

variable {K : Type*} [Field K] [LinearOrder K] [IsStrictOrderedRing K] {H : ℕ}

/-- The relative losses of a wealth path from an earlier to a later (or the same) date. -/
def losses (wealth : Fin H → K) : Set K := {x | ∃ i j, i ≤ j ∧ x = (wealth i - wealth j) / wealth i}

/-- **C60** on a positive wealth path every drawdown is a fraction in `[0, 1)`. -/
theorem C60_fraction (wealth : Fin H → K) (hw : ∀ t, 0 < wealth t) (t : Fin H) :
    0 ≤ drawdown wealth t ∧ drawdown wealth t < 1 := by
  obtain ⟨s, -, h1, h2⟩ := drawdown_eq hw t
  rw [h1]
  have := h2 t le_rfl
  refine ⟨div_nonneg (by linarith) (hw s).le, ?_⟩
  rw [div_lt_one (hw s)]
  linarith [hw t]

/-- **C60** the maximum drawdown of a positive path is the largest relative loss between two dates of the path; an empty path is
an error. -/
theorem C60_largest_loss (wealth : Fin H → K) (hw : ∀ t, 0 < wealth t) :
    (0 < H → ∃ d, maxDrawdown wealth = .ok d ∧ IsGreatest (losses wealth) d) ∧
      (H = 0 → maxDrawdown wealth = .error .valueError) := by
  constructor
  · intro hH
    obtain ⟨d, h1, h2, h3⟩ := listMax_ok (l := (List.finRange H).map (drawdown wealth)) (by
      intro h
      have := congrArg List.length h
      simp at this
      omega)
    refine ⟨d, h1, ?_, ?_⟩
    · obtain ⟨t, -, rfl⟩ := List.mem_map.mp h2
      obtain ⟨s, hs, e, -⟩ := drawdown_eq hw t
      exact ⟨s, t, hs, e⟩
    · rintro x ⟨i, j, hij, rfl⟩
      refine le_trans ?_ (h3 (List.mem_map.mpr ⟨j, List.mem_finRange j, rfl⟩))
      obtain ⟨s, -, e, hmax⟩ := drawdown_eq hw j
      rw [e]
      have h5 := hmax i hij
      have e1 : (wealth i - wealth j) / wealth i = 1 - wealth j / wealth i := by
        have := (hw i).ne'; field_simp
      have e2 : (wealth s - wealth j) / wealth s = 1 - wealth j / wealth s := by
        have := (hw s).ne'; field_simp
      rw [e1, e2]
      have := div_le_div_of_nonneg_left (hw j).le (hw i) h5
      linarith
  · rintro rfl; rfl

/-- **C60** the maximum drawdown is zero exactly when wealth never falls below an earlier value of the path. -/
theorem C60_zero_iff_partial (wealth : Fin H → K) (hw : ∀ t, 0 < wealth t) (d : K) (h : maxDrawdown wealth = .ok d) :
    d = 0 ↔ ∀ i j, i ≤ j → wealth i ≤ wealth j := by
  have hH : 0 < H := by
    rcases Nat.eq_zero_or_pos H with rfl | h'
    · cases h
    · exact h'
  obtain ⟨d', h1, ⟨i0, j0, hij0, hd0⟩, h3⟩ := (C60_largest_loss wealth hw).1 hH
  rw [h] at h1
  injection h1 with h1
  subst h1
  constructor
  · rintro rfl i j hij
    have := h3 ⟨i, j, hij, rfl⟩
    rw [div_le_iff₀ (hw i)] at this
    linarith
  · intro hm
    apply le_antisymm
    · rw [hd0]
      exact div_nonpos_of_nonpos_of_nonneg (by linarith [hm i0 j0 hij0]) (hw i0).le
    · have := h3 ⟨i0, i0, le_rfl, rfl⟩
      simpa using this

/-- **C60** (false of the code) the path starts at wealth 1, but the loss of the first step is not counted: a path that loses half
its wealth at once and stays there has maximum drawdown zero, although wealth is always below its starting value. -/
theorem C60_counterexample : maxDrawdown ![(1 / 2 : ℚ), 1 / 2] = .ok 0 ∧ (∀ t, ![(1 / 2 : ℚ), 1 / 2] t < 1) := by
  refine ⟨by decide +kernel, by decide +kernel⟩

/-- A falling path: the loss from the peak is found. -/
example : maxDrawdown ![(1 : ℚ), 2, 1, 3 / 2] = .ok (1 / 2) := by decide +kernel

/-- **C60** the reported statistics are consistent: the worst is the largest maximum drawdown, the mean, the median and the
requested quantile lie between the smallest and the largest, and the quantile is at least the median from level one half on. -/
theorem C60_summary [FloorRing K] (maxDd : List K) (confidence : K) (r : DdReport K) (h : ddSummary maxDd confidence = .ok r) :
    IsGreatest {x | x ∈ maxDd} r.worst ∧ (∀ m, (∀ x ∈ maxDd, m ≤ x) → m ≤ r.mean ∧ m ≤ r.median ∧ m ≤ r.level) ∧
      r.mean ≤ r.worst ∧ r.median ≤ r.worst ∧ r.level ≤ r.worst ∧ (1 / 2 ≤ confidence → r.median ≤ r.level) ∧
      (0 ≤ confidence ∧ confidence ≤ 1) := by
  unfold ddSummary at h
  split at h
  · cases h
  rename_i med hmed
  split at h
  · cases h
  rename_i lev hlev
  split at h
  · cases h
  rename_i worst hworst
  injection h with h
  subst h
  have hg := listMax_greatest hworst
  obtain ⟨hne, hc⟩ := quantile_error hlev
  have hpos : (0 : K) < (maxDd.length : K) := by
    have : maxDd.length ≠ 0 := by simpa using hne
    exact_mod_cast Nat.pos_of_ne_zero this
  refine ⟨hg, fun m hm => ⟨?_, ?_, ?_⟩, ?_, ?_, ?_, ?_, hc⟩
  · simp only
    rw [le_div_iff₀ hpos]
    have := List.card_nsmul_le_sum maxDd m hm
    rw [nsmul_eq_mul] at this
    linarith
  · exact (quantile_bounds hmed hm (fun a ha => hg.2 ha)).1
  · exact (quantile_bounds hlev hm (fun a ha => hg.2 ha)).1
  · simp only
    rw [div_le_iff₀ hpos]
    have := List.sum_le_card_nsmul maxDd worst (fun a ha => hg.2 ha)
    rw [nsmul_eq_mul] at this
    linarith
  · exact (quantile_bounds (m := maxDd.foldl min worst) hmed (fun a ha => by
      have : ∀ (l : List K) (b : K), (∀ x ∈ l, l.foldl min b ≤ x) ∧ l.foldl min b ≤ b := by
        intro l
        induction l with
        | nil => intro b; exact ⟨by simp, le_rfl⟩
        | cons y l ih =>
          intro b
          simp only [List.foldl_cons]
          refine ⟨fun x hx => ?_, le_trans (ih _).2 (min_le_left _ _)⟩
          rcases List.mem_cons.mp hx with rfl | hx
          · exact le_trans (ih _).2 (min_le_right _ _)
          · exact (ih _).1 x hx
      exact (this _ _).1 a ha) (fun a ha => hg.2 ha)).2
  · exact (quantile_bounds (m := maxDd.foldl min worst) hlev (fun a ha => by
      have : ∀ (l : List K) (b : K), (∀ x ∈ l, l.foldl min b ≤ x) ∧ l.foldl min b ≤ b := by
        intro l
        induction l with
        | nil => intro b; exact ⟨by simp, le_rfl⟩
        | cons y l ih =>
          intro b
          simp only [List.foldl_cons]
          refine ⟨fun x hx => ?_, le_trans (ih _).2 (min_le_left _ _)⟩
          rcases List.mem_cons.mp hx with rfl | hx
          · exact le_trans (ih _).2 (min_le_right _ _)
          · exact (ih _).1 x hx
      exact (this _ _).1 a ha) (fun a ha => hg.2 ha)).2
  · intro hq
    exact quantile_mono hmed hlev hq

/-- Not vacuous: a summary of three drawdowns. -/
example : ∃ r, ddSummary [(1 / 4 : ℚ), 0, 1 / 2] (3 / 4) = .ok r ∧ r.level = 3 / 8 ∧ r.median = 1 / 4 := by
  exact ⟨⟨1 / 4, 1 / 4, 3 / 8, 1 / 2⟩, by decide +kernel, rfl, rfl⟩

theorem mapE_total {α β : Type*} {f : α → Except PyErr β} {l : List α} {r : List β} (h : mapE f l = .ok r) {P : β → Prop}
    (hp : ∀ a ∈ l, ∀ b, f a = .ok b → P b) : ∀ b ∈ r, P b := by
  rw [Ens.mapE_iff, List.forall₂_iff_get] at h
  intro b hb
  obtain ⟨k, hk, rfl⟩ := List.getElem_of_mem hb
  have hk' : k < l.length := by rw [h.1]; exact hk
  exact hp _ (List.get_mem l ⟨k, hk'⟩) _ (h.2 k hk' hk)

/-- **C60** end to end, for a fully invested long-only portfolio and repriced returns above -100%: every reported statistic is a
fraction in `[0, 1)` and none exceeds the worst. -/
theorem C60_report [FloorRing K] {T N : ℕ} (ws : List K) (hw0 : ∀ x ∈ ws, 0 ≤ x) (hw1 : ws.sum = 1) (R : Fin T → Fin N → K)
    (horizon n : ℤ) (p : Option (List (PyFloat K))) (reprice : (Fin n.toNat → Fin N → K) → Fin n.toNat → Fin N → K)
    (hr : ∀ c a i, -1 < reprice c a i) (u : Fin n.toNat → Fin horizon.toNat → K) (confidence : K) (r : DdReport K)
    (h : drawdownQuantile (.plain (ws.map (fun x _ => x))) R horizon n p reprice u confidence = .ok r) :
    0 ≤ r.mean ∧ r.mean ≤ r.worst ∧ 0 ≤ r.median ∧ r.median ≤ r.worst ∧ 0 ≤ r.level ∧ r.level ≤ r.worst ∧ r.worst < 1 := by
  unfold drawdownQuantile at h
  split at h
  · cases h
  rename_i cum hcum
  unfold repriceSteps at h
  rw [dif_pos rfl] at h
  simp only [positional, List.length_map, List.map_map, Function.comp_def, List.map_id'] at h
  split at h
  · cases h
  rename_i hlen
  push Not at hlen
  split at h
  · cases h
  rename_i maxDd hdd
  have hwealth : ∀ a t, 0 < 1 + ∑ i : Fin N, reprice (fun a i => cum a t i) a (i.cast rfl) * toVec N ws i := by
    intro a t
    have hs : ∑ i : Fin N, toVec N ws i = 1 := by
      subst hlen
      rw [← hw1]
      unfold toVec
      simp only [Fin.is_lt, List.getElem?_eq_getElem, Option.getD_some, Fin.sum_univ_getElem]
    have hnn : ∀ i, 0 ≤ toVec N ws i := by
      intro i
      unfold toVec
      rw [List.getElem?_eq_getElem (by rw [hlen]; exact i.2)]
      exact hw0 _ (List.getElem_mem _)
    have hex : ∃ i, 0 < toVec N ws i := by
      by_contra hc
      push Not at hc
      have : ∑ i : Fin N, toVec N ws i = 0 := Finset.sum_eq_zero (fun i _ => le_antisymm (hc i) (hnn i))
      rw [hs] at this
      exact one_ne_zero this
    obtain ⟨i0, hi0⟩ := hex
    have : ∑ i : Fin N, (-1 : K) * toVec N ws i < ∑ i : Fin N, reprice (fun a i => cum a t i) a (i.cast rfl) * toVec N ws i := by
      apply Finset.sum_lt_sum
      · intro i _
        exact mul_le_mul_of_nonneg_right (hr _ _ _).le (hnn i)
      · exact ⟨i0, Finset.mem_univ _, mul_lt_mul_of_pos_right (hr _ _ _) hi0⟩
    rw [← Finset.mul_sum, hs] at this
    linarith
  have hall : ∀ d ∈ maxDd, 0 ≤ d ∧ d < 1 := by
    refine mapE_total hdd (fun a _ d hd => ?_)
    have hg := listMax_greatest hd
    obtain ⟨t, -, rfl⟩ := List.mem_map.mp hg.1
    exact C60_fraction _ (hwealth a) t
  obtain ⟨h1, h2, h3, h4, h5, -⟩ := C60_summary _ _ _ h
  obtain ⟨m1, m2, m3⟩ := h2 0 (fun x hx => (hall x hx).1)
  exact ⟨m1, h3, m2, h4, m3, h5, (hall _ h1.1).2⟩

/-- Not vacuous: two assets, two steps, one path; wealth goes 11/10, 1 after a gain and a loss. -/
example : drawdownQuantile (.plain ([(1 / 2 : ℚ), 1 / 2].map (fun x _ => x))) ![![1 / 10, 1 / 10], ![-1 / 10, -1 / 10]] 2 1
    (some [.fin (1 / 2), .fin (1 / 2)]) (fun c => c) ![![0, 1 / 2]] (1 / 2) = .ok ⟨1 / 11, 1 / 11, 1 / 11, 1 / 11⟩ := by
  decide +kernel

/-! ## C83 -/

/-- **C83** (false of the code) path simulation cannot reprice drivers into a different number of instruments: two drivers and three
instruments always fail, while `project_scenarios` takes such a function. -/
theorem C83_counterexample {n : ℕ} (hH : 0 < H) (reprice : (Fin n → Fin 2 → K) → Fin n → Fin 3 → K) (cum : Fin n → Fin H → Fin 2 → K) :
    repriceSteps reprice cum = .error .valueError := by
  unfold repriceSteps
  rw [dif_neg (by omega), dif_neg (by omega), if_neg (by omega)]

/-- **C83** (false of the code) with a single instrument its price is silently copied into every driver column. -/
theorem C83_broadcast {n N : ℕ} (hN : N ≠ 1) (reprice : (Fin n → Fin N → K) → Fin n → Fin 1 → K) (cum : Fin n → Fin H → Fin N → K) :
    ∃ out, repriceSteps reprice cum = .ok out ∧ ∀ a t i, out a t i = reprice (fun a i => cum a t i) a 0 := by
  unfold repriceSteps
  rw [dif_neg (by omega), dif_pos rfl]
  exact ⟨_, rfl, fun _ _ _ => rfl⟩

/-- **C83** with as many instruments as drivers, the path at each step is the repricing of the cumulative moves at that step. -/
theorem C83_same_count_partial {n N : ℕ} (reprice : (Fin n → Fin N → K) → Fin n → Fin N → K) (cum : Fin n → Fin H → Fin N → K) :
    ∃ out, repriceSteps reprice cum = .ok out ∧ ∀ a t i, out a t i = reprice (fun a i => cum a t i) a i := by
  unfold repriceSteps
  rw [dif_pos rfl]
  exact ⟨_, rfl, fun _ _ _ => rfl⟩

end PyV.Props
