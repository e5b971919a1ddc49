import Verif.Lemmas.Ensembles
import Verif.Props.Frontier
import Mathlib.Analysis.Convex.StdSimplex
import Mathlib.Topology.Algebra.Ring.Real
import Mathlib.Data.Fin.VecNotation
import Mathlib.Tactic.FinCases

set_option linter.unusedSectionVars false

/-! # Properties C46–C51, C73: averaging, stacking, solver options, selectors, assembly -/

namespace PyV.Props

open PyV PyV.Fr PyV.Ens PyV.Spec.Ens

variable {K : Type*} [Field K] [LinearOrder K] [IsStrictOrderedRing K] {N S : ℕ} {A : Type*} [DecidableEq A]

/-! ## C46 -/

/-- **C46** `average_exposures` succeeds exactly when the caller's weights (by position or by label; all equal when omitted) are
finite, one per sample, and have a positive sum; the result is then the weighted mean of the samples. -/
theorem C46_average (E : Fin N → Fin S → K) (names : Option (List A)) (w : WeightsArg A K) (v : Fin N → K) :
    averageExposures E names w = .ok v ↔ ∃ raw : Fin S → K, Requested names w raw ∧ 0 < ∑ k, raw k ∧
      ∀ i, v i = (∑ k, raw k * E i k) / ∑ k, raw k :=
  averageExposures_ok

/-- **C46** every linear inequality satisfied by all samples (budget, bound, group limit) is satisfied by their average with
non-negative weights. -/
theorem C46_linear (E : Fin N → Fin S → K) (names : Option (List A)) (w : WeightsArg A K) (v : Fin N → K)
    (h : averageExposures E names w = .ok v) (hw : ∀ raw : Fin S → K, Requested names w raw → ∀ k, 0 ≤ raw k)
    (c : Fin N → K) (b : K) (hc : ∀ k, ∑ i, c i * E i k ≤ b) : ∑ i, c i * v i ≤ b := by
  obtain ⟨raw, hr, hp, hv⟩ := averageExposures_ok.mp h
  have h0 := hw raw hr
  have : ∑ i, c i * v i = (∑ k, raw k * ∑ i, c i * E i k) / ∑ k, raw k := by
    simp only [hv, Finset.mul_sum, Finset.sum_div]
    rw [Finset.sum_comm]
    refine Finset.sum_congr rfl (fun k _ => Finset.sum_congr rfl (fun i _ => ?_))
    ring
  rw [this, div_le_iff₀ hp, Finset.mul_sum]
  exact Finset.sum_le_sum (fun k _ => by rw [mul_comm b]; exact mul_le_mul_of_nonneg_left (hc k) (h0 k))

/-- **C46** every linear equality satisfied by all samples is satisfied by their average, whatever the signs of the weights. -/
theorem C46_equality (E : Fin N → Fin S → K) (names : Option (List A)) (w : WeightsArg A K) (v : Fin N → K)
    (h : averageExposures E names w = .ok v) (c : Fin N → K) (b : K) (hc : ∀ k, ∑ i, c i * E i k = b) : ∑ i, c i * v i = b := by
  obtain ⟨raw, hr, hp, hv⟩ := averageExposures_ok.mp h
  have : ∑ i, c i * v i = (∑ k, raw k * ∑ i, c i * E i k) / ∑ k, raw k := by
    simp only [hv, Finset.mul_sum, Finset.sum_div]
    rw [Finset.sum_comm]
    refine Finset.sum_congr rfl (fun k _ => Finset.sum_congr rfl (fun i _ => ?_))
    ring
  rw [this]
  simp only [hc, ← Finset.sum_mul]
  field_simp

/-- **C46** per asset, the average with non-negative weights lies between the smallest and the largest sample exposure. -/
theorem C46_between (E : Fin N → Fin S → K) (names : Option (List A)) (w : WeightsArg A K) (v : Fin N → K)
    (h : averageExposures E names w = .ok v) (hw : ∀ raw : Fin S → K, Requested names w raw → ∀ k, 0 ≤ raw k) (i : Fin N) :
    ∃ lo hi : Fin S, (∀ k, E i lo ≤ E i k) ∧ (∀ k, E i k ≤ E i hi) ∧ E i lo ≤ v i ∧ v i ≤ E i hi := by
  have hS : 0 < S := by
    rcases Nat.eq_zero_or_pos S with h0 | h0
    · subst h0; simp [averageExposures] at h
    · exact h0
  obtain ⟨lo, hlo⟩ := exists_min hS (E i)
  obtain ⟨hi, hhi⟩ := exists_max hS (E i)
  refine ⟨lo, hi, hlo, hhi, ?_, ?_⟩
  · have := C46_linear E names w v h hw (fun j => if j = i then -1 else 0) (-(E i lo)) (fun k => by simpa [ite_mul] using hlo k)
    simpa [ite_mul] using this
  · have := C46_linear E names w v h hw (fun j => if j = i then 1 else 0) (E i hi) (fun k => by simpa [ite_mul] using hhi k)
    simpa [ite_mul] using this

/-- **C46** a labelled weight series may be given in any order. -/
theorem C46_relabel (E : Fin N → Fin S → K) (ns : List A) {l l' : List (A × PyFloat K)} (hl : l.Perm l') (v : Fin N → K) :
    averageExposures E (some ns) (.series l) = .ok v ↔ averageExposures E (some ns) (.series l') = .ok v := by
  rw [averageExposures_ok, averageExposures_ok]
  simp only [Requested, hl.mem_iff, (hl.map Prod.fst).nodup_iff]

/-- Two portfolios of two assets. -/
def exSamples : Fin 2 → Fin 2 → ℚ := ![![6/10, 3/10], ![4/10, 7/10]]

example : averageExposures exSamples (some ["a", "b"]) (.series [("b", .fin 3), ("a", .fin 1)]) = .ok ![3/8, 5/8] := by
  rw [C46_average]
  refine ⟨![1, 3], ⟨by decide, by rfl, ?_⟩, by norm_num [Fin.sum_univ_two], ?_⟩
  · intro k; fin_cases k
    · exact ⟨"a", rfl, by simp⟩
    · exact ⟨"b", rfl, by simp⟩
  · intro i; fin_cases i <;> norm_num [Fin.sum_univ_two, exSamples]

/-- **C46** (limit) the documented non-negativity is not enforced: a negative weight is accepted when the sum stays positive, and
the average then leaves the range of the samples. -/
theorem C46_negative_accepted : averageExposures (A := String) exSamples none (.array [.fin 3, .fin (-1)]) = .ok ![3/4, 1/4] := by
  rw [C46_average]
  refine ⟨![3, -1], by rfl, by norm_num [Fin.sum_univ_two], ?_⟩
  intro i; fin_cases i <;> norm_num [Fin.sum_univ_two, exSamples]

/-! ## C47 -/

/-- The lists of folds that split the samples: as many as asked, none empty, every sample in exactly one. -/
def SplitsSamples (S L : ℕ) (Fs : List (Finset (Fin S))) : Prop :=
  Fs.length = L ∧ (∀ F ∈ Fs, F.Nonempty) ∧ ∀ k : Fin S, ∃! p : Fin Fs.length, k ∈ Fs.get p

/-- **C47** for every `2 <= L <= num_samples` the `L` folds are non-empty, disjoint and cover every sample. -/
theorem C47_folds (S L : ℕ) (h2 : 2 ≤ L) (hL : L ≤ S) : SplitsSamples S L (folds S L) := by
  have hL1 : 1 ≤ L := by omega
  have hq : 1 ≤ S / L := (Nat.one_le_div_iff (by omega)).mpr hL
  have hqS : L * (S / L) ≤ S := Nat.mul_div_le S L
  refine ⟨folds_length hL1, ?_, ?_⟩
  · intro F hF
    obtain ⟨p, hp, rfl⟩ := (mem_folds F hL1).mp hF
    have hlt : p * (S / L) < S := by
      have : (p + 1) * (S / L) ≤ L * (S / L) := Nat.mul_le_mul_right _ hp
      have h3 : (p + 1) * (S / L) = p * (S / L) + S / L := by ring
      omega
    refine ⟨⟨p * (S / L), hlt⟩, ?_⟩
    simp only [Finset.mem_filter, Finset.mem_univ, true_and, le_refl]
    intro _
    have h3 : (p + 1) * (S / L) = p * (S / L) + S / L := by ring
    omega
  · intro k
    have hk := k.2
    have hlen := folds_length (S := S) hL1
    have hd := Nat.div_mul_le_self (k : ℕ) (S / L)
    have hd2 : (k : ℕ) < ((k : ℕ) / (S / L) + 1) * (S / L) := by
      have := Nat.lt_div_mul_add (a := (k : ℕ)) (b := S / L) (by omega)
      nlinarith
    refine ⟨⟨min ((k : ℕ) / (S / L)) (L - 1), by rw [hlen]; omega⟩, ?_, ?_⟩
    · show k ∈ (folds S L).get _
      rw [folds_get hL1]
      simp only [Finset.mem_filter, Finset.mem_univ, true_and]
      refine ⟨le_trans (Nat.mul_le_mul_right _ (min_le_left _ _)) hd, fun h => ?_⟩
      have : min ((k : ℕ) / (S / L)) (L - 1) = (k : ℕ) / (S / L) := by omega
      rw [this]; exact hd2
    · intro p hp
      have hpL : (p : ℕ) < L := lt_of_lt_of_eq p.2 hlen
      rw [folds_get hL1] at hp
      simp only [Finset.mem_filter, Finset.mem_univ, true_and] at hp
      obtain ⟨h3, h4⟩ := hp
      apply Fin.ext
      simp only
      have h5 : (p : ℕ) ≤ (k : ℕ) / (S / L) := (Nat.le_div_iff_mul_le (by omega)).mpr h3
      by_cases h6 : (p : ℕ) + 1 < L
      · have h7 : (k : ℕ) / (S / L) < p + 1 := (Nat.div_lt_iff_lt_mul (by omega)).mpr (h4 h6)
        omega
      · omega

/-- **C47** any other number of folds is rejected, and the options are untouched. -/
theorem C47_rejects {V : Type*} (solve : QpSolver S S 1 K V) (off : V) (E : Fin N → Fin S → K) (L : ℤ)
    (o : Option (List (String × V))) (g : List (String × V)) (h : L < 2 ∨ (S : ℤ) < L) :
    exposureStacking solve off E L o g = (.error .valueError, g) := by
  unfold exposureStacking
  split
  · rfl
  split
  · rfl
  split
  · rfl
  · omega

example : folds 5 2 = [{0, 1}, {2, 3, 4}] := by decide

/-! ## C48 -/

/-- **C48** for every admissible `L` the objective handed to the solver equals the cross-validation loss up to a constant, and the
feasible points are exactly the convex coefficients. -/
theorem C48_objective (E : Fin N → Fin S → K) (L : ℕ) (h2 : 2 ≤ L) (hL : L ≤ S) :
    (∃ c : K, ∀ x, qpValue (stackQp E L) x = cvLoss E (folds S L) x - c) ∧
      ∀ x, qpFeasible (stackQp E L) x ↔ Simplex x := by
  refine ⟨⟨_, fun x => stackQp_value E L (fun F hF => ?_) x⟩, stackQp_feasible E L⟩
  have := (C47_folds S L h2 hL).2.1 F hF
  exact Finset.card_ne_zero.mpr this

/-- **C48** with a sound QP solver, a successful `exposure_stacking` returns a convex combination of the samples whose coefficients
minimise, over all convex coefficients, the summed squared distance between each fold's mean and the combination of the samples
outside that fold, for folds splitting the samples. -/
theorem C48_result {V : Type*} (solve : QpSolver S S 1 K V) (hs : SolverSound solve) (off : V) (E : Fin N → Fin S → K) (L : ℤ)
    (o : Option (List (String × V))) (g : List (String × V)) (v : Fin N → K)
    (h : (exposureStacking solve off E L o g).1 = .ok v) :
    ∃ (Fs : List (Finset (Fin S))) (x : Fin S → K), SplitsSamples S L.toNat Fs ∧ Simplex x ∧
      (∀ i, v i = ∑ k, x k * E i k) ∧ ∀ y, Simplex y → cvLoss E Fs x ≤ cvLoss E Fs y := by
  unfold exposureStacking at h
  split at h
  · cases h
  split at h
  · cases h
  split at h
  · cases h
  rename_i h0 h1 h2
  simp only at h
  have hr : (withOptions (some (dictUpdate [("show_progress", off)] (o.getD []))) (solve (stackQp E L.toNat)) g).1 =
      (solve (stackQp E L.toNat) (dictUpdate g (dictUpdate [("show_progress", off)] (o.getD [])))).1 := rfl
  rw [hr] at h
  cases hx : (solve (stackQp E L.toNat) (dictUpdate g (dictUpdate [("show_progress", off)] (o.getD [])))).1 with
  | error e => rw [hx] at h; cases h
  | ok r =>
    rw [hx] at h
    cases r with
    | none => cases h
    | some x =>
      simp only [Except.ok.injEq] at h
      have hopt := hs _ _ _ hx
      have h2' : 2 ≤ L.toNat := by omega
      have hL' : L.toNat ≤ S := by omega
      obtain ⟨⟨c, hc⟩, hf⟩ := C48_objective E L.toNat h2' hL'
      refine ⟨folds S L.toNat, x, C47_folds S _ h2' hL', (hf x).mp hopt.1, fun i => ?_, fun y hy => ?_⟩
      · rw [← h]
        unfold combine
        exact Finset.sum_congr rfl (fun k _ => mul_comm _ _)
      · have := hopt.2 y ((hf y).mpr hy)
        rw [hc, hc] at this
        linarith

/-- **C48** (the solver hypothesis can be met) over the reals the programme always has a solution. -/
theorem C48_optimum_exists (E : Fin N → Fin S → ℝ) (L : ℕ) (h2 : 2 ≤ L) (hL : L ≤ S) : ∃ x, QpOptimal (stackQp E L) x := by
  have hS : 0 < S := by omega
  have : Nonempty (Fin S) := ⟨⟨0, hS⟩⟩
  obtain ⟨-, hf⟩ := C48_objective E L h2 hL
  have hcont : Continuous (fun x : Fin S → ℝ => qpValue (stackQp E L) x) := by
    unfold qpValue
    fun_prop
  have hc : IsCompact (stdSimplex ℝ (Fin S)) := isCompact_stdSimplex ℝ (Fin S)
  have hne : (stdSimplex ℝ (Fin S)).Nonempty := ⟨_, single_mem_stdSimplex ℝ (⟨0, hS⟩ : Fin S)⟩
  obtain ⟨x, hx, hmin⟩ := hc.exists_isMinOn hne hcont.continuousOn
  exact ⟨x, (hf x).mpr hx, fun y hy => hmin ((hf y).mp hy)⟩

/-! ## C49 -/

/-- **C49** whatever the body does to the global option dictionary, and whether it returns or raises, the dictionary is afterwards
exactly what it was (same entries, same order). -/
theorem C49_restored {V α : Type*} (overrides : Option (List (String × V)))
    (body : List (String × V) → Except PyErr α × List (String × V)) (g : List (String × V)) (hg : (g.map Prod.fst).Nodup) :
    (withOptions overrides body g).2 = g := by
  unfold withOptions
  exact dictUpdate_append (d := []) hg

/-- **C49** the same for `exposure_stacking`, for every solver outcome, valid or invalid `L`. -/
theorem C49_stacking {V : Type*} (solve : QpSolver S S 1 K V) (off : V) (E : Fin N → Fin S → K) (L : ℤ)
    (o : Option (List (String × V))) (g : List (String × V)) (hg : (g.map Prod.fst).Nodup) :
    (exposureStacking solve off E L o g).2 = g := by
  unfold exposureStacking
  split
  · rfl
  split
  · rfl
  split
  · rfl
  have := C49_restored (some (dictUpdate [("show_progress", off)] (o.getD []))) (solve (stackQp E L.toNat)) g hg
  simp only
  generalize withOptions (some (dictUpdate [("show_progress", off)] (o.getD []))) (solve (stackQp E L.toNat)) g = r at this
  split <;> simp [this]

/-- **C49** while the body runs, the overrides are in effect and every other option keeps its value. -/
theorem C49_in_effect {V α : Type*} (overrides : List (String × V))
    (body : List (String × V) → Except PyErr α × List (String × V)) (g : List (String × V)) (ho : (overrides.map Prod.fst).Nodup) :
    ∃ g', (withOptions (some overrides) body g).1 = (body g').1 ∧ (∀ k v, (k, v) ∈ overrides → g'.lookup k = some v) ∧
      ∀ k, k ∉ overrides.map Prod.fst → g'.lookup k = g.lookup k := by
  refine ⟨dictUpdate g overrides, rfl, fun k v hkv => ?_, fun k hk => ?_⟩
  · rw [lookup_dictUpdate]
    have hn : ((overrides.reverse).map Prod.fst).Nodup := by rw [List.map_reverse]; exact List.nodup_reverse.mpr ho
    rw [(lookup_iff hn).mpr (by simpa using hkv)]
    rfl
  · rw [lookup_dictUpdate]
    have : overrides.reverse.lookup k = none := by
      rw [List.lookup_eq_none_iff]
      intro p hp
      have : p.1 ∈ overrides.map Prod.fst := List.mem_map_of_mem (by simpa using hp)
      simp only [bne_iff_ne, ne_eq]
      rintro rfl
      exact hk this
    rw [this]
    rfl

/-- **C49** the solver is silenced unless the caller says otherwise. -/
theorem C49_quiet {V : Type*} (solve : QpSolver S S 1 K V) (off : V) (E : Fin N → Fin S → K) (L : ℤ)
    (o : List (String × V)) (g : List (String × V)) (h2 : 2 ≤ L) (hL : L ≤ S) :
    ∃ g', ((exposureStacking solve off E L (some o) g).1 = match (solve (stackQp E L.toNat) g').1 with
        | .error e => .error e
        | .ok none => .error .runtimeError
        | .ok (some x) => .ok (combine E x)) ∧
      ("show_progress" ∉ o.map Prod.fst → g'.lookup "show_progress" = some off) := by
  refine ⟨dictUpdate g (dictUpdate [("show_progress", off)] o), ?_, fun h => ?_⟩
  · unfold exposureStacking
    rw [if_neg (by omega), if_neg (by omega), if_neg (by omega)]
    simp only [Option.getD_some, withOptions]
    generalize (solve (stackQp E L.toNat) (dictUpdate g (dictUpdate [("show_progress", off)] o))).1 = r
    rcases r with e | (_ | x) <;> rfl
  · have hn : ((dictUpdate [("show_progress", off)] o).map Prod.fst).Nodup := nodup_dictUpdate (by simp)
    rw [lookup_dictUpdate]
    have h1 : (dictUpdate [("show_progress", off)] o).lookup "show_progress" = some off := by
      rw [lookup_dictUpdate]
      have : o.reverse.lookup "show_progress" = none := by
        rw [List.lookup_eq_none_iff]
        intro p hp
        have : p.1 ∈ o.map Prod.fst := List.mem_map_of_mem (by simpa using hp)
        simp only [bne_iff_ne, ne_eq]
        intro hE
        rw [← hE] at this
        exact h this
      rw [this]
      simp
    have hn' : (((dictUpdate [("show_progress", off)] o).reverse).map Prod.fst).Nodup := by
      rw [List.map_reverse]; exact List.nodup_reverse.mpr hn
    rw [(lookup_iff hn').mpr (List.mem_reverse.mpr ((lookup_iff hn).mp h1))]
    rfl

example : (withOptions (α := Unit) (some [("maxiters", 5)]) (fun g => (.error .other, dictSet g "junk" 1))
    [("maxiters", 100), ("show_progress", 1)]) = (.error .other, [("maxiters", 100), ("show_progress", 1)]) := by decide +kernel

/-! ## C50 -/

/-- **C50** (counterexample) with default arguments a single specification always fails, even though its factory and its selector
work: the automatic fold count is 1, which stacking rejects. -/
theorem C50_counterexample {V : Type*} (solve : ∀ S, QpSolver S S 1 K V) (off : V) (g : List (String × V)) (s : EnsSpec K N)
    (f : AnyFrontier K N) (w : Fin N → K) (hf : s.factory = .ok f) (hw : s.selector f = .ok w) :
    assemble solve off g [s] ["stack"] "selected" none .none none = .error .valueError := by
  have hr : runSpec s = .ok (s.name, f, w) := by simp [runSpec, hf, hw]
  unfold assemble
  rw [if_neg (by simp)]
  simp only [mapE, hr]
  rw [if_neg (by decide), if_neg (by simp)]
  simp only [ensembleColumns, if_pos, determineFolds]
  rw [if_neg (by simp)]
  simp only [oneEnsemble]
  rw [if_neg (by decide)]
  simp only [if_true]
  rw [C47_rejects _ _ _ _ _ _ (by left; simp)]

/-- Every specification's factory works and its selector picks the corresponding portfolio. -/
def Picked (specs : List (EnsSpec K N)) (ws : List (Fin N → K)) : Prop :=
  List.Forall₂ (fun s w => ∃ f, s.factory = .ok f ∧ s.selector f = .ok w) specs ws

theorem mapE_runSpec {specs : List (EnsSpec K N)} {ws : List (Fin N → K)} (h : Picked specs ws) :
    ∃ rs, mapE runSpec specs = .ok rs ∧ rs.map (fun r => r.2.2) = ws := by
  induction h with
  | nil => exact ⟨[], rfl, rfl⟩
  | cons h1 _ ih =>
    obtain ⟨f, hf, hw⟩ := h1
    obtain ⟨rs, hrs, rfl⟩ := ih
    exact ⟨(_, f, _) :: rs, by simp only [mapE, runSpec, hf, hw, hrs]; rfl, rfl⟩

/-- **C50** (partial) with at least two specifications whose factories and selectors work, and a sound QP solver that finds the
optimum, the default call succeeds and returns one stacked portfolio, a convex combination of the selected ones. Missing: one
specification (`C50_counterexample`). -/
theorem C50_default_partial {V : Type*} (solve : ∀ S, QpSolver S S 1 K V) (off : V) (g : List (String × V))
    (specs : List (EnsSpec K N)) (ws : List (Fin N → K)) (h2 : 2 ≤ specs.length) (hp : Picked specs ws)
    (hs : ∀ S, SolverSound (solve S))
    (ht : ∀ S (E : Fin N → Fin S → K) (L : ℕ) o, 2 ≤ L → L ≤ S → ∃ x, (solve S (stackQp E L) o).1 = .ok (some x)) :
    ∃ v x, assemble solve off g specs ["stack"] "selected" none .none none = .ok [("stack", v)] ∧
      Simplex x ∧ ∀ i, v i = ∑ k : Fin ws.length, x k * ws.get k i := by
  obtain ⟨rs, hrs, hws⟩ := mapE_runSpec hp
  have hlen : specs.length = ws.length := hp.length_eq
  have hnf : determineFolds none specs.length = .ok (min 3 (specs.length : ℤ)) := by
    unfold determineFolds
    rw [if_neg (by omega)]
    simp only [Option.getD_none]
    congr 1
    omega
  obtain ⟨v, hv⟩ : ∃ v, (exposureStacking (solve ws.length) off (matrixOf ws) (min 3 (specs.length : ℤ)) none g).1 = .ok v := by
    unfold exposureStacking
    rw [if_neg (by omega), if_neg (by omega), if_neg (by omega)]
    simp only [withOptions]
    obtain ⟨x, hx⟩ := ht ws.length (matrixOf ws) (min 3 (specs.length : ℤ)).toNat
      (dictUpdate g (dictUpdate [("show_progress", off)] (Option.getD none []))) (by omega) (by omega)
    rw [hx]
    exact ⟨_, rfl⟩
  obtain ⟨_, x, _, hx, hvx, _⟩ := C48_result (solve ws.length) (hs _) off (matrixOf ws) _ none g v hv
  refine ⟨v, x, ?_, hx, hvx⟩
  unfold assemble
  rw [if_neg (by rintro rfl; simp at h2), hrs]
  simp only
  rw [if_neg (by decide), if_neg (by simp)]
  simp only [ensembleColumns, if_pos, hws, hnf, mapE, oneEnsemble]
  rw [if_neg (by decide)]
  simp only [hv]
  rfl

/-! ## C51 -/

/-- The keyword dictionary after a history of calls of the selector on arbitrary frontiers. -/
def afterCalls (argsort : ∀ M, (Fin M → K) → Equiv.Perm (Fin M)) (s : Sel K) (kw : SelKw K) : List (AnyFrontier K N) → SelKw K
  | [] => kw
  | f :: fs => afterCalls argsort s (callSelector (argsort f.M) s kw f.f).2 fs

/-- **C51** (partial) a built-in selector gives the same portfolio on the same frontier after any history of calls, provided it is
not a `min_risk` selector with an explicit risk label. Missing: that case, see `C51_counterexample`. -/
theorem C51_reusable_partial (argsort : ∀ M, (Fin M → K) → Equiv.Perm (Fin M)) (key : String) (kw kw' : SelKw K) (s : Sel K)
    (hb : buildSelector key kw = .ok (s, kw')) (hkey : key.toLower ∈ ["min_risk", "minimum_risk"] → kw.riskLabel = none)
    (history : List (AnyFrontier K N)) (f : AnyFrontier K N) :
    (callSelector (argsort f.M) s (afterCalls argsort s kw' history) f.f).1 = (callSelector (argsort f.M) s kw' f.f).1 := by
  unfold buildSelector at hb
  generalize key.toLower = key at hb hkey
  have hstate : afterCalls argsort s kw' history = kw' := by
    have hstep : ∀ g : AnyFrontier K N, (callSelector (argsort g.M) s kw' g.f).2 = kw' := by
      intro g
      by_cases hs : s = .minRisk
      · subst hs
        have : kw'.riskLabel = none := by
          by_cases hk : key ∈ ["min_risk", "minimum_risk"]
          · have h1 := hkey hk
            unfold selectorFor at hb
            rw [if_neg (by rcases List.mem_cons.mp hk with rfl | hk; · decide
                           · rcases List.mem_cons.mp hk with rfl | hk
                             · decide
                             · cases hk), if_pos hk] at hb
            simp only [Except.ok.injEq, Prod.mk.injEq, true_and] at hb
            rw [← hb]; exact h1
          · unfold selectorFor at hb
            rw [if_neg hk] at hb
            repeat' split at hb
            all_goals simp at hb
        simp [callSelector, ← this]
      · cases s <;> first | rfl | exact absurd rfl hs
    induction history with
    | nil => rfl
    | cons g gs ih =>
      show afterCalls argsort s (callSelector (argsort g.M) s kw' g.f).2 gs = kw'
      rw [hstep g]; exact ih
  rw [hstate]

/-- **C51** (counterexample) a `min_risk` selector with `risk_label="CVaR"` returns the CVaR-minimal portfolio on its first call and
the volatility-minimal one on its second call on the same frontier: the first call consumes the label. -/
theorem C51_counterexample :
    ∃ s kw, buildSelector "min_risk" ({ riskLabel := some "CVaR" } : SelKw ℚ) = .ok (s, kw) ∧
      (callSelector (Tuple.sort ·) s kw exFrontier).1 = .ok ![1/2, 1/2] ∧
      (callSelector (Tuple.sort ·) s (callSelector (Tuple.sort ·) s kw exFrontier).2 exFrontier).1 = .ok ![1, 0] := by
  have h1 : exFrontier.minRisk (some "CVaR") = .ok ⟨![1/2, 1/2], 3/100, 1/100⟩ := by
    rw [C52_min_risk]
    refine ⟨![3/100, 1/100, 6/100], 1, .inr ⟨_, rfl, by decide, rfl⟩, ⟨trivial, ?_, ?_⟩, ?_, rfl, rfl⟩
    · intro j _; fin_cases j <;> norm_num
    · intro j hj _; fin_cases j <;> revert hj <;> norm_num
    · intro a; fin_cases a <;> rfl
  have h2 : exFrontier.minRisk none = .ok ⟨![1, 0], 1/100, 0⟩ := by
    rw [C52_min_risk]
    refine ⟨exFrontier.risks, 0, .inl ⟨.inl rfl, rfl⟩, ⟨trivial, ?_, ?_⟩, ?_, rfl, rfl⟩
    · intro j _; fin_cases j <;> norm_num [exFrontier]
    · intro j hj _; fin_cases j <;> revert hj <;> norm_num
    · intro a; fin_cases a <;> rfl
  refine ⟨.minRisk, { riskLabel := some "CVaR" }, ?_, ?_, ?_⟩
  · unfold buildSelector
    rw [show "min_risk".toLower = "min_risk" by decide +kernel]
    rfl
  · simp only [callSelector, h1, weightsOf]
  · simp only [callSelector, h2, weightsOf]

/-! ## C73 -/

/-- `w` is the column of the specification's own frontier that `combine="frontier"` documents: the chosen one (negative indices count
from the end), or the first of smallest risk. -/
def OwnColumn (s : EnsSpec K N) (w : Fin N → K) : Prop :=
  ∃ f k, s.factory = .ok f ∧ (∀ a, w a = f.f.weights a k) ∧
    match s.selection with
    | none => Spec.Frontier.FirstMin (fun _ => True) f.f.risks k
    | some [i] => (k : ℤ) = if i < 0 then i + f.M else i
    | some _ => False

theorem frontierOf_own {specs : List (EnsSpec K N)} (hn : (specs.map EnsSpec.name).Nodup)
    {rs : List (String × AnyFrontier K N × (Fin N → K))} (h : mapE runSpec specs = .ok rs) {fs : List (AnyFrontier K N)}
    (hf : mapE (fun s => frontierOf rs s.name) specs = .ok fs) : List.Forall₂ (fun s f => s.factory = .ok f) specs fs := by
  rw [mapE_iff] at h hf
  have hrun : ∀ s ∈ specs, ∃ f w, s.factory = .ok f ∧ (s.name, f, w) ∈ rs := by
    intro s hs
    obtain ⟨i, hi, rfl⟩ := List.getElem_of_mem hs
    have hi' : i < rs.length := h.length_eq ▸ hi
    have h1 := (List.forall₂_iff_get.mp h).2 i hi hi'
    have hr := List.get_mem rs ⟨i, hi'⟩
    generalize rs.get ⟨i, hi'⟩ = r at h1 hr
    simp only [List.get_eq_getElem] at h1
    unfold runSpec at h1
    split at h1
    · cases h1
    rename_i f hf'
    split at h1
    · cases h1
    rename_i w hw
    injection h1 with h1
    exact ⟨f, w, hf', h1 ▸ hr⟩
  have hnames : rs.map Prod.fst = specs.map EnsSpec.name := by
    clear hf hrun hn
    induction h with
    | nil => rfl
    | cons h1 _ ih =>
      simp only [List.map_cons, ih, List.cons.injEq, and_true]
      unfold runSpec at h1
      split at h1
      · cases h1
      split at h1
      · cases h1
      injection h1 with h1
      rw [← h1]
  have hnr : ((rs.reverse).map Prod.fst).Nodup := by
    rw [List.map_reverse, List.nodup_reverse, hnames]; exact hn
  refine List.forall₂_iff_get.mpr ⟨hf.length_eq, fun i h1 h2 => ?_⟩
  have h3 := (List.forall₂_iff_get.mp hf).2 i h1 h2
  obtain ⟨f, w, hfac, hm⟩ := hrun _ (List.get_mem specs ⟨i, h1⟩)
  unfold frontierOf at h3
  rw [(lookup_iff hnr).mpr (List.mem_reverse.mpr hm)] at h3
  injection h3 with h3
  rw [← h3]; exact hfac

theorem forall₂_zip_left {α β γ : Type*} {R : α → β → Prop} {P : α × β → γ → Prop} {l : List α} {m : List β} {r : List γ}
    (h1 : List.Forall₂ R l m) (h2 : List.Forall₂ P (l.zip m) r) : List.Forall₂ (fun a c => ∃ b, R a b ∧ P (a, b) c) l r := by
  induction h1 generalizing r with
  | nil => cases h2; exact .nil
  | cons h _ ih =>
    cases h2 with
    | cons h3 h4 => exact .cons ⟨_, h, h3⟩ (ih h4)

theorem columns_own {specs : List (EnsSpec K N)} (hn : (specs.map EnsSpec.name).Nodup)
    {rs : List (String × AnyFrontier K N × (Fin N → K))} (h : mapE runSpec specs = .ok rs)
    {cols : List (Fin N → K)} {names : Option (List String)} (hc : ensembleColumns "frontier" specs rs = .ok (cols, names)) :
    names = none ∧ List.Forall₂ OwnColumn specs cols := by
  unfold ensembleColumns at hc
  rw [if_neg (by decide)] at hc
  cases hfs : mapE (fun s => frontierOf rs s.name) specs with
  | error e => rw [hfs] at hc; cases hc
  | ok fs =>
    rw [hfs] at hc
    simp only at hc
    have hown := frontierOf_own hn h hfs
    cases hcs : mapE (fun p : AnyFrontier K N × EnsSpec K N => cleanSelection p.1 p.2.selection) (fs.zip specs) with
    | error e => rw [hcs] at hc; cases hc
    | ok cs =>
      rw [hcs] at hc
      simp only at hc
      cases hcol : mapE sampleColumn (fs.zip cs) with
      | error e => rw [hcol] at hc; cases hc
      | ok cols' =>
        rw [hcol] at hc
        simp only [Except.ok.injEq, Prod.mk.injEq] at hc
        obtain ⟨rfl, rfl⟩ := hc
        refine ⟨rfl, ?_⟩
        rw [mapE_iff] at hcs hcol
        clear h hfs hn
        induction hown generalizing cs cols' with
        | nil => simp only [List.zip_nil_left] at hcs; cases hcs; simp only [List.zip_nil_left] at hcol; cases hcol; exact .nil
        | @cons s f specs fs hsf _ ih =>
          rw [List.zip_cons_cons] at hcs
          cases hcs with
          | @cons _ c _ cs h1 h2 =>
            rw [List.zip_cons_cons] at hcol
            cases hcol with
            | @cons _ w _ cols h3 h4 =>
              refine .cons ?_ (ih _ h2 _ h4)
              simp only at h1
              unfold sampleColumn at h3
              simp only at h3
              split at h3
              · cases h3
              rename_i k hk
              injection h3 with h3
              refine ⟨f, k, hsf, fun a => by rw [← h3], ?_⟩
              have hkc : ((k : ℕ) : ℤ) = if c < 0 then c + f.M else c := pyIndex_ok hk
              unfold cleanSelection at h1
              split at h1
              · split at h1
                · cases h1
                rename_i heq _ i hi
                injection h1 with h1
                rw [heq]
                simp only
                have : k = i := by
                  apply Fin.ext
                  rw [← h1, if_neg (by omega)] at hkc
                  exact_mod_cast hkc
                rw [this]
                exact firstArgmin_iff.mp hi
              · rename_i heq
                injection h1 with h1
                rw [heq, h1]
                exact hkc
              · cases h1

/-- **C73** (partial) with `combine="frontier"` and distinct specification names, the average is taken over each specification's own
frontier column. Missing: repeated names, see `C73_counterexample`. -/
theorem C73_own_frontier_partial {V : Type*} (solve : ∀ S, QpSolver S S 1 K V) (off : V) (g : List (String × V))
    (specs : List (EnsSpec K N)) (hn : (specs.map EnsSpec.name).Nodup) (sf : Option ℤ) (w : WeightsArg String K)
    (kw : Option (List (String × V))) (r : List (String × (Fin N → K)))
    (h : assemble solve off g specs ["average"] "frontier" sf w kw = .ok r) :
    ∃ cols v, List.Forall₂ OwnColumn specs cols ∧ r = [("average", v)] ∧
      averageExposures (A := String) (matrixOf cols) none w = .ok v := by
  unfold assemble at h
  split at h
  · cases h
  cases hrs : mapE runSpec specs with
  | error e => rw [hrs] at h; cases h
  | ok rs =>
    rw [hrs] at h
    simp only at h
    rw [if_neg (by decide), if_neg (by simp)] at h
    cases hcols : ensembleColumns "frontier" specs rs with
    | error e => rw [hcols] at h; cases h
    | ok p =>
      obtain ⟨cols, names⟩ := p
      rw [hcols] at h
      simp only at h
      obtain ⟨rfl, hown⟩ := columns_own hn hrs hcols
      split at h
      · cases h
      simp only [mapE, oneEnsemble, if_true] at h
      cases hv : averageExposures (matrixOf cols) (none : Option (List String)) w with
      | error e => rw [hv] at h; cases h
      | ok v =>
        rw [hv] at h
        simp only [Except.ok.injEq] at h
        exact ⟨cols, v, hown, h.symm, hv⟩

/-- One-portfolio frontier of one asset with the given weight. -/
def oneAsset (x : ℚ) : AnyFrontier ℚ 1 where
  M := 1
  f := { weights := fun _ _ => x, returns := fun _ => 0, risks := fun _ => 0, riskMeasure := "Volatility", alternates := [] }

/-- A working specification for it. -/
def oneSpec (name : String) (x : ℚ) : EnsSpec ℚ 1 where
  name := name
  factory := .ok (oneAsset x)
  selector := fun f => .ok (fun a => if h : 0 < f.M then f.f.weights a ⟨0, h⟩ else 0)

/-- **C73** (counterexample) two specifications of the same name: the average of weights 1 and 3 is 3, because the second frontier
has replaced the first. With distinct names it is 2. -/
theorem C73_counterexample :
    (∃ v, assemble (V := Unit) (fun _ _ _ => (.ok none, [])) () [] [oneSpec "x" 1, oneSpec "x" 3] ["average"] "frontier" none .none none
        = .ok [("average", v)] ∧ v 0 = 3) ∧
      ∃ v, assemble (V := Unit) (fun _ _ _ => (.ok none, [])) () [] [oneSpec "x" 1, oneSpec "y" 3] ["average"] "frontier" none .none none
        = .ok [("average", v)] ∧ v 0 = 2 :=
  ⟨⟨fun _ => 3, by decide +kernel, rfl⟩, ⟨fun _ => 2, by decide +kernel, rfl⟩⟩

/-- The hypotheses of `C50_default_partial` on specifications are met by a concrete pair. -/
example : Picked [oneSpec "x" 1, oneSpec "y" 3] [fun _ => 1, fun _ => 3] :=
  .cons ⟨_, rfl, by rfl⟩ (.cons ⟨_, rfl, by rfl⟩ .nil)

end PyV.Props
