import Verif.Props.BlackLitterman
import Verif.Spec.BlackLitterman
import Verif.Lemmas.Psd
import Mathlib.Tactic

/-! # Properties C130–C132: inputs of the Black–Litterman processor -/

namespace PyV.Props

open PyV PyV.FV PyV.BL Matrix
open PyV.Spec.BL (ReadsAs Refers Asks IsRow HasConfidence IsOmega IsPosterior)

variable {N : ℕ}

/-! ## Labels -/

theorem indexOf_unique {assets : Fin N → Label} (ha : Function.Injective assets) {key : Label} {i : Fin N} (h : assets i = key) :
    indexOf assets key = some i := by
  cases hk : indexOf assets key with
  | none => exact absurd h (indexOf_none hk i)
  | some j => rw [ha ((indexOf_some hk).trans h.symm)]

theorem digits_foldl (l : List Char) (a : ℤ) :
    l.foldl (fun (a : ℤ) (c : Char) => 10 * a + ((c.toNat - '0'.toNat : ℕ) : ℤ)) a =
      10 ^ l.length * a + (Nat.ofDigits 10 (l.reverse.map (fun c => c.toNat - '0'.toNat)) : ℕ) := by
  induction l generalizing a with
  | nil => simp
  | cons c l ih =>
    rw [List.foldl_cons, ih]
    simp only [List.reverse_cons, List.map_append, List.map_cons, List.map_nil, Nat.ofDigits_append, List.length_map, List.length_reverse,
      Nat.ofDigits_singleton, List.length_cons]
    push_cast
    ring

theorem digits_spec (s : String) (k : ℤ) : digits? s = some k ↔ ReadsAs (.str s) k := by
  unfold digits? ReadsAs
  simp only [reduceCtorEq, Label.str.injEq, false_or]
  split
  · rename_i h
    rw [digits_foldl]
    simp only [mul_zero, zero_add, Option.some.injEq]
    constructor
    · intro e
      exact ⟨s, rfl, h.1, by simpa using h.2, e.symm⟩
    · rintro ⟨s', rfl, -, -, e⟩; exact e.symm
  · rename_i h
    simp only [reduceCtorEq, false_iff, not_exists, not_and]
    rintro s' rfl h1 h2
    exact absurd ⟨h1, by simpa using h2⟩ h

theorem readsAs_int (k k' : ℤ) : ReadsAs (.int k) k' ↔ k = k' := by
  unfold ReadsAs; simp

theorem readsAs_unique {l : Label} {k k' : ℤ} (h : ReadsAs l k) (h' : ReadsAs l k') : k = k' := by
  cases l with
  | int n => rw [readsAs_int] at h h'; omega
  | str s => rw [← digits_spec] at h h'; rw [h] at h'; injection h'

/-- A label refers to at most one asset. -/
theorem refers_unique {assets : Fin N → Label} (ha : Function.Injective assets) {l : Label} {i j : Fin N} (h : Refers assets l i)
    (h' : Refers assets l j) : i = j := by
  rcases h with h | ⟨h0, k, hk, h⟩ <;> rcases h' with h' | ⟨h0', k', hk', h'⟩
  · exact ha (h.trans h'.symm)
  · exact absurd h (h0' i)
  · exact absurd h' (h0 j)
  · obtain rfl := readsAs_unique hk hk'
    rcases h with h | ⟨h1, h⟩ <;> rcases h' with h' | ⟨h1', h'⟩
    · exact ha (h.trans h'.symm)
    · exact absurd h (h1' i)
    · exact absurd h' (h1 j)
    · exact Fin.ext (by omega)

theorem assetIndex_spec {assets : Fin N → Label} (ha : Function.Injective assets) (l : Label) (i : Fin N) :
    assetIndex assets l = .ok i ↔ Refers assets l i := by
  have key : ∀ k : ℤ, ((if h : 0 ≤ k ∧ k < N then (.ok ⟨k.toNat, by omega⟩ : Except PyErr (Fin N)) else .error .valueError) = .ok i) ↔
      ((i : ℕ) : ℤ) = k := by
    intro k
    split
    · rename_i h
      simp only [Except.ok.injEq]
      constructor
      · rintro rfl; simp; omega
      · intro e; exact Fin.ext (by simp; omega)
    · rename_i h
      simp only [reduceCtorEq, false_iff]
      intro e
      have := i.2
      omega
  unfold assetIndex
  cases hk : indexOf assets l with
  | some j =>
    have hj := indexOf_some hk
    simp only [Except.ok.injEq]
    constructor
    · rintro rfl; exact Or.inl hj
    · intro h; exact refers_unique ha (Or.inl hj) h
  | none =>
    have h0 := indexOf_none hk
    simp only
    cases l with
    | int n =>
      simp only
      rw [key]
      constructor
      · intro e; exact Or.inr ⟨h0, n, (readsAs_int _ _).mpr rfl, Or.inr ⟨h0, e⟩⟩
      · rintro (h | ⟨-, k, hk, h | ⟨-, h⟩⟩)
        · exact absurd h (h0 i)
        · rw [readsAs_int] at hk; subst hk; exact absurd h (h0 i)
        · rw [readsAs_int] at hk; subst hk; exact h
    | str s =>
      simp only
      cases hd : digits? s with
      | none =>
        simp only [reduceCtorEq, false_iff]
        rintro (h | ⟨-, k, hk, -⟩)
        · exact h0 i h
        · rw [← digits_spec, hd] at hk; cases hk
      | some k =>
        have hr := (digits_spec s k).mp hd
        simp only
        cases hk2 : indexOf assets (.int k) with
        | some j =>
          have hj := indexOf_some hk2
          simp only [Except.ok.injEq]
          have hjr : Refers assets (.str s) j := Or.inr ⟨h0, k, hr, Or.inl hj⟩
          constructor
          · rintro rfl; exact hjr
          · intro h; exact refers_unique ha hjr h
        | none =>
          have h1 := indexOf_none hk2
          simp only
          rw [key]
          constructor
          · intro e; exact Or.inr ⟨h0, k, hr, Or.inr ⟨h1, e⟩⟩
          · rintro (h | ⟨-, k', hk', h | ⟨-, h⟩⟩)
            · exact absurd h (h0 i)
            · obtain rfl := readsAs_unique hr hk'; exact absurd h (h1 i)
            · obtain rfl := readsAs_unique hr hk'; exact h

theorem assetIndex_error {assets : Fin N → Label} {l : Label} {e : PyErr} (h : assetIndex assets l = .error e) : e = .valueError := by
  unfold assetIndex at h
  repeat' split at h
  all_goals first | cases h; done | (injection h with h; exact h.symm)

theorem target_spec (v : Val) (t : ℝ) : target v = .ok t ↔ Asks v t := by
  unfold target Asks
  cases v with
  | scalar x => simp
  | seq l =>
    rcases l with _ | ⟨x, _ | ⟨y, l⟩⟩ <;> simp

theorem target_error {v : Val} {e : PyErr} (h : target v = .error e) : e = .valueError := by
  unfold target at h
  split at h
  · cases h
  · cases h
  · injection h with h; exact h.symm

theorem row_ext {row row' : Fin N → ℝ} (h : ∀ m, row ⬝ᵥ m = row' ⬝ᵥ m) : row = row' := by
  ext i
  have := h (Pi.single i 1)
  simpa using this

theorem single_dot (i : Fin N) (m : Fin N → ℝ) : Function.update (fun _ => (0:ℝ)) i 1 ⬝ᵥ m = m i := by
  simp only [dotProduct]
  rw [Finset.sum_eq_single i]
  · simp
  · intro j _ hj; simp [hj]
  · simp

theorem pair_dot (i j : Fin N) (hij : i ≠ j) (m : Fin N → ℝ) :
    Function.update (Function.update (fun _ => (0:ℝ)) i 1) j (-1) ⬝ᵥ m = m i - m j := by
  have : ∀ k, Function.update (Function.update (fun _ : Fin N => (0:ℝ)) i 1) j (-1) k =
      (if k = i then 1 else 0) - (if k = j then 1 else 0) := by
    intro k
    by_cases h1 : k = j
    · subst h1
      simp [Ne.symm hij]
    · by_cases h2 : k = i
      · subst h2; simp [h1]
      · simp [h1, h2]
  simp only [dotProduct, this, sub_mul, Finset.sum_sub_distrib, ite_mul, one_mul, zero_mul, Finset.sum_ite_eq',
    Finset.mem_univ, if_true]

theorem same_dot (i : Fin N) (m : Fin N → ℝ) :
    Function.update (Function.update (fun _ => (0:ℝ)) i 1) i (-1) ⬝ᵥ m = -m i := by
  simp only [dotProduct]
  rw [Finset.sum_eq_single i]
  · simp
  · intro j _ hj; simp [hj]
  · simp

theorem pickRow_spec {assets : Fin N → Label} (ha : Function.Injective assets) (key : MKey) (row : Fin N → ℝ) :
    pickRow assets key = .ok row ↔ IsRow assets key row := by
  unfold IsRow
  cases key with
  | single a =>
    simp only [pickRow, bind_ok, assetIndex_spec ha, MKey.single.injEq, reduceCtorEq, false_and, exists_false, or_false, Except.ok.injEq]
    constructor
    · rintro ⟨i, hi, rfl⟩
      exact ⟨a, i, rfl, hi, single_dot i⟩
    · rintro ⟨b, i, rfl, hi, h⟩
      exact ⟨i, hi, (row_ext (fun m => (h m).trans (single_dot i m).symm)).symm⟩
  | pair a b =>
    simp only [pickRow, bind_ok, assetIndex_spec ha, MKey.pair.injEq, reduceCtorEq, false_and, exists_false, false_or, Except.ok.injEq]
    constructor
    · rintro ⟨i, hi, j, hj, rfl⟩
      refine ⟨a, b, i, j, ⟨rfl, rfl⟩, hi, hj, fun hij => pair_dot i j hij, ?_⟩
      rintro rfl
      exact same_dot i
    · rintro ⟨a', b', i, j, ⟨rfl, rfl⟩, hi, hj, h1, h2⟩
      refine ⟨i, hi, j, hj, ?_⟩
      by_cases hij : i = j
      · subst hij
        exact (row_ext (fun m => (h2 rfl m).trans (same_dot i m).symm)).symm
      · exact (row_ext (fun m => (h1 hij m).trans (pair_dot i j hij m).symm)).symm

theorem pickRow_error {assets : Fin N → Label} {key : MKey} {e : PyErr} (h : pickRow assets key = .error e) : e = .valueError := by
  cases key with
  | single a =>
    simp only [pickRow] at h
    cases ha : assetIndex assets a with
    | error e' =>
      rw [ha] at h
      obtain rfl := assetIndex_error ha
      injection h with h; exact h.symm
    | ok i => rw [ha] at h; cases h
  | pair a b =>
    simp only [pickRow] at h
    cases ha : assetIndex assets a with
    | error e' =>
      rw [ha] at h
      obtain rfl := assetIndex_error ha
      injection h with h; exact h.symm
    | ok i =>
      rw [ha] at h
      cases hb : assetIndex assets b with
      | error e' =>
        rw [hb] at h
        obtain rfl := assetIndex_error hb
        injection h with h; exact h.symm
      | ok j => rw [hb] at h; cases h

theorem mapE_error {α β : Type*} {f : α → Except PyErr β} {l : List α} {e : PyErr} (h : mapE f l = .error e) : ∃ a ∈ l, f a = .error e := by
  induction l with
  | nil => cases h
  | cons a l ih =>
    simp only [mapE] at h
    cases hf : f a with
    | error e' => rw [hf] at h; injection h with h; subst h; exact ⟨a, List.mem_cons_self, hf⟩
    | ok b =>
      rw [hf] at h
      cases hm : mapE f l with
      | error e' =>
        rw [hm] at h; injection h with h; subst h
        obtain ⟨a', h1, h2⟩ := ih hm
        exact ⟨a', List.mem_cons_of_mem _ h1, h2⟩
      | ok bs => rw [hm] at h; cases h

/-- **C131** (views) The views become rows and targets exactly as documented: a view succeeds iff its labels refer to assets (by name, else
as an integer name, else by position) and it asks for one number, and the row is then the asset's mean or the difference of the two means;
every failure is a `ValueError`. (A key `(A, A)` is the degenerate case of C34.) -/
theorem C131_views {assets : Fin N → Label} (ha : Function.Injective assets) (views : List (MKey × Val)) :
    (∀ rows, buildViews assets views = .ok rows ↔ List.Forall₂ (fun kv rt => IsRow assets kv.1 rt.1 ∧ Asks kv.2 rt.2) views rows) ∧
    (∀ e, buildViews assets views = .error e → e = .valueError) := by
  constructor
  · intro rows
    unfold buildViews
    rw [PyV.FV.mapE_ok]
    have : (fun (kv : MKey × Val) (rt : (Fin N → ℝ) × ℝ) => (do
        let t ← target kv.2
        let row ← pickRow assets kv.1
        Except.ok (row, t) : Except PyErr ((Fin N → ℝ) × ℝ)) = .ok rt) =
        (fun kv rt => IsRow assets kv.1 rt.1 ∧ Asks kv.2 rt.2) := by
      funext kv rt
      simp only [bind_ok, target_spec, pickRow_spec ha, Except.ok.injEq, eq_iff_iff]
      constructor
      · rintro ⟨t, ht, row, hr, rfl⟩; exact ⟨hr, ht⟩
      · rintro ⟨hr, ht⟩; exact ⟨_, ht, _, hr, rfl⟩
    rw [this]
  · intro e h
    obtain ⟨kv, -, h⟩ := mapE_error h
    cases ht : target kv.2 with
    | error e' =>
      rw [ht] at h
      obtain rfl := target_error ht
      injection h with h; exact h.symm
    | ok t =>
      rw [ht] at h
      cases hr : pickRow assets kv.1 with
      | error e' =>
        simp only [hr, bind, Except.bind] at h
        obtain rfl := pickRow_error hr
        injection h with h; exact h.symm
      | ok r => simp only [hr, bind, Except.bind] at h; cases h

/-! ## Confidences and the posterior formula -/

theorem confidence_spec {conf : ConfArg} {keys : List MKey} {c : Option (List ℝ)} (h : parseConf conf keys = .ok c) :
    (conf = .none → c = none) ∧ (∀ l, c = some l → l.length = keys.length ∧ ∀ k, k < keys.length → HasConfidence conf keys k (l.getD k 0)) ∧
    (c = none → conf = .none) := by
  unfold parseConf at h
  split at h
  · injection h with h; subst h; simp
  · injection h with h; subst h
    refine ⟨by simp, ?_, by simp⟩
    intro l hl
    injection hl with hl; subst hl
    refine ⟨by simp, fun k hk => ?_⟩
    simp [HasConfidence, List.getD, hk]
  · rename_i d
    injection h with h; subst h
    refine ⟨by simp, ?_, by simp⟩
    intro l hl
    injection hl with hl; subst hl
    refine ⟨by simp, fun k hk => ?_⟩
    refine ⟨keys[k], by simp [hk], ?_⟩
    simp only [List.getD, List.getElem?_map, List.getElem?_eq_getElem hk, Option.map_some, Option.getD_some]
    cases hf : d.find? (fun kv => decide (kv.1 = keys[k])) with
    | none =>
      refine Or.inr ⟨fun x hx => ?_, rfl⟩
      rw [List.find?_eq_none] at hf
      simpa using hf _ hx
    | some kv =>
      left
      have h1 := List.find?_some hf
      have h2 := List.mem_of_find?_eq_some hf
      simp only [decide_eq_true_eq] at h1
      rw [← h1]
      exact h2
  · split at h
    · cases h
    · rename_i l hl
      injection h with h; subst h
      refine ⟨by simp, ?_, by simp⟩
      intro l' hl'
      injection hl' with hl'; subst hl'
      have hl : l.length = keys.length := not_not.mp hl
      exact ⟨hl, fun k hk => ⟨hl, by simp [List.getD, hl, hk]⟩⟩

theorem clip_comm (c : ℝ) : clipConf c = max (1 / 10 ^ 6) (min c (1 - 1 / 10 ^ 6)) := by
  unfold clipConf
  rcases le_total c (1 / 10 ^ 6) with h | h <;> rcases le_total c (1 - 1 / 10 ^ 6) with h' | h'
  · rw [max_eq_right h, min_eq_left h', max_eq_left h, min_eq_left (by norm_num)]
  · norm_num at h h'; linarith
  · rw [max_eq_left h, min_eq_left h', max_eq_right h]
  · rw [max_eq_left h, min_eq_right h', max_eq_right (by norm_num)]

theorem omega_spec {K : ℕ} {a : Args N} {conf : Option (List ℝ)} (hc : parseConf a.conf (a.views.map Prod.fst) = .ok conf)
    (hK : a.views.length = K) {sigma : Matrix (Fin N) (Fin N) ℝ} {P : Matrix (Fin K) (Fin N) ℝ} {om : Matrix (Fin K) (Fin K) ℝ}
    (h : buildOmega a.omega conf a.idzorekUseTau a.tau sigma P = .ok om) : IsOmega a sigma P om := by
  unfold buildOmega at h
  unfold IsOmega
  obtain ⟨-, h2, -⟩ := confidence_spec hc
  split at h
  · rename_i ho
    rw [ho]
    simp only at h
    split at h
    · cases h
    · rename_i c
      injection h with h; subst h
      refine ⟨fun i j hij => Matrix.diagonal_apply_ne _ hij, fun k => ⟨c.getD k 0, ?_, ?_⟩⟩
      · exact (h2 c rfl).2 k (by rw [List.length_map, hK]; exact k.2)
      · rw [Matrix.diagonal_apply_eq]
        simp only [← clip_comm]
        split
        · rw [smul_mulVec, dotProduct_smul, smul_eq_mul]
        · rw [one_mul]
  · rename_i ho
    rw [ho]
    injection h with h; subst h
    refine ⟨fun i j hij => Matrix.diagonal_apply_ne _ hij, fun k => ?_⟩
    rw [Matrix.diagonal_apply_eq, Matrix.mul_assoc, Matrix.mul_apply]
    simp only [dotProduct, Finset.mul_sum]
    refine Finset.sum_congr rfl fun i _ => ?_
    rw [Matrix.mul_apply]
    simp only [mulVec, dotProduct, Matrix.smul_apply, transpose_apply, smul_eq_mul, Finset.mul_sum]
    refine Finset.sum_congr rfl fun j _ => ?_
    ring
  · rename_i l ho
    rw [ho]
    split at h
    · rename_i hl
      injection h with h; subst h
      refine ⟨hl, fun i j hij => Matrix.diagonal_apply_ne _ hij, fun k => ?_⟩
      rw [Matrix.diagonal_apply_eq]
      simp [List.getD, hl]
    · cases h
  · rename_i m f ho
    rw [ho]
    split at h
    · rename_i hm
      injection h with h; subst h
      exact ⟨hm, fun i j => rfl⟩
    · cases h

/-- **C131** (formula) Whenever the processor returns with at least one view, the result is the published posterior for the prior mean used,
the documented rows and targets of the views, and the documented view covariance (with missing confidences taken as 1 and an array of
confidences read in view order). -/
theorem C131_formula {a : Args N} (ha : Function.Injective a.assets) (hv : a.views ≠ []) {r : (Fin N → ℝ) × Matrix (Fin N) (Fin N) ℝ}
    (h : BL.construct a = .ok r) :
    ∃ (pi : Fin N → ℝ) (rows : List ((Fin N → ℝ) × ℝ)) (om : Matrix (Fin rows.length) (Fin rows.length) ℝ),
      priorPi (symmetrise a.sigma) a.riskAversion a.pi a.marketWeights a.priorMean = .ok pi ∧
      List.Forall₂ (fun kv rt => IsRow a.assets kv.1 rt.1 ∧ Asks kv.2 rt.2) a.views rows ∧
      IsOmega a (symmetrise a.sigma) (fun k : Fin rows.length => (rows.get k).1) om ∧
      IsPosterior a.tau (symmetrise a.sigma) pi (Matrix.of fun k : Fin rows.length => (rows.get k).1) (fun k => (rows.get k).2) om r.1 r.2 := by
  obtain ⟨-, pi, rows, conf, hpi, hrows, hconf, hcase⟩ := construct_cases h
  have hf := ((C131_views ha a.views).1 rows).mp hrows
  rcases hcase with ⟨rfl, -⟩ | ⟨-, om, hom, hpost⟩
  · exact absurd (List.forall₂_nil_right_iff.mp hf) hv
  · refine ⟨pi, rows, om, hpi, hf, omega_spec hconf hf.length_eq hom, ?_⟩
    obtain ⟨hu, hm, hcv⟩ := posterior_ok hpost
    refine ⟨hm, ?_, ?_⟩
    · intro h1 h2
      rw [hcv]
      rw [← Matrix.mul_assoc ((a.tau • symmetrise a.sigma) * _) _ _]
      apply PyV.Psd.half_of_symm
      set A := Matrix.of (fun k : Fin rows.length => (rows.get k).1) * a.tau • symmetrise a.sigma *
        (Matrix.of (fun k : Fin rows.length => (rows.get k).1))ᵀ + om with hA
      have hAs : Aᵀ = A := by
        rw [hA]
        simp only [transpose_add, transpose_mul, transpose_transpose, transpose_smul, h1, h2, Matrix.mul_assoc]
      simp only [transpose_sub, transpose_add, transpose_mul, transpose_transpose, transpose_smul, h2, transpose_nonsing_inv, hAs,
        Matrix.mul_assoc]
    · rw [hcv, transpose_smul, transpose_add, transpose_transpose, add_comm]

/-! ## The constructor's arguments -/

/-- Arguments of consistent sizes, as in `C31`–`C34`: the given vectors as functions, the views as a dictionary. -/
noncomputable def sized (x : Inputs) (h : x.r = x.c) (pi : Fin x.r → ℝ) (views : List (MKey × Val)) : Args x.r where
  sigma := Matrix.of (fun i j => x.cov i (Fin.cast h j))
  assets := x.assets
  priorMean := none
  marketWeights := none
  riskAversion := x.riskAversion
  tau := x.tau
  idzorekUseTau := x.idzorekUseTau
  pi := some pi
  views := views
  conf := x.conf
  omega := x.omega

theorem finish_eq (x : Inputs) (h : x.r = x.c) (hra : 0 < x.riskAversion) {pi : List ℝ} (hpi : pi.length = x.r) {views : List (MKey × Val)}
    (hv : viewsDict x.assets x.views = .ok views) :
    finish x x.assets x.labels (x.sigma h) pi =
      (BL.construct (sized x h (fun i => pi.getD i 0) views)).map (fun r => ⟨List.ofFn r.1, r.2, x.labels⟩) := by
  have hlist : List.ofFn (fun i : Fin x.r => pi.getD i 0) = pi := by
    apply List.ext_getElem
    · simp [hpi]
    · intro n h1 h2; simp [List.getD, h2]
  unfold finish BL.construct
  simp only [hv, sized, not_le.mpr hra, if_false, priorPi, bind, Except.bind]
  cases buildViews x.assets views with
  | error e => rfl
  | ok rows =>
    simp only
    cases parseConf x.conf (views.map Prod.fst) with
    | error e => rfl
    | ok conf =>
      simp only
      by_cases hr : rows = []
      · simp only [hr, if_true, packPrior, hpi, ne_eq, not_true, and_false, if_false, Except.map, hlist]
        rfl
      · simp only [hr, if_false]
        cases ho : buildOmega x.omega conf x.idzorekUseTau x.tau (x.sigma h) (pickMat rows) with
        | error e =>
          have ho' : buildOmega x.omega conf x.idzorekUseTau x.tau (symmetrise (Matrix.of fun i j => x.cov i (Fin.cast h j)))
            (Matrix.of fun k => (rows.get k).1) = .error e := ho
          simp only [ho']
          rfl
        | ok om =>
          have ho' : buildOmega x.omega conf x.idzorekUseTau x.tau (symmetrise (Matrix.of fun i j => x.cov i (Fin.cast h j)))
            (Matrix.of fun k => (rows.get k).1) = .ok om := ho
          simp only [ho', packPosterior, hpi, ne_eq, not_true, if_false]
          cases hp : posterior x.tau (x.sigma h) (fun i => pi.getD i 0) (pickMat rows) (fun k => (rows.get k).2) om with
          | error e =>
            have hp' : posterior x.tau (symmetrise (Matrix.of fun i j => x.cov i (Fin.cast h j))) (fun i => pi.getD i 0)
              (Matrix.of fun k => (rows.get k).1) (fun k => (rows.get k).2) om = .error e := hp
            simp only [hp']
            rfl
          | ok r =>
            have hp' : posterior x.tau (symmetrise (Matrix.of fun i j => x.cov i (Fin.cast h j))) (fun i => pi.getD i 0)
              (Matrix.of fun k => (rows.get k).1) (fun k => (rows.get k).2) om = .ok r := hp
            simp only [hp']
            rfl

/-- The prior mean a call asks for: `pi` if given; else the equilibrium mean `δ Σ w / Σw` of the market weights; else `prior_mean`. -/
def AsksPrior (x : Inputs) (sigma : Matrix (Fin x.r) (Fin x.r) ℝ) (pi : Fin x.r → ℝ) : Prop :=
  (∃ l, x.pi = some l ∧ l = List.ofFn pi) ∨
  (x.pi = none ∧ ∃ w : Fin x.r → ℝ, x.marketWeights = some (List.ofFn w) ∧ ∑ i, w i ≠ 0 ∧
    ∀ i, pi i = x.riskAversion * ∑ j, sigma i j * (w j / ∑ k, w k)) ∨
  (x.pi = none ∧ x.marketWeights = none ∧ x.priorMean = some (List.ofFn pi))

/-- The views a call asks for: none, those of the dictionary, or one absolute view per asset. -/
def AsksViews (x : Inputs) (views : List (MKey × Val)) : Prop :=
  (x.views = .none ∧ views = []) ∨ x.views = .dict views ∨
  ∃ v : Fin x.r → ℝ, x.views = .vec (List.ofFn v) ∧ views = List.ofFn (fun i => (MKey.single (x.assets i), Val.scalar (v i)))

theorem ofFn_getD (w : Fin N → ℝ) (i : Fin N) : (List.ofFn w).getD i 0 = w i := by
  simp [List.getD]

theorem viewsDict_of {x : Inputs} {views : List (MKey × Val)} (h : AsksViews x views) : viewsDict x.assets x.views = .ok views := by
  rcases h with ⟨h, rfl⟩ | h | ⟨v, h, rfl⟩
  · rw [h]; rfl
  · rw [h]; rfl
  · rw [h]
    simp only [viewsDict, List.length_ofFn, if_true, ofFn_getD]

theorem priorVec_of {x : Inputs} {sigma : Matrix (Fin x.r) (Fin x.r) ℝ} {pi : Fin x.r → ℝ} (h : AsksPrior x sigma pi) :
    priorVec sigma x.riskAversion x.pi x.marketWeights x.priorMean = .ok (List.ofFn pi) := by
  unfold priorVec
  rcases h with ⟨l, h, rfl⟩ | ⟨h, w, hw, hs, hpi⟩ | ⟨h1, h2, h3⟩
  · rw [h]
  · rw [h, hw]
    simp only [List.length_ofFn, ne_eq, not_true, if_false, List.sum_ofFn, ofFn_getD]
    rw [if_neg hs]
    congr 2
    funext i
    rw [hpi i]
    rfl
  · rw [h1, h2, h3]

/-- **C130** (prior) With a square covariance (symmetrised when it is asymmetric beyond `1e-8 + 1e-5 |entry|`), positive risk aversion and
vectors of the right length, the processor gives the posterior of C31–C33 for the prior mean asked for — `pi`, else the equilibrium mean of
the normalised market weights, else `prior_mean` — and the views asked for, labelled by the assets of the covariance. -/
theorem C130_prior {x : Inputs} (h : x.r = x.c) (hra : 0 < x.riskAversion) {pi : Fin x.r → ℝ} (hpi : AsksPrior x (x.sigma h) pi)
    {views : List (MKey × Val)} (hv : AsksViews x views) :
    processor x = (BL.construct (sized x h pi views)).map (fun r => ⟨List.ofFn r.1, r.2, x.labels⟩) := by
  unfold processor
  rw [dif_pos h, if_neg (not_le.mpr hra), priorVec_of hpi]
  simp only
  rw [finish_eq x h hra (by simp) (viewsDict_of hv)]
  simp only [ofFn_getD]

/-- **C130** (no views) Without views the posterior is the prior: the prior mean asked for and the prior covariance. -/
theorem C130_no_views {x : Inputs} (h : x.r = x.c) (hra : 0 < x.riskAversion) {pi : Fin x.r → ℝ} (hpi : AsksPrior x (x.sigma h) pi)
    (hv : AsksViews x []) (hc : ∀ l, x.conf = .array l → l = []) :
    processor x = .ok ⟨List.ofFn pi, x.sigma h, x.labels⟩ := by
  rw [C130_prior h hra hpi hv]
  unfold BL.construct
  simp only [sized, not_le.mpr hra, if_false, priorPi, buildViews, mapE, List.map_nil, bind, Except.bind]
  have : ∃ c, parseConf x.conf [] = .ok c := by
    cases hx : x.conf with
    | none => exact ⟨_, rfl⟩
    | scalar c => exact ⟨_, rfl⟩
    | dict d => exact ⟨_, rfl⟩
    | array l => rw [hc l hx]; exact ⟨_, rfl⟩
  obtain ⟨c, hc⟩ := this
  simp only [hc, if_true]
  rfl

/-- **C130** (symmetry) The covariance used is the given one if it is symmetric up to the tolerance of `np.allclose`, and its symmetric part
otherwise; either way it is symmetric up to that tolerance. -/
theorem C130_symmetrised (x : Inputs) (h : x.r = x.c) :
    (x.sigma h = Matrix.of (fun i j => x.cov i (Fin.cast h j)) ∨
      ∀ i j, x.sigma h i j = (x.cov i (Fin.cast h j) + x.cov j (Fin.cast h i)) / 2) ∧
    ∀ i j, |x.sigma h i j - x.sigma h j i| ≤ 1 / 10 ^ 8 + 1 / 10 ^ 5 * |x.sigma h j i| := by
  unfold Inputs.sigma symmetrise
  split
  · rename_i hs
    exact ⟨Or.inl rfl, hs⟩
  · refine ⟨Or.inr fun i j => ?_, fun i j => ?_⟩
    · simp only [Matrix.smul_apply, Matrix.add_apply, transpose_apply, of_apply, smul_eq_mul]; ring
    · simp only [Matrix.smul_apply, Matrix.add_apply, transpose_apply, of_apply, smul_eq_mul]
      rw [add_comm (x.cov j _), sub_self, abs_zero]
      positivity

/-- **C130** (rejections) A non-square covariance, a risk aversion that is not positive, no prior mean at all, market weights of the wrong
length (when they are used) and a vector of views of the wrong length (after a usable prior) are `ValueError`s. -/
theorem C130_rejects (x : Inputs) :
    (x.r ≠ x.c → processor x = .error .valueError) ∧ (x.riskAversion ≤ 0 → processor x = .error .valueError) ∧
    (x.pi = none → x.marketWeights = none → x.priorMean = none → processor x = .error .valueError) ∧
    (∀ w, x.pi = none → x.marketWeights = some w → w.length ≠ x.r → processor x = .error .valueError) ∧
    (∀ v l, x.views = .vec v → v.length ≠ x.r → x.pi = some l → processor x = .error .valueError) := by
  have key : ∀ (f : x.r = x.c → Except PyErr (Post x.r)), (∀ h, f h = .error .valueError) →
      (if h : x.r = x.c then (if x.riskAversion ≤ 0 then .error .valueError else f h) else .error .valueError) =
        (.error .valueError : Except PyErr (Post x.r)) := by
    intro f hf
    split
    · split
      · rfl
      · exact hf _
    · rfl
  refine ⟨?_, ?_, ?_, ?_, ?_⟩
  · intro h; unfold processor; rw [dif_neg h]
  · intro h; unfold processor
    split
    · first | rfl | rw [if_pos h]
    · rfl
  · intro h1 h2 h3
    exact key _ (fun h => by rw [h1, h2, h3]; rfl)
  · intro w h1 h2 h3
    refine key _ (fun h => ?_)
    unfold priorVec
    rw [h1, h2]
    simp only
    rw [if_pos h3]
  · intro v l h1 h2 h3
    refine key _ (fun h => ?_)
    unfold priorVec
    rw [h3]
    simp only [finish, h1, viewsDict]
    rw [if_neg h2]
    rfl

/-- **C130** (length) When the call has views, or the covariance is a DataFrame, a prior mean of the wrong length is an error. -/
theorem C130_length_partial {x : Inputs} {p : Post x.r} (h : processor x = .ok p)
    (hx : x.labels.isSome ∨ x.views ≠ .none ∧ x.views ≠ .dict []) (hN : 0 < x.r) : p.mu.length = x.r := by
  unfold processor at h
  split at h
  swap; · cases h
  rename_i hrc
  split at h
  · cases h
  split at h
  · cases h
  rename_i pi hpi
  unfold finish at h
  simp only [bind_ok] at h
  obtain ⟨views, hv, rows, hrows, conf, hconf, h⟩ := h
  split at h
  · rename_i hr
    unfold packPrior at h
    split at h
    · cases h
    · rename_i hn
      injection h with h; subst h
      rcases hx with hx | ⟨h1, h2⟩
      · by_contra hc; exact hn ⟨hx, hc⟩
      · exfalso
        subst hr
        unfold buildViews at hrows
        rw [PyV.FV.mapE_ok, List.forall₂_nil_right_iff] at hrows
        subst hrows
        cases hxv : x.views with
        | none => exact h1 hxv
        | dict d => rw [hxv] at hv; injection hv with hv; exact h2 (by rw [hxv, hv])
        | vec l =>
          rw [hxv] at hv
          unfold viewsDict at hv
          simp only at hv
          split at hv
          · injection hv with hv
            have := congrArg List.length hv
            simp at this
            omega
          · cases hv
  · rw [bind_ok] at h
    obtain ⟨om, -, h⟩ := h
    unfold packPosterior at h
    split at h
    · cases h
    · split at h
      · cases h
      · injection h with h; subst h
        simp

/-- **C130** is false of the code: "exactly one of `pi`, `market_weights`, `prior_mean`" is not enforced (`pi` silently wins), and without
views an array covariance accepts a prior mean of any length and returns it. -/
theorem C130_counterexample :
    (∃ x p, x.pi.isSome ∧ x.marketWeights.isSome ∧ x.priorMean.isSome ∧ processor x = .ok p) ∧
    (∃ x p, x.r = 2 ∧ processor x = .ok p ∧ p.mu = [1, 2, 3]) := by
  refine ⟨⟨⟨1, 1, fun _ _ => 1, none, some [1], some [2], false, some [3], 1, 1, true, .none, .none, .none⟩, ?_⟩,
    ⟨⟨2, 2, fun _ _ => 1, none, some [1, 2, 3], none, false, none, 1, 1, true, .none, .none, .none⟩, ?_⟩⟩
  · refine ⟨⟨[1], Inputs.sigma _ rfl, none⟩, rfl, rfl, rfl, ?_⟩
    unfold processor
    rw [dif_pos rfl, if_neg (by norm_num)]
    simp only [priorVec, finish, viewsDict, buildViews, mapE, parseConf, packPrior, bind, Except.bind, List.map_nil]
    simp
  · refine ⟨⟨[1, 2, 3], Inputs.sigma _ rfl, none⟩, rfl, ?_, rfl⟩
    unfold processor
    rw [dif_pos rfl, if_neg (by norm_num)]
    simp only [priorVec, finish, viewsDict, buildViews, mapE, parseConf, packPrior, bind, Except.bind, List.map_nil]
    simp

/-- **C130** (same, for arguments of consistent sizes) `pi` makes the other two arguments irrelevant; without it market weights `w` stand
for `δ Σ w / Σw`; without both `prior_mean` is used. -/
theorem C130_sized (a : Args N) :
    (∀ p, a.pi = some p → BL.construct a = BL.construct { a with marketWeights := none, priorMean := none }) ∧
    (∀ w, a.pi = none → a.marketWeights = some w → ∑ i, w i ≠ 0 → BL.construct a =
      BL.construct { a with marketWeights := none, priorMean := none,
                            pi := some (fun i => a.riskAversion * ∑ j, symmetrise a.sigma i j * (w j / ∑ k, w k)) }) ∧
    (∀ m, a.pi = none → a.marketWeights = none → a.priorMean = some m →
      BL.construct a = BL.construct { a with priorMean := none, pi := some m }) := by
  refine ⟨?_, ?_, ?_⟩
  · intro p hp
    simp only [BL.construct, priorPi, hp]
  · intro w h1 h2 h3
    have : priorPi (symmetrise a.sigma) a.riskAversion none (some w) a.priorMean =
        .ok (fun i => a.riskAversion * ∑ j, symmetrise a.sigma i j * (w j / ∑ k, w k)) := by
      unfold priorPi
      simp only
      rw [if_neg h3]
      rfl
    simp only [BL.construct, h1, h2, this]
    rfl
  · intro m h1 h2 h3
    simp only [BL.construct, priorPi, h1, h2, h3]

/-! ## The caller's arrays -/

/-- **C132** The market weights are left unchanged unless they are a float array that is used for the equilibrium mean and whose entries do
not already sum to one. -/
theorem C132_unchanged_partial (x : Inputs) {w : List ℝ} (hw : x.marketWeights = some w)
    (h : x.inPlace = false ∨ x.pi.isSome ∨ w.sum = 1) : weightsAfter x = some w := by
  unfold weightsAfter
  rw [hw]
  simp only
  split
  · rename_i hc
    rcases h with h | h | h
    · rw [h] at hc; exact absurd hc.2.2.2.2 (by simp)
    · rw [hc.2.2.1] at h; simp at h
    · rw [h]; simp
  · rfl

/-- **C132** is false of the code: a float array of market capitalisations is divided by its sum in the caller's memory, so a second call
that uses capitalisations (e.g. to report them) sees different numbers. -/
theorem C132_counterexample : ∃ (x : Inputs) (p : Post x.r), processor x = .ok p ∧ x.marketWeights = some [300, 100] ∧
    weightsAfter x = some [3 / 4, 1 / 4] := by
  let x : Inputs := ⟨2, 2, fun i j => if i = j then 1 else 0, none, none, some [300, 100], true, none, 1, 1, true, .none, .none, .none⟩
  have hx : AsksPrior x (x.sigma rfl) (fun i : Fin 2 => 1 * ∑ j : Fin 2, x.sigma rfl i j * ((![300, 100] : Fin 2 → ℝ) j / ∑ k, (![300, 100] : Fin 2 → ℝ) k)) := by
    refine Or.inr (Or.inl ⟨rfl, ![300, 100], ?_, ?_, fun i => rfl⟩)
    · simp [x]
    · show ∑ i : Fin 2, (![300, 100] : Fin 2 → ℝ) i ≠ 0
      rw [Fin.sum_univ_two]; norm_num
  refine ⟨x, _, C130_no_views rfl (by norm_num [x]) hx (Or.inl ⟨rfl, rfl⟩) (by simp [x]), rfl, ?_⟩
  unfold weightsAfter
  simp only [x]
  norm_num

/-- The hypotheses of `C131_formula` and `C131_views` are met by one relative view on two assets. -/
example : Function.Injective exArgs.assets ∧ exArgs.views ≠ [] ∧ ∃ r, BL.construct exArgs = .ok r := by
  obtain ⟨row, hrow⟩ := exArgs_views
  have h1 : exArgs.sigma.PosDef := PosDef.one
  obtain ⟨m, cov, h, -⟩ := C31_processor h1 (by norm_num [exArgs]) (by norm_num [exArgs]) (Or.inr (Or.inl ⟨rfl, _, rfl⟩)) (pi := fun _ => 0) rfl hrow
    (by simp [exArgs])
  exact ⟨by decide, by simp [exArgs], _, h⟩

end PyV.Props
