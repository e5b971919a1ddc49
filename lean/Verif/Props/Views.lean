import Verif.Lemmas.Views
import Verif.Spec.ViewsOracle
import Verif.Props.EntropyPooling

/-! # Properties C23–C30: flexible views -/

namespace PyV.Props

open PyV PyV.FV PyV.Spec

variable {S N : ℕ}

/-! ## C23 -/

/-- **C23** A vector meets the rows generated for a dictionary of mean views iff every view holds literally: the mean of
the named column (or the difference of means, for a pair key) stands in the stated relation to the target. -/
theorem C23_mean_rows_iff {assets : Fin N → Label} (ha : Function.Injective assets) {R : Fin S → Fin N → ℝ}
    {views : List (MKey × ViewVal)} {r : Rows S} (q : Fin S → ℝ) (h : buildMean assets R views = .ok r) :
    MeetsRows r q ↔ ∀ kv ∈ views, MeanHolds assets R q kv :=
  buildMean_meets ha h

theorem viewRows_ok_iff {row : Fin S → ℝ} {rawOf : ℝ → Except PyErr ℝ} {v : ViewVal} :
    (∃ r, viewRows row rawOf v = .ok r) ↔
      ∃ specs, parseViewSpecs v = .ok specs ∧ ∀ p ∈ specs, ∃ t raw, p.2 = .fin t ∧ rawOf t = .ok raw := by
  unfold viewRows
  simp only [bind_ok, mapE_ok]
  have step : ∀ (p : Op × PyFloat ℝ), (∃ r : Rows S, (match p.2 with
      | .fin t => do let raw ← rawOf t; .ok (addRow p.1 row raw)
      | _ => .error .other) = Except.ok r) ↔ ∃ t raw, p.2 = .fin t ∧ rawOf t = .ok raw := by
    intro p
    cases hp : p.2 with
    | fin t =>
      simp only [bind_ok]
      constructor
      · rintro ⟨r, raw, h1, -⟩; exact ⟨t, raw, rfl, h1⟩
      · rintro ⟨t', raw, h1, h2⟩; injection h1 with h1; subst h1; exact ⟨_, raw, h2, rfl⟩
    | nan => simp
    | posInf => simp
    | negInf => simp
  have all : ∀ specs : List (Op × PyFloat ℝ), (∃ rows : List (Rows S), List.Forall₂ (fun (p : Op × PyFloat ℝ) b =>
      (match p.2 with
      | .fin t => do let raw ← rawOf t; .ok (addRow p.1 row raw)
      | _ => .error .other) = Except.ok b) specs rows) ↔ ∀ p ∈ specs, ∃ t raw, p.2 = .fin t ∧ rawOf t = .ok raw := by
    intro specs
    induction specs with
    | nil => simp
    | cons a l ih =>
      simp only [List.mem_cons, forall_eq_or_imp]
      rw [← ih, ← step a]
      constructor
      · rintro ⟨rows, h⟩
        cases h with
        | cons h1 h2 => exact ⟨⟨_, h1⟩, ⟨_, h2⟩⟩
      · rintro ⟨⟨r, h1⟩, ⟨rs, h2⟩⟩
        exact ⟨_, .cons h1 h2⟩
  constructor
  · rintro ⟨r, specs, h1, rows, h2, -⟩
    exact ⟨specs, h1, (all specs).mp ⟨rows, h2⟩⟩
  · rintro ⟨specs, h1, h2⟩
    obtain ⟨rows, h3⟩ := (all specs).mpr h2
    exact ⟨_, specs, h1, rows, h3, rfl⟩

theorem mapE_isOk_iff {α β : Type*} {f : α → Except PyErr β} {l : List α} :
    (∃ r, mapE f l = .ok r) ↔ ∀ a ∈ l, ∃ b, f a = .ok b := by
  simp only [mapE_ok]
  induction l with
  | nil => simp
  | cons a l ih =>
    simp only [List.mem_cons, forall_eq_or_imp]
    rw [← ih]
    constructor
    · rintro ⟨r, h⟩
      cases h with
      | cons h1 h2 => exact ⟨⟨_, h1⟩, ⟨_, h2⟩⟩
    · rintro ⟨⟨r, h1⟩, ⟨rs, h2⟩⟩
      exact ⟨_, .cons h1 h2⟩

theorem parse_target_iff {v : ViewVal} : (∃ specs, parseViewSpecs v = .ok specs ∧ ∀ p ∈ specs, ∃ t, p.2 = .fin t) ↔
    ∃ x, Says v x := by
  cases v with
  | bad => simp [parseViewSpecs, parseView, bind, Except.bind, Says]
  | scalar y => cases y <;> simp [parseViewSpecs, parseView, bind, Except.bind, Says, PyFloat.isFinite]
  | spec op y =>
    cases y <;> cases op <;> simp [parseViewSpecs, parseView, bind, Except.bind, Says, PyFloat.isFinite]
    · rename_i x; exact ⟨x, le_rfl⟩
    · rename_i x; exact ⟨x, le_rfl⟩
    · rename_i x; exact ⟨x, le_rfl⟩
    · rename_i x; exact ⟨x, le_rfl⟩
  | between lo hi =>
    constructor
    · rintro ⟨specs, h, hf⟩
      simp only [parseViewSpecs] at h
      split at h
      · cases h
      · rename_i hlt
        injection h with h; subst h
        obtain ⟨l, rfl⟩ : ∃ l, lo = .fin l := hf (.ge, lo) (by simp)
        obtain ⟨u, rfl⟩ : ∃ u, hi = .fin u := hf (.le, hi) (by simp)
        simp only [PyFloat.lt, decide_eq_true_eq, not_lt] at hlt
        exact ⟨l, le_rfl, hlt⟩
    · rintro ⟨x, hx⟩
      cases lo <;> cases hi <;> simp only [Says] at hx
      rename_i lo hi
      refine ⟨[(.ge, .fin lo), (.le, .fin hi)], ?_, ?_⟩
      · simp [parseViewSpecs, PyFloat.lt, not_lt.mpr (hx.1.trans hx.2)]
      · intro p hp
        simp only [List.mem_cons, List.not_mem_nil, or_false] at hp
        rcases hp with rfl | rfl <;> exact ⟨_, rfl⟩

/-- **C23** Mean views are accepted exactly when every key names known columns and every value is a satisfiable
statement about a number. -/
theorem C23_mean_accepts_iff {assets : Fin N → Label} (ha : Function.Injective assets) (R : Fin S → Fin N → ℝ)
    (views : List (MKey × ViewVal)) :
    (∃ r, buildMean assets R views = .ok r) ↔
      ∀ kv ∈ views, (match kv.1 with
        | .single a => ∃ i, Names assets a i
        | .pair a b => (∃ i, Names assets a i) ∧ ∃ j, Names assets b j) ∧ ∃ x, Says kv.2 x := by
  unfold buildMean
  have : (∃ r, (do
      let l ← mapE (fun (kv : MKey × ViewVal) => do
        let row ← meanRow assets R kv.1
        viewRows row (fun t => .ok t) kv.2) views
      Except.ok (Rows.concat l)) = .ok r) ↔ ∃ l, mapE (fun (kv : MKey × ViewVal) => do
        let row ← meanRow assets R kv.1
        viewRows row (fun t => .ok t) kv.2) views = .ok l := by
    simp only [bind_ok]
    constructor
    · rintro ⟨r, l, h, -⟩; exact ⟨l, h⟩
    · rintro ⟨l, h⟩; exact ⟨_, l, h, rfl⟩
  rw [this, mapE_isOk_iff]
  apply forall_congr'; intro kv
  apply forall_congr'; intro _
  have hv : ∀ row : Fin S → ℝ, (∃ r, viewRows row (fun t => .ok t) kv.2 = .ok r) ↔ ∃ x, Says kv.2 x := by
    intro row
    rw [viewRows_ok_iff, ← parse_target_iff]
    simp
  have hidx : ∀ a, (∃ i, assetIdx assets a = .ok i) ↔ ∃ i, Names assets a i := fun a =>
    ⟨fun ⟨i, h⟩ => ⟨i, assetIdx_ok h⟩, fun ⟨i, h⟩ => ⟨i, assetIdx_of_names ha h⟩⟩
  obtain ⟨k, v⟩ := kv
  simp only [bind_ok] at *
  constructor
  · rintro ⟨b, row, hrow, hb⟩
    refine ⟨?_, (hv row).mp ⟨b, hb⟩⟩
    cases k with
    | single a =>
      simp only [meanRow, bind_ok] at hrow
      obtain ⟨i, hi, -⟩ := hrow
      exact (hidx a).mp ⟨i, hi⟩
    | pair a c =>
      simp only [meanRow, bind_ok] at hrow
      obtain ⟨i, hi, j, hj, -⟩ := hrow
      exact ⟨(hidx a).mp ⟨i, hi⟩, (hidx c).mp ⟨j, hj⟩⟩
  · rintro ⟨hk, hx⟩
    cases k with
    | single a =>
      obtain ⟨i, hi⟩ := (hidx a).mpr hk
      obtain ⟨b, hb⟩ := (hv (fun s => R s i)).mpr hx
      exact ⟨b, _, by simp only [meanRow, bind_ok]; exact ⟨i, hi, rfl⟩, hb⟩
    | pair a c =>
      obtain ⟨i, hi⟩ := (hidx a).mpr hk.1
      obtain ⟨j, hj⟩ := (hidx c).mpr hk.2
      obtain ⟨b, hb⟩ := (hv (fun s => R s i - R s j)).mpr hx
      exact ⟨b, _, by simp only [meanRow, bind_ok]; exact ⟨i, hi, j, hj, rfl⟩, hb⟩

/-! ## C24 -/

/-- **C24** volatility views: for a distribution whose means at the viewed assets equal the linearisation point, the
generated rows say exactly what the views say about standard deviations. -/
theorem C24_vol_rows_iff {assets : Fin N → Label} (ha : Function.Injective assets) {R : Fin S → Fin N → ℝ}
    {views : List (Label × ViewVal)} {r : Rows S} {q : Fin S → ℝ} {mu : Fin N → ℝ} (hq : IsProb q)
    (h : buildVol assets R mu views = .ok r)
    (hmu : ∀ kv ∈ views, ∀ i, Names assets kv.1 i → meanAt q R i = mu i) :
    MeetsRows r q ↔ ∀ kv ∈ views, VolHolds assets R q kv :=
  buildVol_meets ha hq h hmu

/-- **C24** variance views. -/
theorem C24_var_rows_iff {assets : Fin N → Label} (ha : Function.Injective assets) {R : Fin S → Fin N → ℝ}
    {views : List (Label × ViewVal)} {r : Rows S} {q : Fin S → ℝ} {mu : Fin N → ℝ} (hq : IsProb q)
    (h : buildVar assets R mu views = .ok r)
    (hmu : ∀ kv ∈ views, ∀ i, Names assets kv.1 i → meanAt q R i = mu i) :
    MeetsRows r q ↔ ∀ kv ∈ views, VarHolds assets R q kv :=
  buildVar_meets ha hq h hmu

/-- **C24** skewness views (mean and variance at the linearisation point). -/
theorem C24_skew_rows_iff {assets : Fin N → Label} (ha : Function.Injective assets) {R : Fin S → Fin N → ℝ}
    {views : List (Label × ViewVal)} {r : Rows S} {q : Fin S → ℝ} {mu var : Fin N → ℝ} (hq : IsProb q)
    (h : buildSkew assets R mu var views = .ok r)
    (hmu : ∀ kv ∈ views, ∀ i, Names assets kv.1 i → meanAt q R i = mu i ∧ varAt q R i = var i) :
    MeetsRows r q ↔ ∀ kv ∈ views, SkewHolds assets R q kv :=
  buildSkew_meets ha hq h hmu

/-- **C24** correlation views (means and positive variances at the linearisation point). -/
theorem C24_corr_rows_iff {assets : Fin N → Label} (ha : Function.Injective assets) {R : Fin S → Fin N → ℝ}
    {views : List ((Label × Label) × ViewVal)} {r : Rows S} {q : Fin S → ℝ} {mu var : Fin N → ℝ} (hq : IsProb q)
    (h : buildCorr assets R mu var views = .ok r)
    (hmu : ∀ kv ∈ views, ∀ i, (Names assets kv.1.1 i ∨ Names assets kv.1.2 i) →
      meanAt q R i = mu i ∧ varAt q R i = var i ∧ 0 < var i) :
    MeetsRows r q ↔ ∀ kv ∈ views, CorrHolds assets R q kv :=
  buildCorr_meets ha hq h hmu

/-- **C24** For an equality variance view the realised variance misses the target by exactly
`mu_lin² - mu_post²`, whatever the distribution's mean. -/
theorem C24_variance_gap {assets : Fin N → Label} {R : Fin S → Fin N → ℝ} {mu : Fin N → ℝ} {a : Label} {t : ℝ}
    {r : Rows S} {q : Fin S → ℝ} (hq : IsProb q)
    (h : buildVar assets R mu [(a, .scalar (.fin t))] = .ok r) (hr : MeetsRows r q) :
    ∃ i, Names assets a i ∧ varAt q R i - t = mu i ^ 2 - meanAt q R i ^ 2 := by
  unfold buildVar at h
  rw [bind_ok] at h
  obtain ⟨l, hl, h⟩ := h
  rw [mapE_ok] at hl
  injection h with h; subst h
  cases hl with
  | cons h1 h2 =>
    cases h2
    rw [bind_ok] at h1
    obtain ⟨i, hi, h1⟩ := h1
    refine ⟨i, assetIdx_ok hi, ?_⟩
    have hm := (meets_concat.mp hr) _ (List.mem_cons_self)
    have := (meets_viewRows (q := q) (x := varAt q R i + meanAt q R i ^ 2 - mu i ^ 2) h1 (fun op t raw hraw => by
      split at hraw
      · cases hraw
      · injection hraw with hraw; subst hraw
        rw [second_moment hq.sum, ← opSays_add op _ t (mu i ^ 2)]
        simp)).mp hm
    simp only [Says] at this
    linarith

/-! ## C30 -/

/-- **C30** `at_least`, `at_most`, `above`, `below` accept exactly the finite numbers, and what they build is the
corresponding inequality. -/
theorem C30_helpers (x : PyFloat ℝ) :
    ((∃ v, atLeast x = .ok v) ↔ x.isFinite = true) ∧ ((∃ v, atMost x = .ok v) ↔ x.isFinite = true) ∧
    ((∃ v, above x = .ok v) ↔ x.isFinite = true) ∧ ((∃ v, below x = .ok v) ↔ x.isFinite = true) ∧
    (∀ t, x = .fin t → ∀ v y, (atLeast x = .ok v → (Says v y ↔ t ≤ y)) ∧ (atMost x = .ok v → (Says v y ↔ y ≤ t)) ∧
      (above x = .ok v → (Says v y ↔ t ≤ y)) ∧ (below x = .ok v → (Says v y ↔ y ≤ t))) := by
  refine ⟨?_, ?_, ?_, ?_, ?_⟩
  · cases x <;> simp [atLeast, validateFinite, PyFloat.isFinite, bind, Except.bind]
  · cases x <;> simp [atMost, validateFinite, PyFloat.isFinite, bind, Except.bind]
  · cases x <;> simp [above, validateFinite, PyFloat.isFinite, bind, Except.bind]
  · cases x <;> simp [below, validateFinite, PyFloat.isFinite, bind, Except.bind]
  · rintro t rfl v y
    simp only [atLeast, atMost, above, below, validateFinite, PyFloat.isFinite, bind, Except.bind, if_true]
    refine ⟨?_, ?_, ?_, ?_⟩ <;> (intro h; injection h with h; subst h; simp [Says])

/-- **C30** `between(lo, hi)` accepts exactly finite numbers with `lo ≤ hi`, and means `lo ≤ y ≤ hi`. -/
theorem C30_between (lo hi : PyFloat ℝ) :
    ((∃ v, between lo hi = .ok v) ↔ ∃ l h, lo = .fin l ∧ hi = .fin h ∧ l ≤ h) ∧
    (∀ l h v y, lo = .fin l → hi = .fin h → between lo hi = .ok v → (Says v y ↔ l ≤ y ∧ y ≤ h)) := by
  constructor
  · cases lo <;> cases hi <;> simp [between, validateFinite, PyFloat.isFinite, bind, Except.bind, PyFloat.lt]
    rename_i l h
    by_cases hc : h < l
    · simp [hc]
    · simp [hc, not_lt.mp hc]
  · rintro l h v y rfl rfl hv
    simp only [between, validateFinite, PyFloat.isFinite, bind, Except.bind, if_true] at hv
    split at hv
    · cases hv
    · injection hv with hv; subst hv; simp [Says]

/-- **C30** Every value produced by a helper parses to finite targets only. -/
theorem C30_helper_targets_finite_partial (x y : PyFloat ℝ) (v : ViewVal)
    (h : atLeast x = .ok v ∨ atMost x = .ok v ∨ above x = .ok v ∨ below x = .ok v ∨ between x y = .ok v) :
    ∃ specs, parseViewSpecs v = .ok specs ∧ ∀ p ∈ specs, ∃ t, p.2 = .fin t := by
  rw [parse_target_iff]
  have h1 := C30_helpers x
  have h2 := C30_between x y
  rcases h with h | h | h | h | h
  · have hf := h1.1.mp ⟨v, h⟩
    cases x <;> simp [PyFloat.isFinite] at hf
    exact ⟨_, ((h1.2.2.2.2 _ rfl v _).1 h).mpr le_rfl⟩
  · have hf := h1.2.1.mp ⟨v, h⟩
    cases x <;> simp [PyFloat.isFinite] at hf
    exact ⟨_, ((h1.2.2.2.2 _ rfl v _).2.1 h).mpr le_rfl⟩
  · have hf := h1.2.2.1.mp ⟨v, h⟩
    cases x <;> simp [PyFloat.isFinite] at hf
    exact ⟨_, ((h1.2.2.2.2 _ rfl v _).2.2.1 h).mpr le_rfl⟩
  · have hf := h1.2.2.2.1.mp ⟨v, h⟩
    cases x <;> simp [PyFloat.isFinite] at hf
    exact ⟨_, ((h1.2.2.2.2 _ rfl v _).2.2.2 h).mpr le_rfl⟩
  · obtain ⟨l, u, e1, e2, hle⟩ := h2.1.mp ⟨v, h⟩
    exact ⟨l, (h2.2 l u v l e1 e2 h).mpr ⟨le_rfl, hle⟩⟩

/-- **C30** (the part that is false of the code) A hand-written `("between", nan, nan)` tuple is accepted by the parser
and yields non-finite targets. -/
theorem C30_raw_between_nan_accepted :
    parseViewSpecs (.between .nan .nan) = .ok [(.ge, .nan), (.le, .nan)] := by
  simp [parseViewSpecs, PyFloat.lt]

/-- Two assets over two scenarios. -/
private def exViewR : Fin 2 → Fin 2 → ℝ := ![![1, 1], ![-1, -1]]
private def exViewA : Fin 2 → Label := ![.str "A", .str "B"]
private theorem exViewA_inj : Function.Injective exViewA := by decide
private theorem exViewA_idx : assetIdx exViewA (.str "A") = .ok 0 ∧ assetIdx exViewA (.str "B") = .ok 1 := ⟨rfl, rfl⟩
private theorem exView_half : IsProb (fun _ : Fin 2 => (1 / 2 : ℝ)) := ⟨fun _ => by norm_num, by norm_num⟩
private theorem exView_moments (i : Fin 2) : meanAt (fun _ => (1 / 2 : ℝ)) exViewR i = 0 ∧ varAt (fun _ => (1 / 2 : ℝ)) exViewR i = 1 := by
  fin_cases i <;> norm_num [meanAt, varAt, expect, exViewR, Fin.sum_univ_two]

/-- The hypotheses of C24 are met by equally likely scenarios with mean 0 and variance 1, views on the volatility, the variance, the skewness and the
correlation, and the linearisation at these moments. -/
example : (∃ r, buildVol exViewA exViewR (fun _ => 0) [(.str "A", .scalar (.fin 1))] = .ok r) ∧
    (∃ r, buildVar exViewA exViewR (fun _ => 0) [(.str "A", .spec .le (.fin 2))] = .ok r) ∧
    (∃ r, buildSkew exViewA exViewR (fun _ => 0) (fun _ => 1) [(.str "B", .scalar (.fin 0))] = .ok r) ∧
    (∃ r, buildCorr exViewA exViewR (fun _ => 0) (fun _ => 1) [((.str "A", .str "B"), .scalar (.fin 1))] = .ok r) ∧
    (∃ r, buildMean exViewA exViewR [(.pair (.str "A") (.str "B"), .scalar (.fin 0))] = .ok r) := by
  have h1 : ¬ ((1:ℝ) ≤ 0) := by norm_num
  have h2 : ¬ ((2:ℝ) < 0) := by norm_num
  have h12 : ¬ ((1:ℝ) < (10 ^ 12)⁻¹) := by norm_num
  refine ⟨?_, ?_, ?_, ?_, ?_⟩
  all_goals simp [h1, h2, h12, buildVol, buildVar, buildSkew, buildCorr, buildMean, mapE, exViewA_idx.1, exViewA_idx.2, bind, Except.bind, viewRows, parseViewSpecs, meanRow, parseView, PyFloat.isFinite]

end PyV.Props
