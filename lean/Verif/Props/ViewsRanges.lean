import Verif.Props.ViewsCtor

/-! # C156: views that are rejected, and C29: the search over cut positions -/

namespace PyV.Props

open PyV PyV.FV PyV.Spec

variable {S N : ℕ}

/-! ## Specification -/

/-- The numbers a view value mentions. -/
def HasTarget : ViewVal → ℝ → Prop
  | .scalar x, t => x = .fin t
  | .spec _ x, t => x = .fin t
  | .between lo hi, t => lo = .fin t ∨ hi = .fin t
  | .bad, _ => False

/-- A label names a column. -/
def Known (assets : Fin N → Label) (a : Label) : Prop := ∃ i, Names assets a i

/-- A view value is a satisfiable statement about a number (in particular finite, with bounds in order) and mentions only numbers in
range. -/
def WellFormed (range : ℝ → Prop) (v : ViewVal) : Prop := (∃ x, Says v x) ∧ ∀ t, HasTarget v t → range t

/-- Views that make sense: known assets, positive volatilities, non-negative variances, correlations in [−1, 1], quantile probabilities
strictly between 0 and 1. -/
structure Sensible (assets : Fin N → Label) (v : Views) : Prop where
  mean : ∀ kv ∈ v.mean, (match kv.1 with
    | .single a => Known assets a
    | .pair a b => Known assets a ∧ Known assets b) ∧ ∃ x, Says kv.2 x
  vol : ∀ kv ∈ v.vol, Known assets kv.1 ∧ WellFormed (fun t => 0 < t) kv.2
  var : ∀ kv ∈ v.var, Known assets kv.1 ∧ WellFormed (fun t => 0 ≤ t) kv.2
  skew : ∀ kv ∈ v.skew, Known assets kv.1 ∧ WellFormed (fun _ => True) kv.2
  corr : ∀ kv ∈ v.corr, Known assets kv.1.1 ∧ Known assets kv.1.2 ∧ WellFormed (fun t => -1 ≤ t ∧ t ≤ 1) kv.2
  quantile : ∀ kv ∈ v.quantile, Known assets kv.1 ∧ WellFormed (fun t => 0 < t ∧ t < 1) kv.2.2
  cvar : ∀ kv ∈ v.cvar, Known assets kv.1

/-- Position `s` (from the worst scenario, counted from 0) where the search for a CVaR view starts: the first position at least 1 whose
cumulative probability reaches `γ`, or the last position. -/
structure FirstCut (p : Fin S → ℝ) (σ : Equiv.Perm (Fin S)) (γ : ℝ) (s : ℤ) : Prop where
  lower : 1 ≤ s
  upper : s ≤ (S : ℤ) - 1
  before : ∀ j : Fin S, 1 ≤ (j : ℕ) → ((j : ℕ) : ℤ) < s → ∑ i, (if i ≤ j then p (σ i) else 0) < γ
  reached : s < (S : ℤ) - 1 → ∀ j : Fin S, ((j : ℕ) : ℤ) = s → γ ≤ ∑ i, if i ≤ j then p (σ i) else 0

/-! ## Proof -/

section proof

private theorem viewRows_wf {row : Fin S → ℝ} {rawOf : ℝ → Except PyErr ℝ} {P : ℝ → Prop}
    (hP : ∀ t, (∃ raw, rawOf t = .ok raw) ↔ P t) {v : ViewVal} : (∃ r, viewRows row rawOf v = .ok r) ↔ WellFormed P v := by
  rw [viewRows_ok_iff]
  constructor
  · rintro ⟨specs, h1, h2⟩
    refine ⟨parse_target_iff.1 ⟨specs, h1, fun p hp => ?_⟩, fun t ht => ?_⟩
    · obtain ⟨t, raw, h, -⟩ := h2 p hp
      exact ⟨t, h⟩
    · have key : ∀ op, (op, PyFloat.fin t) ∈ specs → P t := by
        intro op hm
        obtain ⟨t', raw, h3, h4⟩ := h2 _ hm
        injection h3 with h3
        subst h3
        exact (hP _).1 ⟨raw, h4⟩
      cases v with
      | bad => exact ht.elim
      | scalar x =>
        have ht : x = .fin t := ht
        subst ht
        simp [parseViewSpecs, parseView, bind, Except.bind, PyFloat.isFinite] at h1
        exact key .eq (by rw [← h1]; simp)
      | spec op x =>
        have ht : x = .fin t := ht
        subst ht
        simp [parseViewSpecs, parseView, bind, Except.bind, PyFloat.isFinite] at h1
        exact key op (by rw [← h1]; simp)
      | between lo hi =>
        simp only [parseViewSpecs] at h1
        split at h1
        · cases h1
        · injection h1 with h1
          rcases ht with ht | ht
          · exact key .ge (by rw [← h1, ← ht]; simp)
          · exact key .le (by rw [← h1, ← ht]; simp)
  · rintro ⟨hs, ht⟩
    obtain ⟨specs, h1, h2⟩ := parse_target_iff.2 hs
    refine ⟨specs, h1, fun p hp => ?_⟩
    obtain ⟨t, h3⟩ := h2 p hp
    have : HasTarget v t := by
      cases v with
      | bad => simp [parseViewSpecs, parseView, bind, Except.bind] at h1
      | scalar x =>
        cases x <;> simp [parseViewSpecs, parseView, bind, Except.bind, PyFloat.isFinite] at h1
        subst h1
        simp only [List.mem_cons, List.not_mem_nil, or_false] at hp
        subst hp
        exact h3
      | spec op x =>
        cases x <;> simp [parseViewSpecs, parseView, bind, Except.bind, PyFloat.isFinite] at h1
        subst h1
        simp only [List.mem_cons, List.not_mem_nil, or_false] at hp
        subst hp
        exact h3
      | between lo hi =>
        simp only [parseViewSpecs] at h1
        split at h1
        · cases h1
        · injection h1 with h1
          subst h1
          simp only [List.mem_cons, List.not_mem_nil, or_false] at hp
          rcases hp with rfl | rfl
          · exact .inl h3
          · exact .inr h3
    obtain ⟨raw, hr⟩ := (hP t).2 (ht t this)
    exact ⟨t, raw, h3, hr⟩

private theorem build_ok {α : Type} {f : α → Except PyErr (Rows S)} {l : List α} :
    (∃ r, (do let rows ← mapE f l; Except.ok (Rows.concat rows)) = .ok r) ↔ ∀ a ∈ l, ∃ r, f a = .ok r := by
  rw [← mapE_isOk_iff]
  simp only [bind_ok]
  exact ⟨fun ⟨_, l, h, _⟩ => ⟨l, h⟩, fun ⟨l, h⟩ => ⟨_, l, h, rfl⟩⟩

theorem known_iff {assets : Fin N → Label} (ha : Function.Injective assets) (a : Label) :
    (∃ i, assetIdx assets a = .ok i) ↔ Known assets a :=
  ⟨fun ⟨i, h⟩ => ⟨i, assetIdx_ok h⟩, fun ⟨i, h⟩ => ⟨i, assetIdx_of_names ha h⟩⟩

variable {assets : Fin N → Label} (ha : Function.Injective assets) (R : Fin S → Fin N → ℝ)

include ha

private theorem idx_bind {a : Label} {g : Fin N → Except PyErr (Rows S)} {Q : Prop} (hg : ∀ i, (∃ r, g i = .ok r) ↔ Q) :
    (∃ r, (do let i ← assetIdx assets a; g i) = .ok r) ↔ Known assets a ∧ Q := by
  rw [← known_iff ha]
  simp only [bind_ok]
  constructor
  · rintro ⟨r, i, h1, h2⟩
    exact ⟨⟨i, h1⟩, (hg i).1 ⟨r, h2⟩⟩
  · rintro ⟨⟨i, h1⟩, hq⟩
    obtain ⟨r, hr⟩ := (hg i).2 hq
    exact ⟨r, i, h1, hr⟩

theorem vol_ok (mu : Fin N → ℝ) (views : List (Label × ViewVal)) : (∃ r, buildVol assets R mu views = .ok r) ↔
    ∀ kv ∈ views, Known assets kv.1 ∧ WellFormed (fun t => 0 < t) kv.2 := by
  unfold buildVol
  rw [build_ok]
  refine forall_congr' fun kv => forall_congr' fun _ => idx_bind ha fun i => viewRows_wf fun t => ?_
  by_cases h : t ≤ 0
  · simp [h]
  · simp [h, not_le.1 h]

theorem var_ok (mu : Fin N → ℝ) (views : List (Label × ViewVal)) : (∃ r, buildVar assets R mu views = .ok r) ↔
    ∀ kv ∈ views, Known assets kv.1 ∧ WellFormed (fun t => 0 ≤ t) kv.2 := by
  unfold buildVar
  rw [build_ok]
  refine forall_congr' fun kv => forall_congr' fun _ => idx_bind ha fun i => viewRows_wf fun t => ?_
  by_cases h : t < 0
  · simp [h]
  · simp [h, not_lt.1 h]

theorem corr_ok (mu var : Fin N → ℝ) (views : List ((Label × Label) × ViewVal)) : (∃ r, buildCorr assets R mu var views = .ok r) ↔
    ∀ kv ∈ views, Known assets kv.1.1 ∧ Known assets kv.1.2 ∧ WellFormed (fun t => -1 ≤ t ∧ t ≤ 1) kv.2 := by
  unfold buildCorr
  rw [build_ok]
  refine forall_congr' fun kv => forall_congr' fun _ => idx_bind ha fun i => idx_bind ha fun j => viewRows_wf fun t => ?_
  by_cases h : -1 ≤ t ∧ t ≤ 1
  · simp [h]
  · simp [h]

theorem quantile_ok (views : List (Label × (ℝ × ViewVal))) : (∃ r, buildQuantile assets R views = .ok r) ↔
    ∀ kv ∈ views, Known assets kv.1 ∧ WellFormed (fun t => 0 < t ∧ t < 1) kv.2.2 := by
  unfold buildQuantile
  rw [build_ok]
  refine forall_congr' fun kv => forall_congr' fun _ => idx_bind ha fun i => viewRows_wf fun t => ?_
  by_cases h : 0 < t ∧ t < 1
  · simp [h]
  · simp [h]

theorem skew_ok (mu var : Fin N → ℝ) (views : List (Label × ViewVal)) : (∃ r, buildSkew assets R mu var views = .ok r) ↔
    ∀ kv ∈ views, ∃ i, Names assets kv.1 i ∧ 1 / 10 ^ 12 ≤ var i ∧ WellFormed (fun _ => True) kv.2 := by
  unfold buildSkew
  rw [build_ok]
  refine forall_congr' fun kv => forall_congr' fun _ => ?_
  have hw : ∀ row : Fin S → ℝ, ∀ f : ℝ → ℝ, (∃ r, viewRows row (fun t => .ok (f t)) kv.2 = .ok r) ↔ WellFormed (fun _ => True) kv.2 :=
    fun row f => viewRows_wf fun t => by simp
  simp only [bind_ok]
  constructor
  · rintro ⟨r, i, h1, h2⟩
    split at h2
    · cases h2
    · rename_i hv
      exact ⟨i, assetIdx_ok h1, not_lt.1 hv, (hw _ _).1 ⟨r, h2⟩⟩
  · rintro ⟨i, h1, h2, h3⟩
    obtain ⟨r, hr⟩ := (hw (fun s => R s i ^ 3) fun t => t * Real.sqrt (var i) ^ 3 + 3 * mu i * var i + mu i ^ 3).2 h3
    exact ⟨r, i, assetIdx_of_names ha h1, by rw [if_neg (not_lt.2 h2)]; exact hr⟩

omit ha in
private theorem seq_ok {ep : Ep S} {blocks : List (Bool × ((Fin N → ℝ) → (Fin N → ℝ) → Except PyErr (Rows S)))} :
    ∀ {p0 q : Fin S → ℝ} {mu var : Fin N → ℝ}, sequentialPass ep p0 R blocks mu var = .ok q →
      ∀ b ∈ blocks, b.1 = true → ∃ mu var r, b.2 mu var = .ok r := by
  induction blocks with
  | nil => simp
  | cons b rest ih =>
    obtain ⟨present, build⟩ := b
    intro p0 q mu var h c hc hp
    unfold sequentialPass at h
    split at h
    · simp only [bind_ok] at h
      obtain ⟨r, h1, q', -, h3⟩ := h
      rcases List.mem_cons.1 hc with rfl | hc
      · exact ⟨mu, var, r, h1⟩
      · exact ih h3 c hc hp
    · rename_i hpr
      rcases List.mem_cons.1 hc with rfl | hc
      · exact absurd hp hpr
      · exact ih h c hc hp

omit ha in
private theorem seq_total {ep : Ep S} (hep : ∀ prior r, ∃ q, ep prior r = .ok q)
    {blocks : List (Bool × ((Fin N → ℝ) → (Fin N → ℝ) → Except PyErr (Rows S)))}
    (hb : ∀ b ∈ blocks, b.1 = true → ∀ mu var, ∃ r, b.2 mu var = .ok r) :
    ∀ (p0 : Fin S → ℝ) (mu var : Fin N → ℝ), ∃ q, sequentialPass ep p0 R blocks mu var = .ok q := by
  induction blocks with
  | nil => exact fun p0 _ _ => ⟨p0, rfl⟩
  | cons b rest ih =>
    obtain ⟨present, build⟩ := b
    intro p0 mu var
    have ih := ih fun c hc => hb c (List.mem_cons_of_mem _ hc)
    unfold sequentialPass
    split
    · rename_i hpr
      obtain ⟨r, hr⟩ := hb (present, build) (by simp) hpr mu var
      have hr : build mu var = .ok r := hr
      obtain ⟨q, hq⟩ := hep p0 ⟨r.eq ++ [(fun _ => 1, 1)], r.ineq⟩
      have hq : doEp ep p0 r = .ok q := hq
      obtain ⟨q', h'⟩ := ih q (meanOf R q) (varOf R (meanOf R q) q)
      refine ⟨q', ?_⟩
      simp only [bind_ok]
      exact ⟨r, hr, q, hq, h'⟩
    · exact ih p0 mu var

private theorem cvar_ok {ep : Ep S} {argsort : (Fin S → ℝ) → Equiv.Perm (Fin S)} {round : ℝ → ℤ} :
    ∀ {l : List (Label × (ℝ × ℝ))} {q q' : Fin S → ℝ}, cvarPass ep argsort round assets R l q = .ok q' → ∀ kv ∈ l, Known assets kv.1
  | [], _, _, _ => by simp
  | kv :: rest, q, q', h => by
    unfold cvarPass at h
    simp only [bind_ok] at h
    obtain ⟨i, h1, q1, -, h3⟩ := h
    intro c hc
    rcases List.mem_cons.1 hc with rfl | hc
    · exact ⟨i, assetIdx_ok h1⟩
    · exact cvar_ok h3 c hc

omit ha in
private theorem solveCvar_total {ep : Ep S} (hep : ∀ prior r, ∃ q, ep prior r = .ok q) (argsort : (Fin S → ℝ) → Equiv.Perm (Fin S)) (round : ℝ → ℤ)
    (x : Fin S → ℝ) (gamma target : ℝ) (p : Fin S → ℝ) (n : ℕ) : ∃ q, solveCvarView ep argsort round x gamma target p n = .ok q := by
  obtain ⟨q0, h0⟩ := hep p (cvarRows x (argsort x) gamma target (initialCut p (argsort x) gamma))
  have hs0 : solveForS ep p x (argsort x) gamma target (initialCut p (argsort x) gamma) = some (q0, klMasked q0 p) := by
    unfold solveForS; rw [h0]
  obtain ⟨c, h1, -⟩ := newtonLoop_spec (round := round) (solve := solveForS ep p x (argsort x) gamma target) (P := fun _ => True)
    (fun _ _ _ => trivial) n (initialCut p (argsort x) gamma) (q0, klMasked q0 p) trivial
  refine ⟨c.1, ?_⟩
  unfold solveCvarView
  simp only [hs0, h1]

private theorem cvar_total {ep : Ep S} (hep : ∀ prior r, ∃ q, ep prior r = .ok q) (argsort : (Fin S → ℝ) → Equiv.Perm (Fin S)) (round : ℝ → ℤ) :
    ∀ (l : List (Label × (ℝ × ℝ))), (∀ kv ∈ l, Known assets kv.1) → ∀ q, ∃ q', cvarPass ep argsort round assets R l q = .ok q'
  | [], _, q => ⟨q, rfl⟩
  | kv :: rest, h, q => by
    obtain ⟨i, hi⟩ := (known_iff ha kv.1).2 (h kv (by simp))
    obtain ⟨q1, h1⟩ := solveCvar_total hep argsort round (fun s => R s i) kv.2.2 kv.2.1 q 20
    obtain ⟨q2, h2⟩ := cvar_total hep argsort round rest (fun c hc => h c (List.mem_cons_of_mem _ hc)) q1
    refine ⟨q2, ?_⟩
    unfold cvarPass
    simp only [bind_ok]
    exact ⟨i, hi, q1, h1, h2⟩

omit ha in
private theorem nil_of_isEmpty {α : Type} {l : List α} {P : α → Prop} (h : l.isEmpty = true) : ∀ a ∈ l, P a := by
  cases l with
  | nil => simp
  | cons => simp at h

end proof

/-- **C156.** Whatever the solver does, a posterior is only returned for sensible views: every label names an asset, every value is a finite,
satisfiable statement, volatilities are positive, variances non-negative, correlations within [−1, 1] and quantile probabilities strictly
between 0 and 1. Otherwise the call raises, in both modes. -/
theorem C156_rejects (ep : Ep S) (argsort : (Fin S → ℝ) → Equiv.Perm (Fin S)) (round : ℝ → ℤ) (p0 : Fin S → ℝ)
    {assets : Fin N → Label} (ha : Function.Injective assets) (R : Fin S → Fin N → ℝ) {v : Views} {sequential : Bool} {q : Fin S → ℝ}
    (h : computePosterior ep argsort round p0 assets R v sequential = .ok q) : Sensible assets v := by
  unfold computePosterior at h
  simp only at h
  split at h
  · rename_i he
    simp only [Bool.and_eq_true] at he
    obtain ⟨⟨⟨⟨⟨⟨h1, h2⟩, h3⟩, h4⟩, h5⟩, h6⟩, h7⟩ := he
    exact ⟨nil_of_isEmpty h1, nil_of_isEmpty h2, nil_of_isEmpty h3, nil_of_isEmpty h4, nil_of_isEmpty h5, nil_of_isEmpty h7, nil_of_isEmpty h6⟩
  simp only [bind_ok] at h
  obtain ⟨q1, h1, q2, h2, h3⟩ := h
  have hq : ∀ kv ∈ v.quantile, Known assets kv.1 ∧ WellFormed (fun t => 0 < t ∧ t < 1) kv.2.2 := by
    unfold quantilePass at h2
    split at h2
    · rename_i he
      exact nil_of_isEmpty he
    · simp only [bind_ok] at h2
      obtain ⟨r, hr, -⟩ := h2
      exact (quantile_ok ha R _).1 ⟨r, hr⟩
  have hskew : ∀ {mu var}, (∃ r, buildSkew assets R mu var v.skew = .ok r) → ∀ kv ∈ v.skew, Known assets kv.1 ∧ WellFormed (fun _ => True) kv.2 := by
    intro mu var hr kv hkv
    obtain ⟨i, h1, -, h2⟩ := (skew_ok ha R mu var _).1 hr kv hkv
    exact ⟨⟨i, h1⟩, h2⟩
  unfold momentPass at h1
  split at h1
  · have hb := seq_ok R h1
    have key : ∀ (l : Bool) (f : (Fin N → ℝ) → (Fin N → ℝ) → Except PyErr (Rows S)), (!l, f) ∈ blocksOf assets R v →
        l = true ∨ ∃ mu var r, f mu var = .ok r := by
      intro l f hm
      cases l with
      | true => exact .inl rfl
      | false => exact .inr (hb _ hm rfl)
    refine ⟨?_, ?_, ?_, ?_, ?_, hq, cvar_ok ha R h3⟩
    · rcases key v.mean.isEmpty (fun _ _ => buildMean assets R v.mean) (by simp [blocksOf]) with h | ⟨mu, var, r, hr⟩
      · exact nil_of_isEmpty h
      · exact (C23_mean_accepts_iff ha R _).1 ⟨r, hr⟩
    · rcases key v.vol.isEmpty (fun mu _ => buildVol assets R mu v.vol) (by simp [blocksOf]) with h | ⟨mu, var, r, hr⟩
      · exact nil_of_isEmpty h
      · exact (vol_ok ha R mu _).1 ⟨r, hr⟩
    · rcases key v.var.isEmpty (fun mu _ => buildVar assets R mu v.var) (by simp [blocksOf]) with h | ⟨mu, var, r, hr⟩
      · exact nil_of_isEmpty h
      · exact (var_ok ha R mu _).1 ⟨r, hr⟩
    · rcases key v.skew.isEmpty (fun mu var => buildSkew assets R mu var v.skew) (by simp [blocksOf]) with h | ⟨mu, var, r, hr⟩
      · exact nil_of_isEmpty h
      · exact hskew ⟨r, hr⟩
    · rcases key v.corr.isEmpty (fun mu var => buildCorr assets R mu var v.corr) (by simp [blocksOf]) with h | ⟨mu, var, r, hr⟩
      · exact nil_of_isEmpty h
      · exact (corr_ok ha R mu var _).1 ⟨r, hr⟩
  · unfold simultaneousPass at h1
    simp only [bind_ok] at h1
    obtain ⟨mv, -, r1, e1, r2, e2, r3, e3, r4, e4, r5, e5, -⟩ := h1
    exact ⟨(C23_mean_accepts_iff ha R _).1 ⟨r1, e1⟩, (vol_ok ha R _ _).1 ⟨r2, e2⟩, (var_ok ha R _ _).1 ⟨r3, e3⟩, hskew ⟨r4, e4⟩,
      (corr_ok ha R _ _ _).1 ⟨r5, e5⟩, hq, cvar_ok ha R h3⟩

/-- **C156.** Nothing else is rejected: when the solver always answers and there are no skewness views, the call succeeds for all sensible
views (skewness views also need assets that vary: `C156_skew`). -/
theorem C156_accepts {ep : Ep S} (hep : ∀ prior r, ∃ q, ep prior r = .ok q) (argsort : (Fin S → ℝ) → Equiv.Perm (Fin S)) (round : ℝ → ℤ)
    (p0 : Fin S → ℝ) {assets : Fin N → Label} (ha : Function.Injective assets) (R : Fin S → Fin N → ℝ) {v : Views} (hsk : v.skew = [])
    (sequential : Bool) (hv : Sensible assets v) : ∃ q, computePosterior ep argsort round p0 assets R v sequential = .ok q := by
  unfold computePosterior
  simp only
  split
  · exact ⟨p0, rfl⟩
  obtain ⟨r1, e1⟩ := (C23_mean_accepts_iff ha R _).2 hv.mean
  have hskew : ∀ mu var, ∃ r, buildSkew assets R mu var v.skew = .ok r := fun mu var =>
    (skew_ok ha R mu var _).2 (by rw [hsk]; simp)
  have hm : ∃ q1, momentPass ep p0 assets R v sequential (meanOf R p0) (npVarW R p0) = .ok q1 := by
    unfold momentPass
    split
    · refine seq_total R hep (fun b hb _ mu var => ?_) _ _ _
      simp only [blocksOf, List.mem_cons, List.not_mem_nil, or_false] at hb
      rcases hb with rfl | rfl | rfl | rfl | rfl
      · exact ⟨r1, e1⟩
      · exact (vol_ok ha R mu _).2 hv.vol
      · exact (var_ok ha R mu _).2 hv.var
      · exact hskew mu var
      · exact (corr_ok ha R mu var _).2 hv.corr
    · have hl : ∃ mv, linPoint ep p0 assets R v (meanOf R p0) (npVarW R p0) = .ok mv := by
        unfold linPoint
        split
        · obtain ⟨q, hq⟩ := hep p0 ⟨r1.eq ++ [(fun _ => 1, 1)], r1.ineq⟩
          refine ⟨(meanOf R q, varOf R (meanOf R q) q), ?_⟩
          simp only [bind_ok]
          exact ⟨r1, e1, q, hq, rfl⟩
        · exact ⟨_, rfl⟩
      obtain ⟨mv, el⟩ := hl
      obtain ⟨r2, e2⟩ := (vol_ok ha R mv.1 _).2 hv.vol
      obtain ⟨r3, e3⟩ := (var_ok ha R mv.1 _).2 hv.var
      obtain ⟨r4, e4⟩ := hskew mv.1 mv.2
      obtain ⟨r5, e5⟩ := (corr_ok ha R mv.1 mv.2 _).2 hv.corr
      have hd : ∃ q, (if ((Rows.concat [r1, r2, r3, r4, r5]).eq.isEmpty && (Rows.concat [r1, r2, r3, r4, r5]).ineq.isEmpty) = true then
          Except.ok p0 else doEp ep p0 (Rows.concat [r1, r2, r3, r4, r5])) = Except.ok q := by
        split
        · exact ⟨p0, rfl⟩
        · exact hep p0 _
      obtain ⟨q, hq⟩ := hd
      refine ⟨q, ?_⟩
      unfold simultaneousPass
      simp only [bind_ok]
      exact ⟨mv, el, r1, e1, r2, e2, r3, e3, r4, e4, r5, e5, hq⟩
  obtain ⟨q1, h1⟩ := hm
  have h2 : ∃ q2, quantilePass ep assets R v.quantile q1 = .ok q2 := by
    unfold quantilePass
    split
    · exact ⟨_, rfl⟩
    · obtain ⟨r, hr⟩ := (quantile_ok ha R _).2 hv.quantile
      by_cases he : (r.eq.isEmpty && r.ineq.isEmpty) = true
      · refine ⟨q1, ?_⟩
        simp only [bind_ok]
        exact ⟨r, hr, by rw [if_pos he]⟩
      · obtain ⟨q, hq⟩ := hep q1 ⟨r.eq ++ [(fun _ => 1, 1)], r.ineq⟩
        refine ⟨q, ?_⟩
        simp only [bind_ok]
        exact ⟨r, hr, by rw [if_neg he]; exact hq⟩
  obtain ⟨q2, h2⟩ := h2
  obtain ⟨q3, h3⟩ := cvar_total ha R hep argsort round v.cvar hv.cvar q2
  exact ⟨q3, by simp only [bind_ok]; exact ⟨q1, h1, q2, h2, h3⟩⟩

/-- **C156.** Nothing else is rejected with skewness views either: without mean views (so that the prior variance is the one used), the call
succeeds for all sensible views as long as every asset with a skewness view has a prior variance of at least 1e-12. -/
theorem C156_accepts_skew {ep : Ep S} (hep : ∀ prior r, ∃ q, ep prior r = .ok q) (argsort : (Fin S → ℝ) → Equiv.Perm (Fin S)) (round : ℝ → ℤ)
    {p0 : Fin S → ℝ} (hp0 : IsProb p0) {assets : Fin N → Label} (ha : Function.Injective assets) (R : Fin S → Fin N → ℝ) {v : Views}
    (hmean : v.mean = []) (hv : Sensible assets v) (hsk : ∀ kv ∈ v.skew, ∃ i, Names assets kv.1 i ∧ 1 / 10 ^ 12 ≤ varAt p0 R i) :
    ∃ q, computePosterior ep argsort round p0 assets R v false = .ok q := by
  have hvar : ∀ i, npVarW R p0 i = varAt p0 R i := by
    intro i
    have : ∑ s, R s i * p0 s = meanAt p0 R i := by rw [← meanOf_eq]; rfl
    simp only [npVarW, hp0.2, div_one, this, varAt, expect]
    exact Finset.sum_congr rfl fun s _ => by ring
  unfold computePosterior
  simp only
  split
  · exact ⟨p0, rfl⟩
  obtain ⟨r1, e1⟩ := (C23_mean_accepts_iff ha R _).2 hv.mean
  have hm : ∃ q1, momentPass ep p0 assets R v false (meanOf R p0) (npVarW R p0) = .ok q1 := by
    unfold momentPass
    simp only [Bool.false_eq_true, if_false]
    have el : linPoint ep p0 assets R v (meanOf R p0) (npVarW R p0) = .ok (meanOf R p0, npVarW R p0) := by
      unfold linPoint
      simp only [hmean, List.isEmpty_nil, Bool.not_true, Bool.false_and, Bool.false_eq_true, if_false]
    obtain ⟨r2, e2⟩ := (vol_ok ha R (meanOf R p0) _).2 hv.vol
    obtain ⟨r3, e3⟩ := (var_ok ha R (meanOf R p0) _).2 hv.var
    obtain ⟨r4, e4⟩ := (skew_ok ha R (meanOf R p0) (npVarW R p0) v.skew).2 (fun kv hkv => by
      obtain ⟨i, h1, h2⟩ := hsk kv hkv
      exact ⟨i, h1, by rw [hvar]; exact h2, (hv.skew kv hkv).2⟩)
    obtain ⟨r5, e5⟩ := (corr_ok ha R (meanOf R p0) (npVarW R p0) _).2 hv.corr
    have hd : ∃ q, (if ((Rows.concat [r1, r2, r3, r4, r5]).eq.isEmpty && (Rows.concat [r1, r2, r3, r4, r5]).ineq.isEmpty) = true then
        Except.ok p0 else doEp ep p0 (Rows.concat [r1, r2, r3, r4, r5])) = Except.ok q := by
      split
      · exact ⟨p0, rfl⟩
      · exact hep p0 _
    obtain ⟨q, hq⟩ := hd
    refine ⟨q, ?_⟩
    unfold simultaneousPass
    simp only [bind_ok]
    exact ⟨_, el, r1, e1, r2, e2, r3, e3, r4, e4, r5, e5, hq⟩
  obtain ⟨q1, h1⟩ := hm
  have h2 : ∃ q2, quantilePass ep assets R v.quantile q1 = .ok q2 := by
    unfold quantilePass
    split
    · exact ⟨_, rfl⟩
    · obtain ⟨r, hr⟩ := (quantile_ok ha R _).2 hv.quantile
      by_cases he : (r.eq.isEmpty && r.ineq.isEmpty) = true
      · refine ⟨q1, ?_⟩
        simp only [bind_ok]
        exact ⟨r, hr, by rw [if_pos he]⟩
      · obtain ⟨q, hq⟩ := hep q1 ⟨r.eq ++ [(fun _ => 1, 1)], r.ineq⟩
        refine ⟨q, ?_⟩
        simp only [bind_ok]
        exact ⟨r, hr, by rw [if_neg he]; exact hq⟩
  obtain ⟨q2, h2⟩ := h2
  obtain ⟨q3, h3⟩ := cvar_total ha R hep argsort round v.cvar hv.cvar q2
  exact ⟨q3, by simp only [bind_ok]; exact ⟨q1, h1, q2, h2, h3⟩⟩

/-- **C156.** A skewness view on an asset that does not vary is rejected: with skewness views only, a returned posterior means that every
viewed asset has a prior variance of at least 1e-12. -/
theorem C156_skew (ep : Ep S) (argsort : (Fin S → ℝ) → Equiv.Perm (Fin S)) (round : ℝ → ℤ) {p0 : Fin S → ℝ} (hp0 : IsProb p0)
    {assets : Fin N → Label} (ha : Function.Injective assets) (R : Fin S → Fin N → ℝ) {v : Views} (hmean : v.mean = []) {q : Fin S → ℝ}
    (h : computePosterior ep argsort round p0 assets R v false = .ok q) :
    ∀ kv ∈ v.skew, ∃ i, Names assets kv.1 i ∧ 1 / 10 ^ 12 ≤ varAt p0 R i := by
  have hvar : ∀ i, npVarW R p0 i = varAt p0 R i := by
    intro i
    have : ∑ s, R s i * p0 s = meanAt p0 R i := by rw [← meanOf_eq]; rfl
    simp only [npVarW, hp0.2, div_one, this, varAt, expect]
    exact Finset.sum_congr rfl fun s _ => by ring
  unfold computePosterior at h
  simp only at h
  split at h
  · rename_i he
    simp only [Bool.and_eq_true] at he
    exact nil_of_isEmpty he.1.1.1.2
  simp only [bind_ok] at h
  obtain ⟨q1, h1, -⟩ := h
  unfold momentPass at h1
  simp only [Bool.false_eq_true, if_false] at h1
  unfold simultaneousPass at h1
  simp only [bind_ok] at h1
  obtain ⟨mv, e0, r1, e1, r2, e2, r3, e3, r4, e4, -⟩ := h1
  unfold linPoint at e0
  simp only [hmean, List.isEmpty_nil, Bool.not_true, Bool.false_and, Bool.false_eq_true, if_false] at e0
  injection e0 with e0
  subst e0
  intro kv hkv
  obtain ⟨i, h1, h2, -⟩ := (skew_ok ha R _ _ _).1 ⟨r4, e4⟩ kv hkv
  exact ⟨i, h1, by rw [← hvar]; exact h2⟩

/-! ## C29: where the search starts and where it may go -/

theorem firstCut {p : Fin S → ℝ} (hp : ∀ s, 0 ≤ p s) (σ : Equiv.Perm (Fin S)) (γ : ℝ) (hS : 2 ≤ S) :
    FirstCut p σ γ (initialCut p σ γ) := by
  have hmono : ∀ i j : Fin S, i ≤ j → ∑ k, (if k ≤ i then p (σ k) else 0) ≤ ∑ k, if k ≤ j then p (σ k) else 0 := by
    intro i j hij
    refine Finset.sum_le_sum fun k _ => ?_
    by_cases h : k ≤ i
    · rw [if_pos h, if_pos (h.trans hij)]
    · rw [if_neg h]
      split
      · exact hp _
      · exact le_rfl
  unfold initialCut
  cases hf : (List.finRange S).find? (fun k => decide (γ ≤ ∑ j, if j ≤ k then p (σ j) else 0)) with
  | none =>
    have hall : ∀ k : Fin S, ∑ j, (if j ≤ k then p (σ j) else 0) < γ := by
      intro k
      have := List.find?_eq_none.1 hf k (List.mem_finRange k)
      simpa using this
    exact ⟨by simp only; omega, by simp only; omega, fun j _ _ => hall j, fun h => by simp only at h; omega⟩
  | some k =>
    have hk : γ ≤ ∑ j, if j ≤ k then p (σ j) else 0 := by
      have := List.find?_some hf
      simpa using this
    have hb : ∀ j < k, ∑ i, (if i ≤ j then p (σ i) else 0) < γ := by
      intro j hj
      obtain ⟨-, as, bs, hl, hn⟩ := List.find?_eq_some_iff_append.1 hf
      have hmem : j ∈ as := by
        have hs : (as ++ k :: bs).Pairwise (· < ·) := by rw [← hl]; exact List.pairwise_lt_finRange S
        have : j ∈ as ++ k :: bs := by rw [← hl]; exact List.mem_finRange j
        rcases List.mem_append.1 this with h | h
        · exact h
        · rcases List.mem_cons.1 h with h | h
          · exact absurd h hj.ne
          · have := (List.pairwise_append.1 hs).2.1
            exact absurd ((List.pairwise_cons.1 this).1 j h) (not_lt.2 hj.le)
      have := hn j hmem
      simpa using this
    have hkS := k.2
    refine ⟨by simp only; omega, by simp only; omega, fun j h1 h2 => hb j ?_, fun h j hj => ?_⟩
    · simp only at h2
      show (j : ℕ) < k
      omega
    · simp only at h hj
      refine hk.trans (hmono k j ?_)
      show (k : ℕ) ≤ j
      omega

private theorem newtonStep_range {round : ℝ → ℤ} {lo mid hi : Option ℝ} {s s' : ℤ} (hS : 2 ≤ S) (h : newtonStep round S lo mid hi s = some s') :
    1 ≤ s' ∧ s' ≤ (S : ℤ) - 1 := by
  unfold newtonStep at h
  split at h
  · simp only at h
    split at h
    · cases h
    · split at h
      · cases h
      · injection h with h
        subst h
        omega
  · cases h

private theorem newtonLoop_range {solve : ℤ → Option ((Fin S → ℝ) × ℝ)} {round : ℝ → ℤ} {P : (Fin S → ℝ) × ℝ → Prop} (hS : 2 ≤ S)
    (hP : ∀ s c, 1 ≤ s → s ≤ (S : ℤ) - 1 → solve s = some c → P c) (fuel : ℕ) (s : ℤ) (b : (Fin S → ℝ) × ℝ) (hb : P b) :
    ∃ c, newtonLoop solve round fuel s (some b) = some c ∧ P c ∧ c.2 ≤ b.2 := by
  induction fuel generalizing s b with
  | zero => exact ⟨b, rfl, hb, le_rfl⟩
  | succ fuel ih =>
    unfold newtonLoop
    split
    · exact ⟨b, rfl, hb, le_rfl⟩
    · rename_i s' hs'
      obtain ⟨r1, r2⟩ := newtonStep_range hS hs'
      cases hsol : solve s' with
      | none => exact ih s' b hb
      | some c =>
        simp only
        split
        · rename_i hlt
          obtain ⟨d, h1, h2, h3⟩ := ih s' c (hP _ _ r1 r2 hsol)
          exact ⟨d, h1, h2, h3.trans hlt.le⟩
        · exact ih s' b hb

private theorem klMasked_kl {q p : Fin S → ℝ} (hq : ∀ s, 0 ≤ q s) (hp : ∀ s, 0 < p s) : klMasked q p = kl q p := by
  unfold klMasked kl
  refine Finset.sum_congr rfl fun s _ => ?_
  split
  · rename_i h
    rw [Real.log_div h.ne' (hp s).ne']
  · rename_i h
    rw [le_antisymm (not_lt.1 h) (hq s), zero_mul]

/-- **C29.** The search for a CVaR view starts at the position where the prior's cumulative probability reaches `γ` (`FirstCut`), raises when
the problem there has no solution, tries only positions between 1 and `S - 1`, and returns the solution for one of them, whose relative
entropy to the prior does not exceed that of the first one. -/
theorem C29_search {ep : Ep S} (hep : EpSound ep) (argsort : (Fin S → ℝ) → Equiv.Perm (Fin S)) (round : ℝ → ℤ) (x : Fin S → ℝ) (γ target : ℝ)
    {p : Fin S → ℝ} (hp : ∀ s, 0 < p s) (hS : 2 ≤ S) (maxNewton : ℕ) :
    ∃ s0, FirstCut p (argsort x) γ s0 ∧
      (∀ q, solveCvarView ep argsort round x γ target p maxNewton = .ok q →
        ∃ q0 s, ep p (cvarRows x (argsort x) γ target s0) = .ok q0 ∧ 1 ≤ s ∧ s ≤ (S : ℤ) - 1 ∧
          ep p (cvarRows x (argsort x) γ target s) = .ok q ∧ kl q p ≤ kl q0 p) ∧
      (∀ e, ep p (cvarRows x (argsort x) γ target s0) = .error e →
        solveCvarView ep argsort round x γ target p maxNewton = .error .runtimeError) := by
  have hfc := firstCut (fun s => (hp s).le) (argsort x) γ hS
  refine ⟨_, hfc, ?_, ?_⟩
  · intro q hq
    cases h0 : ep p (cvarRows x (argsort x) γ target (initialCut p (argsort x) γ)) with
    | error e =>
      have h0' : solveForS ep p x (argsort x) γ target (initialCut p (argsort x) γ) = none := by unfold solveForS; rw [h0]
      have : newtonLoop (solveForS ep p x (argsort x) γ target) round maxNewton (initialCut p (argsort x) γ) none = none := by
        cases maxNewton with
        | zero => rfl
        | succ n =>
          unfold newtonLoop
          rw [h0']
          simp only [Option.map_none]
          split
          · rfl
          · rename_i s' hs'
            unfold newtonStep at hs'
            split at hs'
            · rename_i hm _; cases hm
            · cases hs'
      unfold solveCvarView at hq
      simp only [h0', this] at hq
      cases hq
    | ok q0 =>
      have hs0 : solveForS ep p x (argsort x) γ target (initialCut p (argsort x) γ) = some (q0, klMasked q0 p) := by
        unfold solveForS; rw [h0]
      obtain ⟨c, h1, ⟨s, r1, r2, h2⟩, h3⟩ := newtonLoop_range (round := round) (solve := solveForS ep p x (argsort x) γ target)
        (P := fun c => ∃ s, 1 ≤ s ∧ s ≤ (S : ℤ) - 1 ∧ solveForS ep p x (argsort x) γ target s = some c) hS
        (fun s c r1 r2 h => ⟨s, r1, r2, h⟩) maxNewton (initialCut p (argsort x) γ) (q0, klMasked q0 p) ⟨_, hfc.lower, hfc.upper, hs0⟩
      unfold solveCvarView at hq
      simp only [hs0, h1] at hq
      obtain ⟨c1, c2⟩ := c
      injection hq with hq
      simp only at hq
      subst hq
      unfold solveForS at h2
      split at h2
      · rename_i q' hq'
        injection h2 with h2
        injection h2 with h4 h5
        subst h4
        have hpq := (hep p _ _ (by simp [cvarRows]) hq').1
        have hpq0 := (hep p _ _ (by simp [cvarRows]) h0).1
        refine ⟨q0, s, rfl, r1, r2, hq', ?_⟩
        rw [← klMasked_kl hpq.1 hp, ← klMasked_kl hpq0.1 hp, h5]
        exact h3
      · cases h2
  · intro e he
    have h0' : solveForS ep p x (argsort x) γ target (initialCut p (argsort x) γ) = none := by unfold solveForS; rw [he]
    unfold solveCvarView
    simp only [h0']
    cases maxNewton with
    | zero => rfl
    | succ n =>
      unfold newtonLoop
      rw [h0']
      simp only [Option.map_none]
      split
      · rename_i hx
        split at hx
        · cases hx
        · rename_i s' hs'
          unfold newtonStep at hs'
          split at hs'
          · rename_i hm _; cases hm
          · cases hs'
      · rfl

/-- **C29.** The search for a CVaR view returns exactly when the problem at the starting position has a solution. -/
theorem C29_accepts_iff {ep : Ep S} (hep : EpSound ep) (argsort : (Fin S → ℝ) → Equiv.Perm (Fin S)) (round : ℝ → ℤ) (x : Fin S → ℝ) (γ target : ℝ)
    {p : Fin S → ℝ} (hp : ∀ s, 0 < p s) (hS : 2 ≤ S) (maxNewton : ℕ) :
    ∃ s0, FirstCut p (argsort x) γ s0 ∧
      ((∃ q, solveCvarView ep argsort round x γ target p maxNewton = .ok q) ↔ ∃ q0, ep p (cvarRows x (argsort x) γ target s0) = .ok q0) := by
  have hfc := firstCut (fun s => (hp s).le) (argsort x) γ hS
  refine ⟨_, hfc, ?_, ?_⟩
  · rintro ⟨q, hq⟩
    cases h0 : ep p (cvarRows x (argsort x) γ target (initialCut p (argsort x) γ)) with
    | ok q0 => exact ⟨q0, rfl⟩
    | error e =>
      exfalso
      have h0' : solveForS ep p x (argsort x) γ target (initialCut p (argsort x) γ) = none := by unfold solveForS; rw [h0]
      have : newtonLoop (solveForS ep p x (argsort x) γ target) round maxNewton (initialCut p (argsort x) γ) none = none := by
        cases maxNewton with
        | zero => rfl
        | succ n =>
          unfold newtonLoop
          rw [h0']
          simp only [Option.map_none]
          split
          · rfl
          · rename_i s' hs'
            unfold newtonStep at hs'
            split at hs'
            · rename_i hm _; cases hm
            · cases hs'
      unfold solveCvarView at hq
      simp only [h0', this] at hq
      cases hq
  · rintro ⟨q0, h0⟩
    have hs0 : solveForS ep p x (argsort x) γ target (initialCut p (argsort x) γ) = some (q0, klMasked q0 p) := by
      unfold solveForS; rw [h0]
    obtain ⟨c, h1, -, -⟩ := newtonLoop_range (round := round) (solve := solveForS ep p x (argsort x) γ target)
      (P := fun _ => True) hS (fun _ _ _ _ _ => trivial) maxNewton (initialCut p (argsort x) γ) (q0, klMasked q0 p) trivial
    unfold solveCvarView
    simp only [hs0, h1]
    exact ⟨_, rfl⟩

/-- Sensible and senseless views on two assets: a correlation of 1/2 is fine, one of −6/5 is not. -/
example : Sensible ![.str "A", .str "B"] ⟨[], [(.str "A", .scalar (.fin 2))], [], [], [((.str "A", .str "B"), .scalar (.fin (1 / 2)))], [], []⟩ ∧
    ¬ Sensible ![.str "A", .str "B"] ⟨[], [], [], [], [((.str "A", .str "B"), .scalar (.fin (-6 / 5)))], [], []⟩ ∧
    ¬ Sensible ![.str "A", .str "B"] ⟨[], [], [], [], [], [(.str "A", (1, .scalar (.fin 0)))], []⟩ := by
  refine ⟨⟨by simp, ?_, by simp, by simp, ?_, by simp, by simp⟩, fun h => ?_, fun h => ?_⟩
  · simp only [List.mem_cons, List.not_mem_nil, or_false, forall_eq]
    exact ⟨⟨0, .inl rfl⟩, ⟨2, rfl⟩, fun t ht => by injection ht with ht; rw [← ht]; norm_num⟩
  · simp only [List.mem_cons, List.not_mem_nil, or_false, forall_eq]
    exact ⟨⟨0, .inl rfl⟩, ⟨1, .inl rfl⟩, ⟨1 / 2, rfl⟩, fun t ht => by injection ht with ht; rw [← ht]; norm_num⟩
  · have := (h.corr _ (List.mem_cons_self ..)).2.2.2 (-6 / 5) rfl
    norm_num at this
  · have := (h.quantile _ (List.mem_cons_self ..)).2.2 0 rfl
    norm_num at this

end PyV.Props
