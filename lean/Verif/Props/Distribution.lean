import Verif.Lemmas.Distribution

/-! # C74, C99: `AssetsDistribution` -/

namespace PyV.Props

open PyV PyV.Api Matrix

private theorem mkDist_inv {a : DistArgs} {d : Dist} : mkDist a = .ok d ↔ ∃ n names s m c,
    namesOf a = .ok names ∧ inferN a = some (n + 1) ∧ namesBad (n + 1) names = false ∧
    scenPart (n + 1) a.scenarios a.probabilities = .ok s ∧ muPart (estimated s) a.mu = .ok m ∧
    covPart (estimated s) a.cov = .ok c ∧ d = ⟨n + 1, m, c, s, names⟩ := by
  unfold mkDist
  constructor
  · intro h
    split at h
    · cases h
    rename_i names hn
    split at h
    · cases h
    · cases h
    rename_i n hN
    split at h
    · cases h
    rename_i hb
    split at h
    · cases h
    rename_i s hs
    split at h
    · cases h
    rename_i m hm
    split at h
    · cases h
    rename_i c hc
    injection h with h
    exact ⟨n, names, s, m, c, hn, hN, by simpa using hb, hs, hm, hc, h.symm⟩
  · rintro ⟨n, names, s, m, c, hn, hN, hb, hs, hm, hc, rfl⟩
    rw [hn]
    simp only [hN, hb, Bool.false_eq_true, if_false, hs, hm, hc]

private theorem scenPart_inv {N : ℕ} {s : Option GridArg} {p : Option (List (PyFloat ℝ))} {o : Option (Scen N)} :
    scenPart N s p = .ok o ↔ (s = none ∧ o = none) ∨ ∃ arg sc, s = some arg ∧ o = some sc ∧ arg.Holds sc.R ∧
      scenProbs sc.T p = .ok sc.p := by
  unfold scenPart
  cases s with
  | none => simp [eq_comm]
  | some arg =>
    simp only [reduceCtorEq, false_and, Option.some.injEq, false_or]
    constructor
    · intro h
      split at h
      · cases h
      rename_i g hg
      split at h
      · cases h
      rename_i R hR
      split at h
      · cases h
      rename_i q hq
      injection h with h
      subst h
      exact ⟨arg, ⟨g.rows, R, q⟩, rfl, rfl, holds_iff.2 ⟨g, hg, hR⟩, hq⟩
    · rintro ⟨arg', ⟨T, R, q⟩, rfl, rfl, hh, hq⟩
      obtain ⟨g, hg, hR⟩ := holds_iff.1 hh
      obtain ⟨hr, -, -⟩ := finGrid_ok.1 hR
      simp only at hR hq hr
      subst hr
      simp only [hg, hR, hq]

private theorem muPart_some {N : ℕ} {est : Except PyErr (Option ((Fin N → ℝ) × Matrix (Fin N) (Fin N) ℝ))} {v : VecArg}
    {o : Option (Fin N → ℝ)} : muPart est (some v) = .ok o ↔ ∃ m, o = some m ∧ v.Holds m := by
  unfold muPart VecArg.Holds
  simp only
  constructor
  · intro h
    split at h
    · cases h
    rename_i m hm
    injection h with h
    exact ⟨m, h.symm, finVec_ok.1 hm⟩
  · rintro ⟨m, rfl, hm⟩
    rw [finVec_ok.2 hm]

private theorem covPart_some {N : ℕ} {est : Except PyErr (Option ((Fin N → ℝ) × Matrix (Fin N) (Fin N) ℝ))} {v : GridArg}
    {o : Option (Matrix (Fin N) (Fin N) ℝ)} : covPart est (some v) = .ok o ↔ ∃ m, o = some m ∧ v.Holds (fun i j => m i j) := by
  unfold covPart
  simp only [holds_iff]
  constructor
  · intro h
    split at h
    · cases h
    rename_i g hg
    split at h
    · cases h
    rename_i m hm
    injection h with h
    exact ⟨_, h.symm, g, hg, hm⟩
  · rintro ⟨m, rfl, g, hg, hm⟩
    simp only [hg, hm]
    rfl

/-- Moments estimated from weighted scenarios: the weighted mean and the weighted covariance about it. -/
private theorem estimated_ok {N : ℕ} {sc : Scen N} (hp : (∀ t, 0 ≤ sc.p t) ∧ ∑ t, sc.p t = 1) :
    estimated (some sc) = .ok (some (Mom.wMean sc.R sc.p, Mom.wCov sc.R sc.p)) := by
  unfold estimated
  simp only [estimate_ok hp]

private theorem wCov_apply {T N : ℕ} (R : Fin T → Fin N → ℝ) (p : Fin T → ℝ) (i j : Fin N) :
    Mom.wCov R p i j = ∑ t, p t * (R t i - ∑ s, p s * R s i) * (R t j - ∑ s, p s * R s j) := by
  unfold Mom.wCov Mom.wMean
  simp only [Matrix.smul_apply, Matrix.add_apply, of_apply, transpose_apply, smul_eq_mul]
  rw [← Finset.sum_add_distrib, Finset.mul_sum]
  refine Finset.sum_congr rfl fun t _ => ?_
  have e : ∀ k, ∑ s, R s k * p s = ∑ s, p s * R s k := fun k => Finset.sum_congr rfl fun s _ => mul_comm _ _
  simp only [e]
  ring

private theorem len_of_holds_vec {n : ℕ} {v : VecArg} {m : Fin n → ℝ} (h : v.Holds m) : v.vals.length = n := by
  rw [h, List.length_ofFn]

private theorem dims_of_holds {r c : ℕ} {v : GridArg} {m : Fin r → Fin c → ℝ} (h : v.Holds m) : v.rows = r ∧ v.cols = c := by
  obtain ⟨g, hg, hr, hc, -⟩ := h
  rcases hg with rfl | ⟨i, k, rfl⟩ <;> exact ⟨hr, hc⟩

/-- All labels have length `N` once the numeric inputs do. -/
private theorem lens {a : DistArgs} {N : ℕ} (hmu : ∀ m, a.mu = some m → ∃ v : Fin N → ℝ, m.Holds v)
    (hcov : ∀ c, a.cov = some c → ∃ v : Fin N → Fin N → ℝ, c.Holds v)
    (hsc : ∀ s, a.scenarios = some s → ∃ (T : ℕ) (v : Fin T → Fin N → ℝ), s.Holds v) :
    (∀ l ∈ muLabels a.mu, l.length = N) ∧ (∀ l ∈ covLabels a.cov, l.length = N) ∧ ∀ l ∈ scenLabels a.scenarios, l.length = N := by
  refine ⟨?_, ?_, ?_⟩
  · intro l hl
    rcases hm : a.mu with _ | x | x
    · rw [hm] at hl; simp [muLabels] at hl
    · rw [hm] at hl
      simp only [muLabels, List.mem_singleton] at hl
      obtain ⟨v, hv⟩ := hmu _ hm
      have := len_of_holds_vec hv
      simp only [VecArg.vals, List.length_map] at this
      rw [hl, List.length_map, this]
    · rw [hm] at hl; simp [muLabels] at hl
  · intro l hl
    rcases hm : a.cov with _ | ⟨g, i, c⟩ | x | _
    · rw [hm] at hl; simp [covLabels] at hl
    · rw [hm] at hl
      simp only [covLabels, List.mem_cons, List.not_mem_nil, or_false] at hl
      obtain ⟨v, hv⟩ := hcov _ hm
      obtain ⟨h1, h2⟩ := dims_of_holds hv
      simp only [GridArg.rows, GridArg.cols] at h1 h2
      rcases hl with rfl | rfl
      · rw [List.length_ofFn, h1]
      · rw [List.length_ofFn, h2]
    · rw [hm] at hl; simp [covLabels] at hl
    · rw [hm] at hl; simp [covLabels] at hl
  · intro l hl
    rcases hm : a.scenarios with _ | ⟨g, i, c⟩ | x | _
    · rw [hm] at hl; simp [scenLabels] at hl
    · rw [hm] at hl
      simp only [scenLabels, List.mem_singleton] at hl
      obtain ⟨T, v, hv⟩ := hsc _ hm
      obtain ⟨h1, h2⟩ := dims_of_holds hv
      simp only [GridArg.rows, GridArg.cols] at h1 h2
      rw [hl, List.length_ofFn, h2]
    · rw [hm] at hl; simp [scenLabels] at hl
    · rw [hm] at hl; simp [scenLabels] at hl

private theorem ne_nil_of_len {N : ℕ} (hN : 0 < N) {L : List (List String)} (h : ∀ l ∈ L, l.length = N) : ∀ l ∈ L, l ≠ [] := by
  rintro l hl rfl
  have := h _ hl
  simp at this
  omega

/-- **C74.** Everything the constructed object holds.  The number of assets is the one all inputs agree on; given moments and
scenarios are stored as they are; missing moments are the probability-weighted mean and covariance of the scenarios;
probabilities are non-negative, sum to one, are uniform when omitted and proportional to the given weights otherwise; the names
are those of every label list supplied, and there are none only if no labels were supplied. -/
theorem C74_contents {a : DistArgs} {d : Dist} (h : mkDist a = .ok d) :
    ValidInputs a d.N ∧
    (∀ m, a.mu = some m → ∃ v, d.mu = some v ∧ m.Holds v) ∧
    (∀ c, a.cov = some c → ∃ v, d.cov = some v ∧ c.Holds (fun i j => v i j)) ∧
    (a.scenarios = none → d.scen = none) ∧
    (∀ s, a.scenarios = some s → ∃ sc, d.scen = some sc ∧ s.Holds sc.R ∧
      (∀ t, 0 ≤ sc.p t) ∧ ∑ t, sc.p t = 1 ∧
      (a.probabilities = none → ∀ t, sc.p t = 1 / (sc.T : ℝ)) ∧
      (∀ l, a.probabilities = some l → ∃ k : ℝ, 0 < k ∧ l = List.ofFn (fun t => PyFloat.fin (k * sc.p t))) ∧
      (a.mu = none → d.mu = some (fun i => ∑ t, sc.p t * sc.R t i)) ∧
      (a.cov = none → ∃ C, d.cov = some C ∧ ∀ i j,
        C i j = ∑ t, sc.p t * (sc.R t i - ∑ s, sc.p s * sc.R s i) * (sc.R t j - ∑ s, sc.p s * sc.R s j))) ∧
    (∀ l ∈ labelLists a, d.names = some l) ∧ (labelLists a = [] → d.names = none) := by
  obtain ⟨n, names, s, m, c, hn, hN, hb, hs, hm, hc, rfl⟩ := mkDist_inv.1 h
  have Hmu : ∀ x, a.mu = some x → ∃ v, m = some v ∧ x.Holds v := by
    intro x hx; rw [hx] at hm; exact muPart_some.1 hm
  have Hcov : ∀ x, a.cov = some x → ∃ v, c = some v ∧ x.Holds (fun i j => v i j) := by
    intro x hx; rw [hx] at hc; exact covPart_some.1 hc
  have Hsc : ∀ x, a.scenarios = some x → ∃ sc, s = some sc ∧ x.Holds sc.R ∧ scenProbs sc.T a.probabilities = .ok sc.p := by
    intro x hx
    rcases scenPart_inv.1 hs with ⟨h1, -⟩ | ⟨arg, sc, h1, h2, h3, h4⟩
    · rw [h1] at hx; cases hx
    · rw [h1] at hx; injection hx with hx; subst hx; exact ⟨sc, h2, h3, h4⟩
  have L := lens (a := a) (N := n + 1) (fun x hx => let ⟨v, _, hv⟩ := Hmu x hx; ⟨v, hv⟩)
    (fun x hx => let ⟨v, _, hv⟩ := Hcov x hx; ⟨_, hv⟩) (fun x hx => let ⟨sc, _, hv, _⟩ := Hsc x hx; ⟨sc.T, sc.R, hv⟩)
  have hnames := (namesOf_ok (ne_nil_of_len (Nat.succ_pos n) L.1) (ne_nil_of_len (Nat.succ_pos n) L.2.1)
    (ne_nil_of_len (Nat.succ_pos n) L.2.2)).1 hn
  obtain ⟨hag, hhead⟩ := hnames
  have hall : ∀ l ∈ labelLists a, names = some l := by
    intro l hl
    rw [hhead]
    cases hL : labelLists a with
    | nil => rw [hL] at hl; simp at hl
    | cons x xs =>
      rw [hL] at hl hag
      simp only [List.head?_cons, Option.some.injEq]
      exact hag x (by simp) l hl
  have hcount : ∀ l ∈ labelLists a, l.length = n + 1 := by
    intro l hl
    have := hall l hl
    rw [this] at hb
    simpa [namesBad] using hb
  refine ⟨⟨Nat.succ_pos n, ?_, fun x hx => ?_, fun x hx => ?_, fun x hx => ?_, hag, hcount⟩, Hmu, Hcov, ?_, ?_, hall, ?_⟩
  · unfold inferN at hN
    cases h1 : a.mu
    · cases h2 : a.cov
      · cases h3 : a.scenarios
        · rw [h1, h2, h3] at hN; cases hN
        · simp
      · simp
    · simp
  · obtain ⟨v, -, hv⟩ := Hmu x hx; exact ⟨v, hv⟩
  · obtain ⟨v, -, hv⟩ := Hcov x hx; exact ⟨_, hv⟩
  · obtain ⟨sc, -, hv, hp⟩ := Hsc x hx; exact ⟨sc.T, sc.R, scenProbs_pos hp, hv, scenProbs_ok_probs hp⟩
  · intro hx
    rcases scenPart_inv.1 hs with ⟨-, h2⟩ | ⟨arg, sc, h1, -⟩
    · exact h2
    · rw [h1] at hx; cases hx
  · intro x hx
    obtain ⟨sc, rfl, hv, hp⟩ := Hsc x hx
    have hd := scenProbs_dist hp
    rw [estimated_ok hd] at hm hc
    refine ⟨sc, rfl, hv, hd.1, hd.2, ?_, ?_, ?_, ?_⟩
    · intro hnone; rw [hnone] at hp; exact (scenProbs_none.1 hp).2
    · intro l hl
      rw [hl] at hp
      obtain ⟨w, rfl, hw, hw0, hq⟩ := scenProbs_some.1 hp
      refine ⟨∑ t, w t, hw0, ?_⟩
      congr 1
      funext t
      rw [hq, mul_div_cancel₀ _ hw0.ne']
    · intro hnone
      rw [hnone] at hm
      unfold muPart at hm
      simp only at hm
      injection hm with hm
      simp only
      rw [← hm]
      refine congrArg some (funext fun i => ?_)
      exact Finset.sum_congr rfl fun t _ => mul_comm _ _
    · intro hnone
      rw [hnone] at hc
      unfold covPart at hc
      simp only at hc
      injection hc with hc
      exact ⟨_, hc.symm, fun i j => wCov_apply _ _ i j⟩
  · intro hnil
    simp only
    rw [hhead, hnil]
    rfl

/-- **C74.** Exactly the consistent, finite descriptions of at least one asset are accepted. -/
theorem C74_accepts_iff (a : DistArgs) : (∃ d, mkDist a = .ok d) ↔ ∃ N, ValidInputs a N := by
  constructor
  · rintro ⟨d, hd⟩; exact ⟨d.N, (C74_contents hd).1⟩
  · rintro ⟨N, v⟩
    obtain ⟨n, rfl⟩ := Nat.exists_eq_succ_of_ne_zero v.pos.ne'
    have L := lens v.mu v.cov (fun s hs => let ⟨T, w, _, hw, _⟩ := v.scen s hs; ⟨T, w, hw⟩)
    have hn := (namesOf_ok (a := a) (r := (labelLists a).head?) (ne_nil_of_len v.pos L.1) (ne_nil_of_len v.pos L.2.1)
      (ne_nil_of_len v.pos L.2.2)).2 ⟨v.agree, rfl⟩
    have hb : namesBad (n + 1) (labelLists a).head? = false := by
      cases hL : labelLists a with
      | nil => rfl
      | cons x xs =>
        have := v.count x (by rw [hL]; simp)
        simp [namesBad, this]
    have hN : inferN a = some (n + 1) := by
      unfold inferN
      cases h3 : a.scenarios with
      | some s =>
        obtain ⟨T, w, -, hw, -⟩ := v.scen s h3
        simp [(dims_of_holds hw).2]
      | none =>
        cases h1 : a.mu with
        | some m =>
          obtain ⟨w, hw⟩ := v.mu m h1
          simp [len_of_holds_vec hw]
        | none =>
          cases h2 : a.cov with
          | some c =>
            obtain ⟨w, hw⟩ := v.cov c h2
            simp [(dims_of_holds hw).1]
          | none =>
            have := v.some_input
            rw [h1, h2, h3] at this
            simp at this
    have hs : ∃ s, scenPart (n + 1) a.scenarios a.probabilities = .ok s ∧ ∃ e, estimated s = .ok e := by
      cases h3 : a.scenarios with
      | none => exact ⟨none, scenPart_inv.2 (.inl ⟨rfl, rfl⟩), none, rfl⟩
      | some s =>
        obtain ⟨T, w, hT, hw, hp⟩ := v.scen s h3
        obtain ⟨q, hq⟩ := scenProbs_total hT hp
        exact ⟨some ⟨T, w, q⟩, scenPart_inv.2 (.inr ⟨s, ⟨T, w, q⟩, rfl, rfl, hw, hq⟩), _, estimated_ok (scenProbs_dist hq)⟩
    obtain ⟨s, hs, e, he⟩ := hs
    have hm : ∃ m, muPart (estimated s) a.mu = .ok m := by
      rw [he]
      cases h1 : a.mu with
      | some m =>
        obtain ⟨w, hw⟩ := v.mu m h1
        exact ⟨_, muPart_some.2 ⟨w, rfl, hw⟩⟩
      | none =>
        unfold muPart
        rcases e with _ | e
        · exact ⟨_, rfl⟩
        · exact ⟨_, rfl⟩
    have hc : ∃ m, covPart (estimated s) a.cov = .ok m := by
      rw [he]
      cases h1 : a.cov with
      | some m =>
        obtain ⟨w, hw⟩ := v.cov m h1
        exact ⟨_, covPart_some.2 ⟨Matrix.of w, rfl, hw⟩⟩
      | none =>
        unfold covPart
        rcases e with _ | e
        · exact ⟨_, rfl⟩
        · exact ⟨_, rfl⟩
    obtain ⟨m, hm⟩ := hm
    obtain ⟨c, hc⟩ := hc
    exact ⟨_, mkDist_inv.2 ⟨n, _, s, m, c, hn, hN, hb, hs, hm, hc, rfl⟩⟩

/-- **C74.** Every rejected description raises `ValueError`. -/
theorem C74_value_error {a : DistArgs} {e : PyErr} (h : mkDist a = .error e) : e = .valueError := by
  have hest : ∀ {N : ℕ} {s : Option (Scen N)} {e}, estimated s = .error e → e = .valueError := by
    intro N s e h
    unfold estimated at h
    split at h
    · cases h
    split at h
    · rename_i e' he
      injection h with h
      subst h
      unfold Mom.estimateSampleMoments at he
      split at he
      · simp only at he
        split at he
        · cases he
        · injection he with he; exact he.symm
      · injection he with he; exact he.symm
    · cases h
  have hmu : ∀ {N : ℕ} {s : Option (Scen N)} {m e}, muPart (estimated s) m = .error e → e = .valueError := by
    intro N s m e h
    unfold muPart at h
    split at h
    · split at h
      · rename_i he; injection h with h; subst h; exact finVec_err he
      · cases h
    · split at h
      · rename_i he; injection h with h; subst h; exact hest he
      · cases h
      · cases h
  have hcov : ∀ {N : ℕ} {s : Option (Scen N)} {m e}, covPart (estimated s) m = .error e → e = .valueError := by
    intro N s m e h
    unfold covPart at h
    split at h
    · split at h
      · rename_i he; injection h with h; subst h; exact gridOf_err he
      · split at h
        · rename_i he; injection h with h; subst h; exact finGrid_err he
        · cases h
    · split at h
      · rename_i he; injection h with h; subst h; exact hest he
      · cases h
      · cases h
  unfold mkDist at h
  split at h
  · rename_i he; injection h with h; subst h; exact namesOf_err he
  split at h
  · injection h with h; exact h.symm
  · injection h with h; exact h.symm
  split at h
  · injection h with h; exact h.symm
  split at h
  · rename_i he
    injection h with h
    subst h
    unfold scenPart at he
    split at he
    · cases he
    split at he
    · rename_i he'; injection he with he; subst he; exact gridOf_err he'
    split at he
    · rename_i he'; injection he with he; subst he; exact finGrid_err he'
    split at he
    · rename_i he'; injection he with he; subst he; exact scenProbs_err he'
    · cases he
  split at h
  · rename_i he; injection h with h; subst h; exact hmu he
  split at h
  · rename_i he; injection h with h; subst h; exact hcov he
  · cases h

/-- Two labelled scenarios of two assets with weights 3 and 1: accepted. -/
example : ∃ d, mkDist ⟨none, none, some (.frame ⟨2, 2, fun i j => .fin ((i : ℝ) + j)⟩ (fun _ => "") ![ "A", "B" ]),
    some [.fin 3, .fin 1], some ["A", "B"]⟩ = .ok d := by
  rw [C74_accepts_iff]
  refine ⟨2, by norm_num, by simp, by simp, by simp, ?_, ?_, ?_⟩
  · rintro s hs
    simp only [Option.some.injEq] at hs
    subst hs
    refine ⟨2, fun i j => (i : ℝ) + j, by norm_num, ⟨_, .inr ⟨_, _, rfl⟩, rfl, rfl, fun i j => rfl⟩, ?_⟩
    intro l hl
    simp only [Option.some.injEq] at hl
    subst hl
    exact ⟨![3, 1], by simp [List.ofFn_succ], by intro t; fin_cases t <;> norm_num, by simp; norm_num⟩
  · simp [labelLists]
  · simp [labelLists]

/-- **C99 (counterexample).** A mean vector alone, without covariance or scenarios, is accepted although the constructor documents a
`ValueError` when neither `(mu, cov)` nor scenarios are given. -/
theorem C99_counterexample : ∃ a : DistArgs, a.cov = none ∧ a.scenarios = none ∧ ∃ d, mkDist a = .ok d ∧ d.cov = none ∧ d.scen = none := by
  refine ⟨{ mu := some (.array [.fin 1]) }, rfl, rfl, ?_⟩
  have hv : ValidInputs { mu := some (.array [.fin 1]) } 1 := by
    refine ⟨by norm_num, by simp, fun m hm => ⟨fun _ => 1, ?_⟩, by simp, by simp, by simp [labelLists], by simp [labelLists]⟩
    simp only [Option.some.injEq] at hm
    subst hm
    simp [VecArg.Holds, VecArg.vals]
  obtain ⟨d, hd⟩ := (C74_accepts_iff { mu := some (.array [.fin 1]) }).2 ⟨1, hv⟩
  refine ⟨d, hd, ?_, (C74_contents hd).2.2.2.1 rfl⟩
  obtain ⟨n, names, s, m, c, hn, hN, hb, hs, hm, hc, rfl⟩ := mkDist_inv.1 hd
  have : s = none := (C74_contents hd).2.2.2.1 rfl
  subst this
  unfold covPart estimated at hc
  simp only at hc
  injection hc with hc
  exact hc.symm

/-- **C99 (part that holds).** With no mean, covariance or scenarios construction fails with `ValueError`; and whenever a mean is
missing but the construction succeeds there are scenarios or a covariance.  Missing: a mean alone, or a covariance alone, is
accepted. -/
theorem C99_insufficient_partial {a : DistArgs} (hm : a.mu = none) (hc : a.cov = none) (hs : a.scenarios = none) :
    mkDist a = .error .valueError := by
  cases h : mkDist a with
  | error e => rw [C74_value_error h]
  | ok d =>
    have := (C74_contents h).1.some_input
    rw [hm, hc, hs] at this
    simp at this

end PyV.Props
