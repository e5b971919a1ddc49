import Verif.Props.ViewsInvariance
import Verif.Props.LawInvariance
import Verif.Lemmas.ViewsSplit

/-! # Property C205: views only see the distribution of the scenarios -/

namespace PyV.Props

open PyV PyV.FV PyV.Spec

variable {S T N : ℕ}

/-- The distinct outcomes of a scenario matrix, and for each scenario which of them it is. -/
private theorem outcomes_of (X : Finset (Fin N → ℝ)) : ∃ (n : ℕ) (O : Fin n → Fin N → ℝ), Function.Injective O ∧ ∀ x, x ∈ X ↔ ∃ s, O s = x := by
  refine ⟨X.card, fun s => (X.equivFin.symm s : Fin N → ℝ), fun s s' h => ?_, fun x => ⟨fun hx => ⟨X.equivFin ⟨x, hx⟩, by simp⟩, ?_⟩⟩
  · exact X.equivFin.symm.injective (Subtype.ext h)
  · rintro ⟨s, rfl⟩
    exact (X.equivFin.symm s).2

/-- Copies of an outcome share its probability in proportion to their own. -/
private theorem shares_of {c : Fin T → Fin S} (hc : ∀ s, ∃ t, c t = s) {p : Fin T → ℝ} (hp : ∀ t, 0 < p t) :
    (∀ s, 0 < push c p s) ∧ Shares c (fun t => p t / push c p (c t)) ∧ lift c (fun t => p t / push c p (c t)) (push c p) = p := by
  have hpos : ∀ s, 0 < push c p s := by
    intro s
    obtain ⟨t, rfl⟩ := hc s
    refine Finset.sum_pos' (fun u _ => ?_) ⟨t, Finset.mem_univ t, by simpa using hp t⟩
    split
    · exact (hp u).le
    · exact le_rfl
  refine ⟨hpos, ⟨fun t => div_pos (hp t) (hpos _), fun s => ?_⟩, ?_⟩
  · have : ∀ t, (if c t = s then p t / push c p (c t) else 0) = (if c t = s then p t else 0) / push c p s := by
      intro t
      split
      · rename_i e; rw [e]
      · simp
    simp only [this, ← Finset.sum_div]
    exact div_self (hpos s).ne'
  · funext t
    unfold lift
    field_simp [(hpos (c t)).ne']

/-- Probabilities of outcomes, on the list of distinct outcomes. -/
private theorem push_prob {O : Fin S → Fin N → ℝ} (hO : Function.Injective O) {c : Fin T → Fin S} {R : Fin T → Fin N → ℝ}
    (hc : ∀ t, R t = O (c t)) (p : Fin T → ℝ) (s : Fin S) : push c p s = prob p (fun t => R t = O s) := by
  unfold push prob
  refine Finset.sum_congr rfl fun t _ => ?_
  have : (c t = s) ↔ R t = O s := by rw [hc]; exact hO.eq_iff.symm
  simp only [this]

private theorem prior_pos {prior : Option (Fin S → PyFloat ℝ)} {p0 : Fin S → ℝ} (h : priorOf prior = .ok p0) : ∀ s, 0 < p0 s :=
  fun s => priorOf_pos (Nat.lt_of_le_of_lt (Nat.zero_le _) s.2) h s

private theorem no_cvar {assets : Fin N → Label} {a : ViewArgs} (hcv : a.cvar = .none ∨ a.cvar = .dict []) {v : Views}
    (hv : viewsOf assets a = .ok v) : v.cvar = [] := by
  have e : cvarToDict assets a.cvar = .ok [] := by rcases hcv with h | h <;> rw [h] <;> rfl
  unfold viewsOf at hv
  simp only [bind_ok, e] at hv
  obtain ⟨_, _, _, _, _, _, _, _, cv, h1, h2⟩ := hv
  injection h1 with h1
  subst h1
  obtain ⟨m, -, h2⟩ := h2
  injection h2 with h2
  subst h2
  rfl

/-- **C205** (everything but CVaR views) Only the distribution of the scenarios matters: with exact entropy pooling, two scenario lists over the
same assets in which every joint outcome has the same prior probability — because scenarios were split, merged, duplicated or listed differently —
give the same posterior mean and covariance for any views but CVaR views, and posteriors under which every joint outcome has the same
probability; if one call raises, so does the other. -/
theorem C205_same_law_partial {ep : (S : ℕ) → Ep S} (hep : ∀ S, EpExact (ep S)) {argsort : (S : ℕ) → (Fin S → ℝ) → Equiv.Perm (Fin S)}
    {round : ℝ → ℤ} {R : Fin S → Fin N → ℝ} {R' : Fin T → Fin N → ℝ} {assets : Fin N → Label} {pandas : Bool}
    {prior : Option (Fin S → PyFloat ℝ)} {prior' : Option (Fin T → PyFloat ℝ)} {p0 : Fin S → ℝ} {p0' : Fin T → ℝ}
    (hp : priorOf prior = .ok p0) (hp' : priorOf prior' = .ok p0') (hlaw : SameLaw p0 R p0' R')
    {a : ViewArgs} (hcv : a.cvar = .none ∨ a.cvar = .dict []) :
    (∀ q m C, process ep argsort round ⟨S, N, R, assets, pandas, prior⟩ a = .ok ⟨S, N, R, assets, pandas, q, m, C⟩ →
      ∃ q', process ep argsort round ⟨T, N, R', assets, pandas, prior'⟩ a = .ok ⟨T, N, R', assets, pandas, q', m, C⟩ ∧ SameLaw q R q' R') ∧
    ((∃ e, process ep argsort round ⟨S, N, R, assets, pandas, prior⟩ a = .error e) →
      ∃ e, process ep argsort round ⟨T, N, R', assets, pandas, prior'⟩ a = .error e) := by
  classical
  -- both lists as refinements of one list of distinct outcomes
  have hpos := prior_pos hp
  have hpos' := prior_pos hp'
  have hsupp : ∀ t, ∃ s, R s = R' t := by
    intro t
    by_contra hn
    push Not at hn
    have h1 := hlaw (R' t)
    have h2 : prob p0 (fun s => R s = R' t) = 0 := by unfold prob; simp [hn]
    have h3 : 0 < prob p0' (fun u => R' u = R' t) := by
      unfold prob
      refine Finset.sum_pos' (fun u _ => ?_) ⟨t, Finset.mem_univ t, by simpa using hpos' t⟩
      split
      · exact (hpos' u).le
      · exact le_rfl
    linarith
  have hsupp' : ∀ s, ∃ t, R' t = R s := by
    intro t
    by_contra hn
    push Not at hn
    have h1 := hlaw (R t)
    have h2 : prob p0' (fun s => R' s = R t) = 0 := by unfold prob; simp [hn]
    have h3 : 0 < prob p0 (fun u => R u = R t) := by
      unfold prob
      refine Finset.sum_pos' (fun u _ => ?_) ⟨t, Finset.mem_univ t, by simpa using hpos t⟩
      split
      · exact (hpos u).le
      · exact le_rfl
    linarith
  obtain ⟨n, O, hO, hmem⟩ := outcomes_of (Finset.univ.image R)
  have hc : ∀ s, ∃ k, O k = R s := fun s => (hmem _).1 (by simp)
  have hc' : ∀ t, ∃ k, O k = R' t := fun t => (hmem _).1 (by obtain ⟨s, hs⟩ := hsupp t; simpa using ⟨s, hs⟩)
  choose c hc using hc
  choose c' hc' using hc'
  have hsurj : ∀ k, ∃ s, c s = k := by
    intro k
    obtain ⟨s, hs⟩ : ∃ s, R s = O k := by simpa using (hmem (O k)).2 ⟨k, rfl⟩
    exact ⟨s, hO (by rw [hc, hs])⟩
  have hsurj' : ∀ k, ∃ s, c' s = k := by
    intro k
    obtain ⟨s, hs⟩ : ∃ s, R s = O k := by simpa using (hmem (O k)).2 ⟨k, rfl⟩
    obtain ⟨t, ht⟩ := hsupp' s
    exact ⟨t, hO (by rw [hc', ht, hs])⟩
  have eR : R = fun s => O (c s) := funext fun s => (hc s).symm
  have eR' : R' = fun s => O (c' s) := funext fun s => (hc' s).symm
  obtain ⟨k1, k2, k3⟩ := shares_of hsurj hpos
  obtain ⟨k1', k2', k3'⟩ := shares_of hsurj' hpos'
  have hpush : push c' p0' = push c p0 := by
    funext k
    rw [push_prob hO (fun t => (hc t).symm), push_prob hO (fun t => (hc' t).symm), hlaw]
  rw [hpush] at k1' k2' k3'
  have hcv' : ∀ v, viewsOf assets a = .ok v → v.cvar = [] := fun v hv => no_cvar hcv hv
  have main : ∀ v, viewsOf assets a = .ok v → ∀ q', computePosterior (ep T) (argsort T) round p0' assets R' v a.sequential = .ok q' ↔
      ∃ q, computePosterior (ep n) (argsort n) round (push c p0) assets O v a.sequential = .ok q ∧
        q' = lift c' (fun t => p0' t / push c p0 (c' t)) q := by
    intro v hv q'
    have := computePosterior_split (hep n) (hep T) k2' k1 (argsort n) (argsort T) round round assets O v (hcv' v hv) a.sequential q'
    rw [k3', ← eR'] at this
    exact this
  have main' : ∀ v, viewsOf assets a = .ok v → ∀ q', computePosterior (ep S) (argsort S) round p0 assets R v a.sequential = .ok q' ↔
      ∃ q, computePosterior (ep n) (argsort n) round (push c p0) assets O v a.sequential = .ok q ∧
        q' = lift c (fun t => p0 t / push c p0 (c t)) q := by
    intro v hv q'
    have := computePosterior_split (hep n) (hep S) k2 k1 (argsort n) (argsort S) round round assets O v (hcv' v hv) a.sequential q'
    rw [k3, ← eR] at this
    exact this
  have hproc : ∀ {U : ℕ} {Q : Fin U → Fin N → ℝ} {pr : Option (Fin U → PyFloat ℝ)} {p : Fin U → ℝ}, priorOf pr = .ok p → ∀ P,
      process ep argsort round ⟨U, N, Q, assets, pandas, pr⟩ a = .ok P ↔ N ≠ 1 ∧ ∃ v, viewsOf assets a = .ok v ∧ ∃ q,
        computePosterior (ep U) (argsort U) round p assets Q v a.sequential = .ok q ∧ P = ⟨U, N, Q, assets, pandas, q, meanOf Q q, npCovW Q q⟩ := by
    intro U Q pr p hpr P
    unfold process
    simp only [hpr, bind_ok, Except.ok.injEq, exists_eq_left']
    by_cases h1 : N = 1
    · simp [h1]
    · rw [if_neg h1]
      simp only [bind_ok, Except.ok.injEq, ne_eq, h1, not_false_eq_true, true_and]
      exact ⟨fun ⟨v, e1, q, e2, e3⟩ => ⟨v, e1, q, e2, e3.symm⟩, fun ⟨v, e1, q, e2, e3⟩ => ⟨v, e1, q, e2, e3.symm⟩⟩
  have fwd : ∀ q m C, process ep argsort round ⟨S, N, R, assets, pandas, prior⟩ a = .ok ⟨S, N, R, assets, pandas, q, m, C⟩ →
      ∃ q', process ep argsort round ⟨T, N, R', assets, pandas, prior'⟩ a = .ok ⟨T, N, R', assets, pandas, q', m, C⟩ ∧ SameLaw q R q' R' := by
    intro q m C h
    obtain ⟨hN, v, hv, q1, h1, h2⟩ := (hproc hp _).1 h
    injection h2 with _ _ _ _ _ e1 e2 e3
    subst e1 e2 e3
    obtain ⟨q0, g1, g2⟩ := (main' v hv q).1 h1
    refine ⟨lift c' (fun t => p0' t / push c p0 (c' t)) q0, (hproc hp' _).2 ⟨hN, v, hv, _, (main v hv _).2 ⟨q0, g1, rfl⟩, ?_⟩, ?_⟩
    · rw [g2, eR, eR', meanOf_lift k2, meanOf_lift k2', npCovW_lift k2, npCovW_lift k2']
    · intro x
      by_cases hx : ∃ k, O k = x
      · obtain ⟨k, rfl⟩ := hx
        rw [← push_prob hO (fun t => (hc t).symm), ← push_prob hO (fun t => (hc' t).symm), g2, push_lift k2, push_lift k2']
      · have n1 : ∀ t, ¬ R t = x := fun t e => hx ⟨c t, by rw [hc, e]⟩
        have n2 : ∀ t, ¬ R' t = x := fun t e => hx ⟨c' t, by rw [hc', e]⟩
        unfold prob
        simp [n1, n2]
  refine ⟨fwd, ?_⟩
  rintro ⟨e, he⟩
  cases h : process ep argsort round ⟨T, N, R', assets, pandas, prior'⟩ a with
  | error e' => exact ⟨e', rfl⟩
  | ok P =>
    exfalso
    obtain ⟨hN, v, hv, q1, h1, -⟩ := (hproc hp' _).1 h
    obtain ⟨q0, g1, -⟩ := (main v hv q1).1 h1
    have := (hproc hp _).2 ⟨hN, v, hv, _, (main' v hv _).2 ⟨q0, g1, rfl⟩, rfl⟩
    rw [he] at this
    cases this

/-- **C205** (copies) Scenarios with the same joint outcome keep their prior odds: with exact entropy pooling and no CVaR views, the ratio of the
posterior to the prior probability is the same for both. -/
theorem C205_copies_partial {ep : (S : ℕ) → Ep S} (hep : ∀ S, EpExact (ep S)) {argsort : (S : ℕ) → (Fin S → ℝ) → Equiv.Perm (Fin S)}
    {round : ℝ → ℤ} {src : Source} {p0 : Fin src.S → ℝ} (hp : priorOf src.prior = .ok p0) {a : ViewArgs}
    (hcv : a.cvar = .none ∨ a.cvar = .dict []) {P : Processor} (h : process ep argsort round src a = .ok P) :
    ∃ q : Fin src.S → ℝ, P.probabilities = List.ofFn (fun s => PyFloat.fin (q s)) ∧
      ∀ s t, src.R s = src.R t → q s / p0 s = q t / p0 t := by
  classical
  obtain ⟨p1, v, q, h1, h2, h3, rfl⟩ := process_ok h
  rw [hp] at h1; injection h1 with h1; subst h1
  refine ⟨q, rfl, ?_⟩
  have hpos := prior_pos hp
  obtain ⟨n, O, hO, hmem⟩ := outcomes_of (Finset.univ.image src.R)
  have hc : ∀ s, ∃ k, O k = src.R s := fun s => (hmem _).1 (by simp)
  choose c hc using hc
  have hsurj : ∀ k, ∃ s, c s = k := by
    intro k
    obtain ⟨s, hs⟩ : ∃ s, src.R s = O k := by simpa using (hmem (O k)).2 ⟨k, rfl⟩
    exact ⟨s, hO (by rw [hc, hs])⟩
  have eR : src.R = fun s => O (c s) := funext fun s => (hc s).symm
  obtain ⟨k1, k2, k3⟩ := shares_of hsurj hpos
  have hcv' : v.cvar = [] := no_cvar hcv h2
  have := computePosterior_split (hep n) (hep src.S) k2 k1 (argsort n) (argsort src.S) round round src.assets O v hcv' a.sequential q
  rw [k3, ← eR] at this
  obtain ⟨q0, -, rfl⟩ := this.1 h3
  intro s t hst
  have hct : c s = c t := hO (by rw [hc, hc, hst])
  have key : ∀ u, lift c (fun t => p0 t / push c p0 (c t)) q0 u / p0 u = q0 (c u) / push c p0 (c u) := by
    intro u
    unfold lift
    rw [mul_div_assoc, div_div, mul_comm (push c p0 (c u)) (p0 u), ← div_div, div_self (hpos u).ne', mul_one_div]
  rw [key, key, hct]

/-! ## A worked case -/

/-- Two scenarios of two assets. -/
noncomputable def twoScen : Fin 2 → Fin 2 → ℝ := ![![0, 1], ![1, 1]]

/-- The same with each scenario listed twice. -/
noncomputable def fourScen : Fin 4 → Fin 2 → ℝ := ![![0, 1], ![0, 1], ![1, 1], ![1, 1]]

theorem four_law : SameLaw (fun _ : Fin 2 => 1 / ((2 : ℕ) : ℝ)) twoScen (fun _ : Fin 4 => 1 / ((4 : ℕ) : ℝ)) fourScen := by
  intro x
  have e0 : fourScen 0 = twoScen 0 := rfl
  have e1 : fourScen 1 = twoScen 0 := rfl
  have e2 : fourScen 2 = twoScen 1 := rfl
  have e3 : fourScen 3 = twoScen 1 := rfl
  unfold prob
  rw [Fin.sum_univ_two, Fin.sum_univ_four]
  simp only [e0, e1, e2, e3]
  split <;> split <;> norm_num

/-- A mean view on two scenarios: the posterior is forced. -/
private theorem two_view {ep : (S : ℕ) → Ep S} (hep : ∀ S, EpExact (ep S)) (argsort : (S : ℕ) → (Fin S → ℝ) → Equiv.Perm (Fin S)) (round : ℝ → ℤ) :
    process ep argsort round ⟨2, 2, twoScen, cexAssets, true, none⟩ { mean := .dict [(.single (.str "a"), .scalar (.fin (3 / 4)))] } =
      .ok ⟨2, 2, twoScen, cexAssets, true, ![1 / 4, 3 / 4], meanOf twoScen ![1 / 4, 3 / 4], npCovW twoScen ![1 / 4, 3 / 4]⟩ := by
  unfold process
  rw [bind_ok]
  refine ⟨fun _ => 1 / ((2 : ℕ) : ℝ), rfl, ?_⟩
  rw [if_neg (by norm_num)]
  simp only [bind_ok]
  refine ⟨⟨[(.single (.str "a"), .scalar (.fin (3 / 4)))], [], [], [], [], [], []⟩, rfl, ![1 / 4, 3 / 4], ?_, rfl⟩
  unfold computePosterior
  simp only
  rw [if_neg (by simp)]
  simp only [bind_ok]
  refine ⟨![1 / 4, 3 / 4], ?_, ![1 / 4, 3 / 4], rfl, rfl⟩
  unfold momentPass
  rw [if_neg (by decide)]
  unfold simultaneousPass
  simp only [bind_ok]
  refine ⟨_, rfl, ⟨[(fun s => twoScen s 0, 3 / 4)], []⟩, rfl, _, rfl, _, rfl, _, rfl, _, rfl, ?_⟩
  show doEp (ep 2) _ ⟨[(fun s => twoScen s 0, 3 / 4)], []⟩ = _
  unfold doEp
  rw [hep 2]
  have hrows : ∀ q : Fin 2 → ℝ, MeetsRows (⟨[(fun s => twoScen s 0, 3 / 4)] ++ [(fun _ => 1, 1)], []⟩ : Rows 2) q ↔ q = ![1 / 4, 3 / 4] := by
    intro q
    constructor
    · rintro ⟨h, -⟩
      have h1 := h _ (List.mem_cons_self)
      have h2 := h _ (List.mem_cons_of_mem _ List.mem_cons_self)
      simp [Fin.sum_univ_two, twoScen] at h1 h2
      funext s
      fin_cases s
      · simp; linarith
      · simp; linarith
    · rintro rfl
      refine ⟨?_, by simp⟩
      intro r hr
      simp only [List.cons_append, List.nil_append, List.mem_cons, List.not_mem_nil, or_false] at hr
      rcases hr with rfl | rfl <;> simp [Fin.sum_univ_two, twoScen] <;> norm_num
  refine ⟨fun s => by fin_cases s <;> norm_num, ⟨fun s => by fin_cases s <;> norm_num, by simp [Fin.sum_univ_two]; norm_num⟩, (hrows _).2 rfl, ?_⟩
  intro q _ hm
  rw [(hrows q).1 hm]
  exact ⟨le_rfl, fun _ => rfl⟩

/-- Listing every scenario twice leaves the posterior distribution alone: each copy gets half. -/
example (argsort : (S : ℕ) → (Fin S → ℝ) → Equiv.Perm (Fin S)) (round : ℝ → ℤ) :
    ∃ q', process (fun _ => optimalEp) argsort round ⟨4, 2, fourScen, cexAssets, true, none⟩
        { mean := .dict [(.single (.str "a"), .scalar (.fin (3 / 4)))] } =
      .ok ⟨4, 2, fourScen, cexAssets, true, q', meanOf twoScen ![1 / 4, 3 / 4], npCovW twoScen ![1 / 4, 3 / 4]⟩ ∧
      SameLaw ![1 / 4, 3 / 4] twoScen q' fourScen :=
  (C205_same_law_partial (fun _ => optimalEp_exact) rfl rfl four_law (.inl rfl)).1 _ _ _ (two_view (fun _ => optimalEp_exact) argsort round)

/-! ## CVaR views -/

/-- The three rows of a CVaR view, read in sorted order. -/
private theorem cvarRows_sorted {n : ℕ} {x : Fin n → ℝ} {σ : Equiv.Perm (Fin n)} {γ t : ℝ} {s : ℤ} {q : Fin n → ℝ} :
    MeetsRows (cvarRows x σ γ t s) q ↔ (∑ k : Fin n, if ((k : ℕ) : ℤ) < s + 1 then q (σ k) else 0) = γ ∧
      (∑ k : Fin n, if ((k : ℕ) : ℤ) < s + 1 then x (σ k) * q (σ k) else 0) = γ * t ∧ ∑ k, q k = 1 := by
  have a1 : ∑ i, (if ((σ.symm i : ℕ) : ℤ) < s + 1 then (1 : ℝ) else 0) * q i = ∑ k : Fin n, if ((k : ℕ) : ℤ) < s + 1 then q (σ k) else 0 := by
    rw [← Equiv.sum_comp σ]
    simp
  have a2 : ∑ i, (if ((σ.symm i : ℕ) : ℤ) < s + 1 then x i else 0) * q i = ∑ k : Fin n, if ((k : ℕ) : ℤ) < s + 1 then x (σ k) * q (σ k) else 0 := by
    rw [← Equiv.sum_comp σ]
    simp
  have a3 : ∑ i, (1 : ℝ) * q i = ∑ k, q k := by simp
  constructor
  · rintro ⟨h, -⟩
    have b1 := h _ (List.mem_cons_self)
    have b2 := h _ (List.mem_cons_of_mem _ List.mem_cons_self)
    have b3 := h _ (List.mem_cons_of_mem _ (List.mem_cons_of_mem _ List.mem_cons_self))
    exact ⟨a1.symm.trans b1, a2.symm.trans b2, a3.symm.trans b3⟩
  · rintro ⟨b1, b2, b3⟩
    refine ⟨?_, by simp [cvarRows]⟩
    intro r hr
    simp only [cvarRows, List.mem_cons, List.not_mem_nil, or_false] at hr
    rcases hr with rfl | rfl | rfl
    exacts [a1.trans b1, a2.trans b2, a3.trans b3]

private theorem only_cvar {ep : (S : ℕ) → Ep S} {argsort : (S : ℕ) → (Fin S → ℝ) → Equiv.Perm (Fin S)} {round : ℝ → ℤ} {n : ℕ} (R : Fin n → Fin 2 → ℝ)
    (x : ℝ × ℝ) : process ep argsort round ⟨n, 2, R, cexAssets, true, none⟩ { cvar := .dict [(.str "a", x)] } =
      (solveCvarView (ep n) (argsort n) round (fun s => R s 0) x.2 x.1 (fun _ => 1 / (n : ℝ))).map
        (fun q => ⟨n, 2, R, cexAssets, true, q, meanOf R q, npCovW R q⟩) := by
  have e : computePosterior (ep n) (argsort n) round (fun _ => 1 / (n : ℝ)) cexAssets R ⟨[], [], [], [], [], [], [(.str "a", x)]⟩ false =
      solveCvarView (ep n) (argsort n) round (fun s => R s 0) x.2 x.1 (fun _ => 1 / (n : ℝ)) := by
    have : computePosterior (ep n) (argsort n) round (fun _ => 1 / (n : ℝ)) cexAssets R ⟨[], [], [], [], [], [], [(.str "a", x)]⟩ false =
        (solveCvarView (ep n) (argsort n) round (fun s => R s 0) x.2 x.1 (fun _ => 1 / (n : ℝ))).bind Except.ok := rfl
    rw [this]
    cases solveCvarView (ep n) (argsort n) round (fun s => R s 0) x.2 x.1 (fun _ => 1 / (n : ℝ)) <;> rfl
  have e2 : process ep argsort round ⟨n, 2, R, cexAssets, true, none⟩ { cvar := .dict [(.str "a", x)] } =
      (computePosterior (ep n) (argsort n) round (fun _ => 1 / (n : ℝ)) cexAssets R ⟨[], [], [], [], [], [], [(.str "a", x)]⟩ false).bind
        (fun q => .ok ⟨n, 2, R, cexAssets, true, q, meanOf R q, npCovW R q⟩) := rfl
  rw [e2, e]
  cases solveCvarView (ep n) (argsort n) round (fun s => R s 0) x.2 x.1 (fun _ => 1 / (n : ℝ)) <;> rfl

/-- **C205** fails for CVaR views: the tail is cut between scenarios, so it matters how outcomes are divided into scenarios.  For an asset
returning 0 or 1 with equal probability, "the 50% CVaR is 0" holds under the prior; with two scenarios the call raises, with each scenario listed
twice it returns the prior. -/
theorem C205_counterexample {ep : (S : ℕ) → Ep S} (hep : ∀ S, EpExact (ep S)) {argsort : (S : ℕ) → (Fin S → ℝ) → Equiv.Perm (Fin S)}
    (hs : ∀ S, Risk.IsArgsort (argsort S)) (round : ℝ → ℤ) :
    SameLaw (fun _ : Fin 2 => 1 / ((2 : ℕ) : ℝ)) twoScen (fun _ : Fin 4 => 1 / ((4 : ℕ) : ℝ)) fourScen ∧
    process ep argsort round ⟨2, 2, twoScen, cexAssets, true, none⟩ { cvar := .dict [(.str "a", (0, 1 / 2))] } = .error .runtimeError ∧
    ∃ P, process ep argsort round ⟨4, 2, fourScen, cexAssets, true, none⟩ { cvar := .dict [(.str "a", (0, 1 / 2))] } = .ok P ∧
      P.probabilities = List.ofFn (fun _ : Fin 4 => PyFloat.fin ((1 : ℝ) / 4)) := by
  refine ⟨four_law, ?_, ?_⟩
  · rw [only_cvar]
    have hcut : initialCut (fun _ : Fin 2 => 1 / ((2 : ℕ) : ℝ)) (argsort 2 (fun s => twoScen s 0)) (1 / 2) = 1 := by
      unfold initialCut
      simp only
      generalize (match (List.finRange 2).find? _ with | some k => (k : ℕ) | none => 2 : ℕ) = k
      omega
    have hno : ∀ s : ℤ, 1 ≤ s → solveForS (ep 2) (fun _ => 1 / ((2 : ℕ) : ℝ)) (fun s => twoScen s 0) (argsort 2 (fun s => twoScen s 0)) (1 / 2) 0 s = none := by
      intro s h1
      unfold solveForS
      cases h : ep 2 (fun _ => 1 / ((2 : ℕ) : ℝ)) (cvarRows (fun s => twoScen s 0) (argsort 2 (fun s => twoScen s 0)) (1 / 2) 0 s) with
      | error e => rfl
      | ok q =>
        exfalso
        obtain ⟨-, -, h3, -⟩ := (hep 2 _ _ _).1 h
        obtain ⟨b1, -, b3⟩ := cvarRows_sorted.1 h3
        rw [← Equiv.sum_comp (argsort 2 (fun s => twoScen s 0)), Fin.sum_univ_two] at b3
        rw [Fin.sum_univ_two, if_pos (by simp; omega), if_pos (by simp; omega)] at b1
        linarith
    have hloop : newtonLoop (solveForS (ep 2) (fun _ => 1 / ((2 : ℕ) : ℝ)) (fun s => twoScen s 0) (argsort 2 (fun s => twoScen s 0)) (1 / 2) 0)
        round 20 1 none = none := by
      have hstep : ∀ lo hi, newtonStep round 2 lo none hi 1 = none := by intro lo hi; cases lo <;> rfl
      unfold newtonLoop
      rw [hno 1 le_rfl]
      simp only [Option.map_none, hstep]
    unfold solveCvarView
    simp only [hcut, hno 1 le_rfl, hloop]
    rfl
  · rw [only_cvar]
    set σ := argsort 4 (fun s => fourScen s 0) with hσ
    have hmono : Monotone ((fun s => fourScen s 0) ∘ σ) := hs 4 _
    have hval : ∀ k, fourScen (σ k) 0 = 0 ∨ fourScen (σ k) 0 = 1 := by
      intro k
      generalize σ k = j
      fin_cases j <;> simp [fourScen]
    have hsum : fourScen (σ 0) 0 + fourScen (σ 1) 0 + fourScen (σ 2) 0 + fourScen (σ 3) 0 = 2 := by
      rw [← Fin.sum_univ_four (fun k => fourScen (σ k) 0), Equiv.sum_comp σ (fun s => fourScen s 0), Fin.sum_univ_four]
      simp [fourScen]; norm_num
    have m01 : fourScen (σ 0) 0 ≤ fourScen (σ 1) 0 := hmono (by decide)
    have m12 : fourScen (σ 1) 0 ≤ fourScen (σ 2) 0 := hmono (by decide)
    have m23 : fourScen (σ 2) 0 ≤ fourScen (σ 3) 0 := hmono (by decide)
    have v0 : fourScen (σ 0) 0 = 0 ∧ fourScen (σ 1) 0 = 0 ∧ fourScen (σ 2) 0 = 1 := by
      rcases hval 0 with a | a <;> rcases hval 1 with b | b <;> rcases hval 2 with d | d <;> rcases hval 3 with e | e <;>
        rw [a, b, d, e] at hsum <;> rw [a, b] at m01 <;> rw [b, d] at m12 <;> rw [d, e] at m23 <;> first | exact ⟨a, b, d⟩ | (exfalso; linarith)
    obtain ⟨v0, v1, v2⟩ := v0
    set u : Fin 4 → ℝ := fun _ => 1 / ((4 : ℕ) : ℝ) with hu
    have hup : IsProb u := ⟨fun _ => by simp [hu], by simp [hu]⟩
    have hcut : initialCut u σ (1 / 2) = 1 := by
      have hf : (List.finRange 4).find? (fun k => decide ((1 / 2 : ℝ) ≤ ∑ j, if j ≤ k then u (σ j) else 0)) = some 1 := by
        have a0 : ¬ (1 / 2 : ℝ) ≤ ∑ j : Fin 4, if j ≤ 0 then u (σ j) else 0 := by
          rw [Fin.sum_univ_four]; simp [hu]; norm_num
        have a1 : (1 / 2 : ℝ) ≤ ∑ j : Fin 4, if j ≤ 1 then u (σ j) else 0 := by
          rw [Fin.sum_univ_four, if_pos (by decide), if_pos (by decide), if_neg (by decide), if_neg (by decide)]; simp [hu]; norm_num
        have e : List.finRange 4 = [0, 1, 2, 3] := by decide
        rw [e, List.find?_cons_of_neg (by simpa using a0), List.find?_cons_of_pos (by simpa using a1)]
      unfold initialCut
      rw [hf]
      norm_num
    have hs1 : solveForS (ep 4) u (fun s => fourScen s 0) σ (1 / 2) 0 1 = some (u, klMasked u u) := by
      have : ep 4 u (cvarRows (fun s => fourScen s 0) σ (1 / 2) 0 1) = .ok u := by
        rw [hep 4]
        refine klPosterior_self (fun _ => by simp [hu]) hup.sum (cvarRows_sorted.2 ⟨?_, ?_, hup.sum⟩) (by simp [cvarRows])
        · rw [Fin.sum_univ_four, if_pos (by simp), if_pos (by simp), if_neg (by simp), if_neg (by simp)]; simp [hu]; norm_num
        · rw [Fin.sum_univ_four, if_pos (by simp), if_pos (by simp), if_neg (by simp), if_neg (by simp), v0, v1]; simp
      unfold solveForS
      rw [this]
    have hs2 : solveForS (ep 4) u (fun s => fourScen s 0) σ (1 / 2) 0 2 = none := by
      unfold solveForS
      cases h : ep 4 u (cvarRows (fun s => fourScen s 0) σ (1 / 2) 0 2) with
      | error e => rfl
      | ok q =>
        exfalso
        obtain ⟨h1, -, h3, -⟩ := (hep 4 _ _ _).1 h
        obtain ⟨-, b2, -⟩ := cvarRows_sorted.1 h3
        rw [Fin.sum_univ_four, if_pos (by simp), if_pos (by simp), if_pos (by simp), if_neg (by simp), v0, v1, v2] at b2
        have := h1 (σ 2)
        linarith
    have hloop : newtonLoop (solveForS (ep 4) u (fun s => fourScen s 0) σ (1 / 2) 0) round 20 1 (some (u, klMasked u u)) = some (u, klMasked u u) := by
      unfold newtonLoop
      have e1 : (max 1 ((1 : ℤ) - 1)) = 1 := by norm_num
      have e2 : (min (((4 : ℕ) : ℤ) - 2) (1 + 1)) = 2 := by norm_num
      rw [e1, e2, hs1, hs2]
      rfl
    have hsol : solveCvarView (ep 4) (argsort 4) round (fun s => fourScen s 0) (1 / 2) 0 u = .ok u := by
      unfold solveCvarView
      simp only [← hσ, hcut, hs1, hloop]
    refine ⟨_, by rw [hsol]; rfl, ?_⟩
    show List.ofFn (fun s => PyFloat.fin (u s)) = _
    simp [hu]

end PyV.Props
