import Verif.Props.ViewsPipeline

/-! # Properties C25 (examples, distortion), C26–C29: constructor, ranking, CVaR views -/

namespace PyV.Props

open PyV PyV.FV PyV.Spec

variable {S N : ℕ}

/-! ## C25: extent of the failure for correlation views, and non-vacuity of the partial theorems -/

/-- **C25** (how far a simultaneous correlation view is missed) If the posterior's means equal the linearisation means,
an equality correlation view `t` leads to the correlation `t · σᵢ σⱼ / (σᵢ' σⱼ')`, where `σ` is the linearisation
volatility (of the mean-only posterior) and `σ'` the posterior's: any volatility view on the pair distorts it. -/
theorem C25_corr_distortion {assets : Fin N → Label} {R : Fin S → Fin N → ℝ} {a b : Label} {t : ℝ} {r : Rows S}
    {q : Fin S → ℝ} {mu var : Fin N → ℝ} (hq : IsProb q)
    (h : buildCorr assets R mu var [((a, b), .scalar (.fin t))] = .ok r) (hr : MeetsRows r q)
    (hmu : ∀ i, (Names assets a i ∨ Names assets b i) → meanAt q R i = mu i) :
    ∃ i j, Names assets a i ∧ Names assets b j ∧ corrAt q R i j =
      t * (Real.sqrt (var i) * Real.sqrt (var j)) / (Real.sqrt (varAt q R i) * Real.sqrt (varAt q R j)) := by
  unfold buildCorr at h
  rw [bind_ok] at h
  obtain ⟨l, hl, h⟩ := h
  rw [mapE_ok] at hl
  injection h with h; subst h
  cases hl with
  | cons h1 h2 =>
    cases h2
    simp only [bind_ok] at h1
    obtain ⟨i, hi, j, hj, h1⟩ := h1
    have hi' := assetIdx_ok hi
    have hj' := assetIdx_ok hj
    refine ⟨i, j, hi', hj', ?_⟩
    have hm := (meets_concat.mp hr) _ (List.mem_cons_self)
    have e : ∑ s, R s i * R s j * q s = t * Real.sqrt (var i) * Real.sqrt (var j) + mu i * mu j := by
      unfold viewRows at h1
      simp only [parseViewSpecs, parseView, PyFloat.isFinite, if_true, bind, Except.bind, mapE] at h1
      split at h1
      · cases h1
      · rename_i x hx
        split at hx
        · cases hx
        · rename_i y hy
          split at hy
          · cases hy
          · rename_i z hz
            split at hz
            · cases hz
            · injection hz with hz; subst hz
              injection hy with hy; subst hy
              injection hx with hx; subst hx
              injection h1 with h1; subst h1
              exact hm.1 (_, _) (by simp [Rows.concat, Rows.append, addRow, Rows.empty])
    rw [cross_moment hq.sum, hmu i (Or.inl hi'), hmu j (Or.inr hj')] at e
    unfold corrAt
    rw [hmu i (Or.inl hi'), hmu j (Or.inr hj')]
    congr 1
    linarith

theorem klPosterior_more_rows {p q : Fin S → ℝ} {r r' : Rows S} (h : IsKlPosterior p r q) (hm : MeetsRows r' q)
    (hsub : ∀ q', MeetsRows r' q' → MeetsRows r q') : IsKlPosterior p r' q :=
  ⟨h.1, h.2.1, hm, fun q' h1 h2 => h.2.2.2 q' h1 (hsub q' h2)⟩

noncomputable def okViews : Views :=
  { mean := [(.single (.str "a"), .scalar (.fin (3/7)))], vol := [],
    var := [(.str "a", .spec .le (.fin (26/49)))], skew := [], corr := [], quantile := [], cvar := [] }

/-- Non-vacuity of `C25_simultaneous_partial`: mean and variance views, returned posterior (1,2,4)/7. -/
example (argsort : (Fin 3 → ℝ) → Equiv.Perm (Fin 3)) (round : ℝ → ℤ) :
    EpSound (optimalEp (S := 3)) ∧
    computePosterior optimalEp argsort round (fun _ => 1/3) cexAssets cexR okViews false = .ok cexQ1 ∧
    (∀ kv ∈ okViews.vol ++ okViews.var, ∃ t, (MKey.single kv.1, ViewVal.scalar (.fin t)) ∈ okViews.mean) := by
  refine ⟨optimalEp_sound, ?_, ?_⟩
  · have b1 : buildMean cexAssets cexR okViews.mean = .ok ⟨[(fun s => cexR s 0, 3/7)], []⟩ := by
      simp [buildMean, okViews, mapE, meanRow, cex_idx, viewRows, parseViewSpecs, parseView, PyFloat.isFinite, bind,
        Except.bind, addRow, Rows.concat, Rows.append, Rows.empty]
    have hq1 : meanOf cexR cexQ1 = ![3/7, 0] := by
      funext i; fin_cases i <;> simp [meanOf, Fin.sum_univ_three, cexR, cexQ1]; norm_num
    have b3 : buildVar cexAssets cexR ![3/7, 0] okViews.var =
        .ok ⟨[], [(fun s => cexR s 0 ^ 2, 26/49 + (3/7)^2)]⟩ := by
      have : ¬ ((26:ℝ)/49 < 0) := by norm_num
      simp [buildVar, okViews, mapE, cex_idx, viewRows, parseViewSpecs, parseView, PyFloat.isFinite, bind,
        Except.bind, addRow, Rows.concat, Rows.append, Rows.empty, this]
    have d1 : doEp optimalEp (fun _ => 1/3) ⟨[(fun s => cexR s 0, 3/7)], []⟩ = .ok cexQ1 := optimalEp_eq cex_step1
    have hl : linPoint optimalEp (fun _ => 1/3) cexAssets cexR okViews (meanOf cexR (fun _ => 1/3))
        (npVarW cexR (fun _ => 1/3)) =
        .ok (![3/7, 0], varOf cexR ![3/7, 0] cexQ1) := by
      unfold linPoint
      rw [if_pos (by simp [okViews]), b1]
      simp only [bind, Except.bind, d1, hq1]
    have d2 : doEp optimalEp (fun _ => 1/3) ⟨[(fun s => cexR s 0, 3/7)], [(fun s => cexR s 0 ^ 2, 26/49 + (3/7)^2)]⟩ =
        .ok cexQ1 := by
      apply optimalEp_eq
      refine klPosterior_more_rows cex_step1 ⟨cex_step1.2.2.1.1, ?_⟩ (fun q' hq' => ⟨hq'.1, by simp⟩)
      intro p hp
      simp only [List.mem_cons, List.not_mem_nil, or_false] at hp
      subst hp
      simp [Fin.sum_univ_three, cexR, cexQ1]; norm_num
    unfold computePosterior
    rw [if_neg (by simp [okViews])]
    have s1 : momentPass optimalEp (fun _ => 1/3) cexAssets cexR okViews false (meanOf cexR (fun _ => 1/3))
        (npVarW cexR (fun _ => 1/3)) = .ok cexQ1 := by
      unfold momentPass simultaneousPass
      simp only [Bool.false_eq_true, if_false]
      rw [hl, b1]
      simp only [bind, Except.bind, b3]
      simpa [buildVol, buildSkew, buildCorr, okViews, mapE, bind, Except.bind, Rows.concat, Rows.append,
        Rows.empty] using d2
    simp only [s1, bind, Except.bind]
    simp [okViews, quantilePass, cvarPass]
  · intro kv hkv
    simp only [okViews, List.nil_append, List.mem_cons, List.not_mem_nil, or_false] at hkv
    subst hkv
    exact ⟨3/7, by simp [okViews]⟩

/-! ## C26 -/

/-- No views of any kind. -/
def noViews : Views := ⟨[], [], [], [], [], [], []⟩

/-- **C26** With no views (and at least two columns) the constructor succeeds for every valid prior and the posterior is
the prior: uniform if none was given, and literally the caller's vector if that sums to one. -/
theorem C26_no_views_prior (ep : Ep S) (argsort : (Fin S → ℝ) → Equiv.Perm (Fin S)) (round : ℝ → ℤ)
    (assets : Fin N → Label) (R : Fin S → Fin N → ℝ) (hN : N ≠ 1) (sequential : Bool) :
    (∃ b, construct ep argsort round assets R none .none noViews none sequential = .ok b ∧
      b.posterior = fun _ => 1 / (S : ℝ)) ∧
    (∀ p : Fin S → ℝ, (∀ s, 0 < p s) → IsProb p →
      ∃ b, construct ep argsort round assets R (some (fun s => .fin (p s))) .none noViews none sequential = .ok b ∧
        b.posterior = p ∧ b.posteriorMean = fun i => meanAt p R i) := by
  have hc : ∀ p : Fin S → ℝ, computePosterior ep argsort round p assets R noViews sequential = .ok p := by
    intro p; unfold computePosterior; simp [noViews]
  have hv : ({ noViews with mean := meanArgToDict assets (.none : MeanArg N) } : Views) = noViews := rfl
  constructor
  · refine ⟨⟨fun _ => 1 / (S : ℝ), meanOf R (fun _ => 1 / (S : ℝ)), none⟩, ?_, rfl⟩
    unfold construct
    simp only [hN, if_false, bind, Except.bind, priorOf, rankedDict, hv, hc]; rfl
  · intro p hpos hp
    have hn : EP.normalizeVec (fun s => PyFloat.fin (p s)) true = .ok p := by
      have hS : 0 < S := by
        rcases Nat.eq_zero_or_pos S with rfl | h
        · have := hp.sum; simp at this
        · exact h
      have hlist : (List.ofFn (fun s => PyFloat.fin (p s))).map PyFloat.val = List.ofFn p := by
        rw [List.map_ofFn]; rfl
      unfold EP.normalizeVec
      have hacc : Probs.Acceptable (List.ofFn (fun s => PyFloat.fin (p s))) true := by
        refine ⟨?_, ?_, ?_, ?_⟩
        · intro hc; have := congrArg List.length hc; simp at this; omega
        · intro x hx; obtain ⟨s, rfl⟩ := List.mem_ofFn.mp hx; exact ⟨_, rfl⟩
        · intro w hw
          obtain ⟨s, hs⟩ := List.mem_ofFn.mp hw
          injection hs with hs; subst hs
          exact ⟨fun _ => hpos s, (hpos s).le⟩
        · rw [hlist, List.sum_ofFn, hp.sum]; exact one_pos
      rw [Probs.normalize_ok_iff.mpr ⟨hacc, rfl⟩]
      simp only [hlist, List.sum_ofFn, hp.sum]
      congr 1
      funext s
      split
      · simp
      · simp
    refine ⟨⟨p, meanOf R p, none⟩, ?_, rfl, ?_⟩
    · unfold construct
      simp only [hn, hN, if_false, bind, Except.bind, priorOf, rankedDict, hv, hc]; rfl
    · funext i; exact meanOf_eq R p i

/-- **C26** (finding) With a single column the constructor always raises `ValueError`, whatever the prior and the views. -/
theorem C26_single_column_fails (ep : Ep S) (argsort : (Fin S → ℝ) → Equiv.Perm (Fin S)) (round : ℝ → ℤ)
    (assets : Fin 1 → Label) (R : Fin S → Fin 1 → ℝ) (prior : Option (Fin S → PyFloat ℝ)) (meanArg : MeanArg 1)
    (rest : Views) (rank : Option (List Label)) (sequential : Bool) :
    construct ep argsort round assets R prior meanArg rest rank sequential = .error .valueError := by
  unfold construct
  cases prior with
  | none => simp [priorOf, bind, Except.bind]
  | some p =>
    cases hn : EP.normalizeVec p true with
    | error e =>
      have he : e = .valueError := by
        unfold EP.normalizeVec Probs.normalize at hn
        dsimp only at hn
        split_ifs at hn <;> first | (injection hn with hn; exact hn.symm) | cases hn
      simp [priorOf, hn, bind, Except.bind, he]
    | ok q => simp [priorOf, hn, bind, Except.bind]

/-! ## C27 -/

theorem construct_ok {ep : Ep S} {argsort : (Fin S → ℝ) → Equiv.Perm (Fin S)} {round : ℝ → ℤ}
    {assets : Fin N → Label} {R : Fin S → Fin N → ℝ} {prior : Option (Fin S → PyFloat ℝ)} {meanArg : MeanArg N}
    {rest : Views} {rank : Option (List Label)} {sequential : Bool} {b : Built S N}
    (h : construct ep argsort round assets R prior meanArg rest rank sequential = .ok b) :
    ∃ p0 d', priorOf prior = .ok p0 ∧ N ≠ 1 ∧ rankedDict (meanArgToDict assets meanArg) rank = .ok d' ∧
      computePosterior ep argsort round p0 assets R { rest with mean := d' } sequential = .ok b.posterior ∧
      b.posteriorMean = meanOf R b.posterior ∧ b.callerDict = callerView meanArg d' := by
  unfold construct at h
  rw [bind_ok] at h
  obtain ⟨p0, hp0, h⟩ := h
  split at h
  · cases h
  · rename_i hN
    simp only [bind_ok] at h
    obtain ⟨d', hd, q, hq, h⟩ := h
    injection h with h; subst h
    exact ⟨p0, d', hp0, hN, hd, hq, rfl, rfl⟩

theorem rankedDict_some {d d' : List (MKey × ViewVal)} {l : List Label} (h : rankedDict d (some l) = .ok d') :
    2 ≤ l.length ∧ d' = expandRank d l := by
  unfold rankedDict at h
  simp only at h
  split at h
  · cases h
  · rename_i hl
    injection h with h
    exact ⟨not_lt.mp hl, h.symm⟩

theorem rankedDict_none {d d' : List (MKey × ViewVal)} (h : rankedDict d none = .ok d') : d' = d := by
  unfold rankedDict at h
  injection h with h; exact h.symm

theorem expandRank_prefix (d : List (MKey × ViewVal)) (l : List Label) : d <+: expandRank d l := by
  induction l generalizing d with
  | nil => exact List.prefix_rfl
  | cons a l ih =>
    cases l with
    | nil => exact List.prefix_rfl
    | cons b l =>
      unfold expandRank
      refine List.IsPrefix.trans ?_ (ih _)
      split
      · exact List.prefix_rfl
      · exact List.prefix_append _ _

/-- Every consecutive pair of a ranking. -/
def ConsecPair (l : List Label) (a b : Label) : Prop := ∃ pre post, l = pre ++ a :: b :: post

theorem consecPair_cons {a b x : Label} {l : List Label} (h : ConsecPair l a b) : ConsecPair (x :: l) a b := by
  obtain ⟨pre, post, rfl⟩ := h
  exact ⟨x :: pre, post, rfl⟩

theorem expandRank_mem_of_pair {d : List (MKey × ViewVal)} {l : List Label} {a b : Label} (h : ConsecPair l a b) :
    ∃ v, (MKey.pair a b, v) ∈ expandRank d l := by
  obtain ⟨pre, post, rfl⟩ := h
  induction pre generalizing d with
  | nil =>
    simp only [List.nil_append]
    unfold expandRank
    split
    · rename_i hany
      rw [List.any_eq_true] at hany
      obtain ⟨kv, hkv, he⟩ := hany
      have : kv.1 = MKey.pair a b := by simpa using he
      refine ⟨kv.2, (expandRank_prefix d (b :: post)).subset ?_⟩
      rw [← this]; exact hkv
    · exact ⟨_, (expandRank_prefix _ (b :: post)).subset (List.mem_append_right _ (List.mem_cons_self))⟩
  | cons x pre ih =>
    cases pre with
    | nil =>
      simp only [List.cons_append, List.nil_append]
      unfold expandRank
      exact ih
    | cons y pre =>
      simp only [List.cons_append]
      unfold expandRank
      exact ih

/-- Entries of the expanded dictionary are either the caller's or `(pair, ≥ 0)`. -/
theorem expandRank_entry {d : List (MKey × ViewVal)} {l : List Label} {kv : MKey × ViewVal}
    (h : kv ∈ expandRank d l) : kv ∈ d ∨ (kv.2 = .spec .ge (.fin 0) ∧ ∃ a b, kv.1 = .pair a b ∧ ConsecPair l a b) := by
  induction l generalizing d with
  | nil => exact Or.inl h
  | cons a l ih =>
    cases l with
    | nil => exact Or.inl h
    | cons b l =>
      unfold expandRank at h
      rcases ih h with h | ⟨h1, x, y, h2, h3⟩
      · split at h
        · exact Or.inl h
        · rw [List.mem_append] at h
          rcases h with h | h
          · exact Or.inl h
          · simp only [List.mem_cons, List.not_mem_nil, or_false] at h
            subst h
            exact Or.inr ⟨rfl, a, b, rfl, [], l, rfl⟩
      · exact Or.inr ⟨h1, x, y, h2, consecPair_cons h3⟩

theorem expandRank_noop {d : List (MKey × ViewVal)} {l : List Label}
    (h : ∀ a b, ConsecPair l a b → ∃ v, (MKey.pair a b, v) ∈ d) : expandRank d l = d := by
  induction l with
  | nil => rfl
  | cons a l ih =>
    cases l with
    | nil => rfl
    | cons b l =>
      unfold expandRank
      obtain ⟨v, hv⟩ := h a b ⟨[], l, rfl⟩
      rw [if_pos (by rw [List.any_eq_true]; exact ⟨_, hv, by simp⟩)]
      exact ih (fun x y hxy => h x y (consecPair_cons hxy))

/-- **C27** is false of the code: reusing one dictionary, the first construction with `rank_mean` adds entries to it. -/
theorem C27_counterexample (ep : Ep S) (argsort : (Fin S → ℝ) → Equiv.Perm (Fin S)) (round : ℝ → ℤ)
    (assets : Fin N → Label) (R : Fin S → Fin N → ℝ) (prior : Option (Fin S → PyFloat ℝ)) (rest : Views)
    (sequential : Bool) (a b : Label) (built : Built S N)
    (h : construct ep argsort round assets R prior (.dict []) rest (some [a, b]) sequential = .ok built) :
    built.callerDict = some [(.pair a b, .spec .ge (.fin 0))] := by
  obtain ⟨p0, d', -, -, hd, -, -, hcd⟩ := construct_ok h
  rw [hcd, (rankedDict_some hd).2]
  simp [meanArgToDict, expandRank, callerView]

/-- **C27** (the part that holds) The caller's dictionary is returned unchanged when there is no `rank_mean`, or when
it already has a view on every consecutive pair; in all cases its own entries keep their values and order. -/
theorem C27_unchanged_partial {ep : Ep S} {argsort : (Fin S → ℝ) → Equiv.Perm (Fin S)} {round : ℝ → ℤ}
    {assets : Fin N → Label} {R : Fin S → Fin N → ℝ} {prior : Option (Fin S → PyFloat ℝ)}
    {d : List (MKey × ViewVal)} {rest : Views} {rank : Option (List Label)} {sequential : Bool} {b : Built S N}
    (h : construct ep argsort round assets R prior (.dict d) rest rank sequential = .ok b) :
    ∃ d', b.callerDict = some d' ∧ d <+: d' ∧
      (rank = none → d' = d) ∧
      (∀ l, rank = some l → (∀ x y, ConsecPair l x y → ∃ v, (MKey.pair x y, v) ∈ d) → d' = d) := by
  obtain ⟨p0, d', -, -, hd, -, -, hcd⟩ := construct_ok h
  refine ⟨d', hcd, ?_, ?_, ?_⟩
  · cases rank with
    | none => rw [rankedDict_none hd]; exact List.prefix_rfl
    | some l => rw [(rankedDict_some hd).2]; exact expandRank_prefix _ _
  · rintro rfl; exact rankedDict_none hd
  · rintro l rfl hall; rw [(rankedDict_some hd).2]; exact expandRank_noop hall

/-! ## C28 -/

/-- **C28** With `rank_mean = l`, no explicit view on its consecutive pairs, simultaneous mode and no quantile or CVaR
views, the posterior mean is non-increasing along the whole ranking, of any length. -/
theorem C28_ranking {ep : Ep S} (hep : EpSound ep) {argsort : (Fin S → ℝ) → Equiv.Perm (Fin S)} {round : ℝ → ℤ}
    {assets : Fin N → Label} (ha : Function.Injective assets) {R : Fin S → Fin N → ℝ}
    {p : Fin S → ℝ} (hp : ∀ s, 0 < p s) (hp1 : IsProb p)
    {meanArg : MeanArg N} {rest : Views} (hq0 : rest.quantile = []) (hc0 : rest.cvar = []) {l : List Label}
    {b : Built S N}
    (hno : ∀ x y, ConsecPair l x y → ∀ v, (MKey.pair x y, v) ∉ meanArgToDict assets meanArg)
    (h : construct ep argsort round assets R (some (fun s => .fin (p s))) meanArg rest (some l) false = .ok b) :
    ∀ m n (hm : m < n) (hn : n < l.length) (i j : Fin N), Names assets (l[m]'(hm.trans hn)) i → Names assets l[n] j →
      meanAt b.posterior R j ≤ meanAt b.posterior R i := by
  obtain ⟨p0, d', hp0, -, hd, hpost, -, -⟩ := construct_ok h
  have hd := (rankedDict_some hd).2
  have hp0' : IsProb p0 := by
    obtain ⟨v, hv, -, -, -, hvp⟩ := EP.normalizeVec_ok hp0
    have : v = p := by funext s; have := hv s; injection this with this; exact this.symm
    subst this
    rcases hvp with rfl | rfl
    · exact hp1
    · simpa [hp1.sum] using hp1
  obtain ⟨-, hmean, -⟩ := C25_simultaneous_partial hep argsort round hp0' ha (v := { rest with mean := d' }) hq0 hc0 hpost
  have hpair : ∀ x y, ConsecPair l x y → ∃ i j, Names assets x i ∧ Names assets y j ∧
      meanAt b.posterior R j ≤ meanAt b.posterior R i := by
    intro x y hxy
    obtain ⟨v, hv⟩ := expandRank_mem_of_pair (d := meanArgToDict assets meanArg) hxy
    have hv' : v = .spec .ge (.fin 0) := by
      rcases expandRank_entry hv with h | ⟨h, -⟩
      · exact absurd h (hno x y hxy v)
      · exact h
    subst hv'
    obtain ⟨i, j, hi, hj, hs⟩ := hmean _ (hd ▸ hv)
    exact ⟨i, j, hi, hj, by simpa [Says] using hs⟩
  have hstep : ∀ m (hm : m + 1 < l.length), ConsecPair l (l[m]'(by omega)) l[m+1] := by
    intro m hm
    refine ⟨l.take m, l.drop (m + 2), ?_⟩
    rw [List.getElem_cons_drop (by omega), List.getElem_cons_drop (by omega), List.take_append_drop]
  intro m n hm
  induction n, hm using Nat.le_induction with
  | base =>
    intro hn i j hi hj
    obtain ⟨i', j', hi', hj', hle⟩ := hpair _ _ (hstep m hn)
    rw [names_unique ha hi hi', names_unique ha hj hj']; exact hle
  | succ n hmn ih =>
    intro hn i j hi hj
    obtain ⟨i', j', hi', hj', hle⟩ := hpair _ _ (hstep n hn)
    have := ih (by omega) i i' hi hi'
    rw [names_unique ha hj hj']
    exact hle.trans this

/-! ## C29 -/

/-- **C29** Any distribution meeting the rows built for cut index `s` puts probability `γ` on the scenarios at sorted
positions `0..s`, has conditional mean `target` there, and hence has CVaR (Rockafellar–Uryasev, confidence `1-γ`)
exactly `-target`. -/
theorem C29_rows_pin_tail {x : Fin S → ℝ} {σ : Equiv.Perm (Fin S)} (hσ : Monotone (x ∘ σ)) {γ target : ℝ}
    (hγ : 0 < γ) {s : ℤ} {q : Fin S → ℝ} (hq : IsProb q) (hr : MeetsRows (cvarRows x σ γ target s) q) :
    ∑ k : Fin S, (if (k : ℤ) ≤ s then q (σ k) else 0) = γ ∧
    (∑ k : Fin S, (if (k : ℤ) ≤ s then q (σ k) * x (σ k) else 0)) / γ = target ∧
    IsCvar q x (1 - γ) (-target) := by
  obtain ⟨heq, -⟩ := hr
  have e1 := heq _ (List.mem_cons_self)
  have e2 := heq _ (List.mem_cons_of_mem _ (List.mem_cons_self))
  simp only at e1 e2
  have t1 : ∑ k : Fin S, (if (k : ℤ) ≤ s then q (σ k) else 0) = γ := by
    rw [← e1, ← Equiv.sum_comp σ (fun i => (if ((σ.symm i : ℕ) : ℤ) < s + 1 then (1:ℝ) else 0) * q i)]
    apply Finset.sum_congr rfl
    intro k _
    simp only [Equiv.symm_apply_apply, Int.lt_add_one_iff]
    split <;> simp
  have t2 : ∑ k : Fin S, (if (k : ℤ) ≤ s then q (σ k) * x (σ k) else 0) = γ * target := by
    rw [← e2, ← Equiv.sum_comp σ (fun i => (if ((σ.symm i : ℕ) : ℤ) < s + 1 then x i else 0) * q i)]
    apply Finset.sum_congr rfl
    intro k _
    simp only [Equiv.symm_apply_apply, Int.lt_add_one_iff]
    split
    · ring
    · simp
  refine ⟨t1, by rw [t2]; field_simp, ?_⟩
  have hru : ∀ c, ru q x (1 - γ) c = c + (∑ k, q (σ k) * max (-(x (σ k)) - c) 0) / γ := by
    intro c
    unfold ru expect
    rw [← Equiv.sum_comp σ (fun t => q t * max (-(x t) - c) 0), sub_sub_cancel]
  have tail : ∀ c, ∑ k : Fin S, (if (k : ℤ) ≤ s then q (σ k) * (-(x (σ k)) - c) else 0) = -(γ * target) - c * γ := by
    intro c
    rw [← t2, ← t1, Finset.mul_sum, ← Finset.sum_neg_distrib, ← Finset.sum_sub_distrib]
    apply Finset.sum_congr rfl
    intro k _
    split
    · ring
    · ring
  constructor
  · -- attained at the last tail scenario
    have hne : ∃ k : Fin S, (k : ℤ) ≤ s := by
      by_contra hc
      push Not at hc
      have : ∑ k : Fin S, (if (k : ℤ) ≤ s then q (σ k) else 0) = 0 :=
        Finset.sum_eq_zero (fun k _ => if_neg (not_le.mpr (hc k)))
      linarith
    obtain ⟨k0, hk0, hmax⟩ := (Finset.univ.filter (fun k : Fin S => (k : ℤ) ≤ s)).exists_max_image id
      ⟨hne.choose, by simpa using hne.choose_spec⟩
    simp only [Finset.mem_filter, Finset.mem_univ, true_and, id] at hk0 hmax
    refine ⟨-(x (σ k0)), ?_⟩
    rw [hru]
    have : ∀ k, q (σ k) * max (-(x (σ k)) - -(x (σ k0))) 0 =
        (if (k : ℤ) ≤ s then q (σ k) * (-(x (σ k)) - -(x (σ k0))) else 0) := by
      intro k
      split
      · rename_i hk
        have : x (σ k) ≤ x (σ k0) := hσ (hmax k hk)
        rw [max_eq_left (by linarith)]
      · rename_i hk
        have hlt : k0 ≤ k := by
          rw [Fin.le_def]; have := not_le.mp hk; omega
        have : x (σ k0) ≤ x (σ k) := hσ hlt
        rw [max_eq_right (by linarith), mul_zero]
    simp only [this, tail]
    field_simp
    ring
  · rintro _ ⟨c, rfl⟩
    rw [hru]
    have hle : -(γ * target) - c * γ ≤ ∑ k, q (σ k) * max (-(x (σ k)) - c) 0 := by
      rw [← tail c]
      apply Finset.sum_le_sum
      intro k _
      split
      · exact mul_le_mul_of_nonneg_left (le_max_left _ _) (hq.nonneg _)
      · exact mul_nonneg (hq.nonneg _) (le_max_right _ _)
    have : (-(γ * target) - c * γ) / γ ≤ (∑ k, q (σ k) * max (-(x (σ k)) - c) 0) / γ :=
      div_le_div_of_nonneg_right hle hγ.le
    have e : (-(γ * target) - c * γ) / γ = -target - c := by field_simp
    linarith

theorem newtonLoop_spec {solve : ℤ → Option ((Fin S → ℝ) × ℝ)} {round : ℝ → ℤ} {P : (Fin S → ℝ) × ℝ → Prop}
    (hP : ∀ s c, solve s = some c → P c) (fuel : ℕ) (s : ℤ) (b : (Fin S → ℝ) × ℝ) (hb : P b) :
    ∃ c, newtonLoop solve round fuel s (some b) = some c ∧ P c ∧ c.2 ≤ b.2 := by
  induction fuel generalizing s b with
  | zero => exact ⟨b, rfl, hb, le_rfl⟩
  | succ fuel ih =>
    unfold newtonLoop
    split
    · exact ⟨b, rfl, hb, le_rfl⟩
    · rename_i s' hs'
      cases hsol : solve s' with
      | none => exact ih s' b hb
      | some c =>
        simp only
        split
        · rename_i hlt
          obtain ⟨d, h1, h2, h3⟩ := ih s' c (hP _ _ hsol)
          exact ⟨d, h1, h2, h3.trans hlt.le⟩
        · exact ih s' b hb

/-- **C29** `_solve_cvar_view`: when it returns, the first cut index (from the prior's cumulative probabilities) was
solvable, the returned posterior is the solution for some cut index and its divergence does not exceed that of the first
candidate; the asset's CVaR at confidence `1-γ` under it equals minus the target.  If the first cut index is not
solvable the call raises, whatever the other cut indices would give. -/
theorem C29_solver {ep : Ep S} (hep : EpSound ep) {argsort : (Fin S → ℝ) → Equiv.Perm (Fin S)}
    (hs : Risk.IsArgsort argsort) {round : ℝ → ℤ} {x : Fin S → ℝ} {γ target : ℝ} (hγ : 0 < γ) {p : Fin S → ℝ} {maxNewton : ℕ} :
    (∀ q, solveCvarView ep argsort round x γ target p maxNewton = .ok q →
      IsProb q ∧ IsCvar q x (1 - γ) (-target) ∧
      ∃ q0, ep p (cvarRows x (argsort x) γ target (initialCut p (argsort x) γ)) = .ok q0 ∧
        klMasked q p ≤ klMasked q0 p ∧ ∃ s, ep p (cvarRows x (argsort x) γ target s) = .ok q) ∧
    ((∃ e, ep p (cvarRows x (argsort x) γ target (initialCut p (argsort x) γ)) = .error e) →
      solveCvarView ep argsort round x γ target p maxNewton = .error .runtimeError) := by
  have hsolve : ∀ s c, solveForS ep p x (argsort x) γ target s = some c →
      ep p (cvarRows x (argsort x) γ target s) = .ok c.1 ∧ c.2 = klMasked c.1 p := by
    intro s c hc
    unfold solveForS at hc
    split at hc
    · rename_i q hq
      injection hc with hc; subst hc; exact ⟨hq, rfl⟩
    · cases hc
  have hfail : (∃ e, ep p (cvarRows x (argsort x) γ target (initialCut p (argsort x) γ)) = .error e) →
      solveCvarView ep argsort round x γ target p maxNewton = .error .runtimeError := by
    rintro ⟨e, he⟩
    have h0 : solveForS ep p x (argsort x) γ target (initialCut p (argsort x) γ) = none := by
      unfold solveForS; rw [he]
    unfold solveCvarView
    simp only
    have : newtonLoop (solveForS ep p x (argsort x) γ target) round maxNewton (initialCut p (argsort x) γ)
        (solveForS ep p x (argsort x) γ target (initialCut p (argsort x) γ)) = none := by
      cases maxNewton with
      | zero => rw [h0]; rfl
      | succ n =>
        unfold newtonLoop
        rw [h0]
        simp only [Option.map_none]
        split
        · rfl
        · rename_i s' hs'
          unfold newtonStep at hs'
          split at hs'
          · rename_i hm _; cases hm
          · cases hs'
    rw [this]
  refine ⟨?_, hfail⟩
  intro q hq
  cases h0 : ep p (cvarRows x (argsort x) γ target (initialCut p (argsort x) γ)) with
  | error e => rw [hfail ⟨e, h0⟩] at hq; cases hq
  | ok q0 =>
    have hs0 : solveForS ep p x (argsort x) γ target (initialCut p (argsort x) γ) = some (q0, klMasked q0 p) := by
      unfold solveForS; rw [h0]
    obtain ⟨c, h1, ⟨s, h2⟩, h3⟩ := newtonLoop_spec (round := round)
      (P := fun c => ∃ s, solveForS ep p x (argsort x) γ target s = some c) (fun s c h => ⟨s, h⟩) maxNewton
      (initialCut p (argsort x) γ) (q0, klMasked q0 p) ⟨_, hs0⟩
    unfold solveCvarView at hq
    simp only [hs0, h1] at hq
    obtain ⟨c1, c2⟩ := c
    injection hq with hq
    simp only at hq
    subst hq
    obtain ⟨h4, h5⟩ := hsolve s _ h2
    simp only at h4 h5 h3
    obtain ⟨hpq, hm⟩ := hep p _ _ (by simp [cvarRows]) h4
    exact ⟨hpq, (C29_rows_pin_tail (hs x) hγ hpq hm).2.2, q0, rfl, by rw [← h5]; exact h3, s, h4⟩

/-! ## Non-vacuity -/

/-- C24: volatility, skewness and correlation rows are produced at the moments of `cexQ1` (mean 3/7, variance 26/49). -/
example : (∃ r, buildVol cexAssets cexR ![3/7, 0] [(.str "a", .spec .le (.fin 1))] = .ok r) ∧
    (∃ r, buildSkew cexAssets cexR ![3/7, 0] ![26/49, 1] [(.str "a", .spec .ge (.fin 0))] = .ok r) ∧
    (∃ r, buildCorr cexAssets cexR ![3/7, 0] ![26/49, 1] [((.str "a", .str "b"), .between (.fin (-1/5)) (.fin (1/5)))]
      = .ok r) := by
  have hb : assetIdx cexAssets (.str "b") = .ok 1 := by rfl
  have h1 : ¬ ((1:ℝ) ≤ 0) := by norm_num
  have h2 : ¬ ((26:ℝ)/49 < (10^12)⁻¹) := by norm_num
  have h3 : ¬ ((1:ℝ)/5 < -1/5) := by norm_num
  have h4 : (-1:ℝ) ≤ -1/5 := by norm_num
  have h5 : (-1:ℝ)/5 ≤ 1 := by norm_num
  have h6 : (-1:ℝ) ≤ 5⁻¹ := by norm_num
  have h7 : ¬ (1:ℝ) < 5⁻¹ := by norm_num
  have h8 : ¬ (1:ℝ) < -1/5 := by norm_num
  have h9 : ¬ (5:ℝ)⁻¹ < -1 := by norm_num
  have h10 : ¬ (5:ℝ)⁻¹ < -1/5 := by norm_num
  refine ⟨?_, ?_, ?_⟩
  · simp [buildVol, mapE, cex_idx, viewRows, parseViewSpecs, parseView, PyFloat.isFinite, bind, Except.bind, h1]
  · simp [buildSkew, mapE, cex_idx, viewRows, parseViewSpecs, parseView, PyFloat.isFinite, bind, Except.bind, h2]
  · simp [buildCorr, mapE, cex_idx, hb, viewRows, parseViewSpecs, parseView, PyFloat.isFinite, bind, Except.bind,
      PyFloat.lt, h3, h4, h5, h6, h7, h8, h9, h10]

/-- C27/C28: `rank_mean = ["a", "b"]` on the three-scenario market, uniform prior: the constructor returns. -/
example (argsort : (Fin 3 → ℝ) → Equiv.Perm (Fin 3)) (round : ℝ → ℤ) :
    ∃ b, construct optimalEp argsort round cexAssets cexR (some (fun _ => .fin (1/3))) (.dict []) noViews
      (some [.str "a", .str "b"]) false = .ok b ∧ b.callerDict ≠ some [] := by
  have hb : assetIdx cexAssets (.str "b") = .ok 1 := by rfl
  have hp : priorOf (some (fun _ : Fin 3 => PyFloat.fin ((1:ℝ)/3))) = .ok (fun _ => 1/3) := by
    have hb := C26_no_views_prior (optimalEp (S := 3)) argsort round cexAssets cexR (by norm_num) false
    obtain ⟨b, h, hpost, -⟩ := hb.2 (fun _ => 1/3) (fun _ => by norm_num)
      ⟨fun _ => by norm_num, by simp⟩
    obtain ⟨p0, d', h1, -, h3, h4, -, -⟩ := construct_ok h
    have := rankedDict_none h3
    subst this
    have hc : computePosterior optimalEp argsort round p0 cexAssets cexR
        { noViews with mean := meanArgToDict cexAssets (.none : MeanArg 2) } false = .ok p0 := by
      unfold computePosterior; simp [noViews, meanArgToDict]
    rw [hc] at h4; injection h4 with h4
    rw [h1, h4, hpost]
  have hk : optimalEp (fun _ : Fin 3 => (1:ℝ)/3)
      ⟨[(fun _ => 1, 1)], [(fun s => -(cexR s 0 - cexR s 1), -0)]⟩ = .ok (fun _ => 1/3) := by
    apply optimalEp_eq
    have base : IsKlPosterior (fun _ : Fin 3 => (1:ℝ)/3) ⟨[(fun _ => 0, 0), (fun _ => 1, 1)], []⟩ (fun _ => 1/3) :=
      klPosterior_of_exponential (l1 := 0) (l2 := -1) (fun _ => by norm_num) (fun _ => by norm_num)
        (fun _ => by ring) (by simp) (by simp)
    refine klPosterior_more_rows base ⟨?_, ?_⟩ (fun q' hq' => ⟨?_, by simp⟩)
    · intro p hp
      simp only [List.mem_cons, List.not_mem_nil, or_false] at hp
      subst hp; simp
    · intro p hp
      simp only [List.mem_cons, List.not_mem_nil, or_false] at hp
      subst hp; simp [Fin.sum_univ_three, cexR]
    · intro p hp
      simp only [List.mem_cons, List.not_mem_nil, or_false] at hp
      rcases hp with rfl | rfl
      · simp
      · exact hq'.1 _ (by simp)
  refine ⟨⟨fun _ => 1/3, meanOf cexR (fun _ => 1/3), some [(.pair (.str "a") (.str "b"), .spec .ge (.fin 0))]⟩, ?_, by simp⟩
  unfold construct
  simp only [hp, bind, Except.bind]
  rw [if_neg (by norm_num)]
  simp only [meanArgToDict, rankedDict, expandRank, List.length_cons, List.length_nil, List.any_nil]
  rw [if_neg (by norm_num)]
  simp only [callerView, computePosterior, noViews, List.isEmpty_nil, List.nil_append, Bool.false_eq_true, if_false,
    List.isEmpty_cons, Bool.false_and, momentPass, simultaneousPass, linPoint, quantilePass, cvarPass, bind, Except.bind,
    buildMean, buildVol, buildVar, buildSkew, buildCorr, mapE, meanRow, cex_idx, hb, viewRows, parseViewSpecs, parseView,
    PyFloat.isFinite, if_true, addRow, Rows.concat, Rows.append, Rows.empty, List.foldr, List.append_nil, Bool.and_false,
    Bool.not_true, Bool.and_self, doEp, hk]

/-- C29: a distribution meeting the rows for cut index 1 (γ = 1/2, target -1/2). -/
example : MeetsRows (cvarRows ![(-1:ℝ), 0, 1] (Equiv.refl (Fin 3)) (1/2) (-1/2) 1) ![1/4, 1/4, 1/2] ∧
    Monotone (![(-1:ℝ), 0, 1] ∘ (Equiv.refl (Fin 3))) := by
  constructor
  · constructor
    · intro p hp
      simp only [cvarRows, List.mem_cons, List.not_mem_nil, or_false] at hp
      rcases hp with rfl | rfl | rfl
      · simp [Fin.sum_univ_three]; norm_num
      · simp [Fin.sum_univ_three]; norm_num
      · simp [Fin.sum_univ_three]; norm_num
    · intro p hp; simp [cvarRows] at hp
  · intro i j hij
    fin_cases i <;> fin_cases j <;> simp at hij ⊢

end PyV.Props
