import Verif.Lemmas.ViewsMaps
import Verif.Props.ViewsHandoff
import Verif.Props.ViewsSource
import Verif.Props.ViewsHigher

/-! # C188–C191: views that add nothing; the order of views, scenarios and assets -/

namespace PyV.Props

open PyV PyV.FV PyV.Spec

variable {S N : ℕ}

/-! ## Specification -/

/-- The scenario set with its scenarios (and their prior weights) listed in another order. -/
def scenariosReordered (src : Source) (π : Equiv.Perm (Fin src.S)) : Source :=
  { src with R := fun s i => src.R (π s) i, prior := src.prior.map (fun p s => p (π s)) }

/-- The scenario set with its columns (and their labels) listed in another order. -/
def assetsReordered (src : Source) (τ : Equiv.Perm (Fin src.N)) : Source :=
  { src with R := fun s i => src.R s (τ i), assets := fun i => src.assets (τ i) }

/-- Two ways of writing the same views of one kind: the same dictionary entries in any order, or a vector whose entries follow the
columns to their new places. -/
inductive SameVec {κ : Type} (τ : Equiv.Perm (Fin N)) : VecViews κ → VecViews κ → Prop
  | none : SameVec τ .none .none
  | dict {d d' : List (κ × ViewVal)} : d.Perm d' → SameVec τ (.dict d) (.dict d')
  | vector (x : Fin N → PyFloat ℝ) : SameVec τ (.vector (List.ofFn x)) (.vector (List.ofFn fun i => x (τ i)))

/-- Two ways of writing the same views; the CVaR views in the same order. -/
structure SameArgs (τ : Equiv.Perm (Fin N)) (a a' : ViewArgs) : Prop where
  mean : SameVec τ a.mean a'.mean
  vol : SameVec τ a.vol a'.vol
  var : SameVec τ a.var a'.var
  skew : SameVec τ a.skew a'.skew
  corr : a.corr.Perm a'.corr
  quantile : a.quantile.Perm a'.quantile
  cvar : a'.cvar = a.cvar
  rank : a'.rankMean = a.rankMean
  sequential : a'.sequential = a.sequential

/-- No two scenarios tie in a column that carries a CVaR view. -/
def NoTies (src : Source) (a : ViewArgs) : Prop :=
  (∀ d, a.cvar = .dict d → ∀ kv ∈ d, ∀ i, Names src.assets kv.1 i → Function.Injective (fun s => src.R s i)) ∧
  ∀ x, a.cvar = .vector x → ∀ i, Function.Injective (fun s => src.R s i)

/-- The views hold under the distribution `p`.  Skewness and correlation views only make sense for assets that vary (the code refuses
skewness views on assets with a variance below 10⁻¹²). -/
structure Satisfied (assets : Fin N → Label) (R : Fin S → Fin N → ℝ) (p : Fin S → ℝ) (v : Views) : Prop where
  mean : ∀ kv ∈ v.mean, MeanHolds assets R p kv
  vol : ∀ kv ∈ v.vol, VolHolds assets R p kv
  var : ∀ kv ∈ v.var, VarHolds assets R p kv
  skew : ∀ kv ∈ v.skew, SkewHolds assets R p kv
  skewVaries : ∀ kv ∈ v.skew, ∀ i, Names assets kv.1 i → 1 / 10 ^ 12 ≤ varAt p R i
  corr : ∀ kv ∈ v.corr, CorrHolds assets R p kv
  corrVaries : ∀ kv ∈ v.corr, ∀ i, (Names assets kv.1.1 i ∨ Names assets kv.1.2 i) → 0 < varAt p R i
  quantile : ∀ kv ∈ v.quantile, QuantileHolds assets R p kv

/-! ## Proof -/

private theorem normalizeVec_along (π : Equiv.Perm (Fin S)) (p : Fin S → PyFloat ℝ) (strict : Bool) {q : Fin S → ℝ}
    (h : EP.normalizeVec p strict = .ok q) : EP.normalizeVec (fun s => p (π s)) strict = .ok (q ∘ π) := by
  have hperm : (List.ofFn (fun s => p (π s))).Perm (List.ofFn p) := Equiv.Perm.ofFn_comp_perm π p
  have e1 : (List.ofFn (fun s => p (π s))).isEmpty = (List.ofFn p).isEmpty := by
    rw [Bool.eq_iff_iff, List.isEmpty_iff, List.isEmpty_iff]
    exact ⟨fun h => by rw [h] at hperm; exact hperm.symm.eq_nil, fun h => by rw [h] at hperm; exact hperm.eq_nil⟩
  have e2 : (List.ofFn (fun s => p (π s))).all PyFloat.isFinite = (List.ofFn p).all PyFloat.isFinite := hperm.all_eq
  have e3 : ∀ f : PyFloat ℝ → Bool, (List.ofFn (fun s => p (π s))).any f = (List.ofFn p).any f := fun f => hperm.any_eq
  have e4 : ((List.ofFn (fun s => p (π s))).map PyFloat.val).sum = ((List.ofFn p).map PyFloat.val).sum := (hperm.map _).sum_eq
  unfold EP.normalizeVec at h ⊢
  unfold Probs.normalize at h ⊢
  simp only [e1, e2, e3, e4]
  simp only at h
  split at h
  · cases h
  · rename_i ps hps
    injection h with h
    subst h
    generalize ((List.ofFn p).map PyFloat.val).sum = total at *
    split at hps
    · cases hps
    rename_i c1
    rw [if_neg c1]
    split at hps
    · cases hps
    rename_i c2
    rw [if_neg c2]
    split at hps
    · cases hps
    rename_i c3
    rw [if_neg c3]
    split at hps
    · cases hps
    rename_i c4
    rw [if_neg c4]
    split at hps
    · cases hps
    rename_i c5
    rw [if_neg c5]
    split at hps
    · rename_i c6
      rw [if_pos c6]
      injection hps with hps; subst hps
      refine congrArg Except.ok ?_
      funext s
      simp
    · rename_i c6
      rw [if_neg c6]
      injection hps with hps; subst hps
      refine congrArg Except.ok ?_
      funext s
      simp

private theorem priorOf_along (π : Equiv.Perm (Fin S)) {prior : Option (Fin S → PyFloat ℝ)} {p0 : Fin S → ℝ} (h : priorOf prior = .ok p0) :
    priorOf (prior.map (fun p s => p (π s))) = .ok (p0 ∘ π) := by
  cases prior with
  | none =>
    unfold priorOf at h ⊢
    injection h with h; subst h; rfl
  | some p => exact normalizeVec_along π p true h

private theorem any_congr {α : Type} {l l' : List α} (h : ∀ a, a ∈ l' ↔ a ∈ l) (f : α → Bool) : l'.any f = l.any f := by
  rw [Bool.eq_iff_iff, List.any_eq_true, List.any_eq_true]
  exact exists_congr fun a => and_congr_left fun _ => h a

private theorem expandRank_congr : ∀ (l : List Label) {d d' : List (MKey × ViewVal)}, (∀ a, a ∈ d' ↔ a ∈ d) →
    ∀ a, a ∈ expandRank d' l ↔ a ∈ expandRank d l
  | [], _, _, h => by unfold expandRank; exact h
  | [_], _, _, h => by unfold expandRank; exact h
  | a :: b :: rest, d, d', h => by
    unfold expandRank
    refine expandRank_congr (b :: rest) ?_
    rw [any_congr h]
    split
    · exact h
    · intro c
      simp only [List.mem_append, h]

private theorem rankedDict_congr {d d' m : List (MKey × ViewVal)} (hd : ∀ a, a ∈ d' ↔ a ∈ d) {l : Option (List Label)} (h : rankedDict d l = .ok m) :
    ∃ m', rankedDict d' l = .ok m' ∧ ∀ a, a ∈ m' ↔ a ∈ m := by
  cases l with
  | none =>
    unfold rankedDict at h ⊢
    injection h with h; subst h
    exact ⟨d', rfl, hd⟩
  | some l =>
    unfold rankedDict at h ⊢
    simp only at h ⊢
    split at h
    · cases h
    · rename_i hc
      rw [if_neg hc]
      injection h with h; subst h
      exact ⟨_, rfl, expandRank_congr l hd⟩

private theorem sameVec_dict {κ : Type} {τ : Equiv.Perm (Fin N)} {assets : Fin N → Label} {key : Label → κ} {v v' : VecViews κ}
    (hv : SameVec τ v v') {d : List (κ × ViewVal)} (h : vecToDict assets key v = .ok d) :
    ∃ d', vecToDict (assets ∘ τ) key v' = .ok d' ∧ ∀ a, a ∈ d' ↔ a ∈ d := by
  cases hv with
  | none =>
    unfold vecToDict at h ⊢
    injection h with h; subst h
    exact ⟨[], rfl, fun _ => Iff.rfl⟩
  | dict hp =>
    unfold vecToDict at h ⊢
    injection h with h; subst h
    exact ⟨_, rfl, fun a => hp.mem_iff.symm⟩
  | vector x =>
    unfold vecToDict at h ⊢
    simp only [List.length_ofFn, if_true] at h ⊢
    injection h with h; subst h
    refine ⟨_, rfl, fun a => ?_⟩
    simp only [List.mem_map, List.mem_finRange, true_and, List.getD_eq_getElem?_getD, List.getElem?_ofFn]
    constructor
    · rintro ⟨i, rfl⟩
      exact ⟨τ i, by simp⟩
    · rintro ⟨i, rfl⟩
      exact ⟨τ.symm i, by simp⟩

private theorem viewsOf_along {τ : Equiv.Perm (Fin N)} {assets : Fin N → Label} {a a' : ViewArgs} (ha : SameArgs τ a a') {v : Views}
    (hτ : τ = 1 ∨ ∀ x, a.cvar ≠ .vector x) (h : viewsOf assets a = .ok v) :
    ∃ v', viewsOf (assets ∘ τ) a' = .ok v' ∧ SameViews v v' ∧ cvarToDict assets a.cvar = .ok v.cvar := by
  unfold viewsOf at h ⊢
  simp only [bind_ok] at h ⊢
  obtain ⟨m, h1, vo, h2, va, h3, sk, h4, cv, h5, m', h6, h7⟩ := h
  injection h7 with h7; subst h7
  obtain ⟨n1, g1, k1⟩ := sameVec_dict ha.mean h1
  obtain ⟨n2, g2, k2⟩ := sameVec_dict ha.vol h2
  obtain ⟨n3, g3, k3⟩ := sameVec_dict ha.var h3
  obtain ⟨n4, g4, k4⟩ := sameVec_dict ha.skew h4
  obtain ⟨n5, g5, k5⟩ := rankedDict_congr k1 h6
  refine ⟨⟨n5, n2, n3, n4, a'.corr, a'.quantile, cv⟩, ⟨n1, g1, n2, g2, n3, g3, n4, g4, cv, ?_, n5, by rw [ha.rank]; exact g5, rfl⟩,
    ⟨k5, k2, k3, k4, fun x => ha.corr.mem_iff.symm, fun x => ha.quantile.mem_iff.symm, rfl⟩, h5⟩
  rw [ha.cvar]
  rcases hτ with rfl | hv
  · exact h5
  cases hc : a.cvar with
  | none => rw [hc] at h5; exact h5
  | dict d => rw [hc] at h5; exact h5
  | vector x => exact absurd hc (hv x)

private theorem noTies_views {src : Source} {a : ViewArgs} (hn : NoTies src a) {l : List (Label × (ℝ × ℝ))}
    (h : cvarToDict src.assets a.cvar = .ok l) : ∀ kv ∈ l, ∀ i, Names src.assets kv.1 i → Function.Injective (fun s => src.R s i) := by
  cases hc : a.cvar with
  | none =>
    rw [hc] at h
    unfold cvarToDict at h
    injection h with h; subst h
    simp
  | dict d =>
    rw [hc] at h
    unfold cvarToDict at h
    injection h with h; subst h
    exact hn.1 d hc
  | vector x => exact fun _ _ i _ => hn.2 x hc i

private theorem npCovW_along (R : Fin S → Fin N → ℝ) (π : Equiv.Perm (Fin S)) (τ : Equiv.Perm (Fin N)) (q : Fin S → ℝ) :
    npCovW (reordered R π τ) (q ∘ π) = fun i j => npCovW R q (τ i) (τ j) := by
  funext i j
  have e1 : ∀ i, ∑ s, R (π s) (τ i) * q (π s) = ∑ s, R s (τ i) * q s := fun i => Equiv.sum_comp π (fun s => R s (τ i) * q s)
  have e2 : ∑ s, q (π s) = ∑ s, q s := Equiv.sum_comp π q
  simp only [npCovW, reordered, Function.comp_apply, e1, e2, Matrix.of_apply]
  congr 1
  exact Equiv.sum_comp π (fun s => (R s (τ i) - (∑ s, R s (τ i) * q s) / ∑ s, q s) * (R s (τ j) - (∑ s, R s (τ j) * q s) / ∑ s, q s) * q s)

private theorem process_along {ep : (S : ℕ) → Ep S} (hep : ∀ S, EpExact (ep S)) {argsort : (S : ℕ) → (Fin S → ℝ) → Equiv.Perm (Fin S)}
    (hs : ∀ S, Risk.IsArgsort (argsort S)) {round : ℝ → ℤ} {R : Fin S → Fin N → ℝ} {assets : Fin N → Label} {pandas : Bool}
    {prior : Option (Fin S → PyFloat ℝ)} (hlab : Function.Injective assets) {a a' : ViewArgs} (π : Equiv.Perm (Fin S)) (τ : Equiv.Perm (Fin N))
    (hτ : τ = 1 ∨ ∀ x, a.cvar ≠ .vector x) (ha : SameArgs τ a a') (hn : π = 1 ∨ NoTies ⟨S, N, R, assets, pandas, prior⟩ a) {P : Processor}
    (h : process ep argsort round ⟨S, N, R, assets, pandas, prior⟩ a = .ok P) :
    ∃ q : Fin S → ℝ, P = ⟨S, N, R, assets, pandas, q, meanOf R q, npCovW R q⟩ ∧
      process ep argsort round ⟨S, N, reordered R π τ, assets ∘ τ, pandas, prior.map (fun p s => p (π s))⟩ a' =
        .ok ⟨S, N, reordered R π τ, assets ∘ τ, pandas, q ∘ π, meanOf R q ∘ τ, fun i j => npCovW R q (τ i) (τ j)⟩ := by
  obtain ⟨p0, v, q, h1, h2, h3, h4⟩ := process_ok h
  refine ⟨q, h4, ?_⟩
  obtain ⟨v', h5, h6, h7⟩ := viewsOf_along ha hτ h2
  have h8 := computePosterior_along (hep _) (hs _) round hlab R π τ h6 (fun kv hkv i hi => hn.imp_right fun hn => noTies_views hn h7 kv hkv i hi) h3
  have hN : N ≠ 1 := by
    intro hN
    unfold process at h
    rw [bind_ok] at h
    obtain ⟨_, -, h⟩ := h
    rw [if_pos hN] at h; cases h
  unfold process
  rw [bind_ok]
  refine ⟨p0 ∘ π, priorOf_along π h1, ?_⟩
  rw [if_neg hN]
  simp only [bind_ok]
  refine ⟨v', h5, q ∘ π, ?_, ?_⟩
  · rw [ha.sequential]; exact h8
  · rw [meanOf_along, npCovW_along]

private theorem sameVec_refl {κ : Type} {assets : Fin N → Label} {key : Label → κ} {v : VecViews κ} {d : List (κ × ViewVal)}
    (h : vecToDict assets key v = .ok d) : SameVec (N := N) 1 v v := by
  cases v with
  | none => exact .none
  | dict d => exact .dict (List.Perm.refl _)
  | vector x =>
    by_cases hl : x.length = N
    · subst hl
      have := SameVec.vector (κ := κ) (τ := (1 : Equiv.Perm (Fin x.length))) x.get
      simpa using this
    · have e : vecToDict assets key (.vector x) = .error .valueError := if_neg hl
      rw [e] at h; cases h

private theorem sameArgs_refl {assets : Fin N → Label} {a : ViewArgs} {v : Views} (h : viewsOf assets a = .ok v) : SameArgs (N := N) 1 a a := by
  unfold viewsOf at h
  simp only [bind_ok] at h
  obtain ⟨m, h1, vo, h2, va, h3, sk, h4, cv, h5, m', h6, h7⟩ := h
  exact ⟨sameVec_refl h1, sameVec_refl h2, sameVec_refl h3, sameVec_refl h4, List.Perm.refl _, List.Perm.refl _, rfl, rfl, rfl⟩

/-- A distribution that meets the rows is its own closest one. -/
theorem klPosterior_self {p : Fin S → ℝ} (hp : ∀ s, 0 < p s) (h1 : ∑ s, p s = 1) {r : Rows S} (hm : MeetsRows r p)
    (hone : ((fun _ => 1, 1) : (Fin S → ℝ) × ℝ) ∈ r.eq) : IsKlPosterior p r p := by
  refine klPosterior_more_rows (klPosterior_of_exponential (a := fun _ => 0) (b := 0) (l1 := 0) (l2 := -1) hp hp
    (fun s => by ring) (by simp) h1) hm (fun q' hq' => ⟨?_, by simp⟩)
  intro x hx
  simp only [List.mem_cons, List.not_mem_nil, or_false] at hx
  rcases hx with rfl | rfl
  · simp
  · exact hq'.1 _ hone

private theorem doEp_self {ep : Ep S} (hep : EpExact ep) {p : Fin S → ℝ} (hp : ∀ s, 0 < p s) (h1 : ∑ s, p s = 1) {r : Rows S}
    (hm : MeetsRows r p) : doEp ep p r = .ok p := by
  unfold doEp
  rw [hep]
  refine klPosterior_self hp h1 ⟨?_, hm.2⟩ (by simp)
  intro x hx
  rcases List.mem_append.1 hx with hx | hx
  · exact hm.1 x hx
  · simp only [List.mem_cons, List.not_mem_nil, or_false] at hx
    subst hx
    simpa using h1

private theorem sequential_self {ep : Ep S} (hep : EpExact ep) {p : Fin S → ℝ} (hp : ∀ s, 0 < p s) (h1 : ∑ s, p s = 1) {R : Fin S → Fin N → ℝ}
    {blocks : List (Bool × ((Fin N → ℝ) → (Fin N → ℝ) → Except PyErr (Rows S)))}
    (hb : ∀ b ∈ blocks, ∃ r, b.2 (meanAt p R) (varAt p R) = .ok r ∧ MeetsRows r p) :
    sequentialPass ep p R blocks (meanAt p R) (varAt p R) = .ok p := by
  induction blocks with
  | nil => rfl
  | cons b l ih =>
    obtain ⟨present, build⟩ := b
    unfold sequentialPass
    have hl := ih (fun b hb' => hb b (List.mem_cons_of_mem _ hb'))
    split
    · obtain ⟨r, e1, e2⟩ := hb (present, build) (by simp)
      simp only at e1
      simp only [bind_ok]
      refine ⟨r, e1, p, doEp_self hep hp h1 e2, ?_⟩
      have e3 : meanOf R p = meanAt p R := funext fun i => meanOf_eq R p i
      have e4 : varOf R (meanOf R p) p = varAt p R := funext fun i => varOf_eq R p i
      rw [e4, e3]
      exact hl
    · exact hl

/-! ## C188 -/

private theorem computePosterior_self {ep : Ep S} (hep : EpExact ep) (argsort : (Fin S → ℝ) → Equiv.Perm (Fin S)) (round : ℝ → ℤ)
    {p : Fin S → ℝ} (hp : ∀ s, 0 < p s) (h1 : ∑ s, p s = 1) {assets : Fin N → Label} (ha : Function.Injective assets) {R : Fin S → Fin N → ℝ}
    {v : Views} (hsens : Sensible assets v) (hsat : Satisfied assets R p v) (hcv : v.cvar = []) (sequential : Bool) :
    computePosterior ep argsort round p assets R v sequential = .ok p := by
  have hprob : IsProb p := ⟨fun s => (hp s).le, h1⟩
  have em : meanOf R p = meanAt p R := funext fun i => meanOf_eq R p i
  have ev : npVarW R p = varAt p R := funext fun i => npVarW_eq hprob R i
  have ev' : varOf R (meanAt p R) p = varAt p R := by rw [← em]; exact funext fun i => varOf_eq R p i
  obtain ⟨r1, b1⟩ := (C23_mean_accepts_iff ha R v.mean).2 hsens.mean
  obtain ⟨r2, b2⟩ := (vol_ok ha R (meanAt p R) v.vol).2 hsens.vol
  obtain ⟨r3, b3⟩ := (var_ok ha R (meanAt p R) v.var).2 hsens.var
  obtain ⟨r4, b4⟩ := (skew_ok ha R (meanAt p R) (varAt p R) v.skew).2 (fun kv hkv => by
    obtain ⟨⟨i, hi⟩, hw⟩ := hsens.skew kv hkv
    exact ⟨i, hi, hsat.skewVaries kv hkv i hi, hw⟩)
  obtain ⟨r5, b5⟩ := (corr_ok ha R (meanAt p R) (varAt p R) v.corr).2 hsens.corr
  obtain ⟨r6, b6⟩ := (quantile_ok ha R v.quantile).2 hsens.quantile
  have m1 : MeetsRows r1 p := (buildMean_meets ha b1).2 hsat.mean
  have m2 : MeetsRows r2 p := (C24_vol_rows_iff ha hprob b2 (fun _ _ _ _ => rfl)).2 hsat.vol
  have m3 : MeetsRows r3 p := (C24_var_rows_iff ha hprob b3 (fun _ _ _ _ => rfl)).2 hsat.var
  have m4 : MeetsRows r4 p := (C24_skew_rows_iff ha hprob b4 (fun _ _ _ _ => ⟨rfl, rfl⟩)).2 hsat.skew
  have m5 : MeetsRows r5 p :=
    (C24_corr_rows_iff ha hprob b5 (fun kv hkv i hi => ⟨rfl, rfl, hsat.corrVaries kv hkv i hi⟩)).2 hsat.corr
  have m6 : MeetsRows r6 p := (buildQuantile_meets ha b6).2 hsat.quantile
  have hmom : momentPass ep p assets R v sequential (meanOf R p) (npVarW R p) = .ok p := by
    rw [em, ev]
    unfold momentPass
    split
    · refine sequential_self hep hp h1 ?_
      intro b hb
      simp only [blocksOf, List.mem_cons, List.not_mem_nil, or_false] at hb
      rcases hb with rfl | rfl | rfl | rfl | rfl
      exacts [⟨r1, b1, m1⟩, ⟨r2, b2, m2⟩, ⟨r3, b3, m3⟩, ⟨r4, b4, m4⟩, ⟨r5, b5, m5⟩]
    · have hl : linPoint ep p assets R v (meanAt p R) (varAt p R) = .ok (meanAt p R, varAt p R) := by
        unfold linPoint
        split
        · simp only [bind_ok]
          exact ⟨r1, b1, p, doEp_self hep hp h1 m1, by rw [em, ev']⟩
        · rfl
      unfold simultaneousPass
      simp only [bind_ok]
      refine ⟨_, hl, r1, b1, r2, b2, r3, b3, r4, b4, r5, b5, ?_⟩
      split
      · rfl
      · refine doEp_self hep hp h1 (meets_concat.2 ?_)
        intro r hr
        simp only [List.mem_cons, List.not_mem_nil, or_false] at hr
        rcases hr with rfl | rfl | rfl | rfl | rfl <;> assumption
  have hq : quantilePass ep assets R v.quantile p = .ok p := by
    unfold quantilePass
    split
    · rfl
    · simp only [bind_ok]
      refine ⟨r6, b6, ?_⟩
      split
      · rfl
      · exact doEp_self hep hp h1 m6
  unfold computePosterior
  simp only
  split
  · rfl
  · simp only [bind_ok]
    refine ⟨p, hmom, p, hq, ?_⟩
    rw [hcv]; rfl

theorem priorOf_pos (hS : 0 < S) {prior : Option (Fin S → PyFloat ℝ)} {p0 : Fin S → ℝ} (h : priorOf prior = .ok p0) : ∀ s, 0 < p0 s := by
  unfold priorOf at h
  cases prior with
  | none =>
    injection h with h; subst h
    intro s
    have : (0 : ℝ) < S := Nat.cast_pos.mpr hS
    positivity
  | some p =>
    obtain ⟨v, -, -, h2, h3, h4⟩ := EP.normalizeVec_ok h
    rcases h4 with rfl | rfl
    · exact h2 rfl
    · exact fun s => div_pos (h2 rfl s) h3

/-- **C188** (everything but CVaR views) Views that already hold under the prior change nothing: with exact entropy pooling, distinct labels and
sensible views without CVaR views, the processor is the one built without any views, so its probabilities are the prior's, in simultaneous and
in sequential mode. -/
theorem C188_satisfied_views_partial {ep : (S : ℕ) → Ep S} (hep : ∀ S, EpExact (ep S)) (argsort : (S : ℕ) → (Fin S → ℝ) → Equiv.Perm (Fin S))
    (round : ℝ → ℤ) {src : Source} (hS : 0 < src.S) (hN : src.N ≠ 1) (hlab : Function.Injective src.assets) (hc : CleanPrior src.prior)
    {p0 : Fin src.S → ℝ} (hp : priorOf src.prior = .ok p0) {a : ViewArgs} {v : Views} (hv : viewsOf src.assets a = .ok v)
    (hsens : Sensible src.assets v) (hsat : Satisfied src.assets src.R p0 v) (hcv : v.cvar = []) :
    process ep argsort round src a =
        .ok ⟨src.S, src.N, src.R, src.assets, src.pandas, p0, meanAt p0 src.R, Matrix.of (covUnder p0 src.R)⟩ ∧
      process ep argsort round src {} = process ep argsort round src a := by
  have hprob := priorOf_prob hS hc hp
  have hpos := priorOf_pos hS hp
  have e1 : meanOf src.R p0 = meanAt p0 src.R := funext fun i => meanOf_eq _ _ i
  have e2 : npCovW src.R p0 = Matrix.of (covUnder p0 src.R) := by
    have hm : ∀ i, ∑ s, src.R s i * p0 s = meanAt p0 src.R i := fun i => meanOf_eq _ _ i
    ext i j
    unfold npCovW covUnder
    simp only [hprob.sum, div_one, Matrix.of_apply, hm]
    exact Finset.sum_congr rfl fun s _ => by ring
  have key : ∀ {b : ViewArgs} {w : Views}, viewsOf src.assets b = .ok w →
      computePosterior (ep src.S) (argsort src.S) round p0 src.assets src.R w b.sequential = .ok p0 →
      process ep argsort round src b =
        .ok ⟨src.S, src.N, src.R, src.assets, src.pandas, p0, meanAt p0 src.R, Matrix.of (covUnder p0 src.R)⟩ := by
    intro b w h1 h2
    unfold process
    rw [bind_ok]
    refine ⟨p0, hp, ?_⟩
    rw [if_neg hN]
    simp only [bind_ok]
    exact ⟨w, h1, p0, h2, by rw [e1, e2]⟩
  have h1 := key hv (computePosterior_self (hep _) (argsort _) round hpos hprob.sum hlab hsens hsat hcv a.sequential)
  refine ⟨h1, ?_⟩
  rw [h1]
  exact key (b := {}) (w := ⟨[], [], [], [], [], [], []⟩) rfl (by unfold computePosterior; simp)

/-- **C188** fails for CVaR views: three equally likely scenarios with returns −1, 0, 1 have a 95% CVaR of 1, but no call with the view
"the 5% CVaR is −1" returns the prior, whatever the solver returns. -/
theorem C188_counterexample {ep : (S : ℕ) → Ep S} (hep : ∀ S, EpSound (ep S)) {argsort : (S : ℕ) → (Fin S → ℝ) → Equiv.Perm (Fin S)}
    (hs : ∀ S, Risk.IsArgsort (argsort S)) (round : ℝ → ℤ) :
    IsCvar (fun _ : Fin 3 => (1 : ℝ) / 3) (fun s => cexR s 0) (1 - 1 / 20) (-(-1)) ∧
      ¬ ∃ P, process ep argsort round ⟨3, 2, cexR, cexAssets, true, none⟩ { cvar := .dict [(.str "a", (-1, 1 / 20))] } = .ok P ∧
        P.probabilities = List.ofFn (fun _ : Fin 3 => PyFloat.fin ((1 : ℝ) / 3)) := by
  have v0 : cexR 0 0 = -1 := rfl
  have v1 : cexR 1 0 = 0 := rfl
  have v2 : cexR 2 0 = 1 := rfl
  refine ⟨⟨⟨1, ?_⟩, ?_⟩, ?_⟩
  · simp only [ru, expect, Fin.sum_univ_three, v0, v1, v2]
    norm_num
  · rintro _ ⟨c, rfl⟩
    have e : ru (fun _ : Fin 3 => (1 : ℝ) / 3) (fun s => cexR s 0) (1 - 1 / 20) c =
        c + 20 / 3 * (max (1 - c) 0 + max (-c) 0 + max (-1 - c) 0) := by
      simp only [ru, expect, Fin.sum_univ_three, v0, v1, v2]
      norm_num
      ring
    rw [e]
    have h1 := le_max_left (1 - c) 0
    have h2 := le_max_right (1 - c) 0
    have h3 := le_max_right (-c) 0
    have h4 := le_max_right (-1 - c) 0
    linarith
  · rintro ⟨P, hP, hprob⟩
    obtain ⟨p0, v, q, h1, h2, h3, rfl⟩ := process_ok hP
    have hq : q = fun _ => (1 : ℝ) / 3 := by
      funext s
      have e : (List.ofFn fun s : Fin 3 => PyFloat.fin (q s)) = List.ofFn (fun _ : Fin 3 => PyFloat.fin ((1 : ℝ) / 3)) := hprob
      have := congrFun (List.ofFn_injective e) s
      injection this
    have hp0 : p0 = fun _ => (1 : ℝ) / (3 : ℕ) := by
      injection h1 with h1; exact h1.symm
    have hv : v = ⟨[], [], [], [], [], [], [(.str "a", (-1, 1 / 20))]⟩ := by
      injection h2 with h2; exact h2.symm
    subst hp0 hv
    obtain ⟨i, p1, hi, h4⟩ : ∃ i p1, assetIdx cexAssets (.str "a") = .ok i ∧
        solveCvarView (ep 3) (argsort 3) round (fun s => cexR s i) (1 / 20) (-1) p1 = .ok q := by
      unfold computePosterior at h3
      simp only at h3
      rw [if_neg (by simp)] at h3
      simp only [bind_ok] at h3
      obtain ⟨q1, -, q2, -, h5⟩ := h3
      unfold cvarPass at h5
      simp only [bind_ok] at h5
      obtain ⟨i, hi, q', h6, h7⟩ := h5
      unfold cvarPass at h7
      injection h7 with h7; subst h7
      exact ⟨i, q2, hi, h6⟩
    obtain ⟨s, hs'⟩ := solveCvar_is_ep h4
    obtain ⟨k1, k2⟩ := hep 3 _ _ _ (by simp [cvarRows]) hs'
    obtain ⟨k3, -, -⟩ := C29_rows_pin_tail (hs 3 _) (by norm_num) k1 k2
    rw [hq] at k3
    have k4 : ((Finset.univ.filter (fun k : Fin 3 => ((k : ℕ) : ℤ) ≤ s)).card : ℝ) * (1 / 3) = 1 / 20 := by
      rw [← k3, ← Finset.sum_filter, Finset.sum_const, nsmul_eq_mul]
    have k5 : ((20 * (Finset.univ.filter (fun k : Fin 3 => ((k : ℕ) : ℤ) ≤ s)).card : ℕ) : ℝ) = ((3 : ℕ) : ℝ) := by
      push_cast; linarith
    have k6 := Nat.cast_injective k5
    omega

/-! ## C189 -/

/-- **C189** (everything but CVaR views) The order in which views are written does not matter: with exact entropy pooling and distinct asset labels, shuffling the
entries of the mean, volatility, variance, skewness, correlation and quantile dictionaries gives the very same processor (same posterior, mean
and covariance).  (`SameArgs 1` lists what may be shuffled.) -/
theorem C189_view_order_partial {ep : (S : ℕ) → Ep S} (hep : ∀ S, EpExact (ep S)) {argsort : (S : ℕ) → (Fin S → ℝ) → Equiv.Perm (Fin S)}
    (hs : ∀ S, Risk.IsArgsort (argsort S)) {round : ℝ → ℤ} {src : Source} (hlab : Function.Injective src.assets) {a a' : ViewArgs}
    (ha : SameArgs (N := src.N) 1 a a') {P : Processor} (h : process ep argsort round src a = .ok P) :
    process ep argsort round src a' = .ok P := by
  obtain ⟨S, N, R, assets, pandas, prior⟩ := src
  obtain ⟨q, rfl, h2⟩ := process_along hep hs hlab 1 1 (.inl rfl) ha (.inl rfl) h
  have e : prior.map (fun p s => p ((1 : Equiv.Perm (Fin S)) s)) = prior := by cases prior <;> rfl
  rw [e] at h2
  exact h2

/-- Three scenarios of two opposite assets. -/
noncomputable def oppositeR : Fin 3 → Fin 2 → ℝ := ![![-1, 1], ![0, 0], ![1, -1]]

private theorem cvar_three {argsort : (Fin 3 → ℝ) → Equiv.Perm (Fin 3)} (round : ℝ → ℤ) {x p q : Fin 3 → ℝ} {γ t : ℝ} {σ : Equiv.Perm (Fin 3)}
    (hσ : argsort x = σ) (hp : ∀ s, 0 ≤ p s) (hγ : γ ≤ p (σ 0) + p (σ 1)) (hq : ∀ s, 0 < q s) (hsum : q (σ 0) + q (σ 1) + q (σ 2) = 1)
    (h1 : q (σ 0) + q (σ 1) = γ) (h2 : x (σ 0) * q (σ 0) + x (σ 1) * q (σ 1) = γ * t) (hne : x (σ 0) ≠ x (σ 1)) :
    solveCvarView optimalEp argsort round x γ t p = .ok q := by
  have hrows : ∀ q' : Fin 3 → ℝ, MeetsRows (cvarRows x σ γ t 1) q' ↔ q' (σ 0) + q' (σ 1) = γ ∧
      x (σ 0) * q' (σ 0) + x (σ 1) * q' (σ 1) = γ * t ∧ q' (σ 0) + q' (σ 1) + q' (σ 2) = 1 := by
    intro q'
    have a1 : ∑ i, (if ((σ.symm i : ℕ) : ℤ) < 1 + 1 then (1 : ℝ) else 0) * q' i = q' (σ 0) + q' (σ 1) := by
      rw [← Equiv.sum_comp σ]
      simp [Fin.sum_univ_three]
    have a2 : ∑ i, (if ((σ.symm i : ℕ) : ℤ) < 1 + 1 then x i else 0) * q' i = x (σ 0) * q' (σ 0) + x (σ 1) * q' (σ 1) := by
      rw [← Equiv.sum_comp σ]
      simp [Fin.sum_univ_three]
    have a3 : ∑ i, (1 : ℝ) * q' i = q' (σ 0) + q' (σ 1) + q' (σ 2) := by
      rw [← Equiv.sum_comp σ]
      simp [Fin.sum_univ_three]
    constructor
    · rintro ⟨h, -⟩
      have b1 := h _ (List.mem_cons_self)
      have b2 := h _ (List.mem_cons_of_mem _ List.mem_cons_self)
      have b3 := h _ (List.mem_cons_of_mem _ (List.mem_cons_of_mem _ List.mem_cons_self))
      exact ⟨a1.symm.trans b1, a2.symm.trans b2, a3.symm.trans b3⟩
    · rintro ⟨b1, b2, b3⟩
      refine ⟨?_, by simp [cvarRows]⟩
      intro r hr
      simp only [cvarRows, List.mem_cons, List.not_mem_nil, or_false] at hr
      rcases hr with rfl | rfl | rfl
      exacts [a1.trans b1, a2.trans b2, a3.trans b3]
  have hsolve : optimalEp p (cvarRows x σ γ t 1) = .ok q := by
    apply optimalEp_eq
    refine ⟨hq, ⟨fun s => (hq s).le, ?_⟩, (hrows q).2 ⟨h1, h2, hsum⟩, ?_⟩
    · rw [← Equiv.sum_comp σ, Fin.sum_univ_three]; exact hsum
    · intro q' _ hm
      obtain ⟨b1, b2, b3⟩ := (hrows q').1 hm
      have c0 : q' (σ 0) = q (σ 0) := by
        have : (x (σ 0) - x (σ 1)) * (q' (σ 0) - q (σ 0)) = 0 := by linear_combination b2 - h2 - x (σ 1) * (b1 - h1)
        rcases mul_eq_zero.1 this with h | h
        · exact absurd (sub_eq_zero.1 h) hne
        · exact sub_eq_zero.1 h
      have c1 : q' (σ 1) = q (σ 1) := by linarith
      have c2 : q' (σ 2) = q (σ 2) := by linarith
      have : q' = q := by
        funext s
        have : ∀ k : Fin 3, q' (σ k) = q (σ k) := by intro k; fin_cases k <;> assumption
        simpa using this (σ.symm s)
      subst this
      exact ⟨le_refl _, fun _ => rfl⟩
  have hcut : initialCut p σ γ = 1 := by
    have hf := firstCut hp σ γ (by norm_num)
    have l := hf.lower
    by_contra hne1
    have hlt : (1 : ℤ) < initialCut p σ γ := by omega
    have := hf.before 1 (by norm_num) (by simpa using hlt)
    have e : ∑ i, (if i ≤ (1 : Fin 3) then p (σ i) else 0) = p (σ 0) + p (σ 1) := by
      rw [Fin.sum_univ_three, if_pos (by decide), if_pos (by decide), if_neg (by decide), add_zero]
    rw [e] at this
    linarith
  have hs1 : solveForS optimalEp p x σ γ t 1 = some (q, klMasked q p) := by unfold solveForS; rw [hsolve]
  have hloop : newtonLoop (solveForS optimalEp p x σ γ t) round 20 1 (some (q, klMasked q p)) = some (q, klMasked q p) := by
    unfold newtonLoop
    have e1 : (max 1 ((1 : ℤ) - 1)) = 1 := by norm_num
    have e2 : (min (((3 : ℕ) : ℤ) - 2) (1 + 1)) = 1 := by norm_num
    have e3 : newtonStep round 3 ((some (q, klMasked q p)).map Prod.snd) ((some (q, klMasked q p)).map Prod.snd)
        ((some (q, klMasked q p)).map Prod.snd) 1 = none := by
      simp only [newtonStep, Option.map_some]
      rw [if_pos]
      have : klMasked q p - 2 * klMasked q p + klMasked q p = 0 := by ring
      rw [this]; norm_num
    rw [e1, e2, hs1, e3]
  unfold solveCvarView
  simp only [hσ, hcut, hs1, hloop]

/-- **C189** fails for CVaR views: they are applied one after the other and the last one wins.  Two opposite assets, three equally likely
scenarios, and the views that the 50% CVaR of each is −1/2: both orders succeed, with different posteriors. -/
theorem C189_counterexample {argsort : (S : ℕ) → (Fin S → ℝ) → Equiv.Perm (Fin S)} (hs : ∀ S, Risk.IsArgsort (argsort S)) (round : ℝ → ℤ) :
    ∃ P P', process (fun _ => optimalEp) argsort round ⟨3, 2, oppositeR, cexAssets, true, none⟩
        { cvar := .dict [(.str "a", (-1 / 2, 1 / 2)), (.str "b", (-1 / 2, 1 / 2))] } = .ok P ∧
      process (fun _ => optimalEp) argsort round ⟨3, 2, oppositeR, cexAssets, true, none⟩
        { cvar := .dict [(.str "b", (-1 / 2, 1 / 2)), (.str "a", (-1 / 2, 1 / 2))] } = .ok P' ∧ P.probabilities ≠ P'.probabilities := by
  have s0 : argsort 3 (fun s => oppositeR s 0) = 1 := by
    refine argsort_unique ?_ ?_ (hs 3 _)
    · intro i j h; fin_cases i <;> fin_cases j <;> simp [oppositeR] at h ⊢ <;> norm_num at h
    · intro i j h; fin_cases i <;> fin_cases j <;> simp [oppositeR] at h ⊢
  have s1 : argsort 3 (fun s => oppositeR s 1) = Fin.revPerm := by
    refine argsort_unique ?_ ?_ (hs 3 _)
    · intro i j h; fin_cases i <;> fin_cases j <;> simp [oppositeR] at h ⊢ <;> norm_num at h
    · intro i j h; fin_cases i <;> fin_cases j <;> simp [oppositeR] at h ⊢
  have ia : assetIdx cexAssets (.str "a") = .ok 0 := by rfl
  have ib : assetIdx cexAssets (.str "b") = .ok 1 := by rfl
  have stepA : ∀ p : Fin 3 → ℝ, (∀ s, 0 ≤ p s) → 1 / 2 ≤ p 0 + p 1 →
      solveCvarView optimalEp (argsort 3) round (fun s => oppositeR s 0) (1 / 2) (-1 / 2) p = .ok ![1 / 4, 1 / 4, 1 / 2] := by
    intro p hp hle
    refine cvar_three round s0 hp hle (fun s => by fin_cases s <;> norm_num) ?_ ?_ ?_ ?_ <;> simp [oppositeR] <;> norm_num
  have stepB : ∀ p : Fin 3 → ℝ, (∀ s, 0 ≤ p s) → 1 / 2 ≤ p 2 + p 1 →
      solveCvarView optimalEp (argsort 3) round (fun s => oppositeR s 1) (1 / 2) (-1 / 2) p = .ok ![1 / 2, 1 / 4, 1 / 4] := by
    intro p hp hle
    refine cvar_three round s1 hp hle (fun s => by fin_cases s <;> norm_num) ?_ ?_ ?_ ?_ <;> simp [oppositeR, Fin.revPerm] <;> norm_num
  have hN : ¬ (2 : ℕ) = 1 := by norm_num
  have base : ∀ l : List (Label × (ℝ × ℝ)), l ≠ [] → ∀ q, cvarPass optimalEp (argsort 3) round cexAssets oppositeR l (fun _ => 1 / ((3 : ℕ) : ℝ)) = .ok q →
      process (fun _ => optimalEp) argsort round ⟨3, 2, oppositeR, cexAssets, true, none⟩ { cvar := .dict l } =
        .ok ⟨3, 2, oppositeR, cexAssets, true, q, meanOf oppositeR q, npCovW oppositeR q⟩ := by
    intro l hl q hq
    unfold process
    rw [bind_ok]
    refine ⟨fun _ => 1 / ((3 : ℕ) : ℝ), rfl, ?_⟩
    rw [if_neg hN]
    simp only [bind_ok]
    refine ⟨⟨[], [], [], [], [], [], l⟩, rfl, q, ?_, rfl⟩
    unfold computePosterior
    simp only
    rw [if_neg (by simpa using hl)]
    simp only [bind_ok]
    refine ⟨fun _ => 1 / ((3 : ℕ) : ℝ), ?_, fun _ => 1 / ((3 : ℕ) : ℝ), rfl, hq⟩
    unfold momentPass
    rw [if_neg (by decide)]
    unfold simultaneousPass
    simp only [bind_ok]
    exact ⟨_, rfl, _, rfl, _, rfl, _, rfl, _, rfl, _, rfl, rfl⟩
  refine ⟨_, _, base _ (by simp) ![1 / 2, 1 / 4, 1 / 4] ?_, base _ (by simp) ![1 / 4, 1 / 4, 1 / 2] ?_, ?_⟩
  · unfold cvarPass
    simp only [bind_ok]
    refine ⟨0, ia, ![1 / 4, 1 / 4, 1 / 2], stepA _ (fun _ => by norm_num) (by norm_num), ?_⟩
    unfold cvarPass
    simp only [bind_ok]
    exact ⟨1, ib, _, stepB _ (fun s => by fin_cases s <;> norm_num) (by simp), rfl⟩
  · unfold cvarPass
    simp only [bind_ok]
    refine ⟨1, ib, ![1 / 2, 1 / 4, 1 / 4], stepB _ (fun _ => by norm_num) (by norm_num), ?_⟩
    unfold cvarPass
    simp only [bind_ok]
    exact ⟨0, ia, _, stepA _ (fun s => by fin_cases s <;> norm_num) (by simp), rfl⟩
  · intro h
    have h' : (List.ofFn fun s : Fin 3 => PyFloat.fin ((![1 / 2, 1 / 4, 1 / 4] : Fin 3 → ℝ) s)) =
        List.ofFn fun s : Fin 3 => PyFloat.fin ((![1 / 4, 1 / 4, 1 / 2] : Fin 3 → ℝ) s) := h
    have := congrFun (List.ofFn_injective h') 0
    simp at this

/-! ## C190 -/

/-- **C190.** The order in which scenarios are listed does not matter: listing them (and their prior weights) in another order lists the
posterior probabilities in that order and changes neither the posterior mean nor the posterior covariance.  A column that carries a CVaR
view must have no ties (a tie is broken by the sorting routine). -/
theorem C190_scenario_order {ep : (S : ℕ) → Ep S} (hep : ∀ S, EpExact (ep S)) {argsort : (S : ℕ) → (Fin S → ℝ) → Equiv.Perm (Fin S)}
    (hs : ∀ S, Risk.IsArgsort (argsort S)) {round : ℝ → ℤ} {src : Source} (hlab : Function.Injective src.assets) {a : ViewArgs}
    (hn : NoTies src a) (π : Equiv.Perm (Fin src.S)) {P : Processor}
    (h : process ep argsort round src a = .ok P) :
    ∃ (q : Fin src.S → ℝ) (m : Fin src.N → ℝ) (C : Matrix (Fin src.N) (Fin src.N) ℝ),
      P = ⟨src.S, src.N, src.R, src.assets, src.pandas, q, m, C⟩ ∧
      process ep argsort round (scenariosReordered src π) a =
        .ok ⟨src.S, src.N, fun s i => src.R (π s) i, src.assets, src.pandas, fun s => q (π s), m, C⟩ := by
  obtain ⟨S, N, R, assets, pandas, prior⟩ := src
  obtain ⟨q, rfl, h2⟩ := process_along hep hs hlab π 1 (.inl rfl) (sameArgs_refl (process_ok h).choose_spec.choose_spec.choose_spec.2.1) (.inr hn) h
  exact ⟨q, _, _, rfl, h2⟩

/-! ## C191 -/

/-- **C191.** The order of the assets does not matter: listing the columns (with their labels, and any vectors of views) in another order
leaves the posterior probabilities unchanged and lists posterior mean and covariance in that order. -/
theorem C191_asset_order {ep : (S : ℕ) → Ep S} (hep : ∀ S, EpExact (ep S)) {argsort : (S : ℕ) → (Fin S → ℝ) → Equiv.Perm (Fin S)}
    (hs : ∀ S, Risk.IsArgsort (argsort S)) {round : ℝ → ℤ} {src : Source} (hlab : Function.Injective src.assets) {a a' : ViewArgs}
    (hvec : ∀ x, a.cvar ≠ .vector x) (τ : Equiv.Perm (Fin src.N)) (ha : SameArgs τ a a') {P : Processor} (h : process ep argsort round src a = .ok P) :
    ∃ (q : Fin src.S → ℝ) (m : Fin src.N → ℝ) (C : Matrix (Fin src.N) (Fin src.N) ℝ),
      P = ⟨src.S, src.N, src.R, src.assets, src.pandas, q, m, C⟩ ∧
      process ep argsort round (assetsReordered src τ) a' =
        .ok ⟨src.S, src.N, fun s i => src.R s (τ i), fun i => src.assets (τ i), src.pandas, q, fun i => m (τ i), fun i j => C (τ i) (τ j)⟩ := by
  obtain ⟨S, N, R, assets, pandas, prior⟩ := src
  obtain ⟨q, rfl, h2⟩ := process_along hep hs hlab 1 τ (.inr hvec) ha (.inl rfl) h
  have e : prior.map (fun p s => p ((1 : Equiv.Perm (Fin S)) s)) = prior := by cases prior <;> rfl
  rw [e] at h2
  exact ⟨q, _, _, rfl, h2⟩

/-! ## Non-vacuity -/

/-- Exact entropy pooling exists. -/
theorem optimalEp_exact : EpExact (optimalEp (S := S)) := fun _ _ _ => ⟨optimalEp_spec, optimalEp_eq⟩

/-- Two views the uniform prior on the scenarios −1, 0, 1 of `a` already meets: mean zero, and volatility at most one. -/
noncomputable def metArgs : ViewArgs :=
  { mean := .dict [(.single (.str "a"), .scalar (.fin 0)), (.pair (.str "a") (.str "b"), .spec .ge (.fin (-1)))]
    vol := .dict [(.str "a", .spec .le (.fin 1))] }

/-- The views of `metArgs`. -/
noncomputable def metViews : Views :=
  ⟨[(.single (.str "a"), .scalar (.fin 0)), (.pair (.str "a") (.str "b"), .spec .ge (.fin (-1)))], [(.str "a", .spec .le (.fin 1))], [], [], [], [], []⟩

theorem met_labels : Function.Injective cexAssets := by
  intro i j h; fin_cases i <;> fin_cases j <;> simp [cexAssets] at h ⊢

theorem met_mean (i : Fin 2) : meanAt (fun _ : Fin 3 => (1 : ℝ) / (3 : ℕ)) cexR i = 0 := by
  fin_cases i <;> simp [meanAt, expect, Fin.sum_univ_three, cexR]

private theorem met_sensible : Sensible cexAssets metViews := by
  have ka : Known cexAssets (.str "a") := ⟨0, .inl rfl⟩
  have kb : Known cexAssets (.str "b") := ⟨1, .inl rfl⟩
  refine ⟨?_, ?_, by simp [metViews], by simp [metViews], by simp [metViews], by simp [metViews], by simp [metViews]⟩
  · intro kv hkv
    simp only [metViews, List.mem_cons, List.not_mem_nil, or_false] at hkv
    rcases hkv with rfl | rfl
    · exact ⟨ka, 0, rfl⟩
    · exact ⟨⟨ka, kb⟩, 0, show (-1 : ℝ) ≤ 0 by norm_num⟩
  · intro kv hkv
    simp only [metViews, List.mem_cons, List.not_mem_nil, or_false] at hkv
    subst hkv
    refine ⟨ka, ⟨0, show (0 : ℝ) ≤ 1 by norm_num⟩, fun t ht => ?_⟩
    have ht : PyFloat.fin (1 : ℝ) = .fin t := ht
    injection ht with ht
    subst ht
    exact one_pos

private theorem met_satisfied : Satisfied cexAssets cexR (fun _ => (1 : ℝ) / (3 : ℕ)) metViews := by
  refine ⟨?_, ?_, by simp [metViews], by simp [metViews], by simp [metViews], by simp [metViews], by simp [metViews], by simp [metViews]⟩
  · intro kv hkv
    simp only [metViews, List.mem_cons, List.not_mem_nil, or_false] at hkv
    rcases hkv with rfl | rfl
    · exact ⟨0, .inl rfl, met_mean 0⟩
    · refine ⟨0, 1, .inl rfl, .inl rfl, ?_⟩
      show (-1 : ℝ) ≤ _
      rw [met_mean, met_mean]; norm_num
  · intro kv hkv
    simp only [metViews, List.mem_cons, List.not_mem_nil, or_false] at hkv
    subst hkv
    refine ⟨0, .inl rfl, ?_⟩
    show Real.sqrt _ ≤ 1
    rw [Real.sqrt_le_one]
    have v0 : cexR 0 0 = -1 := rfl
    have v1 : cexR 1 0 = 0 := rfl
    have v2 : cexR 2 0 = 1 := rfl
    simp only [varAt, expect, Fin.sum_univ_three, met_mean, v0, v1, v2]
    norm_num

theorem met_process (argsort : (S : ℕ) → (Fin S → ℝ) → Equiv.Perm (Fin S)) (round : ℝ → ℤ) :
    process (fun _ => optimalEp) argsort round ⟨3, 2, cexR, cexAssets, true, none⟩ metArgs =
      .ok ⟨3, 2, cexR, cexAssets, true, fun _ => (1 : ℝ) / (3 : ℕ), meanAt (fun _ => (1 : ℝ) / (3 : ℕ)) cexR,
        Matrix.of (covUnder (fun _ => (1 : ℝ) / (3 : ℕ)) cexR)⟩ :=
  (C188_satisfied_views_partial (fun _ => optimalEp_exact) argsort round (src := ⟨3, 2, cexR, cexAssets, true, none⟩) (by norm_num) (by norm_num)
    met_labels (by intro p h; cases h) rfl (v := metViews) rfl met_sensible met_satisfied rfl).1

/-- C188–C191: the hypotheses are met by these two views; swapping them, listing the scenarios backwards, or swapping the assets is covered. -/
example {argsort : (S : ℕ) → (Fin S → ℝ) → Equiv.Perm (Fin S)} (hs : ∀ S, Risk.IsArgsort (argsort S)) (round : ℝ → ℤ) :
    (∃ P, process (fun _ => optimalEp) argsort round ⟨3, 2, cexR, cexAssets, true, none⟩
      { mean := .dict [(.pair (.str "a") (.str "b"), .spec .ge (.fin (-1))), (.single (.str "a"), .scalar (.fin 0))]
        vol := .dict [(.str "a", .spec .le (.fin 1))] } = .ok P) ∧
    (∃ P, process (fun _ => optimalEp) argsort round (scenariosReordered ⟨3, 2, cexR, cexAssets, true, none⟩ Fin.revPerm) metArgs = .ok P) ∧
    (∃ P, process (fun _ => optimalEp) argsort round (assetsReordered ⟨3, 2, cexR, cexAssets, true, none⟩ Fin.revPerm) metArgs = .ok P) := by
  have hn : NoTies ⟨3, 2, cexR, cexAssets, true, none⟩ metArgs := ⟨fun d h => by simp [metArgs] at h, fun d h => by simp [metArgs] at h⟩
  have h := met_process argsort round
  refine ⟨⟨_, C189_view_order_partial (fun _ => optimalEp_exact) hs (a := metArgs) (a' := { mean := .dict [(.pair (.str "a") (.str "b"), .spec .ge (.fin (-1))), (.single (.str "a"), .scalar (.fin 0))], vol := .dict [(.str "a", .spec .le (.fin 1))] }) (src := ⟨3, 2, cexR, cexAssets, true, none⟩) met_labels
    ⟨.dict (List.Perm.swap _ _ _), .dict (List.Perm.refl _), .none, .none, List.Perm.refl _, List.Perm.refl _, rfl, rfl, rfl⟩ h⟩, ?_, ?_⟩
  · obtain ⟨q, m, C, -, h2⟩ := C190_scenario_order (fun _ => optimalEp_exact) hs (src := ⟨3, 2, cexR, cexAssets, true, none⟩) met_labels hn
      Fin.revPerm h
    exact ⟨_, h2⟩
  · obtain ⟨q, m, C, -, h2⟩ := C191_asset_order (fun _ => optimalEp_exact) hs (src := ⟨3, 2, cexR, cexAssets, true, none⟩) met_labels
      (by intro x h; simp [metArgs] at h) Fin.revPerm
      (a' := metArgs) ⟨.dict (List.Perm.refl _), .dict (List.Perm.refl _), .none, .none, List.Perm.refl _, List.Perm.refl _, rfl, rfl, rfl⟩ h
    exact ⟨_, h2⟩

/-- A positive probability vector handed back as prior is used as it is. -/
theorem priorOf_self (hS : 0 < S) {q : Fin S → ℝ} (hpos : ∀ s, 0 < q s) (h1 : ∑ s, q s = 1) : priorOf (some fun s => .fin (q s)) = .ok q := by
  have e4 : ((List.ofFn fun s => PyFloat.fin (q s)).map PyFloat.val).sum = 1 := by
    rw [List.map_ofFn, List.sum_ofFn]; exact h1
  have e2 : (List.ofFn fun s => PyFloat.fin (q s)).all PyFloat.isFinite = true := by
    simp [PyFloat.isFinite]
  have e1 : (List.ofFn fun s => PyFloat.fin (q s)).isEmpty = false := by
    rw [Bool.eq_false_iff, ne_eq, List.isEmpty_iff, ← List.length_eq_zero_iff, List.length_ofFn]; omega
  have e3 : (List.ofFn fun s => PyFloat.fin (q s)).any (fun x => x.le (.fin 0)) = false := by
    simp only [List.any_eq_false, List.mem_ofFn, forall_exists_index]
    rintro x s rfl
    simp [PyFloat.le, hpos s]
  have e6 : (Probs.isclose1 (1 : ℝ)) = true := by simp [Probs.isclose1]; norm_num
  unfold priorOf EP.normalizeVec Probs.normalize
  simp only [e1, e2, e3, e4, e6]
  rw [if_neg (by simp), if_neg (by simp), if_neg (by simp), if_neg (by simp), if_neg (by norm_num), if_neg (by simp)]
  refine congrArg Except.ok ?_
  funext s
  simp [PyFloat.val]

/-- `C28_processor` applies: a call with strictly positive probabilities and the ranking `a, b` succeeds, and reports `a`'s mean at least `b`'s. -/
example (argsort : (S : ℕ) → (Fin S → ℝ) → Equiv.Perm (Fin S)) (round : ℝ → ℤ) :
    ∃ q : Fin 3 → ℝ, process (fun _ => optimalEp) argsort round
        ⟨3, 2, cexR, cexAssets, true, some fun _ => .fin (1 / 3)⟩ { rankMean := some [.str "a", .str "b"] } =
          .ok ⟨3, 2, cexR, cexAssets, true, q, meanAt q cexR, npCovW cexR q⟩ ∧ meanAt q cexR 1 ≤ meanAt q cexR 0 := by
  have ka : Known cexAssets (.str "a") := ⟨0, .inl rfl⟩
  have kb : Known cexAssets (.str "b") := ⟨1, .inl rfl⟩
  have hprob : IsProb (fun _ : Fin 3 => (1 : ℝ) / 3) := ⟨fun _ => by norm_num, by simp⟩
  have hprior : priorOf (some fun _ : Fin 3 => PyFloat.fin ((1 : ℝ) / 3)) = .ok fun _ => 1 / 3 :=
    priorOf_self (by norm_num) (fun _ => by norm_num) hprob.2
  have hz : ∀ i, meanAt (fun _ : Fin 3 => (1 : ℝ) / 3) cexR i = 0 := fun i => by
    have := met_mean i
    simpa using this
  have hm : (⟨3, 2, cexR, cexAssets, true, some fun _ => .fin (1 / 3)⟩ : Source).assets = cexAssets := rfl
  obtain ⟨hP, -⟩ := C188_satisfied_views_partial (fun _ => optimalEp_exact) argsort round
    (src := ⟨3, 2, cexR, cexAssets, true, some fun _ => .fin (1 / 3)⟩) (a := { rankMean := some [.str "a", .str "b"] })
    (v := ⟨[(.pair (.str "a") (.str "b"), .spec .ge (.fin 0))], [], [], [], [], [], []⟩) (by norm_num) (by norm_num) met_labels
    (by
      intro p hp v hv
      injection hp with hp
      left
      have : v = fun _ => 1 / 3 := by
        funext s
        have := hv s
        rw [← hp] at this
        injection this with this
        exact this.symm
      rw [this]
      exact hprob.2) hprior rfl
    ⟨by
      intro kv hkv
      simp only [List.mem_cons, List.not_mem_nil, or_false] at hkv
      subst hkv
      exact ⟨⟨ka, kb⟩, 0, show (0 : ℝ) ≤ 0 by norm_num⟩, by simp, by simp, by simp, by simp, by simp, by simp⟩
    ⟨by
      intro kv hkv
      simp only [List.mem_cons, List.not_mem_nil, or_false] at hkv
      subst hkv
      refine ⟨0, 1, .inl rfl, .inl rfl, ?_⟩
      show (0 : ℝ) ≤ _
      rw [hz, hz]; norm_num, by simp, by simp, by simp, by simp, by simp, by simp, by simp⟩ rfl
  obtain ⟨q, hq, hr⟩ := C28_processor (fun _ => optimalEp_sound) (src := ⟨3, 2, cexR, cexAssets, true, some fun _ => .fin (1 / 3)⟩)
    met_labels (fun _ => by norm_num) hprob rfl rfl rfl rfl rfl (.inl rfl) hP
  exact ⟨q, by rw [← hq]; exact hP, hr 0 1 one_pos (by simp) 0 1 (.inl rfl) (.inl rfl)⟩

end PyV.Props
