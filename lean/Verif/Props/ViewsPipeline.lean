import Verif.Props.Views
import Verif.Lemmas.Risk

/-! # Properties C25–C29: the views pipeline -/

namespace PyV.Props

open PyV PyV.FV PyV.Spec

variable {S N : ℕ}

/-! ## The oracle assumption is what `entropy_pooling` delivers -/

/-- The hypothesis `EpSound` is met, call by call, by the model of `entropy_pooling` when the optimiser stops at an
unclipped local minimiser in its box. -/
theorem epOf_klPosterior (minimize : EP.Minimizer) (prior : Fin S → ℝ) (r : Rows S) (q : Fin S → ℝ)
    (hp : IsProb prior) (hone : ((fun _ => 1, 1) : (Fin S → ℝ) × ℝ) ∈ r.eq) (hne : r.ineq ≠ [])
    (hconv : ∀ l, minimize (EP.dualObjective (fun s => Real.log (prior s))
        (Sum.elim (fun k => (r.eq.get k).1) (fun k => (r.ineq.get k).1))
        (Sum.elim (fun k => (r.eq.get k).2) (fun k => (r.ineq.get k).2)))
        (Sum.elim (fun _ => false) (fun _ => true)) = some l →
      l ∈ box (Sum.elim (fun _ : Fin r.eq.length => false) (fun _ : Fin r.ineq.length => true)) ∧
      IsLocalMinOn (fun l => (EP.dualObjective (fun s => Real.log (prior s))
        (Sum.elim (fun k => (r.eq.get k).1) (fun k => (r.ineq.get k).1))
        (Sum.elim (fun k => (r.eq.get k).2) (fun k => (r.ineq.get k).2)) l).1)
        (box (Sum.elim (fun _ : Fin r.eq.length => false) (fun _ : Fin r.ineq.length => true))) l ∧
      EP.Unclipped (fun s => Real.log (prior s))
        (Sum.elim (fun k => (r.eq.get k).1) (fun k => (r.ineq.get k).1)) l)
    (h : epOf minimize prior r = .ok q) : IsKlPosterior prior r q := by
  unfold epOf at h
  rw [if_neg (by simpa using hne)] at h
  obtain ⟨hpos, hsum⟩ := C20_posterior_is_distribution _ _ _ _ _ _ _ _ h
  have hmeets : ∀ q' : Fin S → ℝ, MeetsRows r q' ↔
      MeetsViews (fun k => (r.eq.get k).1) (fun k => (r.eq.get k).2) (fun k => (r.ineq.get k).1)
        (fun k => (r.ineq.get k).2) q' := by
    intro q'
    unfold MeetsRows MeetsViews
    simp only [List.forall_mem_iff_get]
  have hprior : EP.normalizeVec (fun s => .fin (prior s)) true = .ok prior := by
    have hok : ∃ pr, EP.normalizeVec (fun s => PyFloat.fin (prior s)) true = .ok pr := by
      cases hn : EP.normalizeVec (fun s => PyFloat.fin (prior s)) true with
      | ok pr => exact ⟨pr, rfl⟩
      | error e =>
        unfold EP.entropyPooling at h
        rw [if_neg (by decide), hn] at h; cases h
    obtain ⟨pr, hpr⟩ := hok
    obtain ⟨v, hv, -, -, -, hvp⟩ := EP.normalizeVec_ok hpr
    have : v = prior := by funext s; have := hv s; injection this with this; exact this.symm
    subst this
    rcases hvp with rfl | rfl
    · exact hpr
    · rw [hpr]; congr 1; funext s; rw [hp.sum, div_one]
  have hsol := h
  unfold EP.entropyPooling at hsol
  rw [if_neg (by decide)] at hsol
  simp only [hprior] at hsol
  obtain ⟨l, hl, -, -⟩ := solve_ok hsol
  obtain ⟨c1, c2, c3⟩ := hconv l hl
  obtain ⟨m1, m2⟩ := C21_kl_optimal minimize _ _ _ _ _ none prior q l hprior (by
    obtain ⟨k, hk⟩ := List.get_of_mem hone
    exact ⟨k, by rw [hk]; exact ⟨fun _ => rfl, rfl⟩⟩) hl c1 c2 c3 h
  exact ⟨hpos, ⟨fun s => (hpos s).le, hsum⟩, (hmeets q).mpr m1, fun q' hq' hm => m2 q' hq' ((hmeets q').mp hm)⟩

theorem optimalEp_spec {prior : Fin S → ℝ} {r : Rows S} {q : Fin S → ℝ} (h : optimalEp prior r = .ok q) :
    IsKlPosterior prior r q := by
  unfold optimalEp at h
  split at h
  · rename_i hex
    injection h with h; subst h; exact hex.choose_spec
  · cases h

theorem optimalEp_eq {prior : Fin S → ℝ} {r : Rows S} {q : Fin S → ℝ} (h : IsKlPosterior prior r q) :
    optimalEp prior r = .ok q := by
  have hex : ∃ q, IsKlPosterior prior r q := ⟨q, h⟩
  have e : optimalEp prior r = .ok hex.choose := by unfold optimalEp; rw [dif_pos hex]
  rw [e]; congr 1
  have hc := hex.choose_spec
  exact (h.2.2.2 _ hc.2.1 hc.2.2.1).2 (hc.2.2.2 _ h.2.1 h.2.2.1).1

theorem optimalEp_sound : EpSound (optimalEp (S := S)) := fun _ _ _ _ h =>
  ⟨(optimalEp_spec h).2.1, (optimalEp_spec h).2.2.1⟩

/-! ## Building blocks -/

theorem doEp_meets {ep : Ep S} (hep : EpSound ep) {p q : Fin S → ℝ} {r : Rows S} (h : doEp ep p r = .ok q) :
    IsProb q ∧ MeetsRows r q := by
  unfold doEp at h
  obtain ⟨h1, h2, h3⟩ := hep _ _ _ (by simp) h
  exact ⟨h1, fun p hp => h2 p (by simp [hp]), h3⟩

theorem build_empty_of {α : Type} {f : α → Except PyErr (Rows S)} {l : List α} {r : Rows S} {q : Fin S → ℝ}
    (h : (do let l ← mapE f l; Except.ok (Rows.concat l)) = .ok r) (hr : r.eq.isEmpty && r.ineq.isEmpty) :
    MeetsRows r q := by
  simp only [Bool.and_eq_true, List.isEmpty_iff] at hr
  constructor
  · intro p hp; rw [hr.1] at hp; cases hp
  · intro p hp; rw [hr.2] at hp; cases hp

theorem meets_of_empty {r : Rows S} {q : Fin S → ℝ} (hr : (r.eq.isEmpty && r.ineq.isEmpty) = true) : MeetsRows r q := by
  simp only [Bool.and_eq_true, List.isEmpty_iff] at hr
  constructor
  · intro p hp; rw [hr.1] at hp; cases hp
  · intro p hp; rw [hr.2] at hp; cases hp

/-- What simultaneous mode guarantees about its result. -/
theorem simultaneous_meets {ep : Ep S} (hep : EpSound ep) {p0 q : Fin S → ℝ} (hp0 : IsProb p0)
    {assets : Fin N → Label} {R : Fin S → Fin N → ℝ} {v : Views} {mu var : Fin N → ℝ}
    (h : simultaneousPass ep p0 assets R v mu var = .ok q) :
    IsProb q ∧ ∃ mu' var' r1 r2 r3 r4 r5, linPoint ep p0 assets R v mu var = .ok (mu', var') ∧
      buildMean assets R v.mean = .ok r1 ∧ buildVol assets R mu' v.vol = .ok r2 ∧
      buildVar assets R mu' v.var = .ok r3 ∧ buildSkew assets R mu' var' v.skew = .ok r4 ∧
      buildCorr assets R mu' var' v.corr = .ok r5 ∧
      MeetsRows r1 q ∧ MeetsRows r2 q ∧ MeetsRows r3 q ∧ MeetsRows r4 q ∧ MeetsRows r5 q := by
  unfold simultaneousPass at h
  simp only [bind_ok] at h
  obtain ⟨⟨mu', var'⟩, hl, r1, h1, r2, h2, r3, h3, r4, h4, r5, h5, h⟩ := h
  have key : IsProb q ∧ MeetsRows (Rows.concat [r1, r2, r3, r4, r5]) q := by
    split at h
    · rename_i he
      injection h with h; subst h
      exact ⟨hp0, meets_of_empty he⟩
    · exact doEp_meets hep h
  have hm := meets_concat.mp key.2
  exact ⟨key.1, mu', var', r1, r2, r3, r4, r5, hl, h1, h2, h3, h4, h5, hm _ (by simp), hm _ (by simp), hm _ (by simp),
    hm _ (by simp), hm _ (by simp)⟩

/-! ## C25 -/

/-- **C25** (the part that holds, simultaneous mode without quantile and CVaR views) Every mean view holds in the final
posterior; and if each asset carrying a volatility or variance view also carries an equality mean view, all volatility
and variance views hold too. -/
theorem C25_simultaneous_partial {ep : Ep S} (hep : EpSound ep) (argsort : (Fin S → ℝ) → Equiv.Perm (Fin S))
    (round : ℝ → ℤ) {p0 q : Fin S → ℝ} (hp0 : IsProb p0) {assets : Fin N → Label}
    (ha : Function.Injective assets) {R : Fin S → Fin N → ℝ} {v : Views} (hq0 : v.quantile = []) (hc0 : v.cvar = [])
    (h : computePosterior ep argsort round p0 assets R v false = .ok q) :
    IsProb q ∧ (∀ kv ∈ v.mean, MeanHolds assets R q kv) ∧
    ((∀ kv ∈ v.vol ++ v.var, ∃ t, (MKey.single kv.1, ViewVal.scalar (.fin t)) ∈ v.mean) →
      (∀ kv ∈ v.vol, VolHolds assets R q kv) ∧ (∀ kv ∈ v.var, VarHolds assets R q kv)) := by
  unfold computePosterior at h
  simp only at h
  split at h
  · rename_i he
    injection h with h; subst h
    simp only [Bool.and_eq_true, List.isEmpty_iff] at he
    obtain ⟨⟨⟨⟨⟨⟨e1, e2⟩, e3⟩, e4⟩, e5⟩, e6⟩, e7⟩ := he
    rw [e1, e2, e3]
    exact ⟨hp0, by simp, by simp⟩
  · simp only [bind_ok, hq0, hc0, quantilePass, momentPass, List.isEmpty_nil, if_true, Bool.false_eq_true, if_false] at h
    obtain ⟨q1, h1, q2, h2, h3⟩ := h
    injection h2 with h2; subst h2
    unfold cvarPass at h3
    injection h3 with h3; subst h3
    obtain ⟨hq, mu', var', r1, r2, r3, r4, r5, hl, b1, b2, b3, b4, b5, m1, m2, m3, m4, m5⟩ :=
      simultaneous_meets hep hp0 h1
    have hmean := (buildMean_meets ha b1).mp m1
    refine ⟨hq, hmean, fun hpin => ?_⟩
    have hmu : ∀ kv ∈ v.vol ++ v.var, ∀ i, Names assets kv.1 i → meanAt q1 R i = mu' i := by
      intro kv hkv i hi
      obtain ⟨t, ht⟩ := hpin kv hkv
      have e1 : meanAt q1 R i = t := by
        obtain ⟨j, hj, hs⟩ := hmean _ ht
        rw [names_unique ha hi hj]; exact hs
      have e2 : mu' i = t := by
        unfold linPoint at hl
        have hcond : (!v.mean.isEmpty && !(v.vol.isEmpty && v.var.isEmpty && v.skew.isEmpty && v.corr.isEmpty)) = true := by
          have hm0 : v.mean ≠ [] := fun hc => by rw [hc] at ht; cases ht
          have hv0 : ¬ (v.vol = [] ∧ v.var = []) := fun ⟨c1, c2⟩ => by rw [c1, c2] at hkv; cases hkv
          simp only [Bool.and_eq_true, Bool.not_eq_true', List.isEmpty_eq_false_iff, Bool.and_eq_false_iff]
          refine ⟨hm0, ?_⟩
          by_cases hc : v.vol = []
          · exact Or.inl (Or.inl (Or.inr (fun c => hv0 ⟨hc, c⟩)))
          · exact Or.inl (Or.inl (Or.inl hc))
        rw [if_pos hcond] at hl
        simp only [bind_ok] at hl
        obtain ⟨r, hr, qm, hqm, hl⟩ := hl
        injection hl with hl
        have : mu' = meanOf R qm := by have := congrArg Prod.fst hl; exact this.symm
        rw [this, meanOf_eq]
        obtain ⟨-, hmm⟩ := doEp_meets hep hqm
        obtain ⟨j, hj, hs⟩ := (buildMean_meets ha hr).mp hmm _ ht
        rw [names_unique ha hi hj]; exact hs
      rw [e1, e2]
    exact ⟨(buildVol_meets ha hq b2 (fun kv hkv => hmu kv (List.mem_append_left _ hkv))).mp m2,
      (buildVar_meets ha hq b3 (fun kv hkv => hmu kv (List.mem_append_right _ hkv))).mp m3⟩

/-- **C25** (the part that holds) Quantile views, being applied last but for CVaR views, all hold in the posterior when
there are no CVaR views. -/
theorem C25_quantile_partial {ep : Ep S} (hep : EpSound ep) (argsort : (Fin S → ℝ) → Equiv.Perm (Fin S))
    (round : ℝ → ℤ) {p0 q : Fin S → ℝ} {assets : Fin N → Label}
    (ha : Function.Injective assets) {R : Fin S → Fin N → ℝ} {v : Views} {sequential : Bool} (hc0 : v.cvar = [])
    (h : computePosterior ep argsort round p0 assets R v sequential = .ok q) :
    ∀ kv ∈ v.quantile, QuantileHolds assets R q kv := by
  intro kv hkv
  have hne : v.quantile ≠ [] := fun hc => by rw [hc] at hkv; cases hkv
  unfold computePosterior at h
  simp only at h
  split at h
  · rename_i he
    simp only [Bool.and_eq_true, List.isEmpty_iff] at he
    exact absurd he.2 hne
  · simp only [bind_ok, hc0] at h
    obtain ⟨q1, h1, q2, h2, h3⟩ := h
    unfold cvarPass at h3
    injection h3 with h3; subst h3
    unfold quantilePass at h2
    rw [if_neg (by simpa using hne)] at h2
    rw [bind_ok] at h2
    obtain ⟨r, hr, h2⟩ := h2
    have hm : MeetsRows r q2 := by
      split at h2
      · rename_i he; exact meets_of_empty he
      · exact (doEp_meets hep h2).2
    exact (buildQuantile_meets ha hr).mp hm kv hkv

/-- **C25** (sequential mode, the part that holds) In sequential mode the mean views hold when they are the only moment
block and no quantile or CVaR views follow. -/
theorem C25_sequential_partial {ep : Ep S} (hep : EpSound ep) (argsort : (Fin S → ℝ) → Equiv.Perm (Fin S))
    (round : ℝ → ℤ) {p0 q : Fin S → ℝ} {assets : Fin N → Label}
    (ha : Function.Injective assets) {R : Fin S → Fin N → ℝ} {v : Views} (hq0 : v.quantile = []) (hc0 : v.cvar = [])
    (hv : v.vol = [] ∧ v.var = [] ∧ v.skew = [] ∧ v.corr = [])
    (h : computePosterior ep argsort round p0 assets R v true = .ok q) :
    ∀ kv ∈ v.mean, MeanHolds assets R q kv := by
  intro kv hkv
  have hne : v.mean.isEmpty = false := by
    rw [List.isEmpty_eq_false_iff]; intro hc; rw [hc] at hkv; cases hkv
  obtain ⟨v1, v2, v3, v4⟩ := hv
  unfold computePosterior at h
  simp only at h
  split at h
  · rename_i he
    rw [hne] at he; simp at he
  · simp only [bind_ok, hq0, hc0, quantilePass, momentPass, List.isEmpty_nil, if_true] at h
    obtain ⟨q1, h1, q2, h2, h3⟩ := h
    injection h2 with h2; subst h2
    unfold cvarPass at h3
    injection h3 with h3; subst h3
    unfold blocksOf at h1
    simp only [hne, v1, v2, v3, v4, List.isEmpty_nil, Bool.not_true, Bool.not_false, sequentialPass, if_true, bind_ok,
      Bool.false_eq_true, if_false] at h1
    obtain ⟨r, hr, q2, h2, h3⟩ := h1
    injection h3 with h3; subst h3
    exact (buildMean_meets ha hr).mp (doEp_meets hep h2).2 kv hkv

/-- A distribution of exponential form meeting one equality row and the sum-to-one row is the KL posterior. -/
theorem klPosterior_of_exponential {p q a : Fin S → ℝ} {b l1 l2 : ℝ} (hp : ∀ s, 0 < p s) (hq : ∀ s, 0 < q s)
    (hlog : ∀ s, Real.log (q s) = Real.log (p s) - 1 - (a s * l1 + l2)) (ha : ∑ s, a s * q s = b)
    (h1 : ∑ s, q s = 1) : IsKlPosterior p ⟨[(a, b), (fun _ => 1, 1)], []⟩ q := by
  refine ⟨hq, ⟨fun s => (hq s).le, h1⟩, ⟨?_, by simp⟩, ?_⟩
  · intro r hr
    simp only [List.mem_cons, List.not_mem_nil, or_false] at hr
    rcases hr with rfl | rfl
    · exact ha
    · simpa using h1
  · intro q' hq' hm
    refine EP.kl_optimal (Ke := 2) (Ki := 0) (A := ![a, fun _ => 1]) (b := ![b, 1]) (G := fun k => k.elim0)
      (h := fun k => k.elim0) (l := Sum.elim ![l1, l2] (fun k => k.elim0)) hp hq ?_ ?_ (fun k => k.elim0)
      (fun k => k.elim0) hq'.nonneg ⟨?_, fun k => k.elim0⟩ (hq'.sum.trans h1.symm)
    · intro s
      rw [hlog s, Fintype.sum_sum_type]
      simp [Fin.sum_univ_two]
    · intro k
      fin_cases k
      · simpa using ha
      · simpa using h1
    · intro k
      fin_cases k
      · simpa using hm.1 (a, b) (by simp)
      · simpa using hm.1 (fun _ => 1, 1) (by simp)

/-- Two assets; the first takes the values -1, 0, 1. -/
def cexAssets : Fin 2 → Label := ![.str "a", .str "b"]
def cexR : Fin 3 → Fin 2 → ℝ := ![![-1, 0], ![0, 0], ![1, 0]]
noncomputable def cexViews : Views :=
  { mean := [(.single (.str "a"), .scalar (.fin (3/7)))], vol := [], var := [], skew := [], corr := [],
    quantile := [(.str "a", (-1, .scalar (.fin (1/5))))], cvar := [] }
noncomputable def cexQ1 : Fin 3 → ℝ := ![1/7, 2/7, 4/7]
noncomputable def cexQ2 : Fin 3 → ℝ := ![1/5, 4/15, 8/15]

theorem cex_idx : assetIdx cexAssets (.str "a") = .ok 0 := by rfl

theorem cex_step1 : IsKlPosterior (fun _ => 1/3) ⟨[(fun s => cexR s 0, 3/7), (fun _ => 1, 1)], []⟩ cexQ1 := by
  have e1 : Real.log (1/7) = Real.log (2/7) - Real.log 2 := by
    rw [← Real.log_div (by norm_num) (by norm_num)]; norm_num
  have e2 : Real.log (4/7) = Real.log (2/7) + Real.log 2 := by
    rw [← Real.log_mul (by norm_num) (by norm_num)]; norm_num
  refine klPosterior_of_exponential (l1 := -Real.log 2) (l2 := Real.log (1/3) - 1 - Real.log (2/7))
    (fun _ => by norm_num) ?_ ?_ ?_ ?_
  · intro s; fin_cases s <;> simp [cexQ1]
  · intro s
    fin_cases s
    · show Real.log (1/7) = Real.log (1/3) - 1 - ((-1) * -Real.log 2 + _); rw [e1]; ring
    · show Real.log (2/7) = Real.log (1/3) - 1 - (0 * -Real.log 2 + _); ring
    · show Real.log (4/7) = Real.log (1/3) - 1 - (1 * -Real.log 2 + _); rw [e2]; ring
  · simp [Fin.sum_univ_three, cexR, cexQ1]; norm_num
  · simp [Fin.sum_univ_three, cexQ1]; norm_num

theorem cex_step2 : IsKlPosterior cexQ1
    ⟨[(fun s => if cexR s 0 ≤ -1 then 1 else 0, 1/5), (fun _ => 1, 1)], []⟩ cexQ2 := by
  have e1 : Real.log (1/5) = Real.log (1/7) + Real.log (7/5) := by
    rw [← Real.log_mul (by norm_num) (by norm_num)]; norm_num
  have e2 : Real.log (4/15) = Real.log (2/7) + Real.log (14/15) := by
    rw [← Real.log_mul (by norm_num) (by norm_num)]; norm_num
  have e3 : Real.log (8/15) = Real.log (4/7) + Real.log (14/15) := by
    rw [← Real.log_mul (by norm_num) (by norm_num)]; norm_num
  have i0 : (if cexR 0 0 ≤ -1 then (1:ℝ) else 0) = 1 := by simp [cexR]
  have i1 : (if cexR 1 0 ≤ -1 then (1:ℝ) else 0) = 0 := by simp [cexR]
  have i2 : (if cexR 2 0 ≤ -1 then (1:ℝ) else 0) = 0 := by simp [cexR]
  refine klPosterior_of_exponential (l1 := Real.log (14/15) - Real.log (7/5)) (l2 := -1 - Real.log (14/15))
    ?_ ?_ ?_ ?_ ?_
  · intro s; fin_cases s <;> simp [cexQ1]
  · intro s; fin_cases s <;> simp [cexQ2]
  · intro s
    fin_cases s
    · show Real.log (1/5) = Real.log (1/7) - 1 - ((if cexR 0 0 ≤ -1 then (1:ℝ) else 0) * _ + _); rw [i0, e1]; ring
    · show Real.log (4/15) = Real.log (2/7) - 1 - ((if cexR 1 0 ≤ -1 then (1:ℝ) else 0) * _ + _); rw [i1, e2]; ring
    · show Real.log (8/15) = Real.log (4/7) - 1 - ((if cexR 2 0 ≤ -1 then (1:ℝ) else 0) * _ + _); rw [i2, e3]; ring
  · rw [Fin.sum_univ_three, i0, i1, i2]; simp [cexQ2]
  · simp [Fin.sum_univ_three, cexQ2]; norm_num

/-- **C25** is false of the code: a mean view and a quantile view that are jointly satisfiable; the processor (with an
exact entropy-pooling oracle, uniform prior) returns a posterior that violates the mean view, because the quantile step
re-solves without the mean rows. -/
theorem C25_counterexample (argsort : (Fin 3 → ℝ) → Equiv.Perm (Fin 3)) (round : ℝ → ℤ) :
    (∃ q', IsProb q' ∧ (∀ kv ∈ cexViews.mean, MeanHolds cexAssets cexR q' kv) ∧
      ∀ kv ∈ cexViews.quantile, QuantileHolds cexAssets cexR q' kv) ∧
    ∃ q, computePosterior optimalEp argsort round (fun _ => 1/3) cexAssets cexR cexViews false = .ok q ∧
      ∃ kv ∈ cexViews.mean, ¬ MeanHolds cexAssets cexR q kv := by
  have hinj : Function.Injective cexAssets := by
    intro i j; fin_cases i <;> fin_cases j <;> simp [cexAssets]
  have hname : Names cexAssets (.str "a") 0 := Or.inl rfl
  constructor
  · refine ⟨![1/5, 6/35, 22/35], ⟨?_, ?_⟩, ?_, ?_⟩
    · intro s; fin_cases s <;> norm_num
    · simp [Fin.sum_univ_three]; norm_num
    · intro kv hkv
      simp only [cexViews, List.mem_cons, List.not_mem_nil, or_false] at hkv
      subst hkv
      refine ⟨0, hname, ?_⟩
      simp [Says, meanAt, expect, Fin.sum_univ_three, cexR]; norm_num
    · intro kv hkv
      simp only [cexViews, List.mem_cons, List.not_mem_nil, or_false] at hkv
      subst hkv
      refine ⟨0, hname, ?_⟩
      have : ¬ ((1:ℝ) ≤ -1) := by norm_num
      simp [Says, prob, Fin.sum_univ_three, cexR, this]
  · refine ⟨cexQ2, ?_, ?_⟩
    · have b1 : buildMean cexAssets cexR cexViews.mean = .ok ⟨[(fun s => cexR s 0, 3/7)], []⟩ := by
        simp [buildMean, cexViews, mapE, meanRow, cex_idx, viewRows, parseViewSpecs, parseView, PyFloat.isFinite, bind,
          Except.bind, addRow, Rows.concat, Rows.append, Rows.empty]
      have b2 : buildQuantile cexAssets cexR cexViews.quantile =
          .ok ⟨[(fun s => if cexR s 0 ≤ -1 then 1 else 0, 1/5)], []⟩ := by
        have : ¬ (1:ℝ) ≤ 5⁻¹ := by norm_num
        simp [buildQuantile, cexViews, mapE, cex_idx, viewRows, parseViewSpecs, parseView, PyFloat.isFinite, bind,
          Except.bind, addRow, Rows.concat, Rows.append, Rows.empty, this]
      have s1 : momentPass optimalEp (fun _ => 1/3) cexAssets cexR cexViews false (meanOf cexR (fun _ => 1/3))
          (npVarW cexR (fun _ => 1/3)) = .ok cexQ1 := by
        have hl : linPoint optimalEp (fun _ => 1/3) cexAssets cexR cexViews (meanOf cexR (fun _ => 1/3))
          (npVarW cexR (fun _ => 1/3)) = .ok (meanOf cexR (fun _ => 1/3),
          npVarW cexR (fun _ => 1/3)) := by
          simp [linPoint, cexViews]
        unfold momentPass simultaneousPass
        simp only [Bool.false_eq_true, if_false]
        rw [hl, b1]
        have := optimalEp_eq cex_step1
        simpa [bind, Except.bind, buildVol, buildVar, buildSkew, buildCorr, cexViews, mapE, Rows.concat, Rows.append,
          Rows.empty, doEp] using this
      have s2 : quantilePass optimalEp cexAssets cexR cexViews.quantile cexQ1 = .ok cexQ2 := by
        unfold quantilePass
        rw [if_neg (by simp [cexViews]), b2]
        have := optimalEp_eq cex_step2
        simpa [bind, Except.bind, doEp] using this
      unfold computePosterior
      rw [if_neg (by simp [cexViews])]
      simp only [s1, s2, bind, Except.bind]
      simp [cexViews, cvarPass]
    · refine ⟨_, List.mem_cons_self, ?_⟩
      rintro ⟨i, hi, hs⟩
      rw [names_unique hinj hi hname] at hs
      simp [Says, meanAt, expect, Fin.sum_univ_three, cexR, cexQ2] at hs
      norm_num at hs

/-! ## The hypotheses of the partial theorems are met -/

/-- The posterior for some rows is also the posterior for more rows that it happens to meet. -/
theorem klPosterior_more {prior q : Fin S → ℝ} {r r' : Rows S} (h : IsKlPosterior prior r q) (hm : MeetsRows r' q)
    (hsub : ∀ q', MeetsRows r' q' → MeetsRows r q') : IsKlPosterior prior r' q :=
  ⟨h.1, h.2.1, hm, fun q' hq' hm' => h.2.2.2 q' hq' (hsub q' hm')⟩

/-- A mean view of 3/7 and a variance view of 26/49 on asset `a`. -/
noncomputable def exMomentViews : Views := { cexViews with quantile := [], var := [(.str "a", .scalar (.fin (26/49)))] }

/-- The processor answers with both views in force (the linearisation point is the posterior of the mean view alone). -/
theorem exMoment_posterior (argsort : (Fin 3 → ℝ) → Equiv.Perm (Fin 3)) (round : ℝ → ℤ) :
    computePosterior optimalEp argsort round (fun _ => 1/3) cexAssets cexR exMomentViews false = .ok cexQ1 := by
  have b1 : buildMean cexAssets cexR cexViews.mean = .ok ⟨[(fun s => cexR s 0, 3/7)], []⟩ := by
    simp [buildMean, cexViews, mapE, meanRow, cex_idx, viewRows, parseViewSpecs, parseView, PyFloat.isFinite, bind,
      Except.bind, addRow, Rows.concat, Rows.append, Rows.empty]
  have hmu : meanOf cexR cexQ1 0 = 3/7 := by simp [meanOf, Fin.sum_univ_three, cexR, cexQ1]; norm_num
  have b3 : buildVar cexAssets cexR (meanOf cexR cexQ1) [(.str "a", .scalar (.fin (26/49)))] =
      .ok ⟨[(fun s => cexR s 0 ^ 2, 5/7)], []⟩ := by
    have : ¬ (26/49:ℝ) < 0 := by norm_num
    have e : (26/49:ℝ) + (3/7)^2 = 5/7 := by norm_num
    simp [buildVar, mapE, cex_idx, viewRows, parseViewSpecs, parseView, PyFloat.isFinite, bind,
      Except.bind, addRow, Rows.concat, Rows.append, Rows.empty, this, hmu, e]
  have k1 : doEp optimalEp (fun _ => 1/3) ⟨[(fun s => cexR s 0, 3/7)], []⟩ = .ok cexQ1 := optimalEp_eq cex_step1
  have k2 : doEp optimalEp (fun _ => 1/3) ⟨[(fun s => cexR s 0, 3/7), (fun s => cexR s 0 ^ 2, 5/7)], []⟩ = .ok cexQ1 := by
    refine optimalEp_eq (klPosterior_more cex_step1 ⟨?_, by simp⟩ ?_)
    · intro r hr
      simp only [List.cons_append, List.nil_append, List.mem_cons, List.not_mem_nil, or_false] at hr
      rcases hr with rfl | rfl | rfl <;> simp [Fin.sum_univ_three, cexR, cexQ1] <;> norm_num
    · rintro q' ⟨h1, -⟩
      refine ⟨fun r hr => h1 r ?_, by simp⟩
      simp only [List.mem_cons, List.not_mem_nil, or_false] at hr
      rcases hr with rfl | rfl <;> simp
  have hl : linPoint optimalEp (fun _ => 1/3) cexAssets cexR exMomentViews (meanOf cexR (fun _ => 1/3))
      (npVarW cexR (fun _ => 1/3)) = .ok (meanOf cexR cexQ1, varOf cexR (meanOf cexR cexQ1) cexQ1) := by
    unfold linPoint
    rw [if_pos (by simp [exMomentViews, cexViews])]
    simp only [bind_ok]
    exact ⟨_, b1, _, k1, rfl⟩
  have s1 : momentPass optimalEp (fun _ => 1/3) cexAssets cexR exMomentViews false (meanOf cexR (fun _ => 1/3))
      (npVarW cexR (fun _ => 1/3)) = .ok cexQ1 := by
    unfold momentPass simultaneousPass
    simp only [Bool.false_eq_true, if_false, bind_ok]
    exact ⟨_, hl, _, b1, _, rfl, _, b3, _, rfl, _, rfl, k2⟩
  unfold computePosterior
  simp only
  rw [if_neg (by simp [exMomentViews, cexViews])]
  simp only [bind_ok]
  exact ⟨_, s1, _, rfl, rfl⟩

theorem cexAssets_injective : Function.Injective cexAssets := by
  intro i j; fin_cases i <;> fin_cases j <;> simp [cexAssets]

/-- `C25_simultaneous_partial` applies: both the mean and the variance view hold in the posterior of this call. -/
example (argsort : (Fin 3 → ℝ) → Equiv.Perm (Fin 3)) (round : ℝ → ℤ) :
    ∃ q, computePosterior optimalEp argsort round (fun _ => 1/3) cexAssets cexR exMomentViews false = .ok q ∧
      meanAt q cexR 0 = 3/7 ∧ varAt q cexR 0 = 26/49 := by
  have h := exMoment_posterior argsort round
  obtain ⟨-, hm, hv⟩ := C25_simultaneous_partial optimalEp_sound argsort round
    (⟨fun _ => by norm_num, by simp⟩ : IsProb fun _ : Fin 3 => (1/3 : ℝ)) cexAssets_injective rfl rfl h
  obtain ⟨-, hv⟩ := hv (by
    intro kv hkv
    have : kv = (.str "a", .scalar (.fin (26/49))) := by simpa [exMomentViews, cexViews] using hkv
    subst this
    exact ⟨3/7, List.mem_cons_self⟩)
  refine ⟨_, h, ?_, ?_⟩
  · obtain ⟨j, hj, hs⟩ := hm _ List.mem_cons_self
    rw [names_unique cexAssets_injective hj (Or.inl rfl : Names cexAssets (.str "a") 0)] at hs
    exact hs
  · obtain ⟨j, hj, hs⟩ := hv _ List.mem_cons_self
    rw [names_unique cexAssets_injective hj (Or.inl rfl : Names cexAssets (.str "a") 0)] at hs
    exact hs

/-- `C25_quantile_partial` applies to the counterexample of C25: it is the mean view, not the quantile view, that is lost. -/
example (argsort : (Fin 3 → ℝ) → Equiv.Perm (Fin 3)) (round : ℝ → ℤ) :
    ∃ q, computePosterior optimalEp argsort round (fun _ => 1/3) cexAssets cexR cexViews false = .ok q ∧
      ∀ kv ∈ cexViews.quantile, QuantileHolds cexAssets cexR q kv := by
  obtain ⟨-, q, h, -⟩ := C25_counterexample argsort round
  exact ⟨q, h, C25_quantile_partial optimalEp_sound argsort round cexAssets_injective rfl h⟩

/-- `C25_sequential_partial` applies to the mean view alone in sequential mode. -/
example (argsort : (Fin 3 → ℝ) → Equiv.Perm (Fin 3)) (round : ℝ → ℤ) :
    computePosterior optimalEp argsort round (fun _ => 1/3) cexAssets cexR { cexViews with quantile := [] } true = .ok cexQ1 := by
  have b1 : buildMean cexAssets cexR cexViews.mean = .ok ⟨[(fun s => cexR s 0, 3/7)], []⟩ := by
    simp [buildMean, cexViews, mapE, meanRow, cex_idx, viewRows, parseViewSpecs, parseView, PyFloat.isFinite, bind,
      Except.bind, addRow, Rows.concat, Rows.append, Rows.empty]
  have k1 : doEp optimalEp (fun _ => 1/3) ⟨[(fun s => cexR s 0, 3/7)], []⟩ = .ok cexQ1 := optimalEp_eq cex_step1
  have s1 : momentPass optimalEp (fun _ => 1/3) cexAssets cexR { cexViews with quantile := [] } true (meanOf cexR (fun _ => 1/3))
      (npVarW cexR (fun _ => 1/3)) = .ok cexQ1 := by
    unfold momentPass blocksOf
    have b1' : buildMean cexAssets cexR
      [(.single (.str "a"), .scalar (.fin (3/7)))] = .ok ⟨[(fun s => cexR s 0, 3/7)], []⟩ := b1
    simp only [cexViews, sequentialPass, bind, Except.bind, b1', List.isEmpty_nil, List.isEmpty_cons, Bool.not_true, Bool.not_false,
      if_true, Bool.false_eq_true, if_false, k1]
  unfold computePosterior
  simp only
  rw [if_neg (by simp [cexViews])]
  simp only [bind_ok]
  exact ⟨_, s1, _, rfl, rfl⟩

end PyV.Props
