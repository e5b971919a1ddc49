import Verif.Props.ViewsPipeline

/-! # C25: when volatility, variance, skewness and correlation views hold in the final posterior

The rows of these views are linearised at moments of an earlier distribution.  Each view holds as soon as the moments it was linearised
at are those of the final posterior. -/

namespace PyV.Props

open PyV PyV.FV PyV.Spec

variable {S N : ℕ}

/-- One entry of a block of rows: its own rows are met when the whole block is. -/
theorem block_single {α : Type} {f : α → Except PyErr (Rows S)} {l : List α} {r : Rows S} {q : Fin S → ℝ}
    (h : (do let l ← mapE f l; Except.ok (Rows.concat l)) = .ok r) (hm : MeetsRows r q) {a : α} (ha : a ∈ l) :
    ∃ r', (do let l ← mapE f [a]; Except.ok (Rows.concat l)) = .ok r' ∧ MeetsRows r' q := by
  rw [bind_ok] at h
  obtain ⟨rows, hr, h⟩ := h
  injection h with h; subst h
  have h2 := mapE_ok.mp hr
  clear hr
  induction h2 with
  | nil => cases ha
  | @cons a' b l' rows' h1 h2 ih =>
    have hb := meets_concat.mp hm b (by simp)
    rcases List.mem_cons.mp ha with rfl | ha
    · refine ⟨Rows.concat [b], ?_, meets_concat.mpr (by simpa using hb)⟩
      simp only [mapE, h1, bind, Except.bind]
    · exact ih ha (meets_concat.mpr (fun r hr => meets_concat.mp hm r (List.mem_cons_of_mem _ hr)))

theorem vol_single {assets : Fin N → Label} (ha : Function.Injective assets) {R : Fin S → Fin N → ℝ}
    {views : List (Label × ViewVal)} {r : Rows S} {q : Fin S → ℝ} {mu : Fin N → ℝ} (hq : IsProb q)
    (h : buildVol assets R mu views = .ok r) (hm : MeetsRows r q) {kv : Label × ViewVal} (hkv : kv ∈ views)
    (hmu : ∀ i, Names assets kv.1 i → meanAt q R i = mu i) : VolHolds assets R q kv := by
  obtain ⟨r', h', hm'⟩ := block_single h hm hkv
  exact (buildVol_meets ha hq h' (fun kv' hk => by
    rw [List.mem_singleton] at hk; subst hk; exact hmu)).mp hm' kv (by simp)

theorem var_single {assets : Fin N → Label} (ha : Function.Injective assets) {R : Fin S → Fin N → ℝ}
    {views : List (Label × ViewVal)} {r : Rows S} {q : Fin S → ℝ} {mu : Fin N → ℝ} (hq : IsProb q)
    (h : buildVar assets R mu views = .ok r) (hm : MeetsRows r q) {kv : Label × ViewVal} (hkv : kv ∈ views)
    (hmu : ∀ i, Names assets kv.1 i → meanAt q R i = mu i) : VarHolds assets R q kv := by
  obtain ⟨r', h', hm'⟩ := block_single h hm hkv
  exact (buildVar_meets ha hq h' (fun kv' hk => by
    rw [List.mem_singleton] at hk; subst hk; exact hmu)).mp hm' kv (by simp)

theorem skew_single {assets : Fin N → Label} (ha : Function.Injective assets) {R : Fin S → Fin N → ℝ}
    {views : List (Label × ViewVal)} {r : Rows S} {q : Fin S → ℝ} {mu var : Fin N → ℝ} (hq : IsProb q)
    (h : buildSkew assets R mu var views = .ok r) (hm : MeetsRows r q) {kv : Label × ViewVal} (hkv : kv ∈ views)
    (hmu : ∀ i, Names assets kv.1 i → meanAt q R i = mu i ∧ varAt q R i = var i) : SkewHolds assets R q kv := by
  obtain ⟨r', h', hm'⟩ := block_single h hm hkv
  exact (buildSkew_meets ha hq h' (fun kv' hk => by
    rw [List.mem_singleton] at hk; subst hk; exact hmu)).mp hm' kv (by simp)

theorem corr_single {assets : Fin N → Label} (ha : Function.Injective assets) {R : Fin S → Fin N → ℝ}
    {views : List ((Label × Label) × ViewVal)} {r : Rows S} {q : Fin S → ℝ} {mu var : Fin N → ℝ} (hq : IsProb q)
    (h : buildCorr assets R mu var views = .ok r) (hm : MeetsRows r q) {kv : (Label × Label) × ViewVal} (hkv : kv ∈ views)
    (hmu : ∀ i, (Names assets kv.1.1 i ∨ Names assets kv.1.2 i) → meanAt q R i = mu i ∧ varAt q R i = var i ∧ 0 < var i) :
    CorrHolds assets R q kv := by
  obtain ⟨r', h', hm'⟩ := block_single h hm hkv
  exact (buildCorr_meets ha hq h' (fun kv' hk => by
    rw [List.mem_singleton] at hk; subst hk; exact hmu)).mp hm' kv (by simp)

/-- The variance `np.cov` computes is the variance when the weights are a distribution. -/
theorem npVarW_eq {q : Fin S → ℝ} (hq : IsProb q) (R : Fin S → Fin N → ℝ) (i : Fin N) : npVarW R q i = varAt q R i := by
  unfold npVarW
  rw [hq.sum, div_one, div_one]
  exact varOf_eq R q i

/-- The five views of a processor hold in a distribution `q` when the means (and variances) of the assets they name are the same in
`q` and in `q0`. -/
structure HoldsAt (assets : Fin N → Label) (R : Fin S → Fin N → ℝ) (v : Views) (q0 q : Fin S → ℝ) : Prop where
  vol : ∀ kv ∈ v.vol, (∀ i, Names assets kv.1 i → meanAt q R i = meanAt q0 R i) → VolHolds assets R q kv
  var : ∀ kv ∈ v.var, (∀ i, Names assets kv.1 i → meanAt q R i = meanAt q0 R i) → VarHolds assets R q kv
  skew : ∀ kv ∈ v.skew, (∀ i, Names assets kv.1 i → meanAt q R i = meanAt q0 R i ∧ varAt q R i = varAt q0 R i) →
    SkewHolds assets R q kv
  corr : ∀ kv ∈ v.corr, (∀ i, (Names assets kv.1.1 i ∨ Names assets kv.1.2 i) →
    meanAt q R i = meanAt q0 R i ∧ varAt q R i = varAt q0 R i ∧ 0 < varAt q R i) → CorrHolds assets R q kv

theorem concat_rows {l : List (Rows S)} {b : Rows S} (hb : b ∈ l) (hne : ¬ (b.eq = [] ∧ b.ineq = [])) :
    ¬ ((Rows.concat l).eq = [] ∧ (Rows.concat l).ineq = []) := by
  induction l with
  | nil => cases hb
  | cons a l ih =>
    have he : Rows.concat (a :: l) = a.append (Rows.concat l) := rfl
    rw [he]
    simp only [Rows.append, List.append_eq_nil_iff]
    rintro ⟨⟨h1, h2⟩, h3, h4⟩
    rcases List.mem_cons.mp hb with rfl | hb
    · exact hne ⟨h1, h3⟩
    · exact ih hb ⟨h2, h4⟩

/-- A view that is accepted contributes at least one row. -/
theorem viewRows_rows {row : Fin S → ℝ} {rawOf : ℝ → Except PyErr ℝ} {v : ViewVal} {b : Rows S}
    (h : viewRows row rawOf v = .ok b) : ¬ (b.eq = [] ∧ b.ineq = []) := by
  unfold viewRows at h
  simp only [bind_ok] at h
  obtain ⟨specs, hs, rows, hr, h⟩ := h
  injection h with h; subst h
  have hne : specs ≠ [] := by
    rintro rfl
    cases v <;> simp only [parseViewSpecs, parseView, bind, Except.bind] at hs <;> (try split at hs) <;> simp_all
  have h2 := mapE_ok.mp hr
  cases h2 with
  | nil => exact absurd rfl hne
  | @cons a b l rows h1 h2 =>
    refine concat_rows (b := b) (by simp) ?_
    cases hx : a.2 with
    | fin t =>
      rw [hx] at h1
      simp only [bind_ok] at h1
      obtain ⟨raw, -, h1⟩ := h1
      injection h1 with h1; subst h1
      unfold addRow
      cases a.1 <;> simp
    | nan => rw [hx] at h1; cases h1
    | posInf => rw [hx] at h1; cases h1
    | negInf => rw [hx] at h1; cases h1

theorem buildMean_rows {assets : Fin N → Label} {R : Fin S → Fin N → ℝ} {views : List (MKey × ViewVal)} {r : Rows S}
    (h : buildMean assets R views = .ok r) (hne : views ≠ []) : ¬ (r.eq = [] ∧ r.ineq = []) := by
  unfold buildMean at h
  rw [bind_ok] at h
  obtain ⟨rows, hr, h⟩ := h
  injection h with h; subst h
  have h2 := mapE_ok.mp hr
  cases h2 with
  | nil => exact absurd rfl hne
  | @cons a b l rows h1 h2 =>
    refine concat_rows (b := b) (by simp) ?_
    simp only [bind_ok] at h1
    obtain ⟨row, -, h1⟩ := h1
    exact viewRows_rows h1

/-- Only the mean views of a processor. -/
def meanOnly (v : Views) : Views := { v with vol := [], var := [], skew := [], corr := [], quantile := [], cvar := [] }

/-- The linearisation point of simultaneous mode is the posterior of the mean views alone. -/
theorem linPoint_moments {ep : Ep S} (hep : EpSound ep) (argsort : (Fin S → ℝ) → Equiv.Perm (Fin S)) (round : ℝ → ℤ)
    {p0 : Fin S → ℝ} (hp0 : IsProb p0) {assets : Fin N → Label} {R : Fin S → Fin N → ℝ} {v : Views} {mu var : Fin N → ℝ}
    (hne : ¬ (v.vol = [] ∧ v.var = [] ∧ v.skew = [] ∧ v.corr = []))
    (hl : linPoint ep p0 assets R v (meanOf R p0) (npVarW R p0) = .ok (mu, var)) :
    ∃ qm, computePosterior ep argsort round p0 assets R (meanOnly v) false = .ok qm ∧ IsProb qm ∧
      (∀ i, mu i = meanAt qm R i) ∧ ∀ i, var i = varAt qm R i := by
  unfold linPoint at hl
  by_cases hm : v.mean = []
  · rw [if_neg (by simp [hm])] at hl
    injection hl with hl
    refine ⟨p0, ?_, hp0, ?_, ?_⟩
    · unfold computePosterior; simp [meanOnly, hm]
    · intro i; have e := congrFun (congrArg Prod.fst hl) i; exact e.symm.trans <| meanOf_eq R p0 i
    · intro i; have e := congrFun (congrArg Prod.snd hl) i; exact e.symm.trans <| npVarW_eq hp0 R i
  · have hcond : (!v.mean.isEmpty && !(v.vol.isEmpty && v.var.isEmpty && v.skew.isEmpty && v.corr.isEmpty)) = true := by
      have h1 : v.mean.isEmpty = false := by simpa using hm
      have h2 : (v.vol.isEmpty && v.var.isEmpty && v.skew.isEmpty && v.corr.isEmpty) = false := by
        rw [Bool.eq_false_iff]; intro hc
        simp only [Bool.and_eq_true, List.isEmpty_iff] at hc
        exact hne ⟨hc.1.1.1, hc.1.1.2, hc.1.2, hc.2⟩
      rw [h1, h2]; rfl
    rw [if_pos hcond] at hl
    simp only [bind_ok] at hl
    obtain ⟨r, hr, qm, hqm, hl⟩ := hl
    injection hl with hl
    have hprob := (doEp_meets hep hqm).1
    refine ⟨qm, ?_, hprob, ?_, ?_⟩
    · have hrows : (r.eq.isEmpty && r.ineq.isEmpty) = false := by
        rw [Bool.eq_false_iff]; intro hc
        simp only [Bool.and_eq_true, List.isEmpty_iff] at hc
        exact buildMean_rows hr hm hc
      have h1 : v.mean.isEmpty = false := by simpa using hm
      have hc1 : Rows.concat [r, Rows.empty, Rows.empty, Rows.empty, Rows.empty] = r := by
        simp [Rows.concat, Rows.append, Rows.empty]
      have b2 : buildVol assets R (meanOf R p0) [] = .ok Rows.empty := rfl
      have b3 : buildVar assets R (meanOf R p0) [] = .ok Rows.empty := rfl
      have b4 : buildSkew assets R (meanOf R p0) (npVarW R p0) [] = .ok Rows.empty := rfl
      have b5 : buildCorr assets R (meanOf R p0) (npVarW R p0) [] = .ok Rows.empty := rfl
      unfold computePosterior
      simp only [meanOnly, h1, Bool.false_and, Bool.false_eq_true, if_false, momentPass, simultaneousPass, linPoint,
        List.isEmpty_nil, Bool.and_self, Bool.not_true, Bool.and_false, bind, Except.bind, hr, b2, b3, b4, b5, hc1, hrows, hqm,
        quantilePass, cvarPass, if_true]
    · intro i; have e := congrFun (congrArg Prod.fst hl) i; exact e.symm.trans <| meanOf_eq R qm i
    · intro i
      have e := congrFun (congrArg Prod.snd hl) i; exact e.symm.trans <| varOf_eq R qm i

/-- **C25** (simultaneous mode without quantile and CVaR views, the part that holds) Let `qm` be the posterior of the mean views alone.
A volatility or variance view holds in the final posterior if the mean of its asset is the same as under `qm`; a skewness or correlation
view holds if the means and (positive) variances of its assets are. -/
theorem C25_higher_partial {ep : Ep S} (hep : EpSound ep) (argsort : (Fin S → ℝ) → Equiv.Perm (Fin S)) (round : ℝ → ℤ)
    {p0 q : Fin S → ℝ} (hp0 : IsProb p0) {assets : Fin N → Label} (ha : Function.Injective assets) {R : Fin S → Fin N → ℝ}
    {v : Views} (hq0 : v.quantile = []) (hc0 : v.cvar = []) (hne : ¬ (v.vol = [] ∧ v.var = [] ∧ v.skew = [] ∧ v.corr = []))
    (h : computePosterior ep argsort round p0 assets R v false = .ok q) :
    ∃ qm, computePosterior ep argsort round p0 assets R (meanOnly v) false = .ok qm ∧ HoldsAt assets R v qm q := by
  unfold computePosterior at h
  simp only at h
  split at h
  · rename_i he
    simp only [Bool.and_eq_true, List.isEmpty_iff] at he
    obtain ⟨⟨⟨⟨⟨⟨-, e2⟩, e3⟩, e4⟩, e5⟩, -⟩, -⟩ := he
    exact absurd ⟨e2, e3, e4, e5⟩ hne
  · simp only [bind_ok, hq0, hc0, quantilePass, momentPass, List.isEmpty_nil, if_true, Bool.false_eq_true, if_false] at h
    obtain ⟨q1, h1, q2, h2, h3⟩ := h
    injection h2 with h2; subst h2
    unfold cvarPass at h3
    injection h3 with h3; subst h3
    obtain ⟨hq, mu', var', r1, r2, r3, r4, r5, hl, b1, b2, b3, b4, b5, m1, m2, m3, m4, m5⟩ := simultaneous_meets hep hp0 h1
    obtain ⟨qm, hqm, -, hmu, hvar⟩ := linPoint_moments hep argsort round hp0 hne hl
    refine ⟨qm, hqm, ⟨?_, ?_, ?_, ?_⟩⟩
    · intro kv hkv hk
      exact vol_single ha hq b2 m2 hkv (fun i hi => (hk i hi).trans (hmu i).symm)
    · intro kv hkv hk
      exact var_single ha hq b3 m3 hkv (fun i hi => (hk i hi).trans (hmu i).symm)
    · intro kv hkv hk
      exact skew_single ha hq b4 m4 hkv (fun i hi => ⟨(hk i hi).1.trans (hmu i).symm, (hk i hi).2.trans (hvar i).symm⟩)
    · intro kv hkv hk
      refine corr_single ha hq b5 m5 hkv (fun i hi => ?_)
      obtain ⟨k1, k2, k3⟩ := hk i hi
      exact ⟨k1.trans (hmu i).symm, k2.trans (hvar i).symm, by rw [hvar i, ← k2]; exact k3⟩

/-- What a sequential pass that ends with the given block leaves behind: a distribution meeting the rows of that block, built at the
moments of the distribution the block started from. -/
theorem sequential_snoc {ep : Ep S} {R : Fin S → Fin N → ℝ}
    {blocks : List (Bool × ((Fin N → ℝ) → (Fin N → ℝ) → Except PyErr (Rows S)))}
    {build : (Fin N → ℝ) → (Fin N → ℝ) → Except PyErr (Rows S)} {p0 q : Fin S → ℝ} {mu var : Fin N → ℝ}
    (hmu : mu = meanOf R p0) (hvar : ∀ i, var i = varAt p0 R i)
    (h : sequentialPass ep p0 R (blocks ++ [(true, build)]) mu var = .ok q) :
    ∃ qp mu' var' r, sequentialPass ep p0 R blocks mu var = .ok qp ∧ mu' = meanOf R qp ∧ (∀ i, var' i = varAt qp R i) ∧
      build mu' var' = .ok r ∧ doEp ep qp r = .ok q := by
  induction blocks generalizing p0 mu var with
  | nil =>
    simp only [List.nil_append, sequentialPass, if_true, bind_ok] at h
    obtain ⟨r, hr, q', hq', h⟩ := h
    injection h with h; subst h
    exact ⟨p0, mu, var, r, rfl, hmu, hvar, hr, hq'⟩
  | cons b l ih =>
    obtain ⟨pres, bld⟩ := b
    cases pres with
    | false =>
      simp only [List.cons_append, sequentialPass, Bool.false_eq_true, if_false] at h ⊢
      exact ih hmu hvar h
    | true =>
      simp only [List.cons_append, sequentialPass, if_true, bind_ok] at h ⊢
      obtain ⟨r, hr, q', hq', h⟩ := h
      obtain ⟨qp, mu', var', r', h1, h2⟩ := ih rfl (fun i => varOf_eq R q' i) h
      exact ⟨qp, mu', var', r', ⟨r, hr, q', hq', h1⟩, h2⟩

/-- Empty blocks do not change a sequential pass. -/
theorem sequential_skip {ep : Ep S} {R : Fin S → Fin N → ℝ}
    (blocks : List (Bool × ((Fin N → ℝ) → (Fin N → ℝ) → Except PyErr (Rows S))))
    (rest : List (Bool × ((Fin N → ℝ) → (Fin N → ℝ) → Except PyErr (Rows S)))) (hr : ∀ b ∈ rest, b.1 = false)
    (p0 : Fin S → ℝ) (mu var : Fin N → ℝ) :
    sequentialPass ep p0 R (blocks ++ rest) mu var = sequentialPass ep p0 R blocks mu var := by
  induction blocks generalizing p0 mu var with
  | nil =>
    induction rest with
    | nil => rfl
    | cons b l ih =>
      obtain ⟨pres, bld⟩ := b
      have : pres = false := hr (pres, bld) (by simp)
      subst this
      simpa [sequentialPass] using ih (fun b hb => hr b (List.mem_cons_of_mem _ hb))
  | cons b l ih =>
    obtain ⟨pres, bld⟩ := b
    cases pres with
    | false => simpa [sequentialPass] using ih p0 mu var
    | true =>
      simp only [List.cons_append, sequentialPass, if_true]
      congr 1; funext r
      congr 1; funext q
      exact ih _ _ _

/-- Without quantile and CVaR views the posterior of sequential mode is the result of the moment blocks. -/
theorem sequential_posterior {ep : Ep S} (argsort : (Fin S → ℝ) → Equiv.Perm (Fin S)) (round : ℝ → ℤ) {p0 q : Fin S → ℝ}
    {assets : Fin N → Label} {R : Fin S → Fin N → ℝ} {v : Views} (hq0 : v.quantile = []) (hc0 : v.cvar = []) :
    computePosterior ep argsort round p0 assets R v true = .ok q ↔
      sequentialPass ep p0 R (blocksOf assets R v) (meanOf R p0) (npVarW R p0) = .ok q := by
  unfold computePosterior
  simp only
  split
  · rename_i he
    simp only [Bool.and_eq_true, List.isEmpty_iff] at he
    obtain ⟨⟨⟨⟨⟨⟨e1, e2⟩, e3⟩, e4⟩, e5⟩, -⟩, -⟩ := he
    simp [blocksOf, e1, e2, e3, e4, e5, sequentialPass]
  · simp [bind_ok, hq0, hc0, quantilePass, momentPass, cvarPass]

/-- **C25** (sequential mode without quantile and CVaR views, the part that holds) The views of the last block hold in the final
posterior as soon as that block has left alone the moments it was linearised at, those of the posterior of the earlier blocks. -/
theorem C25_sequential_last_partial {ep : Ep S} (hep : EpSound ep) (argsort : (Fin S → ℝ) → Equiv.Perm (Fin S)) (round : ℝ → ℤ)
    {p0 q : Fin S → ℝ} (hp0 : IsProb p0) {assets : Fin N → Label} (ha : Function.Injective assets) {R : Fin S → Fin N → ℝ}
    {v : Views} (hq0 : v.quantile = []) (hc0 : v.cvar = [])
    (h : computePosterior ep argsort round p0 assets R v true = .ok q) :
    (v.vol ≠ [] → v.var = [] → v.skew = [] → v.corr = [] →
      ∃ qp, computePosterior ep argsort round p0 assets R { v with vol := [] } true = .ok qp ∧
        ∀ kv ∈ v.vol, (∀ i, Names assets kv.1 i → meanAt q R i = meanAt qp R i) → VolHolds assets R q kv) ∧
    (v.var ≠ [] → v.skew = [] → v.corr = [] →
      ∃ qp, computePosterior ep argsort round p0 assets R { v with var := [] } true = .ok qp ∧
        ∀ kv ∈ v.var, (∀ i, Names assets kv.1 i → meanAt q R i = meanAt qp R i) → VarHolds assets R q kv) ∧
    (v.skew ≠ [] → v.corr = [] →
      ∃ qp, computePosterior ep argsort round p0 assets R { v with skew := [] } true = .ok qp ∧
        ∀ kv ∈ v.skew, (∀ i, Names assets kv.1 i → meanAt q R i = meanAt qp R i ∧ varAt q R i = varAt qp R i) →
          SkewHolds assets R q kv) ∧
    (v.corr ≠ [] →
      ∃ qp, computePosterior ep argsort round p0 assets R { v with corr := [] } true = .ok qp ∧
        ∀ kv ∈ v.corr, (∀ i, (Names assets kv.1.1 i ∨ Names assets kv.1.2 i) →
          meanAt q R i = meanAt qp R i ∧ varAt q R i = varAt qp R i ∧ 0 < varAt q R i) → CorrHolds assets R q kv) := by
  rw [sequential_posterior argsort round hq0 hc0] at h
  refine ⟨?_, ?_, ?_, ?_⟩
  · intro hne e3 e4 e5
    have hb : blocksOf assets R v = [(!v.mean.isEmpty, fun _ _ => buildMean assets R v.mean)] ++
        [(true, fun mu _ => buildVol assets R mu v.vol)] ++
        [(false, fun mu _ => buildVar assets R mu []), (false, fun mu var => buildSkew assets R mu var []),
          (false, fun mu var => buildCorr assets R mu var [])] := by
      simp [blocksOf, e3, e4, e5, hne]
    rw [hb, sequential_skip _ _ (by simp)] at h
    obtain ⟨qp, mu', var', r, h1, rfl, hvar, hr, hd⟩ := sequential_snoc rfl (fun i => npVarW_eq hp0 R i) h
    obtain ⟨hq, hm⟩ := doEp_meets hep hd
    refine ⟨qp, ?_, fun kv hkv hk => vol_single ha hq hr hm hkv (fun i hi => (hk i hi).trans (meanOf_eq R qp i).symm)⟩
    rw [sequential_posterior argsort round (by exact hq0) (by exact hc0)]
    have hb' : blocksOf assets R { v with vol := [] } = [(!v.mean.isEmpty, fun _ _ => buildMean assets R v.mean)] ++
        [(false, fun mu _ => buildVol assets R mu []), (false, fun mu _ => buildVar assets R mu []),
          (false, fun mu var => buildSkew assets R mu var []), (false, fun mu var => buildCorr assets R mu var [])] := by
      simp [blocksOf, e3, e4, e5]
    rw [hb', sequential_skip _ _ (by simp)]; exact h1
  · intro hne e4 e5
    have hb : blocksOf assets R v = [(!v.mean.isEmpty, fun _ _ => buildMean assets R v.mean),
        (!v.vol.isEmpty, fun mu _ => buildVol assets R mu v.vol)] ++
        [(true, fun mu _ => buildVar assets R mu v.var)] ++
        [(false, fun mu var => buildSkew assets R mu var []), (false, fun mu var => buildCorr assets R mu var [])] := by
      simp [blocksOf, e4, e5, hne]
    rw [hb, sequential_skip _ _ (by simp)] at h
    obtain ⟨qp, mu', var', r, h1, rfl, hvar, hr, hd⟩ := sequential_snoc rfl (fun i => npVarW_eq hp0 R i) h
    obtain ⟨hq, hm⟩ := doEp_meets hep hd
    refine ⟨qp, ?_, fun kv hkv hk => var_single ha hq hr hm hkv (fun i hi => (hk i hi).trans (meanOf_eq R qp i).symm)⟩
    rw [sequential_posterior argsort round (by exact hq0) (by exact hc0)]
    have hb' : blocksOf assets R { v with var := [] } = [(!v.mean.isEmpty, fun _ _ => buildMean assets R v.mean),
        (!v.vol.isEmpty, fun mu _ => buildVol assets R mu v.vol)] ++
        [(false, fun mu _ => buildVar assets R mu []),
          (false, fun mu var => buildSkew assets R mu var []), (false, fun mu var => buildCorr assets R mu var [])] := by
      simp [blocksOf, e4, e5]
    rw [hb', sequential_skip _ _ (by simp)]; exact h1
  · intro hne e5
    have hb : blocksOf assets R v = [(!v.mean.isEmpty, fun _ _ => buildMean assets R v.mean),
        (!v.vol.isEmpty, fun mu _ => buildVol assets R mu v.vol), (!v.var.isEmpty, fun mu _ => buildVar assets R mu v.var)] ++
        [(true, fun mu var => buildSkew assets R mu var v.skew)] ++ [(false, fun mu var => buildCorr assets R mu var [])] := by
      simp [blocksOf, e5, hne]
    rw [hb, sequential_skip _ _ (by simp)] at h
    obtain ⟨qp, mu', var', r, h1, rfl, hvar, hr, hd⟩ := sequential_snoc rfl (fun i => npVarW_eq hp0 R i) h
    obtain ⟨hq, hm⟩ := doEp_meets hep hd
    refine ⟨qp, ?_, fun kv hkv hk => skew_single ha hq hr hm hkv (fun i hi =>
      ⟨(hk i hi).1.trans (meanOf_eq R qp i).symm, (hk i hi).2.trans (hvar i).symm⟩)⟩
    rw [sequential_posterior argsort round (by exact hq0) (by exact hc0)]
    have hb' : blocksOf assets R { v with skew := [] } = [(!v.mean.isEmpty, fun _ _ => buildMean assets R v.mean),
        (!v.vol.isEmpty, fun mu _ => buildVol assets R mu v.vol), (!v.var.isEmpty, fun mu _ => buildVar assets R mu v.var)] ++
        [(false, fun mu var => buildSkew assets R mu var []), (false, fun mu var => buildCorr assets R mu var [])] := by
      simp [blocksOf, e5]
    rw [hb', sequential_skip _ _ (by simp)]; exact h1
  · intro hne
    have hb : blocksOf assets R v = [(!v.mean.isEmpty, fun _ _ => buildMean assets R v.mean),
        (!v.vol.isEmpty, fun mu _ => buildVol assets R mu v.vol), (!v.var.isEmpty, fun mu _ => buildVar assets R mu v.var),
        (!v.skew.isEmpty, fun mu var => buildSkew assets R mu var v.skew)] ++
        [(true, fun mu var => buildCorr assets R mu var v.corr)] := by
      simp [blocksOf, hne]
    rw [hb] at h
    obtain ⟨qp, mu', var', r, h1, rfl, hvar, hr, hd⟩ := sequential_snoc rfl (fun i => npVarW_eq hp0 R i) h
    obtain ⟨hq, hm⟩ := doEp_meets hep hd
    refine ⟨qp, ?_, fun kv hkv hk => corr_single ha hq hr hm hkv (fun i hi => ?_)⟩
    · rw [sequential_posterior argsort round (by exact hq0) (by exact hc0)]
      have hb' : blocksOf assets R { v with corr := [] } = [(!v.mean.isEmpty, fun _ _ => buildMean assets R v.mean),
          (!v.vol.isEmpty, fun mu _ => buildVol assets R mu v.vol), (!v.var.isEmpty, fun mu _ => buildVar assets R mu v.var),
          (!v.skew.isEmpty, fun mu var => buildSkew assets R mu var v.skew)] ++
          [(false, fun mu var => buildCorr assets R mu var [])] := by
        simp [blocksOf]
      rw [hb', sequential_skip _ _ (by simp)]; exact h1
    · obtain ⟨k1, k2, k3⟩ := hk i hi
      exact ⟨k1.trans (meanOf_eq R qp i).symm, k2.trans (hvar i).symm, by rw [hvar i, ← k2]; exact k3⟩

noncomputable def exSkewViews : Views := ⟨[], [], [], [(.str "a", .scalar (.fin 0))], [], [], []⟩

/-- Non-vacuity: a skewness view on scenarios `-1, 0, 1`, in both modes; the moments it was linearised at stay, and it holds. -/
example (argsort : (Fin 3 → ℝ) → Equiv.Perm (Fin 3)) (round : ℝ → ℤ) (sequential : Bool) :
    computePosterior optimalEp argsort round (fun _ => 1/3) cexAssets cexR exSkewViews sequential = .ok (fun _ => 1/3) ∧
      SkewHolds cexAssets cexR (fun _ => 1/3) (.str "a", .scalar (.fin 0)) := by
  have hinj : Function.Injective cexAssets := by
    intro i j; fin_cases i <;> fin_cases j <;> simp [cexAssets]
  have hp : IsProb (fun _ : Fin 3 => (1:ℝ)/3) := ⟨fun _ => by norm_num, by norm_num [Fin.sum_univ_three]⟩
  have hmu : meanOf cexR (fun _ => 1/3) = ![0, 0] := by
    funext i; fin_cases i <;> simp [meanOf, Fin.sum_univ_three, cexR]
  have hvar : npVarW cexR (fun _ => 1/3) = ![2/3, 0] := by
    funext i; rw [npVarW_eq hp, ← varOf_eq, hmu]
    fin_cases i <;> simp [varOf, Fin.sum_univ_three, cexR]
    norm_num
  have b4 : buildSkew cexAssets cexR ![0, 0] ![2/3, 0] exSkewViews.skew = .ok ⟨[(fun s => cexR s 0 ^ 3, 0)], []⟩ := by
    have : ¬ ((2:ℝ)/3 < (10 ^ 12)⁻¹) := by norm_num
    simp [buildSkew, exSkewViews, mapE, cex_idx, viewRows, parseViewSpecs, parseView, PyFloat.isFinite, bind, Except.bind, addRow,
      Rows.concat, Rows.append, Rows.empty, this]
  have d : doEp optimalEp (fun _ => 1/3) ⟨[(fun s => cexR s 0 ^ 3, 0)], []⟩ = .ok (fun _ => (1:ℝ)/3) := by
    apply optimalEp_eq
    refine klPosterior_of_exponential (l1 := 0) (l2 := -1) (fun _ => by norm_num) (fun _ => by norm_num) (fun s => by ring) ?_ hp.sum
    simp [Fin.sum_univ_three, cexR]; norm_num
  have hpost : computePosterior optimalEp argsort round (fun _ => 1/3) cexAssets cexR exSkewViews sequential = .ok (fun _ => 1/3) := by
    unfold computePosterior
    rw [if_neg (by simp [exSkewViews])]
    have s1 : momentPass optimalEp (fun _ => 1/3) cexAssets cexR exSkewViews sequential (meanOf cexR (fun _ => 1/3))
        (npVarW cexR (fun _ => 1/3)) = .ok (fun _ => 1/3) := by
      rw [hmu, hvar]
      cases sequential with
      | false =>
        unfold momentPass simultaneousPass linPoint
        simp only [Bool.false_eq_true, if_false]
        rw [if_neg (by simp [exSkewViews])]
        simp only [bind, Except.bind, b4]
        simpa [buildMean, buildVol, buildVar, buildCorr, exSkewViews, mapE, bind, Except.bind, Rows.concat, Rows.append,
          Rows.empty] using d
      | true =>
        unfold momentPass blocksOf
        have e : exSkewViews.skew.isEmpty = false := rfl
        simp only [if_true, sequentialPass, e, Bool.not_false, b4, bind, Except.bind, d]
        simp [exSkewViews]
    simp only [s1, bind, Except.bind]
    simp [exSkewViews, quantilePass, cvarPass]
  refine ⟨hpost, ?_⟩
  cases sequential with
  | true =>
    obtain ⟨qp, hqp, hh⟩ := (C25_sequential_last_partial optimalEp_sound argsort round hp hinj rfl rfl hpost).2.2.1
      (by simp [exSkewViews]) rfl
    have : qp = fun _ => 1/3 := by
      unfold computePosterior at hqp; simp [exSkewViews] at hqp; rw [← hqp]; norm_num
    subst this
    exact hh _ (by simp [exSkewViews]) (fun i _ => ⟨rfl, rfl⟩)
  | false =>
    obtain ⟨qp, hqp, hh⟩ := C25_higher_partial optimalEp_sound argsort round hp hinj rfl rfl (by simp [exSkewViews]) hpost
    have : qp = fun _ => 1/3 := by
      unfold computePosterior at hqp; simp [exSkewViews, meanOnly] at hqp; rw [← hqp]; norm_num
    subst this
    exact hh.skew _ (by simp [exSkewViews]) (fun i _ => ⟨rfl, rfl⟩)

end PyV.Props
