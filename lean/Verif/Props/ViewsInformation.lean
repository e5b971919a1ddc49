import Verif.Props.ViewsInvariance
import Verif.Props.ViewsLaw

/-! # Properties C206–C208: what views do to the distance between the model and the distributions that satisfy them -/

namespace PyV.Props

open PyV PyV.FV PyV.Spec

variable {S N : ℕ}

private abbrev withOne (r : Rows S) : Rows S := ⟨r.eq ++ [(fun _ => 1, 1)], r.ineq⟩

/-- The rows of a segment. -/
private theorem meets_line {r : Rows S} {q x : Fin S → ℝ} (hq : MeetsRows r q) (hx : MeetsRows r x) {ε : ℝ} (h0 : 0 ≤ ε) (h1 : ε ≤ 1) :
    MeetsRows r (fun s => q s + ε * (x s - q s)) := by
  have e : ∀ a : Fin S → ℝ, ∑ s, a s * (q s + ε * (x s - q s)) = (1 - ε) * ∑ s, a s * q s + ε * ∑ s, a s * x s := by
    intro a
    rw [Finset.mul_sum, Finset.mul_sum, ← Finset.sum_add_distrib]
    exact Finset.sum_congr rfl fun s _ => by ring
  refine ⟨fun p hp => ?_, fun p hp => ?_⟩
  · rw [e, hq.1 p hp, hx.1 p hp]; ring
  · rw [e]
    have := hq.2 p hp
    have := hx.2 p hp
    nlinarith

/-- Equality rows hold on the whole line. -/
private theorem meets_line_eq {r : Rows S} (hr : r.ineq = []) {q x : Fin S → ℝ} (hq : MeetsRows r q) (hx : MeetsRows r x) (ε : ℝ) :
    MeetsRows r (fun s => q s + ε * (x s - q s)) := by
  have e : ∀ a : Fin S → ℝ, ∑ s, a s * (q s + ε * (x s - q s)) = (1 - ε) * ∑ s, a s * q s + ε * ∑ s, a s * x s := by
    intro a
    rw [Finset.mul_sum, Finset.mul_sum, ← Finset.sum_add_distrib]
    exact Finset.sum_congr rfl fun s _ => by ring
  refine ⟨fun p hp => ?_, by simp [hr]⟩
  rw [e, hq.1 p hp, hx.1 p hp]; ring

private noncomputable def slope (p q x : Fin S → ℝ) : ℝ := ∑ s, (x s - q s) * (Real.log (q s) - Real.log (p s))

private theorem kl_split (p q x : Fin S → ℝ) : kl x p = kl x q + kl q p + slope p q x := by
  unfold kl slope
  rw [← Finset.sum_add_distrib, ← Finset.sum_add_distrib]
  exact Finset.sum_congr rfl fun s _ => by ring

/-- Near the minimum the relative entropy grows at most quadratically beyond its slope. -/
private theorem kl_quadratic {p q x : Fin S → ℝ} (hq : ∀ s, 0 < q s) (h1 : ∑ s, q s = 1) (h2 : ∑ s, x s = 1) {ε : ℝ}
    (hpos : ∀ s, 0 ≤ q s + ε * (x s - q s)) :
    kl (fun s => q s + ε * (x s - q s)) p ≤ kl q p + ε * slope p q x + ε ^ 2 * ∑ s, (x s - q s) ^ 2 / q s := by
  have hk := kl_split p q (fun s => q s + ε * (x s - q s))
  have hsl : slope p q (fun s => q s + ε * (x s - q s)) = ε * slope p q x := by
    unfold slope
    rw [Finset.mul_sum]
    exact Finset.sum_congr rfl fun s _ => by ring
  have hkl : kl (fun s => q s + ε * (x s - q s)) q ≤ ε ^ 2 * ∑ s, (x s - q s) ^ 2 / q s := by
    have hterm : ∀ s, (q s + ε * (x s - q s)) * (Real.log (q s + ε * (x s - q s)) - Real.log (q s)) ≤
        ε * (x s - q s) + ε ^ 2 * ((x s - q s) ^ 2 / q s) := by
      intro s
      rcases (hpos s).eq_or_lt with h0 | h0
      · have hd : ε * (x s - q s) = - q s := by linarith
        have : ε ^ 2 * ((x s - q s) ^ 2 / q s) = q s := by
          have e : ε ^ 2 * ((x s - q s) ^ 2 / q s) = (ε * (x s - q s)) ^ 2 / q s := by ring
          rw [e, hd]
          field_simp [(hq s).ne']
        rw [← h0, this, hd]; simp
      · have hl := Real.log_le_sub_one_of_pos (div_pos h0 (hq s))
        rw [Real.log_div h0.ne' (hq s).ne'] at hl
        have := mul_le_mul_of_nonneg_left hl h0.le
        refine this.trans (le_of_eq ?_)
        field_simp [(hq s).ne']
        ring
    have := Finset.sum_le_sum fun s (_ : s ∈ Finset.univ) => hterm s
    rw [Finset.sum_add_distrib, ← Finset.mul_sum, ← Finset.mul_sum, Finset.sum_sub_distrib, h1, h2] at this
    unfold kl
    linarith
  rw [hk, hsl]
  linarith

private theorem slope_nonneg {C D : ℝ} (hC : 0 ≤ C) {m : ℝ} (hm : 0 < m) (h : ∀ ε, 0 < ε → ε ≤ m → 0 ≤ ε * D + ε ^ 2 * C) : 0 ≤ D := by
  by_contra hD
  push Not at hD
  set ε := min m (-D / (2 * (C + 1))) with hε
  have e1 : 0 < ε := lt_min hm (div_pos (by linarith) (by linarith))
  have e2 := h ε e1 (min_le_left _ _)
  have e3 : ε ≤ -D / (2 * (C + 1)) := min_le_right _ _
  have e4 : ε * (2 * (C + 1)) ≤ -D := by rwa [le_div_iff₀ (by linarith)] at e3
  have e5 : 0 ≤ D + ε * C := by
    have : 0 ≤ ε * (D + ε * C) := by nlinarith
    exact nonneg_of_mul_nonneg_right this e1
  nlinarith

/-- The Pythagorean inequality of relative entropy. -/
theorem klPosterior_pythagoras {p q x : Fin S → ℝ} {r : Rows S} (h : IsKlPosterior p r q) (hx : IsProb x) (hm : MeetsRows r x) :
    kl x q + kl q p ≤ kl x p := by
  obtain ⟨h1, h2, h3, h4⟩ := h
  have hC : 0 ≤ ∑ s, (x s - q s) ^ 2 / q s := Finset.sum_nonneg fun s _ => div_nonneg (sq_nonneg _) (h1 s).le
  have hD : 0 ≤ slope p q x := by
    refine slope_nonneg hC one_pos fun ε e0 e1 => ?_
    have hpos : ∀ s, 0 ≤ q s + ε * (x s - q s) := fun s => by have := h1 s; have := hx.nonneg s; nlinarith
    have hp : IsProb (fun s => q s + ε * (x s - q s)) :=
      ⟨hpos, by rw [Finset.sum_add_distrib, ← Finset.mul_sum, Finset.sum_sub_distrib, h2.sum, hx.sum]; ring⟩
    have := (h4 _ hp (meets_line h3 hm e0.le e1)).1
    have := kl_quadratic (p := p) h1 h2.sum hx.sum hpos
    linarith
  rw [kl_split p q x]
  linarith

/-- … with equality when there are only equality rows. -/
theorem klPosterior_pythagoras_eq {p q x : Fin S → ℝ} {r : Rows S} (hr : r.ineq = []) (h : IsKlPosterior p r q) (hx : IsProb x) (hm : MeetsRows r x) :
    kl x q + kl q p = kl x p := by
  refine le_antisymm (klPosterior_pythagoras h hx hm) ?_
  obtain ⟨h1, h2, h3, h4⟩ := h
  have hC : 0 ≤ ∑ s, (x s - q s) ^ 2 / q s := Finset.sum_nonneg fun s _ => div_nonneg (sq_nonneg _) (h1 s).le
  obtain ⟨m, hm0, hmq⟩ : ∃ m : ℝ, 0 < m ∧ ∀ s, m ≤ q s := by
    rcases Nat.eq_zero_or_pos S with rfl | hS
    · exact ⟨1, one_pos, fun s => s.elim0⟩
    · have : Nonempty (Fin S) := ⟨⟨0, hS⟩⟩
      obtain ⟨s0, -, hs0⟩ := Finset.exists_min_image Finset.univ q Finset.univ_nonempty
      exact ⟨q s0, h1 s0, fun s => hs0 s (Finset.mem_univ s)⟩
  have hx1 : ∀ s, x s ≤ 1 := fun s => by
    rw [← hx.sum]; exact Finset.single_le_sum (fun u _ => hx.nonneg u) (Finset.mem_univ s)
  have hD : 0 ≤ - slope p q x := by
    refine slope_nonneg hC hm0 fun ε e0 e1 => ?_
    have hpos : ∀ s, 0 ≤ q s + (-ε) * (x s - q s) := fun s => by
      have := hmq s; have := hx1 s; have := hx.nonneg s; have := h1 s
      nlinarith
    have hp : IsProb (fun s => q s + (-ε) * (x s - q s)) :=
      ⟨hpos, by rw [Finset.sum_add_distrib, ← Finset.mul_sum, Finset.sum_sub_distrib, h2.sum, hx.sum]; ring⟩
    have := (h4 _ hp (meets_line_eq hr h3 hm (-ε))).1
    have := kl_quadratic (p := p) h1 h2.sum hx.sum hpos
    nlinarith
  rw [kl_split p q x]
  linarith

/-! ## Calls with mean and quantile views only -/

/-- Only mean and quantile views. -/
def OnlyMeanQuantile (v : Views) : Prop := v.vol = [] ∧ v.var = [] ∧ v.skew = [] ∧ v.corr = [] ∧ v.cvar = []

/-- Every mean and quantile view holds. -/
def AllHold (assets : Fin N → Label) (R : Fin S → Fin N → ℝ) (v : Views) (x : Fin S → ℝ) : Prop :=
  (∀ kv ∈ v.mean, MeanHolds assets R x kv) ∧ ∀ kv ∈ v.quantile, QuantileHolds assets R x kv

private theorem meets_withOne {r : Rows S} {x : Fin S → ℝ} (hx : IsProb x) : MeetsRows (withOne r) x ↔ MeetsRows r x := by
  unfold MeetsRows
  simp only [List.mem_append, List.mem_singleton]
  refine and_congr_left fun _ => ⟨fun h p hp => h p (.inl hp), ?_⟩
  rintro h p (hp | rfl)
  · exact h p hp
  · simpa using hx.sum

private theorem kl_unique {p q q' : Fin S → ℝ} {r : Rows S} (h : IsKlPosterior p r q) (h' : IsKlPosterior p r q') : q' = q :=
  (h.2.2.2 q' h'.2.1 h'.2.2.1).2 (h'.2.2.2 q h.2.1 h.2.2.1).1

private theorem rows_exact {ep : Ep S} (hep : EpExact ep) {p : Fin S → ℝ} (hp : ∀ s, 0 < p s) (h1 : ∑ s, p s = 1) (r : Rows S) (q : Fin S → ℝ) :
    (if r.eq.isEmpty && r.ineq.isEmpty then Except.ok p else doEp ep p r) = .ok q ↔ IsKlPosterior p (withOne r) q := by
  split
  · rename_i hc
    obtain ⟨eq, ineq⟩ := r
    simp only [Bool.and_eq_true, List.isEmpty_iff] at hc
    obtain ⟨rfl, rfl⟩ := hc
    have hself : IsKlPosterior p (withOne ⟨[], []⟩) p :=
      klPosterior_self hp h1 ((meets_withOne ⟨fun s => (hp s).le, h1⟩).2 ⟨by simp, by simp⟩) (by simp)
    constructor
    · intro h; injection h with h; subst h; exact hself
    · intro h; rw [kl_unique hself h]
  · exact hep _ _ _

private theorem empty_build {α : Type} (f : α → Except PyErr (Rows S)) : (do let l ← mapE f []; Except.ok (Rows.concat l)) = .ok Rows.empty := rfl

private theorem concat_five (r : Rows S) : Rows.concat [r, Rows.empty, Rows.empty, Rows.empty, Rows.empty] = r := by
  simp [Rows.concat, Rows.append, Rows.empty]

/-- What a call with only mean and quantile views computes. -/
private theorem posterior_iff {ep : Ep S} (hep : EpExact ep) (argsort : (Fin S → ℝ) → Equiv.Perm (Fin S)) (round : ℝ → ℤ) {p0 : Fin S → ℝ}
    (hp : ∀ s, 0 < p0 s) (h1 : ∑ s, p0 s = 1) (assets : Fin N → Label) (R : Fin S → Fin N → ℝ) {v : Views} (hv : OnlyMeanQuantile v)
    (sequential : Bool) (q : Fin S → ℝ) :
    computePosterior ep argsort round p0 assets R v sequential = .ok q ↔
      ∃ r1 q1 r2, buildMean assets R v.mean = .ok r1 ∧ IsKlPosterior p0 (withOne r1) q1 ∧
        buildQuantile assets R v.quantile = .ok r2 ∧ IsKlPosterior q1 (withOne r2) q := by
  obtain ⟨mean, vol, var, skew, corr, quantile, cvar⟩ := v
  obtain ⟨e1, e2, e3, e4, e5⟩ := hv
  simp only at e1 e2 e3 e4 e5
  subst e1 e2 e3 e4 e5
  have hrest : ∀ q1 : Fin S → ℝ, (∀ s, 0 < q1 s) → ∑ s, q1 s = 1 → ∀ q, quantilePass ep assets R quantile q1 = .ok q ↔
      ∃ r2, buildQuantile assets R quantile = .ok r2 ∧ IsKlPosterior q1 (withOne r2) q := by
    intro q1 g1 g2 q
    unfold quantilePass
    cases quantile with
    | nil =>
      have := rows_exact hep g1 g2 (Rows.empty) q
      simp only [List.isEmpty_nil, if_true]
      rw [show (Except.ok q1 : Except PyErr (Fin S → ℝ)) = (if (Rows.empty (S := S)).eq.isEmpty && (Rows.empty (S := S)).ineq.isEmpty then Except.ok q1
        else doEp ep q1 Rows.empty) from rfl, this]
      exact ⟨fun h => ⟨_, rfl, h⟩, fun ⟨r2, h2, h3⟩ => by injection h2 with h2; subst h2; exact h3⟩
    | cons a l =>
      simp only [List.isEmpty_cons, Bool.false_eq_true, if_false, bind_ok]
      exact exists_congr fun r2 => and_congr_right fun _ => rows_exact hep g1 g2 r2 q
  have hmom : ∀ mu var q1, momentPass ep p0 assets R ⟨mean, [], [], [], [], quantile, []⟩ sequential mu var = .ok q1 ↔
      ∃ r1, buildMean assets R mean = .ok r1 ∧ IsKlPosterior p0 (withOne r1) q1 := by
    intro mu var q1
    unfold momentPass
    cases sequential with
    | false =>
      unfold simultaneousPass linPoint
      simp only [List.isEmpty_nil, Bool.and_self, Bool.not_true, Bool.and_false, Bool.false_eq_true, if_false, bind_ok, Except.ok.injEq, exists_eq_left',
        buildVol, buildVar, buildSkew, buildCorr, empty_build]
      refine exists_congr fun r1 => and_congr_right fun _ => ?_
      rw [concat_five]
      exact rows_exact hep hp h1 r1 q1
    | true =>
      cases mean with
      | nil =>
        have := rows_exact hep hp h1 (Rows.empty) q1
        have e : sequentialPass ep p0 R (blocksOf assets R ⟨[], [], [], [], [], quantile, []⟩) mu var = .ok p0 := rfl
        simp only [if_true, e]
        rw [show (Except.ok p0 : Except PyErr (Fin S → ℝ)) = (if (Rows.empty (S := S)).eq.isEmpty && (Rows.empty (S := S)).ineq.isEmpty then Except.ok p0
          else doEp ep p0 Rows.empty) from rfl, this]
        exact ⟨fun h => ⟨_, rfl, h⟩, fun ⟨r2, h2, h3⟩ => by injection h2 with h2; subst h2; exact h3⟩
      | cons a l =>
        have e : sequentialPass ep p0 R (blocksOf assets R ⟨a :: l, [], [], [], [], quantile, []⟩) mu var =
            (do let r ← buildMean assets R (a :: l); let q ← doEp ep p0 r; Except.ok q) := rfl
        simp only [if_true, e, bind_ok, Except.ok.injEq, exists_eq_right]
        exact exists_congr fun r1 => and_congr_right fun _ => hep _ _ _
  have hall : computePosterior ep argsort round p0 assets R ⟨mean, [], [], [], [], quantile, []⟩ sequential = .ok q ↔
      ∃ q1, momentPass ep p0 assets R ⟨mean, [], [], [], [], quantile, []⟩ sequential (meanOf R p0) (npVarW R p0) = .ok q1 ∧
        quantilePass ep assets R quantile q1 = .ok q := by
    unfold computePosterior
    simp only
    split
    · rename_i hc
      simp only [List.isEmpty_nil, Bool.and_true, Bool.and_eq_true, List.isEmpty_iff] at hc
      obtain ⟨rfl, rfl⟩ := hc
      have e : momentPass ep p0 assets R ⟨[], [], [], [], [], [], []⟩ sequential (meanOf R p0) (npVarW R p0) = .ok p0 := by
        cases sequential <;> rfl
      rw [e]
      constructor
      · intro h; injection h with h; subst h; exact ⟨p0, rfl, rfl⟩
      · rintro ⟨q1, h2, h3⟩
        injection h2 with h2; subst h2; exact h3
    · simp only [bind_ok, cvarPass, Except.ok.injEq, exists_eq_right]
  rw [hall]
  constructor
  · rintro ⟨q1, h2, h3⟩
    obtain ⟨r1, h4, h5⟩ := (hmom _ _ _).1 h2
    obtain ⟨r2, h6, h7⟩ := (hrest q1 h5.1 h5.2.1.sum q).1 h3
    exact ⟨r1, q1, r2, h4, h5, h6, h7⟩
  · rintro ⟨r1, q1, r2, h4, h5, h6, h7⟩
    exact ⟨q1, (hmom _ _ _).2 ⟨r1, h4, h5⟩, (hrest q1 h5.1 h5.2.1.sum q).2 ⟨r2, h6, h7⟩⟩

private theorem kl_nonneg {q p : Fin S → ℝ} (hq : IsProb q) (hp : ∀ s, 0 < p s) (h1 : ∑ s, p s = 1) : 0 ≤ kl q p ∧ (kl q p ≤ 0 → q = p) := by
  have := gibbs hq.nonneg hp
  rw [hq.sum, h1] at this
  refine ⟨by unfold kl; linarith, fun h => gibbs_eq hq.nonneg hp ?_⟩
  rw [hq.sum, h1]; unfold kl at h; linarith

/-- **C206** Mean and quantile views move the model towards every distribution that satisfies them: with exact entropy pooling, the posterior is at
most as far (in relative entropy) from any distribution `x` over the scenarios satisfying all the views as the prior was, strictly closer unless it
is the prior; with only mean or only quantile views the gain is at least the distance from the prior to the posterior. -/
theorem C206_towards_truth {ep : (S : ℕ) → Ep S} (hep : ∀ S, EpExact (ep S)) {argsort : (S : ℕ) → (Fin S → ℝ) → Equiv.Perm (Fin S)}
    {round : ℝ → ℤ} {src : Source} (hlab : Function.Injective src.assets) (hS : 0 < src.S) (hc : CleanPrior src.prior)
    {p0 : Fin src.S → ℝ} (hp : priorOf src.prior = .ok p0) {a : ViewArgs} {v : Views} (hv : viewsOf src.assets a = .ok v) (hkind : OnlyMeanQuantile v)
    {P : Processor} (h : process ep argsort round src a = .ok P) :
    ∃ q : Fin src.S → ℝ, P.probabilities = List.ofFn (fun s => PyFloat.fin (q s)) ∧
      ∀ x, IsProb x → AllHold src.assets src.R v x →
        kl x q ≤ kl x p0 ∧ (kl x p0 ≤ kl x q → q = p0) ∧ (v.mean = [] ∨ v.quantile = [] → kl x q + kl q p0 ≤ kl x p0) := by
  obtain ⟨p1, v1, q, h1, h2, h3, rfl⟩ := process_ok h
  rw [hp] at h1; injection h1 with h1; subst h1
  rw [hv] at h2; injection h2 with h2; subst h2
  refine ⟨q, rfl, fun x hx hall => ?_⟩
  have hpos := priorOf_pos hS hp
  have hprob := priorOf_prob hS hc hp
  obtain ⟨r1, q1, r2, b1, k1, b2, k2⟩ := (posterior_iff (hep src.S) (argsort src.S) round hpos hprob.sum src.assets src.R hkind a.sequential q).1 h3
  have y1 := klPosterior_pythagoras k1 hx ((meets_withOne hx).2 ((buildMean_meets hlab b1).2 hall.1))
  have y2 := klPosterior_pythagoras k2 hx ((meets_withOne hx).2 ((buildQuantile_meets hlab b2).2 hall.2))
  have z1 := kl_nonneg k1.2.1 hpos hprob.sum
  have z2 := kl_nonneg k2.2.1 k1.1 k1.2.1.sum
  refine ⟨by linarith, fun hle => ?_, ?_⟩
  · have e1 := z1.2 (by linarith)
    have e2 := z2.2 (by linarith)
    rw [e2, e1]
  · rintro (he | he)
    · have : q1 = p0 := by
        rw [he] at b1
        injection b1 with b1
        subst b1
        exact kl_unique (klPosterior_self hpos hprob.sum ((meets_withOne hprob).2 ⟨by simp [Rows.concat, Rows.empty], by simp [Rows.concat, Rows.empty]⟩) (by simp)) k1
      rw [← this]; exact y2
    · have : q = q1 := by
        rw [he] at b2
        injection b2 with b2
        subst b2
        exact kl_unique (klPosterior_self k1.1 k1.2.1.sum ((meets_withOne k1.2.1).2 ⟨by simp [Rows.concat, Rows.empty], by simp [Rows.concat, Rows.empty]⟩) (by simp)) k2
      rw [this]; exact y1

/-- With only mean views the posterior of a successful call is the distribution closest to the prior among those satisfying the views. -/
theorem mean_views_closest {ep : (S : ℕ) → Ep S} (hep : ∀ S, EpExact (ep S)) {argsort : (S : ℕ) → (Fin S → ℝ) → Equiv.Perm (Fin S)}
    {round : ℝ → ℤ} {src : Source} (hlab : Function.Injective src.assets) (hS : 0 < src.S) (hc : CleanPrior src.prior)
    {p0 : Fin src.S → ℝ} (hp : priorOf src.prior = .ok p0) {a : ViewArgs} {v : Views} (hv : viewsOf src.assets a = .ok v) (hkind : OnlyMeanQuantile v)
    (hq : v.quantile = []) {q : Fin src.S → ℝ} (h3 : computePosterior (ep src.S) (argsort src.S) round p0 src.assets src.R v a.sequential = .ok q) :
    (∀ s, 0 < q s) ∧ ∀ x, IsProb x → (∀ kv ∈ v.mean, MeanHolds src.assets src.R x kv) → kl q p0 ≤ kl x p0 ∧ (kl x p0 ≤ kl q p0 → x = q) := by
  have hpos := priorOf_pos hS hp
  have hprob := priorOf_prob hS hc hp
  obtain ⟨r1, q1, r2, b1, k1, b2, k2⟩ := (posterior_iff (hep src.S) (argsort src.S) round hpos hprob.sum src.assets src.R hkind a.sequential q).1 h3
  have : q = q1 := by
    rw [hq] at b2
    injection b2 with b2
    subst b2
    exact kl_unique (klPosterior_self k1.1 k1.2.1.sum ((meets_withOne k1.2.1).2 ⟨by simp [Rows.concat, Rows.empty], by simp [Rows.concat, Rows.empty]⟩) (by simp)) k2
  subst this
  exact ⟨k1.1, fun x hx hm => k1.2.2.2 x hx ((meets_withOne hx).2 ((buildMean_meets hlab b1).2 hm))⟩

/-- **C207** Stronger views move the model further: take two calls on the same scenarios and prior, both with only mean views or both with only
quantile views, such that every distribution satisfying the second call's views satisfies the first call's (views were added, bounds tightened, an
inequality replaced by an equality).  Then the second posterior is at least as far from the prior as the first, and if the first posterior
already satisfies the second call's views the two are equal. -/
theorem C207_stronger_views {ep : (S : ℕ) → Ep S} (hep : ∀ S, EpExact (ep S)) {argsort : (S : ℕ) → (Fin S → ℝ) → Equiv.Perm (Fin S)}
    {round : ℝ → ℤ} {src : Source} (hlab : Function.Injective src.assets) (hS : 0 < src.S) (hc : CleanPrior src.prior)
    {p0 : Fin src.S → ℝ} (hp : priorOf src.prior = .ok p0) {a a' : ViewArgs} {v v' : Views} (hv : viewsOf src.assets a = .ok v)
    (hv' : viewsOf src.assets a' = .ok v') (hkind : OnlyMeanQuantile v) (hkind' : OnlyMeanQuantile v')
    (hone : (v.quantile = [] ∧ v'.quantile = []) ∨ (v.mean = [] ∧ v'.mean = []))
    (himp : ∀ x, IsProb x → AllHold src.assets src.R v' x → AllHold src.assets src.R v x)
    {P P' : Processor} (h : process ep argsort round src a = .ok P) (h' : process ep argsort round src a' = .ok P') :
    ∃ q q' : Fin src.S → ℝ, P.probabilities = List.ofFn (fun s => PyFloat.fin (q s)) ∧ P'.probabilities = List.ofFn (fun s => PyFloat.fin (q' s)) ∧
      kl q p0 ≤ kl q' p0 ∧ (AllHold src.assets src.R v' q → q' = q) := by
  obtain ⟨p1, v1, q, h1, h2, h3, rfl⟩ := process_ok h
  rw [hp] at h1; injection h1 with h1; subst h1
  rw [hv] at h2; injection h2 with h2; subst h2
  obtain ⟨p1, v1, q', h1, h2, h3', rfl⟩ := process_ok h'
  rw [hp] at h1; injection h1 with h1; subst h1
  rw [hv'] at h2; injection h2 with h2; subst h2
  refine ⟨q, q', rfl, rfl, ?_⟩
  have hpos := priorOf_pos hS hp
  have hprob := priorOf_prob hS hc hp
  have key : ∃ r r', (∀ x, IsProb x → (MeetsRows r x ↔ AllHold src.assets src.R v x)) ∧ (∀ x, IsProb x → (MeetsRows r' x ↔ AllHold src.assets src.R v' x)) ∧
      IsKlPosterior p0 r q ∧ IsKlPosterior p0 r' q' := by
    obtain ⟨r1, q1, r2, b1, k1, b2, k2⟩ := (posterior_iff (hep src.S) (argsort src.S) round hpos hprob.sum src.assets src.R hkind a.sequential q).1 h3
    obtain ⟨r1', q1', r2', b1', k1', b2', k2'⟩ :=
      (posterior_iff (hep src.S) (argsort src.S) round hpos hprob.sum src.assets src.R hkind' a'.sequential q').1 h3'
    have hsame : ∀ {p q : Fin src.S → ℝ} {r : Rows src.S}, (∀ s, 0 < p s) → IsProb p → r = Rows.empty → IsKlPosterior p (withOne r) q → q = p := by
      rintro p q r g1 g2 rfl g3
      exact kl_unique (klPosterior_self g1 g2.sum ((meets_withOne g2).2 ⟨by simp [Rows.empty], by simp [Rows.empty]⟩) (by simp)) g3
    rcases hone with ⟨e, e'⟩ | ⟨e, e'⟩
    · have a1 : q = q1 := hsame k1.1 k1.2.1 (by rw [e] at b2; injection b2 with b2; exact b2.symm) k2
      have a2 : q' = q1' := hsame k1'.1 k1'.2.1 (by rw [e'] at b2'; injection b2' with b2'; exact b2'.symm) k2'
      refine ⟨withOne r1, withOne r1', fun x hx => ?_, fun x hx => ?_, a1 ▸ k1, a2 ▸ k1'⟩
      · rw [meets_withOne hx, buildMean_meets hlab b1]; simp [AllHold, e]
      · rw [meets_withOne hx, buildMean_meets hlab b1']; simp [AllHold, e']
    · have a1 : q1 = p0 := hsame hpos hprob (by rw [e] at b1; injection b1 with b1; exact b1.symm) k1
      have a2 : q1' = p0 := hsame hpos hprob (by rw [e'] at b1'; injection b1' with b1'; exact b1'.symm) k1'
      rw [a1] at k2
      rw [a2] at k2'
      refine ⟨withOne r2, withOne r2', fun x hx => ?_, fun x hx => ?_, k2, k2'⟩
      · rw [meets_withOne hx, buildQuantile_meets hlab b2]; simp [AllHold, e]
      · rw [meets_withOne hx, buildQuantile_meets hlab b2']; simp [AllHold, e']
  obtain ⟨r, r', m, m', k, k'⟩ := key
  refine ⟨(k.2.2.2 q' k'.2.1 ((m q' k'.2.1).2 (himp q' k'.2.1 ((m' q' k'.2.1).1 k'.2.2.1)))).1, fun hall => ?_⟩
  have g : IsKlPosterior p0 r' q :=
    ⟨k.1, k.2.1, (m' q k.2.1).2 hall, fun x hx hm => k.2.2.2 x hx ((m x hx).2 (himp x hx ((m' x hx).1 hm)))⟩
  exact kl_unique g k'

/-- Only equality views on means. -/
def EqualityMeans (v : Views) : Prop :=
  OnlyMeanQuantile v ∧ v.quantile = [] ∧ ∀ kv ∈ v.mean, ∃ t, kv.2 = .scalar (.fin t) ∨ kv.2 = .spec .eq (.fin t)

private theorem equality_rows {assets : Fin N → Label} {R : Fin S → Fin N → ℝ} {views : List (MKey × ViewVal)}
    (hv : ∀ kv ∈ views, ∃ t, kv.2 = .scalar (.fin t) ∨ kv.2 = .spec .eq (.fin t)) {r : Rows S} (h : buildMean assets R views = .ok r) : r.ineq = [] := by
  unfold buildMean at h
  simp only [bind_ok] at h
  obtain ⟨rows, h1, h2⟩ := h
  injection h2 with h2
  subst h2
  rw [List.eq_nil_iff_forall_not_mem]
  intro p hp
  rw [mem_concat_ineq] at hp
  obtain ⟨r, hr, hp⟩ := hp
  obtain ⟨kv, hkv, hrow⟩ := (mapE_mem h1 r).1 hr
  rw [bind_ok] at hrow
  obtain ⟨row, -, hrow⟩ := hrow
  obtain ⟨t, ht⟩ := hv kv hkv
  have : r.ineq = [] := by
    rcases ht with ht | ht <;> rw [ht] at hrow <;> injection hrow with hrow <;> subst hrow <;> rfl
  rw [this] at hp
  cases hp

/-- **C208** Views can be entered in instalments: after a call whose views are equalities on means, a second call that starts from its posterior and
states views implying the first ones (normally: the first ones and more, of the mean and quantile kinds) gives exactly the processor obtained from
the original prior in one call; it raises if and only if that call raises. -/
theorem C208_instalments {ep : (S : ℕ) → Ep S} (hep : ∀ S, EpExact (ep S)) {argsort : (S : ℕ) → (Fin S → ℝ) → Equiv.Perm (Fin S)}
    {round : ℝ → ℤ} {R : Fin S → Fin N → ℝ} {assets : Fin N → Label} {pandas : Bool} (hlab : Function.Injective assets) (hS : 0 < S)
    {prior : Option (Fin S → PyFloat ℝ)} (hc : CleanPrior prior) {p0 : Fin S → ℝ} (hp : priorOf prior = .ok p0)
    {a a' : ViewArgs} {v v' : Views} (hv : viewsOf assets a = .ok v) (hv' : viewsOf assets a' = .ok v')
    (hkind : EqualityMeans v) (hkind' : OnlyMeanQuantile v')
    (himp : ∀ x, IsProb x → (∀ kv ∈ v'.mean, MeanHolds assets R x kv) → ∀ kv ∈ v.mean, MeanHolds assets R x kv)
    {q m C} (h : process ep argsort round ⟨S, N, R, assets, pandas, prior⟩ a = .ok ⟨S, N, R, assets, pandas, q, m, C⟩) :
    (∀ P, process ep argsort round ⟨S, N, R, assets, pandas, some fun s => .fin (q s)⟩ a' = .ok P ↔
      process ep argsort round ⟨S, N, R, assets, pandas, prior⟩ a' = .ok P) ∧
    ((∃ e, process ep argsort round ⟨S, N, R, assets, pandas, some fun s => .fin (q s)⟩ a' = .error e) ↔
      ∃ e, process ep argsort round ⟨S, N, R, assets, pandas, prior⟩ a' = .error e) := by
  have hpos := priorOf_pos hS hp
  have hprob := priorOf_prob hS hc hp
  obtain ⟨p1, v1, q2, h1, h2, h3, h4⟩ := process_ok h
  injection h4 with _ _ _ _ _ h4 _ _
  subst h4
  simp only at h1 h2 h3
  rw [hp] at h1; injection h1 with h1; subst h1
  rw [hv] at h2; injection h2 with h2; subst h2
  obtain ⟨hk1, hk2, hk3⟩ := hkind
  have hfirst : ∃ r, r.ineq = [] ∧ (∀ x, IsProb x → (MeetsRows r x ↔ ∀ kv ∈ v.mean, MeanHolds assets R x kv)) ∧ IsKlPosterior p0 r q := by
    obtain ⟨r1, q1, r2, b1, k1, b2, k2⟩ := (posterior_iff (hep S) (argsort S) round hpos hprob.sum assets R hk1 a.sequential q).1 h3
    have : q = q1 := by
      rw [hk2] at b2
      injection b2 with b2
      subst b2
      exact kl_unique (klPosterior_self k1.1 k1.2.1.sum ((meets_withOne k1.2.1).2 ⟨by simp [Rows.concat, Rows.empty], by simp [Rows.concat, Rows.empty]⟩) (by simp)) k2
    exact ⟨withOne r1, show r1.ineq = [] from equality_rows hk3 b1, fun x hx => by rw [meets_withOne hx, buildMean_meets hlab b1], this ▸ k1⟩
  obtain ⟨r, hr0, hr, hk⟩ := hfirst
  have hq := priorOf_self hS hk.1 hk.2.1.sum
  have hpyth : ∀ x, IsProb x → (∀ kv ∈ v'.mean, MeanHolds assets R x kv) → kl x q + kl q p0 = kl x p0 := fun x hx hx' =>
    klPosterior_pythagoras_eq hr0 hk hx ((hr x hx).2 (himp x hx hx'))
  have hpost : ∀ q', computePosterior (ep S) (argsort S) round q assets R v' a'.sequential = .ok q' ↔
      computePosterior (ep S) (argsort S) round p0 assets R v' a'.sequential = .ok q' := by
    intro q'
    rw [posterior_iff (hep S) (argsort S) round hpos hprob.sum assets R hkind' a'.sequential q',
      posterior_iff (hep S) (argsort S) round hk.1 hk.2.1.sum assets R hkind' a'.sequential q']
    refine exists_congr fun r1 => exists_congr fun q1 => exists_congr fun r2 => and_congr_right fun b1 => and_congr_left fun _ => ?_
    have hm : ∀ x, IsProb x → (MeetsRows (withOne r1) x ↔ ∀ kv ∈ v'.mean, MeanHolds assets R x kv) := fun x hx => by
      rw [meets_withOne hx, buildMean_meets hlab b1]
    unfold IsKlPosterior
    refine and_congr_right fun _ => and_congr_right fun g1 => and_congr_right fun g2 => ?_
    refine forall_congr' fun x => forall_congr' fun hx => forall_congr' fun hx' => ?_
    rw [← hpyth x hx ((hm x hx).1 hx'), ← hpyth q1 g1 ((hm q1 g1).1 g2)]
    simp
  have hproc : ∀ {pr : Option (Fin S → PyFloat ℝ)} {p : Fin S → ℝ}, priorOf pr = .ok p → ∀ P,
      process ep argsort round ⟨S, N, R, assets, pandas, pr⟩ a' = .ok P ↔ N ≠ 1 ∧ ∃ q,
        computePosterior (ep S) (argsort S) round p assets R v' a'.sequential = .ok q ∧ P = ⟨S, N, R, assets, pandas, q, meanOf R q, npCovW R q⟩ := by
    intro pr p hpr P
    unfold process
    simp only [hpr, bind_ok, Except.ok.injEq, exists_eq_left']
    by_cases h1 : N = 1
    · simp [h1]
    · rw [if_neg h1]
      simp only [hv', bind_ok, Except.ok.injEq, exists_eq_left', ne_eq, h1, not_false_eq_true, true_and]
      exact ⟨fun ⟨q, e2, e3⟩ => ⟨q, e2, e3.symm⟩, fun ⟨q, e2, e3⟩ => ⟨q, e2, e3.symm⟩⟩
  have hok : ∀ P, process ep argsort round ⟨S, N, R, assets, pandas, some fun s => .fin (q s)⟩ a' = .ok P ↔
      process ep argsort round ⟨S, N, R, assets, pandas, prior⟩ a' = .ok P := by
    intro P
    rw [hproc hq, hproc hp]
    simp only [hpost]
  refine ⟨hok, ?_⟩
  generalize process ep argsort round ⟨S, N, R, assets, pandas, some fun s => .fin (q s)⟩ a' = x at hok
  generalize process ep argsort round ⟨S, N, R, assets, pandas, prior⟩ a' = y at hok
  cases x with
  | ok P => rw [(hok P).1 rfl]
  | error e =>
    cases y with
    | ok P => have := (hok P).2 rfl; cases this
    | error e' => exact ⟨fun _ => ⟨e', rfl⟩, fun _ => ⟨e, rfl⟩⟩

/-! ## A worked case: the view that an asset returning −1, 0 or 1 has mean 3/7 -/

private theorem info_labels : Function.Injective cexAssets := by
  intro i j h; fin_cases i <;> fin_cases j <;> simp [cexAssets] at h ⊢

/-- The views of the worked case. -/
private noncomputable abbrev infoViews (l : List (MKey × ViewVal)) : Views := ⟨(.single (.str "a"), .scalar (.fin (3 / 7))) :: l, [], [], [], [], [], []⟩

private theorem info_call (argsort : (S : ℕ) → (Fin S → ℝ) → Equiv.Perm (Fin S)) (round : ℝ → ℤ) :
    process (fun _ => optimalEp) argsort round ⟨3, 2, cexR, cexAssets, true, none⟩ { mean := .dict (infoViews []).mean } =
      .ok ⟨3, 2, cexR, cexAssets, true, cexQ1, meanOf cexR cexQ1, npCovW cexR cexQ1⟩ := by
  unfold process
  rw [bind_ok]
  refine ⟨fun _ => 1 / ((3 : ℕ) : ℝ), rfl, ?_⟩
  rw [if_neg (by norm_num)]
  simp only [bind_ok]
  refine ⟨infoViews [], rfl, cexQ1, ?_, rfl⟩
  rw [posterior_iff optimalEp_exact _ round (fun _ => by norm_num) (by simp) _ _ ⟨rfl, rfl, rfl, rfl, rfl⟩]
  refine ⟨⟨[(fun s => cexR s 0, 3/7)], []⟩, cexQ1, Rows.empty, rfl, ?_, rfl, ?_⟩
  · have : (fun _ : Fin 3 => 1 / ((3 : ℕ) : ℝ)) = fun _ => 1 / 3 := by funext; norm_num
    rw [this]
    exact cex_step1
  · exact klPosterior_self cex_step1.1 cex_step1.2.1.sum ((meets_withOne cex_step1.2.1).2 ⟨by simp [Rows.empty], by simp [Rows.empty]⟩) (by simp)

/-- The posterior (1/7, 2/7, 4/7) is closer than the uniform prior to (0, 4/7, 3/7), which has mean 3/7 as well. -/
example : kl ![0, 4 / 7, 3 / 7] cexQ1 ≤ kl ![0, 4 / 7, 3 / 7] (fun _ => (1 : ℝ) / 3) := by
  obtain ⟨q, hq, h⟩ := C206_towards_truth (fun _ => optimalEp_exact) (argsort := fun _ _ => 1) (round := fun _ => 0) (src := ⟨3, 2, cexR, cexAssets, true, none⟩)
    info_labels (by norm_num) (by intro p hp; cases hp) (p0 := fun _ => 1 / ((3 : ℕ) : ℝ)) rfl (v := infoViews []) rfl ⟨rfl, rfl, rfl, rfl, rfl⟩
    (info_call _ _)
  have e : q = cexQ1 := by
    funext s
    have h2 : (List.ofFn fun s => PyFloat.fin (cexQ1 s)) = List.ofFn fun s => PyFloat.fin (q s) := hq
    have := congrFun (List.ofFn_injective h2) s
    injection this with this
    exact this.symm
  have := (h ![0, 4 / 7, 3 / 7] ⟨fun s => by fin_cases s <;> simp <;> norm_num, by simp [Fin.sum_univ_three]; norm_num⟩ ⟨?_, by simp⟩).1
  · rw [e] at this
    have e3 : (fun _ : Fin 3 => 1 / ((3 : ℕ) : ℝ)) = fun _ => 1 / 3 := by funext; norm_num
    rw [e3] at this
    exact this
  · intro kv hkv
    simp only [List.mem_cons, List.not_mem_nil, or_false] at hkv
    subst hkv
    refine ⟨0, .inl rfl, ?_⟩
    simp [Says, meanAt, expect, Fin.sum_univ_three, cexR]

/-- Repeating the call from its own posterior changes nothing. -/
example (argsort : (S : ℕ) → (Fin S → ℝ) → Equiv.Perm (Fin S)) (round : ℝ → ℤ) :
    process (fun _ => optimalEp) argsort round ⟨3, 2, cexR, cexAssets, true, some fun s => .fin (cexQ1 s)⟩ { mean := .dict (infoViews []).mean } =
      .ok ⟨3, 2, cexR, cexAssets, true, cexQ1, meanOf cexR cexQ1, npCovW cexR cexQ1⟩ :=
  ((C208_instalments (fun _ => optimalEp_exact) info_labels (by norm_num) (by intro p hp; cases hp) rfl (v := infoViews []) (v' := infoViews []) rfl rfl
    ⟨⟨rfl, rfl, rfl, rfl, rfl⟩, rfl, by simp⟩ ⟨rfl, rfl, rfl, rfl, rfl⟩ (fun _ _ h => h) (info_call argsort round)).1 _).2 (info_call argsort round)

/-- A second, weaker demand on the same mean is implied, and the hypotheses of `C207_stronger_views` hold. -/
example (x : Fin 3 → ℝ) (h : AllHold cexAssets cexR (infoViews [(.single (.str "a"), .spec .le (.fin (1 / 2)))]) x) :
    AllHold cexAssets cexR (infoViews []) x :=
  ⟨fun kv hkv => h.1 kv (by simp only [List.mem_cons, List.not_mem_nil, or_false] at hkv ⊢; exact .inl hkv), by simp⟩

/-- C28, C157: the uniform prior given as numbers, with the ranking `a ≥ b` (both means are zero). -/
example (argsort : (S : ℕ) → (Fin S → ℝ) → Equiv.Perm (Fin S)) (round : ℝ → ℤ) :
    ∃ P, process (fun _ => optimalEp) argsort round ⟨3, 2, cexR, cexAssets, true, some fun _ => .fin ((1 : ℝ) / (3 : ℕ))⟩
      { rankMean := some [.str "a", .str "b"] } = .ok P := by
  have hp : priorOf (some fun _ : Fin 3 => PyFloat.fin ((1 : ℝ) / (3 : ℕ))) = .ok fun _ => (1 : ℝ) / (3 : ℕ) := by
    exact priorOf_self (by norm_num) (fun _ => by norm_num) (by simp)
  exact ⟨_, (C188_satisfied_views_partial (fun _ => optimalEp_exact) argsort round
    (src := ⟨3, 2, cexR, cexAssets, true, some fun _ => .fin ((1 : ℝ) / (3 : ℕ))⟩) (by norm_num) (by norm_num) met_labels
    (by
      intro p h v hv
      injection h with h
      subst h
      have : v = fun _ => (1 : ℝ) / (3 : ℕ) := by funext s; have := hv s; injection this with this; exact this.symm
      left; rw [this]; simp) hp (v := ⟨[(.pair (.str "a") (.str "b"), .spec .ge (.fin 0))], [], [], [], [], [], []⟩) rfl
    ⟨by
      intro kv hkv
      simp only [List.mem_cons, List.not_mem_nil, or_false] at hkv
      subst hkv
      exact ⟨⟨⟨0, .inl rfl⟩, ⟨1, .inl rfl⟩⟩, 0, le_refl (0:ℝ)⟩, by simp, by simp, by simp, by simp, by simp, by simp⟩
    ⟨by
      intro kv hkv
      simp only [List.mem_cons, List.not_mem_nil, or_false] at hkv
      subst hkv
      refine ⟨0, 1, .inl rfl, .inl rfl, ?_⟩
      show (0 : ℝ) ≤ _
      rw [met_mean, met_mean]; norm_num, by simp, by simp, by simp, by simp, by simp, by simp, by simp⟩ rfl).1⟩

end PyV.Props
