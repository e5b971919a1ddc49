import Verif.Props.BlackLittermanHandoff
import Mathlib.Tactic

/-! # Properties C287–C288: reverse optimisation — what the Black–Litterman posterior makes optimal -/

namespace PyV.Props

open PyV PyV.FV PyV.BL PyV.Api PyV.Spec.Api PyV.Opt PyV.Spec.Opt PyV.Spec.Con PyV.Spec Matrix
open PyV.Spec.BL (IsRow Asks)

/-- `mw` are the market weights of a call whose prior mean is to be implied by them: no explicit prior mean, and a sum that can be divided by. -/
def ImpliedBy (x : Inputs) (mw : Fin x.r → ℝ) : Prop :=
  x.pi = none ∧ x.marketWeights = some (List.ofFn mw) ∧ ∑ i, mw i ≠ 0

/-- The market portfolio: capitalisations divided by their sum. -/
noncomputable def market {N : ℕ} (mw : Fin N → ℝ) (i : Fin N) : ℝ := mw i / ∑ k, mw k

/-- The utility of a fully described portfolio problem: expected return less half the risk aversion times the variance. -/
noncomputable def utility {N : ℕ} (delta : ℝ) (mu : Fin N → ℝ) (S : Matrix (Fin N) (Fin N) ℝ) (y : Fin N → ℝ) : ℝ :=
  ∑ i, mu i * y i - delta / 2 * ∑ i, ∑ j, y i * S i j * y j

private theorem asks {x : Inputs} {mw : Fin x.r → ℝ} (hi : ImpliedBy x mw) (S : Matrix (Fin x.r) (Fin x.r) ℝ) :
    AsksPrior x S (x.riskAversion • S *ᵥ market mw) :=
  Or.inr (Or.inl ⟨hi.1, mw, hi.2.1, hi.2.2, fun _ => rfl⟩)

/-- `y` beating `m` on return against the mean `δ Σ m`, with no more variance, is `m`. -/
private theorem reverse {N : ℕ} {S : Matrix (Fin N) (Fin N) ℝ} (hS : S.PosDef) {delta : ℝ} (hd : 0 < delta) {m y : Fin N → ℝ}
    (hret : ∑ i, (delta • S *ᵥ m) i * m i ≤ ∑ i, (delta • S *ᵥ m) i * y i) (hv : y ⬝ᵥ S *ᵥ y ≤ m ⬝ᵥ S *ᵥ m) : y = m := by
  have hs := PyV.BL.symm_of_psd hS.posSemidef
  have e : ∀ z : Fin N → ℝ, ∑ i, (delta • S *ᵥ m) i * z i = delta * (z ⬝ᵥ S *ᵥ m) := by
    intro z
    simp only [dotProduct, Finset.mul_sum, Pi.smul_apply, smul_eq_mul]
    exact Finset.sum_congr rfl fun i _ => by ring
  rw [e, e] at hret
  have h1 : m ⬝ᵥ S *ᵥ m ≤ y ⬝ᵥ S *ᵥ m := le_of_mul_le_mul_left hret hd
  have h2 : m ⬝ᵥ S *ᵥ y = y ⬝ᵥ S *ᵥ m := dot_mulVec_symm hs _ _
  have h3 : (y - m) ⬝ᵥ S *ᵥ (y - m) = y ⬝ᵥ S *ᵥ y - 2 * (y ⬝ᵥ S *ᵥ m) + m ⬝ᵥ S *ᵥ m := by
    rw [mulVec_sub, dotProduct_sub, sub_dotProduct, sub_dotProduct, h2]; ring
  by_contra hne
  have := hS.dotProduct_mulVec_pos (x := y - m) (sub_ne_zero.mpr hne)
  rw [star_trivial] at this
  linarith

/-- **C287** (posterior) Without views, a call whose prior is implied by market weights returns the market-implied means — `δ Σ m` with the market
portfolio `m` — and the prior covariance; the market portfolio has the largest utility at those moments, and no other portfolio has as large a
utility. -/
theorem C287_posterior {x : Inputs} (h : x.r = x.c) (hra : 0 < x.riskAversion) {mw : Fin x.r → ℝ} (hi : ImpliedBy x mw)
    (hv : AsksViews x []) (hc : ∀ l, x.conf = .array l → l = []) (hS : (Matrix.of fun i j => x.cov i (Fin.cast h j)).PosDef) :
    ∃ mu : Fin x.r → ℝ, BL.processor x = .ok ⟨List.ofFn mu, Matrix.of fun i j => x.cov i (Fin.cast h j), x.labels⟩ ∧
      (∀ i, mu i = x.riskAversion * ∑ j, x.cov i (Fin.cast h j) * (mw j / ∑ k, mw k)) ∧
      ∀ y, y ≠ market mw → utility x.riskAversion mu (Matrix.of fun i j => x.cov i (Fin.cast h j)) y <
        utility x.riskAversion mu (Matrix.of fun i j => x.cov i (Fin.cast h j)) (market mw) := by
  have hs := PyV.BL.symm_of_psd hS.posSemidef
  have hsig : x.sigma h = Matrix.of fun i j => x.cov i (Fin.cast h j) := symmetrise_of_symm hs
  have hp := C130_no_views h hra (asks hi (x.sigma h)) hv hc
  rw [hsig] at hp
  refine ⟨_, hp, fun i => rfl, fun y hne => ?_⟩
  set S := Matrix.of fun i j => x.cov i (Fin.cast h j) with hSdef
  set m := market mw
  have e : ∀ z : Fin x.r → ℝ, utility x.riskAversion (x.riskAversion • S *ᵥ m) S z = x.riskAversion * (z ⬝ᵥ S *ᵥ m - 1 / 2 * (z ⬝ᵥ S *ᵥ z)) := by
    intro z
    unfold utility
    have e1 : ∑ i, (x.riskAversion • S *ᵥ m) i * z i = x.riskAversion * (z ⬝ᵥ S *ᵥ m) := by
      simp only [dotProduct, Finset.mul_sum, Pi.smul_apply, smul_eq_mul]
      exact Finset.sum_congr rfl fun i _ => by ring
    have e2 : ∑ i, ∑ j, z i * S i j * z j = z ⬝ᵥ S *ᵥ z := quad_dot (fun i j => S i j) z
    rw [e1, e2]; ring
  rw [e, e]
  refine mul_lt_mul_of_pos_left ?_ hra
  have h2 : m ⬝ᵥ S *ᵥ y = y ⬝ᵥ S *ᵥ m := dot_mulVec_symm hs _ _
  have h3 : (y - m) ⬝ᵥ S *ᵥ (y - m) = y ⬝ᵥ S *ᵥ y - 2 * (y ⬝ᵥ S *ᵥ m) + m ⬝ᵥ S *ᵥ m := by
    rw [mulVec_sub, dotProduct_sub, sub_dotProduct, sub_dotProduct, h2]; ring
  have := hS.dotProduct_mulVec_pos (x := y - m) (sub_ne_zero.mpr hne)
  rw [star_trivial] at this
  linarith

/-- **C287** (round trip) Hand that posterior to the portfolio class with any constraints that allow the market portfolio and bound the weights:
the smallest-variance portfolio whose expected return is at least the market's is the market portfolio itself. -/
theorem C287_round_trip {x : Inputs} (h : x.r = x.c) (hN : 0 < x.r) (hra : 0 < x.riskAversion) {mw : Fin x.r → ℝ} (hi : ImpliedBy x mw)
    (hv : AsksViews x []) (hc : ∀ l, x.conf = .array l → l = []) (hS : (Matrix.of fun i j => x.cov i (Fin.cast h j)).PosDef)
    (htau : 0 ≤ x.tau) (hU : UserOmegaPsd x.omega) {p : Post x.r} (hp : BL.processor x = .ok p) (name : Label → String)
    {solver : Opt.Solver} (hsnd : Sound solver) (hcmp : Complete solver) (c : PyV.Con.Spec ℝ) (lo : Bool) (t : Option (PyFloat ℝ))
    (bd : Option (PyV.Con.Bounds ℝ)) :
    ∃ mu : Fin x.r → ℝ, ∃ d, p.mu = List.ofFn mu ∧
      Api.fromMoments (p.meanArg name) (p.covArg name) "simple" = .ok ⟨x.r, some mu, some p.cov, none, d⟩ ∧
      ∀ w : Wrapper x.r, mkWrapper ⟨x.r, some mu, some p.cov, none, d⟩ (some c) none lo t bd = .ok w →
        (∃ M, ∀ y : Fin x.r → ℝ, Satisfies c y → ∀ i, |y i| ≤ M) → Satisfies c (market mw) →
        ∃ r, w.minVarianceAtReturn solver (∑ i, mu i * market mw i) none none = .ok r ∧ r.w = market mw ∧
          r.ret = ∑ i, mu i * market mw i ∧ r.risk = Real.sqrt (market mw ⬝ᵥ p.cov *ᵥ market mw) := by
  have hsig : x.sigma h = Matrix.of fun i j => x.cov i (Fin.cast h j) := symmetrise_of_symm (PyV.BL.symm_of_psd hS.posSemidef)
  have hp' := C130_no_views h hra (asks hi (x.sigma h)) hv hc
  rw [hsig] at hp'
  obtain ⟨mu, hm, hpsd, hd⟩ := C164_moments h hN hra (asks hi (x.sigma h)) hv hS.posSemidef htau hU hp name "simple" (by decide)
  refine ⟨mu, _, hm, hd, ?_⟩
  rw [hp] at hp'
  injection hp' with hp'
  have hcov' : p.cov = Matrix.of fun i j => x.cov i (Fin.cast h j) := by rw [hp']
  have hmu' : mu = x.riskAversion • (Matrix.of fun i j => x.cov i (Fin.cast h j)) *ᵥ market mw := by
    have : p.mu = List.ofFn (x.riskAversion • (Matrix.of fun i j => x.cov i (Fin.cast h j)) *ᵥ market mw) := by rw [hp']
    exact List.ofFn_injective (hm.symm.trans this)
  intro w hw hb hfeas
  have hex : ∃ y : Fin x.r → ℝ, ¬ Satisfies c y := by
    obtain ⟨M, hM⟩ := hb
    refine ⟨fun _ => |M| + 1, fun hy => ?_⟩
    have := hM _ hy ⟨0, hN⟩
    rw [abs_of_nonneg (by positivity)] at this
    linarith [le_abs_self M]
  obtain ⟨hin, hmu, hcov, -⟩ := C105_constructor hw hex
  have hw' := hw
  unfold Api.mkWrapper at hw'
  split at hw'
  · cases hw'
  · simp only [Api.applyCosts] at hw'
    injection hw' with hw'
    have hlog : w.isLog = false := by rw [← hw']
    have htr : Trading w none none none none := Or.inr ⟨rfl, by rw [← hw']; rfl⟩
    have hcv : IsCov (fun i j => p.cov i j) := by
      refine ⟨fun i j => ?_, fun y => ?_⟩
      · have := hpsd.1.apply j i
        simpa using this
      · have := hpsd.dotProduct_mulVec_nonneg y
        rw [star_trivial] at this
        show 0 ≤ quad (fun i j => p.cov i j) y
        rw [quad_dot]
        exact this
    obtain ⟨hgood, -⟩ := C107_min_variance_at_return hsnd hcmp w _ _ hmu hcov hlog hcv none c hin hb none none none none htr
      (by intro l hl; cases hl) (∑ i, mu i * market mw i)
    obtain ⟨r, hr, -, hge, hret, hrisk, hopt⟩ := hgood ⟨market mw, hfeas, le_rfl⟩
    have hrw : r.w = market mw := by
      refine reverse (S := Matrix.of fun i j => x.cov i (Fin.cast h j)) hS hra ?_ ?_
      · rw [← hmu']
        rw [hret] at hge
        exact hge
      · have := hopt (market mw) hfeas le_rfl
        simp only [varianceCost, quad_dot] at this
        rw [← hcov']
        simp only [Option.getD_none, Pi.zero_apply, zero_mul, Finset.sum_const_zero, add_zero] at this
        exact this
    refine ⟨r, hr, hrw, ?_, ?_⟩
    · rw [hret, hrw]; rfl
    · rw [hrisk, hrw, quad_dot]; rfl

/-- A portfolio no other one beats in utility satisfies the first-order conditions. -/
private theorem first_order {N : ℕ} {delta : ℝ} {mu : Fin N → ℝ} {S : Matrix (Fin N) (Fin N) ℝ} (hs : Sᵀ = S) {y : Fin N → ℝ}
    (hopt : ∀ z, utility delta mu S z ≤ utility delta mu S y) : mu = delta • S *ᵥ y := by
  have e : ∀ z : Fin N → ℝ, utility delta mu S z = z ⬝ᵥ mu - delta / 2 * (z ⬝ᵥ S *ᵥ z) := by
    intro z
    unfold utility
    rw [show ∑ i, ∑ j, z i * S i j * z j = z ⬝ᵥ S *ᵥ z from quad_dot (fun i j => S i j) z]
    congr 1
    exact Finset.sum_congr rfl fun i _ => by ring
  set g := mu - delta • S *ᵥ y with hg
  have hline : ∀ s : ℝ, s * (g ⬝ᵥ g) ≤ s ^ 2 * (delta / 2 * (g ⬝ᵥ S *ᵥ g)) := by
    intro s
    have := hopt (y + s • g)
    rw [e, e] at this
    have h1 : (y + s • g) ⬝ᵥ S *ᵥ (y + s • g) = y ⬝ᵥ S *ᵥ y + 2 * s * (g ⬝ᵥ S *ᵥ y) + s ^ 2 * (g ⬝ᵥ S *ᵥ g) := by
      rw [mulVec_add, dotProduct_add, add_dotProduct, add_dotProduct, mulVec_smul, dotProduct_smul, dotProduct_smul, smul_dotProduct,
        smul_dotProduct, dot_mulVec_symm hs y g]
      simp only [smul_eq_mul]; ring
    have h2 : (y + s • g) ⬝ᵥ mu = y ⬝ᵥ mu + s * (g ⬝ᵥ mu) := by
      rw [add_dotProduct, smul_dotProduct, smul_eq_mul]
    have h3 : g ⬝ᵥ g = g ⬝ᵥ mu - delta * (g ⬝ᵥ S *ᵥ y) := by
      conv_lhs => rw [hg]
      rw [← hg, dotProduct_comm, dotProduct_sub, dotProduct_smul, smul_eq_mul]
    rw [h1, h2] at this
    rw [h3]
    linarith
  have hz : g ⬝ᵥ g = 0 := by
    set A := g ⬝ᵥ g
    set B := delta / 2 * (g ⬝ᵥ S *ᵥ g)
    have hA : 0 ≤ A := Finset.sum_nonneg fun i _ => mul_self_nonneg _
    by_contra hne
    have hpos : 0 < A := lt_of_le_of_ne hA (Ne.symm hne)
    have h1 := hline (A / (2 * (|B| + 1)))
    have hb : 0 < |B| + 1 := by positivity
    have hb' : B ≤ |B| + 1 := by linarith [le_abs_self B]
    set s := A / (2 * (|B| + 1)) with hsd
    have hs0 : 0 < s := by positivity
    have hsB : s * (2 * (|B| + 1)) = A := by rw [hsd]; field_simp
    have h2 : s * A ≤ s * (s * B) := by linarith [h1, show s ^ 2 * B = s * (s * B) by ring]
    have h3 : A ≤ s * B := le_of_mul_le_mul_left h2 hs0
    have h4 : s * B ≤ s * (|B| + 1) := mul_le_mul_of_nonneg_left hb' hs0.le
    linarith
  have : g = 0 := dotProduct_self_eq_zero.mp hz
  exact sub_eq_zero.mp this

/-- **C288** (tilts) With views on top of a market-implied prior, let `y` be a portfolio with the largest utility at the posterior moments.
Up to the factor `1 + tau`, it is the market portfolio plus a multiple of each view's own portfolio: one multiple per view. -/
theorem C288_tilts {x : Inputs} (h : x.r = x.c) (hra : 0 < x.riskAversion) {mw : Fin x.r → ℝ} (hi : ImpliedBy x mw)
    (hinj : Function.Injective x.assets) {views : List (MKey × Val)} (hv : AsksViews x views)
    (hS : (Matrix.of fun i j => x.cov i (Fin.cast h j)).PosDef) {p : Post x.r} (hp : BL.processor x = .ok p) :
    ∃ mu : Fin x.r → ℝ, p.mu = List.ofFn mu ∧ (views ≠ [] → ∃ rows : List ((Fin x.r → ℝ) × ℝ),
      List.Forall₂ (fun kv rt => IsRow x.assets kv.1 rt.1 ∧ Asks kv.2 rt.2) views rows ∧
      ∀ y, (∀ z, utility x.riskAversion mu p.cov z ≤ utility x.riskAversion mu p.cov y) →
        ∃ t : Fin rows.length → ℝ, ∀ i, (1 + x.tau) * y i = market mw i + ∑ k, t k * (rows.get k).1 i) := by
  have hs := PyV.BL.symm_of_psd hS.posSemidef
  have hsig : x.sigma h = Matrix.of fun i j => x.cov i (Fin.cast h j) := symmetrise_of_symm hs
  rw [C130_prior h hra (asks hi (x.sigma h)) hv, hsig] at hp
  set S := Matrix.of fun i j => x.cov i (Fin.cast h j) with hSd
  cases hcon : BL.construct (sized x h (x.riskAversion • S *ᵥ market mw) views) with
  | error e => rw [hcon] at hp; cases hp
  | ok r =>
    rw [hcon] at hp
    simp only [Except.map, Except.ok.injEq] at hp
    subst hp
    refine ⟨r.1, rfl, fun hne => ?_⟩
    obtain ⟨-, pi, rows, conf, hpi, hrows, hconf, hcase⟩ := construct_cases hcon
    have hf := ((C131_views hinj views).1 rows).mp hrows
    refine ⟨rows, hf, fun y hopt => ?_⟩
    rcases hcase with ⟨rfl, -⟩ | ⟨-, om, hom, hpost⟩
    · exact absurd (List.forall₂_nil_right_iff.mp hf) hne
    have hpi' : pi = x.riskAversion • S *ᵥ market mw := by
      have : priorPi (symmetrise S) x.riskAversion (some (x.riskAversion • S *ᵥ market mw)) none none = .ok pi := hpi
      unfold priorPi at this
      injection this with this
      exact this.symm
    have hss : symmetrise (sized x h (x.riskAversion • S *ᵥ market mw) views).sigma = S := symmetrise_of_symm hs
    rw [hss] at hpost
    obtain ⟨-, hm, hcv⟩ := posterior_ok hpost
    change r.1 = pi + ((x.tau • S) * _) *ᵥ _ at hm
    generalize hPdef : (Matrix.of fun k : Fin rows.length => (rows.get k).1) = P at hm hcv
    change r.2 = (1 / 2 : ℝ) • ((S + x.tau • S - (x.tau • S) * Pᵀ * ((P * (x.tau • S) * Pᵀ + om)⁻¹ * (P * (x.tau • S)))) +
      (S + x.tau • S - (x.tau • S) * Pᵀ * ((P * (x.tau • S) * Pᵀ + om)⁻¹ * (P * (x.tau • S))))ᵀ) at hcv
    change r.1 = pi + ((x.tau • S) * Pᵀ) *ᵥ ((P * (x.tau • S) * Pᵀ + om)⁻¹ *ᵥ _) at hm
    generalize (P * (x.tau • S) * Pᵀ + om)⁻¹ = B at hm hcv
    generalize hz : B *ᵥ ((fun k : Fin rows.length => (rows.get k).2) - P *ᵥ pi) = z at hm
    have hr2 : r.2ᵀ = r.2 := by rw [hcv, transpose_smul, transpose_add, transpose_transpose, add_comm]
    have hfo := first_order hr2 hopt
    -- the posterior covariance applied to `y`
    set u : Fin rows.length → ℝ := (1 / 2 : ℝ) • ((B + Bᵀ) *ᵥ (P *ᵥ (S *ᵥ y))) with hu
    have hcy : r.2 *ᵥ y = S *ᵥ ((1 + x.tau) • y - (x.tau * x.tau) • Pᵀ *ᵥ u) := by
      rw [hcv, smul_mulVec]
      have e1 : (S + x.tau • S - (x.tau • S) * Pᵀ * (B * (P * (x.tau • S))))ᵀ =
          S + x.tau • S - (x.tau • S) * Pᵀ * (Bᵀ * (P * (x.tau • S))) := by
        simp only [transpose_sub, transpose_add, transpose_smul, transpose_mul, transpose_transpose, hs, Matrix.mul_assoc]
      rw [e1]
      simp only [hu, add_mulVec, sub_mulVec, smul_mulVec, ← mulVec_mulVec, mulVec_sub, mulVec_smul, mulVec_add]
      funext i
      simp only [Pi.smul_apply, Pi.add_apply, Pi.sub_apply, smul_eq_mul]
      ring
    have hkey : S *ᵥ (x.riskAversion • ((1 + x.tau) • y - market mw - Pᵀ *ᵥ ((x.tau * x.tau) • u + (x.tau / x.riskAversion) • z))) = 0 := by
      have e2 : r.1 = S *ᵥ (x.riskAversion • market mw + x.tau • Pᵀ *ᵥ z) := by
        rw [hm, hpi', mulVec_add, mulVec_smul, mulVec_smul, ← mulVec_mulVec, smul_mulVec]
      rw [hfo, hcy, ← mulVec_smul] at e2
      rw [← sub_eq_zero, ← mulVec_sub] at e2
      rw [← e2]
      congr 1
      have e4 : Pᵀ *ᵥ ((x.tau * x.tau) • u + (x.tau / x.riskAversion) • z) = (x.tau * x.tau) • Pᵀ *ᵥ u + (x.tau / x.riskAversion) • Pᵀ *ᵥ z := by
        rw [mulVec_add, mulVec_smul Pᵀ (x.tau * x.tau) u, mulVec_smul Pᵀ (x.tau / x.riskAversion) z]
      rw [e4]
      funext i
      simp only [Pi.smul_apply, Pi.add_apply, Pi.sub_apply, smul_eq_mul]
      field_simp
      ring
    have hzero : (1 + x.tau) • y - market mw - Pᵀ *ᵥ ((x.tau * x.tau) • u + (x.tau / x.riskAversion) • z) = 0 := by
      by_contra hnz
      have := hS.dotProduct_mulVec_pos (x := x.riskAversion • ((1 + x.tau) • y - market mw -
        Pᵀ *ᵥ ((x.tau * x.tau) • u + (x.tau / x.riskAversion) • z))) (smul_ne_zero hra.ne' hnz)
      rw [hkey, dotProduct_zero] at this
      exact lt_irrefl _ this
    refine ⟨(x.tau * x.tau) • u + (x.tau / x.riskAversion) • z, fun i => ?_⟩
    have := congrFun hzero i
    simp only [Pi.sub_apply, Pi.smul_apply, smul_eq_mul, Pi.zero_apply] at this
    have e3 : (Pᵀ *ᵥ ((x.tau * x.tau) • u + (x.tau / x.riskAversion) • z)) i =
        ∑ k, ((x.tau * x.tau) • u + (x.tau / x.riskAversion) • z) k * (rows.get k).1 i := by
      rw [← hPdef]
      simp only [mulVec, dotProduct, transpose_apply, of_apply]
      exact Finset.sum_congr rfl fun k _ => mul_comm _ _
    rw [← e3]
    linarith

/-- The row of a view that does not refer to an asset is zero there. -/
private theorem row_zero {N : ℕ} {assets : Fin N → Label} {key : MKey} {row : Fin N → ℝ} (hr : IsRow assets key row) {i : Fin N}
    (hno : ∀ l, (key = .single l ∨ ∃ l', key = .pair l l' ∨ key = .pair l' l) → ¬ PyV.Spec.BL.Refers assets l i) : row i = 0 := by
  have hrow : row i = row ⬝ᵥ Pi.single i 1 := by simp
  rcases hr with ⟨a, j, rfl, hj, hm⟩ | ⟨a, b, j, k, rfl, hj, hk, hm, hm'⟩
  · have hne : j ≠ i := by rintro rfl; exact hno a (Or.inl rfl) hj
    rw [hrow, hm, Pi.single_eq_of_ne hne]
  · have hne : j ≠ i := by rintro rfl; exact hno a (Or.inr ⟨b, Or.inl rfl⟩) hj
    have hne' : k ≠ i := by rintro rfl; exact hno b (Or.inr ⟨a, Or.inr rfl⟩) hk
    by_cases hjk : j = k
    · rw [hrow, hm' hjk, Pi.single_eq_of_ne hne, neg_zero]
    · rw [hrow, hm hjk, Pi.single_eq_of_ne hne, Pi.single_eq_of_ne hne', sub_zero]

/-- **C288** (untouched assets) An asset no view refers to keeps its market weight in that portfolio, divided by `1 + tau`: views on other
assets do not move it, however it is correlated with them. -/
theorem C288_untouched {x : Inputs} (h : x.r = x.c) (hra : 0 < x.riskAversion) {mw : Fin x.r → ℝ} (hi : ImpliedBy x mw)
    (hinj : Function.Injective x.assets) {views : List (MKey × Val)} (hv : AsksViews x views) (hne : views ≠ [])
    (hS : (Matrix.of fun i j => x.cov i (Fin.cast h j)).PosDef) {p : Post x.r} (hp : BL.processor x = .ok p) :
    ∃ mu : Fin x.r → ℝ, p.mu = List.ofFn mu ∧ ∀ y, (∀ z, utility x.riskAversion mu p.cov z ≤ utility x.riskAversion mu p.cov y) →
      ∀ i, (∀ kv ∈ views, ∀ l, (kv.1 = .single l ∨ ∃ l', kv.1 = .pair l l' ∨ kv.1 = .pair l' l) → ¬ PyV.Spec.BL.Refers x.assets l i) →
        (1 + x.tau) * y i = mw i / ∑ k, mw k := by
  obtain ⟨mu, hm, hall⟩ := C288_tilts h hra hi hinj hv hS hp
  refine ⟨mu, hm, fun y hy i hno => ?_⟩
  obtain ⟨rows, hf, hopt⟩ := hall hne
  obtain ⟨t, ht⟩ := hopt y hy
  rw [ht i, Finset.sum_eq_zero, add_zero]; · rfl
  intro k _
  obtain ⟨hl, hg⟩ := List.forall₂_iff_get.1 hf
  have hk : (k : ℕ) < views.length := by rw [hl]; exact k.2
  have := row_zero (hg k hk k.2).1 (i := i) (hno _ (List.get_mem _ ⟨k, hk⟩))
  rw [show (rows.get k).1 i = 0 from this, mul_zero]

/-- **C288** (there is one) With a view covariance that is positive semidefinite (always, unless the caller passes another one), there is exactly
one portfolio with the largest utility. -/
theorem C288_unique {x : Inputs} (h : x.r = x.c) (hra : 0 < x.riskAversion) {mw : Fin x.r → ℝ} (hi : ImpliedBy x mw)
    {views : List (MKey × Val)} (hv : AsksViews x views) (hS : (Matrix.of fun i j => x.cov i (Fin.cast h j)).PosDef)
    (htau : 0 ≤ x.tau) (hU : UserOmegaPsd x.omega) {p : Post x.r} (hp : BL.processor x = .ok p) (mu : Fin x.r → ℝ) :
    ∃! y, ∀ z, utility x.riskAversion mu p.cov z ≤ utility x.riskAversion mu p.cov y := by
  have hs := asks hi (x.sigma h)
  have hpos : ∀ d : Fin x.r → ℝ, d ≠ 0 → 0 < d ⬝ᵥ p.cov *ᵥ d := by
    intro d hd
    have h1 := hS.dotProduct_mulVec_pos (x := d) hd
    rw [star_trivial] at h1
    have h2 := (C164_variance h hra hs hv hS.posSemidef htau hU hp d).1
    rw [show ∑ i, ∑ j, d i * x.cov i (Fin.cast h j) * d j = d ⬝ᵥ (Matrix.of fun i j => x.cov i (Fin.cast h j)) *ᵥ d from
      quad_dot (fun i j => x.cov i (Fin.cast h j)) d] at h2
    linarith
  have hsym : p.covᵀ = p.cov := by
    have hp' := hp
    rw [C130_prior h hra hs hv] at hp'
    cases hc : BL.construct (sized x h (x.riskAversion • x.sigma h *ᵥ market mw) views) with
    | error e => rw [hc] at hp'; cases hp'
    | ok r =>
      rw [hc] at hp'
      simp only [Except.map, Except.ok.injEq] at hp'
      subst hp'
      exact (C32_covariance_bounds (a := sized x h _ views) hS.posSemidef htau hU hc).1
  have hP : p.cov.PosDef := by
    refine PosDef.of_dotProduct_mulVec_pos ?_ (fun d hd => by rw [star_trivial]; exact hpos d hd)
    rw [IsHermitian, conjTranspose_eq_transpose_of_trivial]; exact hsym
  have hu : IsUnit p.cov.det := isUnit_iff_ne_zero.mpr hP.det_pos.ne'
  have hopt : ∀ y, p.cov *ᵥ (x.riskAversion • y) = mu → ∀ z, utility x.riskAversion mu p.cov z ≤ utility x.riskAversion mu p.cov y := by
    intro y hy z
    have e : ∀ z : Fin x.r → ℝ, utility x.riskAversion mu p.cov z = x.riskAversion * (z ⬝ᵥ p.cov *ᵥ y - 1 / 2 * (z ⬝ᵥ p.cov *ᵥ z)) := by
      intro z
      unfold utility
      rw [show ∑ i, ∑ j, z i * p.cov i j * z j = z ⬝ᵥ p.cov *ᵥ z from quad_dot (fun i j => p.cov i j) z]
      have : ∑ i, mu i * z i = x.riskAversion * (z ⬝ᵥ p.cov *ᵥ y) := by
        rw [← smul_eq_mul, ← dotProduct_smul, ← mulVec_smul, hy]
        exact Finset.sum_congr rfl fun i _ => mul_comm _ _
      rw [this]; ring
    rw [e, e]
    refine mul_le_mul_of_nonneg_left ?_ hra.le
    have h2 : y ⬝ᵥ p.cov *ᵥ z = z ⬝ᵥ p.cov *ᵥ y := dot_mulVec_symm hsym _ _
    have h3 : (z - y) ⬝ᵥ p.cov *ᵥ (z - y) = z ⬝ᵥ p.cov *ᵥ z - 2 * (z ⬝ᵥ p.cov *ᵥ y) + y ⬝ᵥ p.cov *ᵥ y := by
      rw [mulVec_sub, dotProduct_sub, sub_dotProduct, sub_dotProduct, h2]; ring
    have := quad_nonneg hP.posSemidef (z - y)
    linarith
  refine ⟨x.riskAversion⁻¹ • (p.cov⁻¹ *ᵥ mu), hopt _ ?_, fun y hy => ?_⟩
  · rw [smul_smul, mul_inv_cancel₀ hra.ne', one_smul, mulVec_mulVec, Matrix.mul_nonsing_inv _ hu, one_mulVec]
  · have := first_order hsym hy
    rw [this, mulVec_smul, mulVec_mulVec, Matrix.nonsing_inv_mul _ hu, one_mulVec, smul_smul, inv_mul_cancel₀ hra.ne', one_smul]

/-- Three assets, capitalisations 300 and 100 and 100, and one absolute view on the first. -/
noncomputable def exReverse (views : ViewsArg) : Inputs where
  r := 3
  c := 3
  cov := (1 : Matrix (Fin 3) (Fin 3) ℝ)
  labels := some ![.str "A", .str "B", .str "C"]
  pi := none
  marketWeights := some [300, 100, 100]
  inPlace := false
  priorMean := none
  riskAversion := 2
  tau := 1 / 4
  idzorekUseTau := true
  views := views
  conf := .none
  omega := .none

/-- The hypotheses of C287 and C288 are met, with and without a view. -/
example : ImpliedBy (exReverse .none) ![300, 100, 100] ∧ AsksViews (exReverse .none) [] ∧
    (Matrix.of fun i j => (exReverse .none).cov i (Fin.cast rfl j)).PosDef ∧ UserOmegaPsd (exReverse .none).omega ∧
    (∃ p, BL.processor (exReverse .none) = .ok p) ∧ market (N := 3) ![300, 100, 100] = ![3 / 5, 1 / 5, 1 / 5] ∧
    ∃ p, BL.processor (exReverse (.dict [(.single (.str "A"), .scalar 3)])) = .ok p := by
  have hi : ∀ v, ImpliedBy (exReverse v) ![300, 100, 100] := by
    intro v
    refine ⟨rfl, by simp [exReverse], ?_⟩
    show ∑ i : Fin 3, (![300, 100, 100] : Fin 3 → ℝ) i ≠ 0
    simp [Fin.sum_univ_succ]; norm_num
  have hS : (1 : Matrix (Fin 3) (Fin 3) ℝ).PosDef := PosDef.one
  have hinj : Function.Injective (![.str "A", .str "B", .str "C"] : Fin 3 → Label) := by decide
  refine ⟨hi _, Or.inl ⟨rfl, rfl⟩, hS, trivial, ?_, ?_, ?_⟩
  · exact ⟨_, C130_no_views rfl (by norm_num [exReverse]) (asks (hi _) _) (Or.inl ⟨rfl, rfl⟩) (by simp [exReverse])⟩
  · funext i
    fin_cases i <;> simp [market, Fin.sum_univ_succ] <;> norm_num
  · generalize hx : exReverse (.dict [(.single (.str "A"), .scalar 3)]) = x
    have hr : x.r = x.c := by rw [← hx]; rfl
    have hra : 0 < x.riskAversion := by rw [← hx]; show (0 : ℝ) < 2; norm_num
    subst hx
    have hrow : buildViews (N := 3) ![.str "A", .str "B", .str "C"] [(.single (.str "A"), .scalar 3)] = .ok [(Pi.single (0 : Fin 3) 1, 3)] := by
      refine ((C131_views hinj _).1 _).2 (.cons ⟨Or.inl ⟨.str "A", 0, rfl, Or.inl rfl, fun m => ?_⟩, Or.inl rfl⟩ .nil)
      simp
    have key := C130_prior hr hra (asks (hi _) _) (views := [(.single (.str "A"), .scalar 3)]) (Or.inr (Or.inl rfl))
    obtain ⟨m, cov, hc, -⟩ := C31_processor (a := sized _ hr _ [(.single (.str "A"), .scalar 3)]) (hS : _) (by show (0 : ℝ) < 1 / 4; norm_num)
      hra (Or.inl ⟨rfl, rfl⟩) rfl hrow (by simp [sized])
    rw [hc] at key
    exact ⟨_, key⟩

end PyV.Props
