import Verif.Props.ViewsApi

/-! # C144–C147: labels, accessors, hand-off to the optimiser, vector views -/

namespace PyV.Props

open PyV PyV.FV PyV.Spec PyV.Spec.Opt PyV.Spec.Api PyV.Spec.Con Matrix

variable {S N : ℕ}

/-! ## C144: labels of moment priors -/

/-- **C144** (the part that holds) When the mean and the covariance carry the same labels, or at most one of them carries labels, the
moments of an asset are the ones given under its label: column `i` of the scenarios is simulated with mean `mu i` and the covariance row
`i`, and both are labelled `lab i` by the arguments that have labels. -/
theorem C144_labels_partial {factor : Bayes.Factor} {normals : (S n : ℕ) → Fin S → Fin n → ℝ} {fn : Option DistFn} {m : PriorMean}
    {c : PriorCov} {num : Option ℤ} {src : Source} (h : FV.fromMoments factor normals fn (some m) (some c) num = .ok src)
    (hsame : ∀ l l', m.index = some l → c.index = some l' → List.ofFn l = List.ofFn l') :
    (∀ l, m.index = some l → List.ofFn src.assets = List.ofFn l) ∧ (∀ l, c.index = some l → List.ofFn src.assets = List.ofFn l) ∧
      (m.index = none → c.index = none → ∀ i, src.assets i = .str (Nat.repr i)) ∧
      (src.pandas = true ↔ m.index ≠ none ∨ c.index ≠ none) ∧ src.N = m.n ∧ some (src.S : ℤ) = num ∧ src.prior = none := by
  unfold FV.fromMoments at h
  simp only at h
  cases hc : countOf num with
  | error e => rw [hc] at h; cases h
  | ok count =>
    rw [hc] at h
    simp only at h
    split at h
    · rename_i hsz
      split at h
      · cases h
      · rename_i a ha
        split at h
        · cases h
        · rename_i R hR
          injection h with h; subst h
          have hnum : some (count : ℤ) = num := by
            unfold countOf at hc
            cases num with
            | none => cases hc
            | some k =>
              simp only at hc
              split at hc
              · cases hc
              · injection hc with hc; subst hc
                rw [Int.toNat_of_nonneg (by omega)]
          obtain ⟨n, mu, mi⟩ := m
          obtain ⟨r, cc, C, ci⟩ := c
          simp only at hsz hsame
          obtain ⟨rfl, rfl⟩ := hsz
          refine ⟨?_, ?_, ?_, ?_, rfl, hnum, rfl⟩
          · show ∀ l : Fin cc → Label, mi = some l → _
            rintro l rfl; rfl
          · show ∀ l : Fin cc → Label, ci = some l → _
            rintro l rfl
            cases mi with
            | none => rfl
            | some l' => exact hsame _ _ rfl rfl
          · intro h1 h2 i
            have h1 : mi = none := h1
            have h2 : ci = none := h2
            subst h1; subst h2; rfl
          · cases mi <;> cases ci <;> simp
    · cases h

/-- **C144** The full claim fails: a mean labelled `a, b` and a covariance labelled `b, a` are accepted, and the covariance is read by
position, so `a` gets the variance given for `b`. -/
theorem C144_counterexample {factor : Bayes.Factor} (hf : CholOk factor) (normals : (S n : ℕ) → Fin S → Fin n → ℝ) (k : ℕ) (hk : 0 < k)
    (h0 : ∀ l, avg (normals k 2) l = 0) (h1 : ∀ l l', covAt (normals k 2) l l' = if l = l' then 1 else 0) :
    ∃ R : Fin k → Fin 2 → ℝ,
      FV.fromMoments factor normals none (some ⟨2, ![0, 0], some ![.str "a", .str "b"]⟩)
        (some ⟨2, 2, fun i j => if i = j then ![1, 4] i else 0, some ![.str "b", .str "a"]⟩) (some k) =
        .ok ⟨k, 2, R, ![.str "a", .str "b"], true, none⟩ ∧
      covAt R 0 0 = 1 + 1 / 10 ^ 6 := by
  have hC : (Matrix.of (fun i j : Fin 2 => if i = j then (![1, 4] : Fin 2 → ℝ) i else 0)) = Matrix.diagonal ![1, 4] := by
    ext i j; simp [Matrix.diagonal_apply]
  obtain ⟨R, lab, hR, hl, -, hc⟩ := C143_exact_moments hf normals (![0, 0] : Fin 2 → ℝ) (some ![.str "a", .str "b"])
    (fun i j => if i = j then ![1, 4] i else 0) (some ![.str "b", .str "a"])
    (by intro i j; fin_cases i <;> fin_cases j <;> simp)
    (by rw [hC]; exact PosSemidef.diagonal (by intro i; fin_cases i <;> simp)) k hk h0 h1
  have := hl.1 _ rfl
  subst this
  exact ⟨R, hR, by rw [hc]; simp⟩

/-! ## C145: the accessors, and handing the posterior to the portfolio layer -/

/-- Prior weights whose sum is one, or is not mistaken for one by the tolerance of the normalisation. -/
def CleanPrior (prior : Option (Fin S → PyFloat ℝ)) : Prop :=
  ∀ p, prior = some p → ∀ v : Fin S → ℝ, (∀ s, p s = .fin (v s)) → ∑ s, v s = 1 ∨ 1 / 10 ^ 8 + 1 / 10 ^ 5 < |∑ s, v s - 1|

theorem priorOf_prob (hS : 0 < S) {prior : Option (Fin S → PyFloat ℝ)} (hc : CleanPrior prior) {p0 : Fin S → ℝ}
    (h : priorOf prior = .ok p0) : IsProb p0 := by
  unfold priorOf at h
  cases prior with
  | none =>
    injection h with h; subst h
    have hS' : (S : ℝ) ≠ 0 := Nat.cast_ne_zero.mpr hS.ne'
    exact ⟨fun _ => by positivity, by simp [hS']⟩
  | some p =>
    simp only at h
    obtain ⟨v, hv, h0, -, hpos, h1⟩ := EP.normalizeVec_ok h
    have hdiv : IsProb (fun s => v s / ∑ t, v t) :=
      ⟨fun s => div_nonneg (h0 s) hpos.le, by rw [← Finset.sum_div, div_self hpos.ne']⟩
    rcases hc p rfl v hv with hs | hs
    · rcases h1 with rfl | rfl
      · exact ⟨h0, hs⟩
      · exact hdiv
    · have hp : p0 = fun s => v s / ∑ t, v t := by
        unfold EP.normalizeVec at h
        split at h
        · cases h
        · rename_i ps hps
          injection h with h
          obtain ⟨hacc, hps'⟩ := Probs.normalize_ok_iff.mp hps
          have hlist : (List.ofFn p).map PyFloat.val = List.ofFn v := by
            rw [List.map_ofFn]; congr 1; funext s; simp [hv, PyFloat.val]
          rw [hlist, List.sum_ofFn] at hps'
          split at hps'
          · rename_i hcl
            simp only [Probs.isclose1, abs_one, mul_one, decide_eq_true_eq] at hcl
            linarith
          · subst h
            funext s; simp [hps', List.getD_eq_getElem?_getD]
      rw [hp]; exact hdiv

theorem probs_unique {p q : Fin S → ℝ} (hp : ∑ s, p s = 1) (hq : ∑ s, q s = 1) {k : ℝ}
    (h : List.ofFn (fun s => PyFloat.fin (q s)) = List.ofFn (fun s => PyFloat.fin (k * p s))) : p = q := by
  have h' : ∀ s, q s = k * p s := fun s => by
    have := congrFun (List.ofFn_injective h) s
    injection this
  have hk : k = 1 := by
    rw [← hq]
    simp only [h', ← Finset.mul_sum, hp, mul_one]
  funext s
  rw [h', hk, one_mul]

/-- Covariance under a probability vector. -/
noncomputable def covUnder (q : Fin S → ℝ) (R : Fin S → Fin N → ℝ) (i j : Fin N) : ℝ :=
  ∑ s, q s * (R s i - meanAt q R i) * (R s j - meanAt q R j)

theorem covUnder_psd {q : Fin S → ℝ} (hq : IsProb q) (R : Fin S → Fin N → ℝ) : (Matrix.of (covUnder q R)).PosSemidef := by
  refine PosSemidef.of_dotProduct_mulVec_nonneg ?_ fun x => ?_
  · ext i j
    simp only [conjTranspose_apply, of_apply, star_trivial, covUnder]
    exact Finset.sum_congr rfl fun s _ => by ring
  · have : star x ⬝ᵥ (Matrix.of (covUnder q R)).mulVec x = ∑ s, q s * (∑ i, x i * (R s i - meanAt q R i)) ^ 2 := by
      simp only [dotProduct, mulVec, of_apply, star_trivial, covUnder, pow_two, Finset.sum_mul_sum, Finset.mul_sum, Finset.sum_mul]
      rw [Finset.sum_congr rfl fun i _ => Finset.sum_comm, Finset.sum_comm]
      exact Finset.sum_congr rfl fun s _ => Finset.sum_congr rfl fun i _ => Finset.sum_congr rfl fun j _ => by ring
    rw [this]
    exact Finset.sum_nonneg fun s _ => mul_nonneg (hq.nonneg s) (sq_nonneg _)

/-- **C145.** What a constructed processor reports: the scenarios and labels it was given, a probability vector, and the mean and
covariance of the scenarios under that vector; the covariance is positive semidefinite. -/
theorem C145_accessors {ep : (S : ℕ) → Ep S} (hep : ∀ S, EpSound (ep S)) {argsort : (S : ℕ) → (Fin S → ℝ) → Equiv.Perm (Fin S)}
    {round : ℝ → ℤ} {src : Source} {a : ViewArgs} {P : Processor} (hS : 0 < src.S) (hc : CleanPrior src.prior)
    (h : process ep argsort round src a = .ok P) :
    ∃ q : Fin src.S → ℝ, IsProb q ∧
      P = ⟨src.S, src.N, src.R, src.assets, src.pandas, q, meanAt q src.R, Matrix.of (covUnder q src.R)⟩ ∧
      (Matrix.of (covUnder q src.R)).PosSemidef ∧ src.N ≠ 1 := by
  unfold process at h
  rw [bind_ok] at h
  obtain ⟨p0, hp0, h⟩ := h
  split at h
  · cases h
  · rename_i hN
    simp only [bind_ok] at h
    obtain ⟨v, -, q, hq, h⟩ := h
    injection h with h
    have hprob := computePosterior_prob (hep _) (priorOf_prob hS hc hp0) hq
    refine ⟨q, hprob, ?_, covUnder_psd hprob _, hN⟩
    rw [← h]
    have h1 : meanOf src.R q = meanAt q src.R := by
      funext i; unfold meanOf meanAt expect
      exact Finset.sum_congr rfl fun s _ => by ring
    have h2 : npCovW src.R q = Matrix.of (covUnder q src.R) := by
      have hm : ∀ i, ∑ s, src.R s i * q s = meanAt q src.R i := fun i => by
        unfold meanAt expect
        exact Finset.sum_congr rfl fun s _ => by ring
      ext i j
      unfold npCovW covUnder
      simp only [hprob.sum, div_one, of_apply, hm]
      exact Finset.sum_congr rfl fun s _ => by ring
    rw [h1, h2]

/-- The names a processor's outputs carry. -/
def namesOut (src : Source) (name : Label → String) : Option (List String) :=
  if src.pandas then some (List.ofFn fun i => name (src.assets i)) else none

/-- **C145.** Handing the posterior over as scenarios with probabilities: accepted, with the posterior vector as probabilities, and
with exactly the mean, covariance and names the processor reports. -/
theorem C145_scenarios {ep : (S : ℕ) → Ep S} (hep : ∀ S, EpSound (ep S)) {argsort : (S : ℕ) → (Fin S → ℝ) → Equiv.Perm (Fin S)}
    {round : ℝ → ℤ} {src : Source} {a : ViewArgs} {P : Processor} (hS : 0 < src.S) (hN : 0 < src.N) (hc : CleanPrior src.prior)
    (h : process ep argsort round src a = .ok P) (name : Label → String) (rt : String) (hrt : rt ≠ "log") :
    Api.fromScenarios (P.scenarios name) (some P.probabilities) rt =
      .ok ⟨P.N, some P.mean, some P.cov, some ⟨P.S, P.R, P.q⟩, namesOut src name⟩ := by
  obtain ⟨q, hq, rfl, -, -⟩ := C145_accessors hep hS hc h
  unfold Api.fromScenarios
  rw [if_neg hrt]
  set sArg : Api.GridArg := Processor.scenarios _ name with hsArg
  set pArg : List (PyFloat ℝ) := Processor.probabilities _ with hpArg
  have hp : pArg = List.ofFn (fun s => PyFloat.fin (q s)) := rfl
  have hh : sArg.Holds src.R := by
    rw [hsArg]; unfold Processor.scenarios
    simp only
    split
    · exact ⟨_, .inr ⟨_, _, rfl⟩, rfl, rfl, fun _ _ => rfl⟩
    · exact ⟨_, .inl rfl, rfl, rfl, fun _ _ => rfl⟩
  have hlab : Api.labelLists { scenarios := some sArg, probabilities := some pArg } =
      (namesOut src name).toList := by
    rw [hsArg]; unfold Processor.scenarios namesOut Api.labelLists
    cases hb : src.pandas <;> simp [hb]
  obtain ⟨d, hd⟩ := (C74_accepts_iff { scenarios := some sArg, probabilities := some pArg }).2 ⟨src.N, hN, by simp, by simp, by simp,
    fun s hs => by
      injection hs with hs; subst hs
      exact ⟨src.S, src.R, hS, hh, fun l hl => by
        injection hl with hl; subst hl; exact ⟨q, hp, hq.nonneg, by rw [hq.sum]; exact one_pos⟩⟩,
    by
      rw [hlab]; cases namesOut src name <;> simp,
    by
      rw [hlab]; intro l hl
      unfold namesOut at hl
      split at hl
      · simp only [Option.toList_some, List.mem_singleton] at hl
        subst hl; simp
      · simp at hl⟩
  obtain ⟨-, -, -, -, hs, hn1, hn2⟩ := C74_contents hd
  obtain ⟨sc, hsc, hh', h0, h1, -, hpr, hm, hcv⟩ := hs sArg rfl
  rw [hlab] at hn1 hn2
  obtain ⟨N', mu, cov, scen, names⟩ := d
  obtain ⟨T', R', p'⟩ := sc
  simp only at hsc hh' h0 h1 hpr hm hcv hn1 hn2
  obtain ⟨e1, e2, hR⟩ := holds_unique hh hh'
  obtain ⟨S', N'', R'', assets, pandas, prior⟩ := src
  simp only at e1 e2
  subst e1; subst e2
  have hR := eq_of_heq hR
  simp only at hR
  subst hR
  obtain ⟨k, -, hk⟩ := hpr pArg rfl
  rw [hp] at hk
  obtain rfl : p' = q := probs_unique h1 hq.sum hk
  obtain ⟨C, hC, hCe⟩ := hcv trivial
  replace hm := hm trivial
  rw [hd]
  congr 1
  rw [hm, hC, hsc]
  have e3 : (fun i => ∑ t, p' t * R'' t i) = meanAt p' R'' := rfl
  have e4 : C = Matrix.of (covUnder p' R'') := by
    ext i j; rw [hCe]; rfl
  have e5 : names = namesOut ⟨S', N'', R'', assets, pandas, prior⟩ name := by
    cases hno : namesOut ⟨S', N'', R'', assets, pandas, prior⟩ name with
    | none => exact hn2 (by rw [hno]; rfl)
    | some l => exact hn1 l (by rw [hno]; simp)
  rw [e3, e4, e5]

/-- **C145.** Handing the posterior over as moments: accepted, and stored exactly as reported (the PSD guard changes nothing). -/
theorem C145_moments {ep : (S : ℕ) → Ep S} (hep : ∀ S, EpSound (ep S)) {argsort : (S : ℕ) → (Fin S → ℝ) → Equiv.Perm (Fin S)}
    {round : ℝ → ℤ} {src : Source} {a : ViewArgs} {P : Processor} (hS : 0 < src.S) (hN : 0 < src.N) (hc : CleanPrior src.prior)
    (h : process ep argsort round src a = .ok P) (name : Label → String) (rt : String) (hrt : rt ≠ "log") :
    Api.fromMoments (P.posteriorMean name) (P.posteriorCov name) rt =
      .ok ⟨P.N, some P.mean, some P.cov, none, namesOut src name⟩ := by
  obtain ⟨q, hq, rfl, hpsd, -⟩ := C145_accessors hep hS hc h
  have hm : (Processor.posteriorMean ⟨src.S, src.N, src.R, src.assets, src.pandas, q, meanAt q src.R, Matrix.of (covUnder q src.R)⟩
      name).Holds (meanAt q src.R) := by
    unfold Processor.posteriorMean Api.VecArg.Holds
    simp only
    split
    · simp [Api.VecArg.vals, List.map_ofFn, Function.comp_def]
    · rfl
  have hC : (Processor.posteriorCov ⟨src.S, src.N, src.R, src.assets, src.pandas, q, meanAt q src.R, Matrix.of (covUnder q src.R)⟩
      name).Holds (covUnder q src.R) := by
    unfold Processor.posteriorCov
    simp only
    split
    · exact ⟨_, .inr ⟨_, _, rfl⟩, rfl, rfl, fun _ _ => rfl⟩
    · exact ⟨_, .inl rfl, rfl, rfl, fun _ _ => rfl⟩
  have hlab : ∀ l, l ∈ momentLabels (Processor.posteriorMean ⟨src.S, src.N, src.R, src.assets, src.pandas, q, meanAt q src.R,
      Matrix.of (covUnder q src.R)⟩ name) (Processor.posteriorCov ⟨src.S, src.N, src.R, src.assets, src.pandas, q, meanAt q src.R,
      Matrix.of (covUnder q src.R)⟩ name) ↔ namesOut src name = some l := by
    intro l
    unfold momentLabels Api.labelLists Processor.posteriorMean Processor.posteriorCov namesOut
    cases hb : src.pandas
    · simp
    · simp only [if_true, List.map_ofFn, Function.comp_def, List.nil_append, List.append_nil, List.mem_append, List.mem_cons,
        List.not_mem_nil, or_false, or_self, Option.some.injEq]
      exact eq_comm
  obtain ⟨Q, names, hd, hrep, hnm, hnm'⟩ := C103_simple hN hm hC (by
    intro l hl l' hl'
    rw [hlab] at hl hl'
    rw [hl] at hl'; injection hl') rt hrt
  rw [hd]
  have : Q = Matrix.of (covUnder q src.R) := by
    ext i j; exact hrep.2.2 hpsd i j
  rw [this]
  have hn : names = namesOut src name := by
    cases hno : namesOut src name with
    | none =>
      refine hnm' (List.eq_nil_iff_forall_not_mem.mpr fun l hl => ?_)
      rw [hlab, hno] at hl; cases hl
    | some l => exact hnm l ((hlab l).2 hno)
  rw [hn]

/-! ## C147: views given as vectors -/

theorem process_ok {ep : (S : ℕ) → Ep S} {argsort : (S : ℕ) → (Fin S → ℝ) → Equiv.Perm (Fin S)} {round : ℝ → ℤ} {src : Source}
    {a : ViewArgs} {P : Processor} (h : process ep argsort round src a = .ok P) :
    ∃ p0 v q, priorOf src.prior = .ok p0 ∧ viewsOf src.assets a = .ok v ∧
      computePosterior (ep src.S) (argsort src.S) round p0 src.assets src.R v a.sequential = .ok q ∧
      P = ⟨src.S, src.N, src.R, src.assets, src.pandas, q, meanOf src.R q, npCovW src.R q⟩ := by
  unfold process at h
  rw [bind_ok] at h
  obtain ⟨p0, hp0, h⟩ := h
  split at h
  · cases h
  · simp only [bind_ok] at h
    obtain ⟨v, hv, q, hq, h⟩ := h
    injection h with h
    exact ⟨p0, v, q, hp0, hv, hq, h.symm⟩

theorem vecToDict_vector {κ : Type} {assets : Fin N → Label} {key : Label → κ} (x : Fin N → ℝ) :
    vecToDict assets key (.vector (List.ofFn fun i => PyFloat.fin (x i))) =
      .ok ((List.finRange N).map fun i => (key (assets i), ViewVal.scalar (.fin (x i)))) := by
  unfold vecToDict
  simp only [List.length_ofFn, if_true]
  congr 1
  refine List.map_congr_left fun i _ => ?_
  simp

/-- **C147.** A vector of mean views pins the mean: with distinct labels, in simultaneous mode and without quantile or CVaR views, the
posterior mean is the vector, entry `i` for column `i`, whatever the volatility, variance, skewness and correlation views; a vector of
volatilities (or of variances) given with it pins those too. -/
theorem C147_pins {ep : (S : ℕ) → Ep S} (hep : ∀ S, EpSound (ep S)) {argsort : (S : ℕ) → (Fin S → ℝ) → Equiv.Perm (Fin S)}
    {round : ℝ → ℤ} {src : Source} {a : ViewArgs} {P : Processor} (hS : 0 < src.S) (hc : CleanPrior src.prior)
    (hlab : Function.Injective src.assets) (x : Fin src.N → ℝ) (hx : a.mean = .vector (List.ofFn fun i => .fin (x i)))
    (hr : a.rankMean = none) (hq : a.quantile = []) (hcv : a.cvar = .none) (hseq : a.sequential = false)
    (h : process ep argsort round src a = .ok P) :
    ∃ q : Fin src.S → ℝ, IsProb q ∧
      P = ⟨src.S, src.N, src.R, src.assets, src.pandas, q, x, Matrix.of (covUnder q src.R)⟩ ∧
      (∀ i, meanAt q src.R i = x i) ∧
      (∀ v : Fin src.N → ℝ, a.vol = .vector (List.ofFn fun i => .fin (v i)) → a.var = .none →
        ∀ i, Real.sqrt (varAt q src.R i) = v i) ∧
      (∀ v : Fin src.N → ℝ, a.var = .vector (List.ofFn fun i => .fin (v i)) → a.vol = .none →
        ∀ i, varAt q src.R i = v i) := by
  obtain ⟨q, hpr, hP, -, -⟩ := C145_accessors hep hS hc h
  obtain ⟨p0, v, q', hp0, hv, hpost, hP'⟩ := process_ok h
  have hqq : q = q' := by
    rw [hP'] at hP
    injection hP with _ _ _ _ _ h6 _ _
    exact h6.symm
  subst hqq
  unfold viewsOf at hv
  simp only [bind_ok] at hv
  obtain ⟨m, hm, vo, hvo, va, hva, sk, hsk, cv, hcvd, m', hm', hv⟩ := hv
  injection hv with hv; subst hv
  rw [hcv] at hcvd
  have hcvd : cv = [] := by injection hcvd with hcvd; exact hcvd.symm
  rw [hr] at hm'
  have hm' : m = m' := by injection hm'
  subst hm'
  rw [hx, vecToDict_vector] at hm
  injection hm with hm
  rw [hseq] at hpost
  have hall := C25_simultaneous_partial (hep _) (argsort _) round (priorOf_prob hS hc hp0) hlab (v := ⟨m, vo, va, sk, a.corr, a.quantile, cv⟩)
    hq hcvd hpost
  have hpin : ∀ i, (MKey.single (src.assets i), ViewVal.scalar (.fin (x i))) ∈ m := by
    intro i
    rw [← hm]
    exact List.mem_map.mpr ⟨i, List.mem_finRange i, rfl⟩
  have hmean : ∀ i, meanAt q src.R i = x i := by
    intro i
    obtain ⟨j, hj, hs⟩ := hall.2.1 _ (hpin i)
    rw [names_unique hlab hj (Or.inl rfl)] at hs
    exact hs
  refine ⟨q, hpr, ?_, hmean, ?_, ?_⟩
  · rw [hP, show meanAt q src.R = x from funext hmean]
  · intro w hw hnone i
    rw [hw, vecToDict_vector] at hvo
    rw [hnone] at hva
    injection hvo with hvo
    injection hva with hva
    obtain ⟨j, hj, hs⟩ := (hall.2.2 (by
      simp only [← hvo, ← hva, List.append_nil]
      intro kv hkv
      obtain ⟨i, -, rfl⟩ := List.mem_map.mp hkv
      exact ⟨_, hpin i⟩)).1 (src.assets i, .scalar (.fin (w i))) (by
        simp only [← hvo]; exact List.mem_map.mpr ⟨i, List.mem_finRange i, rfl⟩)
    rw [names_unique hlab hj (Or.inl rfl)] at hs
    exact hs
  · intro w hw hnone i
    rw [hw, vecToDict_vector] at hva
    rw [hnone] at hvo
    injection hvo with hvo
    injection hva with hva
    obtain ⟨j, hj, hs⟩ := (hall.2.2 (by
      simp only [← hvo, ← hva, List.nil_append]
      intro kv hkv
      obtain ⟨i, -, rfl⟩ := List.mem_map.mp hkv
      exact ⟨_, hpin i⟩)).2 (src.assets i, .scalar (.fin (w i))) (by
        simp only [← hva]; exact List.mem_map.mpr ⟨i, List.mem_finRange i, rfl⟩)
    rw [names_unique hlab hj (Or.inl rfl)] at hs
    exact hs

theorem priorOf_error {prior : Option (Fin S → PyFloat ℝ)} {e : PyErr} (h : priorOf prior = .error e) : e = .valueError := by
  unfold priorOf at h
  cases prior with
  | none => cases h
  | some p =>
    simp only [EP.normalizeVec] at h
    split at h
    · rename_i e' he
      injection h with h; subst h
      unfold Probs.normalize at he
      simp only at he
      split_ifs at he <;> first | (injection he with he; exact he.symm) | cases he
    · cases h

theorem vecToDict_error {κ : Type} {assets : Fin N → Label} {key : Label → κ} {v : VecViews κ} {e : PyErr}
    (h : vecToDict assets key v = .error e) : e = .valueError := by
  unfold vecToDict at h
  split at h
  · cases h
  · cases h
  · split at h
    · cases h
    · injection h with h; exact h.symm

/-- A vector whose length is not the number of assets. -/
def WrongLength {κ : Type} (N : ℕ) (v : VecViews κ) : Prop := ∃ x, v = .vector x ∧ x.length ≠ N

theorem vecToDict_wrong {κ : Type} {assets : Fin N → Label} {key : Label → κ} {v : VecViews κ} (hw : WrongLength N v) :
    vecToDict assets key v = .error .valueError := by
  obtain ⟨x, rfl, hx⟩ := hw
  unfold vecToDict
  simp only [if_neg hx]

/-- **C147.** A vector of views whose length is not the number of assets is rejected with `ValueError`. -/
theorem C147_wrong_length (ep : (S : ℕ) → Ep S) (argsort : (S : ℕ) → (Fin S → ℝ) → Equiv.Perm (Fin S)) (round : ℝ → ℤ) (src : Source)
    (a : ViewArgs) (h : WrongLength src.N a.mean ∨ WrongLength src.N a.vol ∨ WrongLength src.N a.var ∨ WrongLength src.N a.skew ∨
      ∃ x, a.cvar = .vector x ∧ x.length ≠ src.N) : process ep argsort round src a = .error .valueError := by
  unfold process
  cases hp : priorOf src.prior with
  | error e => rw [priorOf_error hp]; rfl
  | ok p0 =>
    simp only [bind, Except.bind]
    split
    · rfl
    · have hv : viewsOf src.assets a = .error .valueError := by
        unfold viewsOf
        simp only [bind, Except.bind]
        cases h1 : vecToDict src.assets MKey.single a.mean with
        | error e => rw [vecToDict_error h1]
        | ok m =>
          cases h2 : vecToDict src.assets id a.vol with
          | error e => simp only [vecToDict_error h2]
          | ok vo =>
            cases h3 : vecToDict src.assets id a.var with
            | error e => simp only [vecToDict_error h3]
            | ok va =>
              cases h4 : vecToDict src.assets id a.skew with
              | error e => simp only [vecToDict_error h4]
              | ok sk =>
                rcases h with h | h | h | h | ⟨x, hx, hne⟩
                · rw [vecToDict_wrong h] at h1; cases h1
                · rw [vecToDict_wrong h] at h2; cases h2
                · rw [vecToDict_wrong h] at h3; cases h3
                · rw [vecToDict_wrong h] at h4; cases h4
                · simp only [hx, cvarToDict, if_neg hne]
      rw [hv]

/-! ## C146: from views to an optimal portfolio -/

/-- Outcome of portfolio `x` in each scenario. -/
def outcome (R : Fin S → Fin N → ℝ) (x : Fin N → ℝ) (s : Fin S) : ℝ := ∑ i, R s i * x i

/-- Variance of a random variable. -/
noncomputable def variance (q z : Fin S → ℝ) : ℝ := expect q (fun s => (z s - expect q z) ^ 2)

theorem ret_outcome (q : Fin S → ℝ) (R : Fin S → Fin N → ℝ) (x : Fin N → ℝ) :
    ret (meanAt q R) x = expect q (outcome R x) := by
  unfold ret meanAt expect outcome
  simp only [Finset.sum_mul, Finset.mul_sum]
  rw [Finset.sum_comm]
  exact Finset.sum_congr rfl fun s _ => Finset.sum_congr rfl fun i _ => by ring

theorem quad_outcome (q : Fin S → ℝ) (R : Fin S → Fin N → ℝ) (x : Fin N → ℝ) :
    quad (fun i j => covUnder q R i j) x = variance q (outcome R x) := by
  have hdev : ∀ s, outcome R x s - expect q (outcome R x) = ∑ i, x i * (R s i - meanAt q R i) := by
    intro s
    rw [← ret_outcome]
    unfold outcome ret
    rw [← Finset.sum_sub_distrib]
    exact Finset.sum_congr rfl fun i _ => by ring
  unfold quad variance
  simp only [hdev]
  unfold covUnder expect
  simp only [pow_two, Finset.sum_mul_sum, Finset.mul_sum, Finset.sum_mul]
  rw [Finset.sum_congr rfl fun i _ => Finset.sum_comm, Finset.sum_comm]
  exact Finset.sum_congr rfl fun s _ => Finset.sum_congr rfl fun i _ => Finset.sum_congr rfl fun j _ => by ring

theorem isCov_covUnder {q : Fin S → ℝ} (hq : IsProb q) (R : Fin S → Fin N → ℝ) : IsCov (fun i j => covUnder q R i j) := by
  refine ⟨fun i j => ?_, fun x => ?_⟩
  · unfold covUnder
    exact Finset.sum_congr rfl fun s _ => by ring
  · show 0 ≤ quad (fun i j => covUnder q R i j) x
    rw [quad_outcome]
    unfold variance expect
    exact Finset.sum_nonneg fun s _ => mul_nonneg (hq.nonneg s) (sq_nonneg _)

/-- **C146.** From views to the least-risk portfolio.  A processor's scenarios and posterior probabilities, given to
`from_scenarios`, with constraints `c` (bounded, feasible, limiting something besides the total): the variance frontier succeeds, and its `min_risk`
portfolio satisfies `c`, reports the expected outcome and the standard deviation of its outcome *under the posterior*, and no portfolio
satisfying `c` has smaller posterior variance. -/
theorem C146_variance {ep : (S : ℕ) → Ep S} (hep : ∀ S, EpSound (ep S)) {argsort : (S : ℕ) → (Fin S → ℝ) → Equiv.Perm (Fin S)}
    {round : ℝ → ℤ} {src : Source} {a : ViewArgs} {P : Processor} (hS : 0 < src.S) (hN : 0 < src.N) (hc : CleanPrior src.prior)
    (h : process ep argsort round src a = .ok P) (name : Label → String) {solver : Opt.Solver} (hsnd : Sound solver)
    (hcmp : Complete solver) (sort : Api.Argsort) (c : PyV.Con.Spec ℝ) (lo : Bool) (t : Option (PyFloat ℝ))
    (bd : Option (PyV.Con.Bounds ℝ)) (num : ℕ) (hnum : 1 ≤ num) :
    ∃ names, Api.fromScenarios (P.scenarios name) (some P.probabilities) "simple" =
        .ok ⟨P.N, some P.mean, some P.cov, some ⟨P.S, P.R, P.q⟩, names⟩ ∧
      ∀ w : Api.Wrapper P.N, Api.mkWrapper ⟨P.N, some P.mean, some P.cov, some ⟨P.S, P.R, P.q⟩, names⟩ (some c) none lo t bd = .ok w →
        (∃ M, ∀ x : Fin P.N → ℝ, Satisfies c x → ∀ i, |x i| ≤ M) → (∃ x : Fin P.N → ℝ, Satisfies c x) →
        Limited P.N c →
        ∃ F p, w.varianceFrontier solver sort num none none = .ok F ∧ F.f.minRisk none = .ok p ∧ Satisfies c p.w ∧
          p.ret = expect P.q (outcome P.R p.w) ∧ p.risk = Real.sqrt (variance P.q (outcome P.R p.w)) ∧
          ∀ x, Satisfies c x → variance P.q (outcome P.R p.w) ≤ variance P.q (outcome P.R x) := by
  refine ⟨_, C145_scenarios hep hS hN hc h name "simple" (by decide), ?_⟩
  obtain ⟨q, hq, rfl, -, -⟩ := C145_accessors hep hS hc h
  intro w hw hb hne hlim
  obtain ⟨hin, hmu, hcov, -⟩ := C105_constructor hw hlim.excludes
  have hw' := hw
  unfold Api.mkWrapper at hw'
  split at hw'
  · cases hw'
  · simp only [Api.applyCosts] at hw'
    injection hw' with hw'
    have hlog : w.isLog = false := by rw [← hw']
    have htr : Trading w none none none none := Or.inr ⟨rfl, by rw [← hw']; rfl⟩
    obtain ⟨F, hF, ⟨p, hp⟩, -, hmin, -⟩ := C106_selectors hsnd hcmp sort w _ _ hmu hcov hlog (isCov_covUnder hq src.R) none c hin hb hne hlim
      htr num hnum
    obtain ⟨h1, h2, h3, h4⟩ := hmin p hp
    refine ⟨F, p, hF, hp, h1, ?_, ?_, fun x hx => ?_⟩
    · rw [h2]; exact ret_outcome _ _ _
    · rw [h3]; exact congrArg Real.sqrt (quad_outcome _ _ _)
    · have := h4 x hx
      simp only [of_apply] at this
      rwa [quad_outcome, quad_outcome] at this

/-- **C146.** The same for CVaR: every portfolio of the CVaR frontier satisfies `c` and has the least CVaR under the posterior among the
portfolios satisfying `c` whose posterior expected outcome is at least its own. -/
theorem C146_cvar {ep : (S : ℕ) → Ep S} (hep : ∀ S, EpSound (ep S)) {argsort : (S : ℕ) → (Fin S → ℝ) → Equiv.Perm (Fin S)}
    {round : ℝ → ℤ} {src : Source} {a : ViewArgs} {P : Processor} (hS : 0 < src.S) (hN : 0 < src.N) (hc : CleanPrior src.prior)
    (h : process ep argsort round src a = .ok P) (name : Label → String) {solver : Opt.Solver} (hsnd : Sound solver)
    (hcmp : Complete solver) (sort : Api.Argsort) (hsort : ∀ T, Risk.IsArgsort (sort T)) (sim : Api.Sim) (c : PyV.Con.Spec ℝ) (lo : Bool)
    (t : Option (PyFloat ℝ)) (bd : Option (PyV.Con.Bounds ℝ)) (alpha : ℝ) (h0 : 0 < alpha) (h1 : alpha < 1) (seed : Option ℤ) (num : ℕ) :
    ∃ names, Api.fromScenarios (P.scenarios name) (some P.probabilities) "simple" =
        .ok ⟨P.N, some P.mean, some P.cov, some ⟨P.S, P.R, P.q⟩, names⟩ ∧
      ∀ w : Api.Wrapper P.N, Api.mkWrapper ⟨P.N, some P.mean, some P.cov, some ⟨P.S, P.R, P.q⟩, names⟩ (some c) none lo t bd = .ok w →
        (∃ M, ∀ x : Fin P.N → ℝ, Satisfies c x → ∀ i, |x i| ≤ M) → (∃ x : Fin P.N → ℝ, Satisfies c x) →
        (∃ x : Fin P.N → ℝ, ¬ Satisfies c x) →
        ∃ F, w.cvarFrontier solver sort sim num alpha seed none none false = .ok F ∧ (0 < num → 0 < F.M) ∧
          ∀ (j : Fin F.M), Satisfies c (fun i => F.f.weights i j) ∧
            F.f.returns j = expect P.q (outcome P.R fun i => F.f.weights i j) ∧
            ∃ v, IsCvar P.q (outcome P.R fun i => F.f.weights i j) (1 - alpha) v ∧ F.f.risks j = |v| ∧
              ∀ x vx, Satisfies c x → expect P.q (outcome P.R fun i => F.f.weights i j) ≤ expect P.q (outcome P.R x) →
                IsCvar P.q (outcome P.R x) (1 - alpha) vx → v ≤ vx := by
  refine ⟨_, C145_scenarios hep hS hN hc h name "simple" (by decide), ?_⟩
  obtain ⟨q, hq, rfl, -, -⟩ := C145_accessors hep hS hc h
  intro w hw hb hne hex
  obtain ⟨hin, hmu, hcov, hsc⟩ := C105_constructor hw hex
  have hw' := hw
  unfold Api.mkWrapper at hw'
  split at hw'
  · cases hw'
  · simp only [Api.applyCosts] at hw'
    injection hw' with hw'
    have hlog : w.isLog = false := by rw [← hw']
    have htr : Trading w none none none none := Or.inr ⟨rfl, by rw [← hw']; rfl⟩
    obtain ⟨cvar, cols, f, σ, hcv, hF, hfr, hwt, hret, -, -, hrisk, -⟩ := C114_cvar_frontier hsnd hcmp sort hsort sim w _ hsc hq hlog none c
      hin hb hne none none none none htr (by simp) alpha h0 h1 seed num false
    refine ⟨⟨cols.length, f⟩, hF, ?_, fun j => ?_⟩
    · intro hn
      rcases hfr.len with h | h
      · simp only; omega
      · simp only; omega
    · have hcol : (fun i => f.weights i j) = cols.get (σ j) := funext (hwt j)
      have hmem : cols.get (σ j) ∈ cols := List.get_mem _ _
      rw [hcol]
      have hsm : scenMean ⟨src.S, src.R, q⟩ = meanAt q src.R := by
        funext i; rfl
      have hpn : ∀ x, pnl ⟨src.S, src.R, q⟩ x = outcome src.R x := by
        intro x; funext s; rfl
      refine ⟨hfr.inside _ hmem, ?_, cvar (cols.get (σ j)), ?_, hrisk rfl j, ?_⟩
      · rw [hret, hmu]; exact ret_outcome _ _ _
      · rw [← hpn]; exact hcv _
      · intro x vx hx hle hvx
        have := hfr.efficient _ hmem x hx (by rw [hsm, ret_outcome, ret_outcome]; exact hle)
        simp only [turnoverCost, Option.getD_none, sub_self, abs_zero, mul_zero, Finset.sum_const_zero, add_zero] at this
        exact this.trans (le_of_eq (Risk.cvar_unique (hcv x) (by rw [hpn]; exact hvx)))

/-! ## Non-vacuity -/

/-- Three scenarios of two labelled assets, uniform prior. -/
noncomputable def exViewSource : Source := ⟨3, 2, cexR, cexAssets, true, none⟩

/-- The mean vector `(3/7, 0)`. -/
noncomputable def exViewArgs : ViewArgs := { mean := .vector (List.ofFn fun i : Fin 2 => .fin ((![3 / 7, 0] : Fin 2 → ℝ) i)) }

theorem ex_process (argsort : (S : ℕ) → (Fin S → ℝ) → Equiv.Perm (Fin S)) (round : ℝ → ℤ) :
    ∃ P, process (fun _ => optimalEp) argsort round exViewSource exViewArgs = .ok P := by
  have hb : assetIdx cexAssets (.str "b") = .ok 1 := by rfl
  have hv : viewsOf exViewSource.assets exViewArgs = .ok ⟨[(.single (.str "a"), .scalar (.fin (3 / 7))), (.single (.str "b"), .scalar (.fin 0))],
      [], [], [], [], [], []⟩ := by
    unfold viewsOf
    have : vecToDict exViewSource.assets MKey.single exViewArgs.mean =
        .ok [(.single (.str "a"), .scalar (.fin (3 / 7))), (.single (.str "b"), .scalar (.fin 0))] := by
      show vecToDict cexAssets MKey.single (.vector (List.ofFn fun i : Fin 2 => .fin ((![3 / 7, 0] : Fin 2 → ℝ) i))) = _
      rw [vecToDict_vector]
      simp [List.finRange_succ, cexAssets]
    rw [this]
    rfl
  set v : Views := ⟨[(.single (.str "a"), .scalar (.fin (3 / 7))), (.single (.str "b"), .scalar (.fin 0))], [], [], [], [], [], []⟩ with hvdef
  have b1 : buildMean cexAssets cexR v.mean = .ok ⟨[(fun s => cexR s 0, 3/7), (fun s => cexR s 1, 0)], []⟩ := by
    simp [buildMean, hvdef, mapE, meanRow, cex_idx, hb, viewRows, parseViewSpecs, parseView, PyFloat.isFinite, bind,
      Except.bind, addRow, Rows.concat, Rows.append, Rows.empty]
  have d2 : doEp optimalEp (fun _ => 1/3) ⟨[(fun s => cexR s 0, 3/7), (fun s => cexR s 1, 0)], []⟩ = .ok cexQ1 := by
    apply optimalEp_eq
    refine klPosterior_more_rows cex_step1 ⟨?_, by simp⟩ (fun q' hq' => ⟨?_, by simp⟩)
    · intro p hp
      simp only [List.cons_append, List.nil_append, List.mem_cons, List.not_mem_nil, or_false] at hp
      rcases hp with rfl | rfl | rfl
      · exact cex_step1.2.2.1.1 _ (by simp)
      · simp [Fin.sum_univ_three, cexR]
      · exact cex_step1.2.2.1.1 _ (by simp)
    · intro p hp
      simp only [List.mem_cons, List.not_mem_nil, or_false] at hp
      rcases hp with rfl | rfl
      · exact hq'.1 _ (by simp)
      · exact hq'.1 _ (by simp)
  have hl : linPoint optimalEp (fun _ => 1/3) cexAssets cexR v (meanOf cexR (fun _ => 1/3))
      (npVarW cexR (fun _ => 1/3)) =
      .ok (meanOf cexR (fun _ => 1/3), npVarW cexR (fun _ => 1/3)) := by
    simp [linPoint, hvdef]
  have s1 : momentPass optimalEp (fun _ => 1/3) cexAssets cexR v false (meanOf cexR (fun _ => 1/3))
      (npVarW cexR (fun _ => 1/3)) = .ok cexQ1 := by
    unfold momentPass simultaneousPass
    simp only [Bool.false_eq_true, if_false]
    rw [hl, b1]
    simpa [buildVol, buildVar, buildSkew, buildCorr, hvdef, mapE, bind, Except.bind, Rows.concat, Rows.append,
      Rows.empty] using d2
  have hpost : computePosterior optimalEp (argsort 3) round (fun _ => 1 / 3) cexAssets cexR v false = .ok cexQ1 := by
    unfold computePosterior
    rw [if_neg (by simp [hvdef])]
    simp only [s1, bind, Except.bind]
    simp [hvdef, quantilePass, cvarPass]
  refine ⟨⟨3, 2, cexR, cexAssets, true, cexQ1, meanOf cexR cexQ1, npCovW cexR cexQ1⟩, ?_⟩
  unfold process
  rw [hv]
  have hp : priorOf exViewSource.prior = .ok (fun _ => 1 / 3) := by
    show Except.ok (fun _ : Fin 3 => 1 / ((3 : ℕ) : ℝ)) = _
    simp
    rfl
  rw [hp]
  simp only [bind, Except.bind]
  rw [if_neg (by simp [exViewSource])]
  have : computePosterior optimalEp (argsort exViewSource.S) round (fun _ => 1 / 3) exViewSource.assets exViewSource.R v exViewArgs.sequential =
    .ok cexQ1 := hpost
  rw [this]
  rfl

/-- The hypotheses of C145-C147 hold for the example; the posterior mean is the vector asked for. -/
example (argsort : (S : ℕ) → (Fin S → ℝ) → Equiv.Perm (Fin S)) (round : ℝ → ℤ) :
    ∃ P, process (fun _ => optimalEp) argsort round exViewSource exViewArgs = .ok P ∧ CleanPrior exViewSource.prior ∧
      P.posteriorMean (fun _ => "x") = .series [("x", .fin (3 / 7)), ("x", .fin 0)] := by
  obtain ⟨P, hP⟩ := ex_process argsort round
  have hc : CleanPrior exViewSource.prior := by intro p hp; cases hp
  refine ⟨P, hP, hc, ?_⟩
  obtain ⟨q, -, rfl, -⟩ := C147_pins (fun _ => optimalEp_sound) (by simp [exViewSource]) hc (by
    show Function.Injective cexAssets
    intro i j; fin_cases i <;> fin_cases j <;> simp [cexAssets]) ![3 / 7, 0] rfl rfl rfl rfl rfl hP
  simp [Processor.posteriorMean, exViewSource]

end PyV.Props
