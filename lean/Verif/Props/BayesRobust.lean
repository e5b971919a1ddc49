import Verif.Props.Bayesian
import Mathlib.LinearAlgebra.Matrix.NonsingularInverse
import Mathlib.Algebra.Order.BigOperators.Ring.Finset
import Mathlib.Tactic.Positivity
import Mathlib.Analysis.SpecialFunctions.ExpDeriv
import Mathlib.Analysis.Calculus.Deriv.Add
import Mathlib.Analysis.Calculus.Deriv.Mul

/-! # C84-C89: sequential updates, the robust bundle and its worst cases -/

namespace PyV.Props

open PyV PyV.Bayes PyV.Spec.Bayes Matrix
open scoped MatrixOrder

set_option linter.unusedSectionVars false

/-! ## C84 -/

/-- Mean of two pooled samples of sizes `a` and `b`. -/
noncomputable def pooledMean {n : ℕ} (a b : ℝ) (x y : Fin n → ℝ) : Fin n → ℝ := fun i => (a * x i + b * y i) / (a + b)

/-- Covariance (divisor: number of observations) of two pooled samples. -/
noncomputable def pooledCov {n : ℕ} (a b : ℝ) (x y : Fin n → ℝ) (A B : Matrix (Fin n) (Fin n) ℝ) : Matrix (Fin n) (Fin n) ℝ :=
  Matrix.of (fun i j => (a * A i j + b * B i j + a * b / (a + b) * ((x i - y i) * (x j - y j))) / (a + b))

/-- The pooled statistics are those of the concatenated data. -/
theorem pooled_is_concat {n T U : ℕ} (hT : 0 < T) (hU : 0 < U) (X : Fin T → Fin n → ℝ) (Y : Fin U → Fin n → ℝ) :
    sampleMean (Fin.append X Y) = pooledMean T U (sampleMean X) (sampleMean Y) ∧
    sampleCov (Fin.append X Y) = pooledCov T U (sampleMean X) (sampleMean Y) (sampleCov X) (sampleCov Y) := by
  have hT' : (T : ℝ) ≠ 0 := by exact_mod_cast hT.ne'
  have hU' : (U : ℝ) ≠ 0 := by exact_mod_cast hU.ne'
  have hTU : (T : ℝ) + U ≠ 0 := by positivity
  have h1 : sampleMean (Fin.append X Y) = pooledMean T U (sampleMean X) (sampleMean Y) := by
    ext i
    simp only [sampleMean, pooledMean, Fin.sum_univ_add, Fin.append_left, Fin.append_right, Nat.cast_add]
    field_simp
  refine ⟨h1, ?_⟩
  ext i j
  have e : sampleCov (Fin.append X Y) i j =
      (∑ t, (Fin.append X Y t i - sampleMean (Fin.append X Y) i) * (Fin.append X Y t j - sampleMean (Fin.append X Y) j)) /
        ((T + U : ℕ) : ℝ) := rfl
  rw [e, h1]
  simp only [Fin.sum_univ_add, Fin.append_left, Fin.append_right, Nat.cast_add]
  rw [scatter_split hT X, scatter_split hU Y]
  simp only [pooledMean, pooledCov, of_apply]
  field_simp
  ring

/-- **C84.** Updating with one data set and then, starting from the resulting posterior, with a second one gives the
same posterior as a single update with the pooled data, whatever the order. -/
theorem C84_sequential {factor : Factor} {n : ℕ} {m x y : Fin n → ℝ} {S A B : Matrix (Fin n) (Fin n) ℝ}
    {l l' k k' j j' r r' s s'} {t0 nu0 a b : ℕ} {P Q R : Params n}
    (h1 : niwFit factor ⟨n, m, l⟩ ⟨n, n, S, l'⟩ t0 nu0 ⟨n, x, k⟩ ⟨n, n, A, k'⟩ a = .ok ⟨n, P⟩)
    (h2 : niwFit factor ⟨n, P.mu1, j⟩ ⟨n, n, P.sigma1, j'⟩ P.T1 P.nu1 ⟨n, y, r⟩ ⟨n, n, B, r'⟩ b = .ok ⟨n, Q⟩)
    (h3 : niwFit factor ⟨n, m, l⟩ ⟨n, n, S, l'⟩ t0 nu0 ⟨n, pooledMean a b x y, s⟩ ⟨n, n, pooledCov a b x y A B, s'⟩
      ((a : ℝ) + b) = .ok ⟨n, R⟩) : Q = R := by
  obtain ⟨ht, ha, rfl⟩ := niwFit_ok h1
  obtain ⟨-, -, rfl⟩ := niwFit_ok h3
  have c1 : (t0 : ℝ) + a = ((t0 + a : ℕ) : ℝ) := by push_cast; rfl
  have c2 : (nu0 : ℝ) + a = ((nu0 + a : ℕ) : ℝ) := by push_cast; rfl
  dsimp only at h2
  rw [c1, c2] at h2
  obtain ⟨-, hb, rfl⟩ := niwFit_ok h2
  have ht' : (0 : ℝ) < t0 := by exact_mod_cast ht
  have hv : (0 : ℝ) ≤ nu0 := by positivity
  have hta : (t0 : ℝ) + a ≠ 0 := by positivity
  have hab : (a : ℝ) + b ≠ 0 := by positivity
  have htab : (t0 : ℝ) + (a + b) ≠ 0 := by positivity
  have htab2 : (t0 : ℝ) + a + b ≠ 0 := by positivity
  have hva : (nu0 : ℝ) + a ≠ 0 := by positivity
  have hvab : (nu0 : ℝ) + (a + b) ≠ 0 := by positivity
  have hvab2 : (nu0 : ℝ) + a + b ≠ 0 := by positivity
  simp only [Params.mk.injEq]
  push_cast
  refine ⟨by ring, ?_, by ring, ?_⟩
  · ext i
    simp only [mu1Of, pooledMean]
    field_simp
    ring
  · ext i j
    simp only [sigma1Of, mu1Of, pooledMean, pooledCov, of_apply]
    have e1 : (1 : ℝ) / a + 1 / t0 = (t0 + a) / (a * t0) := by field_simp
    have e2 : (1 : ℝ) / b + 1 / (t0 + a) = (t0 + a + b) / (b * (t0 + a)) := by field_simp
    have e3 : (1 : ℝ) / (a + b) + 1 / t0 = (t0 + a + b) / ((a + b) * t0) := by field_simp; ring
    rw [e1, e2, e3]
    field_simp
    ring

/-- The hypotheses of `C84_sequential` are met, for example by positive-definite inputs: each of the three updates
succeeds. -/
example {factor : Factor} (hf : FactorOk factor) (x y : Fin 2 → ℝ) {a b : ℕ} (ha : 0 < a) (hb : 0 < b) :
    ∃ P Q R : Params 2,
      niwFit factor ⟨2, ![1, 2], none⟩ ⟨2, 2, (1 : Matrix (Fin 2) (Fin 2) ℝ), none⟩ (3 : ℕ) (4 : ℕ) ⟨2, x, none⟩
        ⟨2, 2, (1 : Matrix (Fin 2) (Fin 2) ℝ), none⟩ a = .ok ⟨2, P⟩ ∧
      niwFit factor ⟨2, P.mu1, none⟩ ⟨2, 2, P.sigma1, none⟩ P.T1 P.nu1 ⟨2, y, none⟩
        ⟨2, 2, (1 : Matrix (Fin 2) (Fin 2) ℝ), none⟩ b = .ok ⟨2, Q⟩ ∧
      niwFit factor ⟨2, ![1, 2], none⟩ ⟨2, 2, (1 : Matrix (Fin 2) (Fin 2) ℝ), none⟩ (3 : ℕ) (4 : ℕ) ⟨2, pooledMean a b x y, none⟩
        ⟨2, 2, pooledCov a b x y 1 1, none⟩ ((a : ℝ) + b) = .ok ⟨2, R⟩ := by
  have hp : (1 : Matrix (Fin 2) (Fin 2) ℝ).PosDef := Matrix.PosDef.one
  have ha' : (0 : ℝ) < a := by exact_mod_cast ha
  have hb' : (0 : ℝ) < b := by exact_mod_cast hb
  obtain ⟨P, hP⟩ := C63_total hf (n := 2) two_pos ![1, 2] x hp hp none none none none none rfl (t0 := 3) (by norm_num) 4
    (nObs := a) ha'
  obtain ⟨-, -, hP'⟩ := niwFit_ok hP
  have hPp : P.sigma1.PosDef := by
    rw [hP']; exact sigma1Of_posDef (by norm_num) (by positivity) ha' hp.posSemidef hp
  obtain ⟨Q, hQ⟩ := C63_total hf (n := 2) two_pos P.mu1 y hPp hp none none none none none rfl (t0 := 3 + a) (by omega) (4 + a)
    (nObs := b) hb'
  have hpool : (pooledCov (a : ℝ) b x y 1 1).PosDef := by
    have : pooledCov (a : ℝ) b x y 1 1 = 1 + (a * b / (a + b) / (a + b) : ℝ) • Matrix.of (fun i j => (x - y) i * (x - y) j) := by
      ext i j
      simp only [pooledCov, of_apply, Matrix.add_apply, Matrix.smul_apply, smul_eq_mul, Pi.sub_apply]
      field_simp
    rw [this]
    exact hp.add_posSemidef ((outer_psd _).smul (by positivity))
  obtain ⟨R, hR⟩ := C63_total hf (n := 2) two_pos ![1, 2] (pooledMean a b x y) hp hpool none none none none none rfl (t0 := 3)
    (by norm_num) 4 (nObs := (a : ℝ) + b) (by positivity)
  refine ⟨P, Q, R, hP, ?_, hR⟩
  have e1 : P.T1 = ((3 + a : ℕ) : ℝ) := by rw [hP']; push_cast; rfl
  have e2 : P.nu1 = ((4 + a : ℕ) : ℝ) := by rw [hP']; push_cast; rfl
  rw [e1, e2]; exact hQ

/-! ## C85 -/

/-- **C85.** The bundle built by `from_niw` is consistent with the posterior it comes from: it exists exactly when the
posterior has more than two degrees of freedom, carries the posterior mean, its `sigma1` is the posterior scale matrix,
its covariance does not exceed it, its mean uncertainty is `nu1/(T1 (nu1-2)) Sigma1`, and both credibility radii equal
those of the posterior object. -/
theorem C85_bundle {factor : Factor} (ppf : ℝ → ℕ → ℝ) {n : ℕ} {m sm : Fin n → ℝ} {S Ss : Matrix (Fin n) (Fin n) ℝ} {l l' k k'}
    {t0 nu0 nObs : ℕ} {o : Niw} {P : Params o.n} (ho : init factor ⟨n, m, l⟩ ⟨n, n, S, l'⟩ t0 nu0 = .ok o)
    (hu : update factor o ⟨n, sm, k⟩ ⟨n, n, Ss, k'⟩ nObs = .ok P) :
    (P.nu1 ≤ 2 → fromNiw factor ⟨n, m, l⟩ ⟨n, n, S, l'⟩ t0 nu0 ⟨n, sm, k⟩ ⟨n, n, Ss, k'⟩ nObs = .error .valueError) ∧
    (2 < P.nu1 → ∃ Sg Sm : Matrix (Fin o.n) (Fin o.n) ℝ,
      let R : Robust := ⟨o.n, P.mu1, Sg, Sm, some P.nu1, some o.n, some P.T1⟩
      fromNiw factor ⟨n, m, l⟩ ⟨n, n, S, l'⟩ t0 nu0 ⟨n, sm, k⟩ ⟨n, n, Ss, k'⟩ nObs = .ok R ∧
      sigma1 R = .ok P.sigma1 ∧
      (P.T1 * (P.nu1 - 2)) • Sm = P.nu1 • P.sigma1 ∧
      (P.sigma1.PosSemidef → Sg.PosSemidef ∧ Sm.PosSemidef ∧ (P.sigma1 - Sg).PosSemidef) ∧
      ∀ p, 0 < p → p < 1 →
        rCredRadiusMu ppf R p = credRadiusMu ppf { o with post := some P } p ∧
        rCredRadiusSigma ppf R p = credRadiusSigma ppf { o with post := some P } p) := by
  obtain ⟨-, hN, -, -, -, hP, -⟩ := update_ok (n := n) (by obtain ⟨-, -, -, idx, -, rfl⟩ := init_ok ho; rfl) hu
  have ht1 : 0 < P.T1 := by
    obtain ⟨h1, -, -, idx, -, rfl⟩ := init_ok ho
    rw [hP]; simp only [pyInt_natCast, Int.cast_natCast]; positivity
  have ei : init factor ⟨n, m, l⟩ ⟨n, n, S, l'⟩ (pyInt (t0 : ℝ)) (pyInt (nu0 : ℝ)) = .ok o := by
    simp only [pyInt_natCast, Int.cast_natCast]; exact ho
  have eu : update factor o ⟨n, sm, k⟩ ⟨n, n, Ss, k'⟩ (pyInt (nObs : ℝ)) = .ok P := by
    simp only [pyInt_natCast, Int.cast_natCast]; exact hu
  have ef : fromNiw factor ⟨n, m, l⟩ ⟨n, n, S, l'⟩ t0 nu0 ⟨n, sm, k⟩ ⟨n, n, Ss, k'⟩ nObs = bundle o P := by
    unfold fromNiw; rw [ei]; dsimp only; rw [eu]
  constructor
  · intro hv
    rw [ef]
    simp only [bundle, getMuCe, getSigmaCe, getSMu]
    by_cases hz : P.nu1 + o.n + 1 = 0
    · simp [hz, bind, Except.bind]
    · simp [hz, hv, bind, Except.bind]
  · intro hv
    have hd : (0 : ℝ) < P.nu1 + o.n + 1 := by positivity
    refine ⟨(P.nu1 / (P.nu1 + o.n + 1)) • P.sigma1, (P.nu1 / (P.T1 * (P.nu1 - 2))) • P.sigma1, ?_, ?_, ?_, ?_, ?_⟩
    · rw [ef]
      simp only [bundle, getMuCe, getSigmaCe, getSMu]
      rw [if_neg hd.ne', if_neg (not_le.mpr hv)]
      rfl
    · simp only [sigma1, smul_smul]
      rw [show (P.nu1 + o.n + 1) / P.nu1 * (P.nu1 / (P.nu1 + o.n + 1)) = 1 by field_simp, one_smul]
    · have h2 : P.nu1 - 2 ≠ 0 := by linarith
      rw [smul_smul]; congr 1; field_simp
    · intro hs
      have h2 : 0 < P.nu1 - 2 := by linarith
      refine ⟨hs.smul (by positivity), hs.smul (by positivity), ?_⟩
      have : P.sigma1 - (P.nu1 / (P.nu1 + o.n + 1)) • P.sigma1 = (((o.n : ℝ) + 1) / (P.nu1 + o.n + 1)) • P.sigma1 := by
        rw [show ((o.n : ℝ) + 1) / (P.nu1 + o.n + 1) = 1 - P.nu1 / (P.nu1 + o.n + 1) by field_simp; ring, sub_smul, one_smul]
      rw [this]; exact hs.smul (by positivity)
    · intro p h0 h1
      constructor
      · simp only [rCredRadiusMu, credRadiusMu]
        rw [if_neg (not_le.mpr hv), if_neg (by simp [h0, h1])]
      · simp only [rCredRadiusSigma, credRadiusSigma]
        rw [if_neg (by simp [h0, h1]), if_neg (not_le.mpr hd)]

/-! ## C86: worst-case mean -/

theorem psd_gram {n : ℕ} {A : Matrix (Fin n) (Fin n) ℝ} (hA : A.PosSemidef) : ∃ M : Matrix (Fin n) (Fin n) ℝ, A = Mᵀ * M := by
  obtain ⟨B, hB⟩ := CStarAlgebra.nonneg_iff_eq_star_mul_self.mp hA.nonneg
  exact ⟨B, by rw [hB, star_eq_conjTranspose, conjTranspose_eq_transpose_of_trivial]⟩

theorem psd_cauchy_schwarz {n : ℕ} {A : Matrix (Fin n) (Fin n) ℝ} (hA : A.PosSemidef) (w z : Fin n → ℝ) :
    (w ⬝ᵥ (A *ᵥ z)) ^ 2 ≤ quad A w * quad A z := by
  obtain ⟨M, rfl⟩ := psd_gram hA
  have e : ∀ u v : Fin n → ℝ, u ⬝ᵥ ((Mᵀ * M) *ᵥ v) = ∑ i, (M *ᵥ u) i * (M *ᵥ v) i := by
    intro u v
    rw [← mulVec_mulVec, dotProduct_mulVec, vecMul_transpose, dotProduct]
  simp only [quad, e]
  have := Finset.sum_mul_sq_le_sq_mul_sq Finset.univ (fun i => (M *ᵥ w) i) (fun i => (M *ᵥ z) i)
  simpa only [sq] using this

/-- **C86.** With `gamma = cred_radius_mu(p)` the number `w' mu1 - gamma sqrt(w' Sigma1 w)` is the exact minimum of the
portfolio's expected return over the uncertainty ellipsoid of the mean, `(mu - mu1)' S_mu⁻¹ (mu - mu1) ≤ q`, where `S_mu` is
the matrix `get_S_mu` returns and `q` the chi-square quantile. -/
theorem C86_worst_mean {ppf : ℝ → ℕ → ℝ} {o : Niw} {P : Params o.n} (hp : o.post = some P) (hT : 0 < P.T1)
    (hS : P.sigma1.PosDef) {p gam : ℝ} (hq : 0 ≤ ppf p o.n) (hg : credRadiusMu ppf o p = .ok gam) {Sm : OutMat o.n}
    (hSm : getSMu o = .ok Sm) (w : Fin o.n → ℝ) :
    let worst := w ⬝ᵥ P.mu1 - gam * Real.sqrt (quad P.sigma1 w)
    (∀ mu, quad Sm.val⁻¹ (mu - P.mu1) ≤ ppf p o.n → worst ≤ w ⬝ᵥ mu) ∧
    ∃ mu, quad Sm.val⁻¹ (mu - P.mu1) ≤ ppf p o.n ∧ w ⬝ᵥ mu = worst := by
  simp only [getSMu, hp] at hSm
  split at hSm; · cases hSm
  rename_i hv
  have hv' : 2 < P.nu1 := not_le.mp hv
  injection hSm with hSm
  simp only [credRadiusMu, hp, chi2Quantile] at hg
  rw [if_neg hv] at hg
  split at hg; · cases hg
  rename_i hpp
  injection hg with hg
  set c := P.nu1 / (P.T1 * (P.nu1 - 2)) with hc
  have h2 : 0 < P.nu1 - 2 := by linarith
  have hcpos : 0 < c := by positivity
  set q := ppf p o.n with hqdef
  set V := quad P.sigma1 w with hV
  have hV0 : 0 ≤ V := PyV.Psd.quad_nonneg hS.posSemidef w
  have hM : Sm.val = c • P.sigma1 := by rw [← hSm]
  have hMpd : Sm.val.PosDef := by rw [hM]; exact hS.smul hcpos
  have hunit : IsUnit Sm.val.det := hMpd.det_pos.ne'.isUnit
  have hinv1 : Sm.val * Sm.val⁻¹ = 1 := Matrix.mul_nonsing_inv _ hunit
  have hinv2 : Sm.val⁻¹ * Sm.val = 1 := Matrix.nonsing_inv_mul _ hunit
  have hquad : quad Sm.val w = c * V := by
    rw [hM, quad, smul_mulVec, dotProduct_smul, smul_eq_mul, hV, quad]
  have hgam : gam = Real.sqrt (q * c) := by
    rw [← hg, gammaMu]; congr 1; rw [hc]; field_simp
  have hprod : gam * Real.sqrt V = Real.sqrt (q * quad Sm.val w) := by
    rw [hgam, ← Real.sqrt_mul (by positivity), hquad]; congr 1; ring
  intro worst
  have hworst : worst = w ⬝ᵥ P.mu1 - Real.sqrt (q * quad Sm.val w) := by simp only [worst]; rw [hprod]
  have hQ0 : 0 ≤ quad Sm.val w := by rw [hquad]; positivity
  constructor
  · intro mu hmu
    set d := mu - P.mu1 with hd
    have hmu' : w ⬝ᵥ mu = w ⬝ᵥ P.mu1 + w ⬝ᵥ d := by rw [← dotProduct_add]; congr 1; rw [hd]; abel
    have hz : Sm.val *ᵥ (Sm.val⁻¹ *ᵥ d) = d := by rw [mulVec_mulVec, hinv1, one_mulVec]
    have hsym : Sm.valᵀ = Sm.val := PyV.Psd.symm_of_psd hMpd.posSemidef
    have hzq : quad Sm.val (Sm.val⁻¹ *ᵥ d) = quad Sm.val⁻¹ d := by
      rw [quad, hz, quad, dotProduct_comm]
    have hcs := psd_cauchy_schwarz hMpd.posSemidef w (Sm.val⁻¹ *ᵥ d)
    rw [hz, hzq] at hcs
    have h3 : (w ⬝ᵥ d) ^ 2 ≤ q * quad Sm.val w := by
      calc _ ≤ quad Sm.val w * quad Sm.val⁻¹ d := hcs
        _ ≤ quad Sm.val w * q := mul_le_mul_of_nonneg_left hmu hQ0
        _ = _ := mul_comm _ _
    have h4 := Real.abs_le_sqrt h3
    rw [hworst, hmu']
    linarith [(abs_le.mp h4).1]
  · rcases hQ0.eq_or_lt with h0 | hpos
    · refine ⟨P.mu1, ?_, ?_⟩
      · rw [sub_self, quad, zero_dotProduct]; exact hq
      · rw [hworst, ← h0, mul_zero, Real.sqrt_zero, sub_zero]
    · set s := Real.sqrt (q / quad Sm.val w) with hs
      have hs2 : s ^ 2 = q / quad Sm.val w := Real.sq_sqrt (by positivity)
      refine ⟨P.mu1 - s • (Sm.val *ᵥ w), ?_, ?_⟩
      · have e : P.mu1 - s • (Sm.val *ᵥ w) - P.mu1 = (-s) • (Sm.val *ᵥ w) := by rw [neg_smul]; abel
        rw [e, quad, mulVec_smul, dotProduct_smul, smul_dotProduct, mulVec_mulVec, hinv2, one_mulVec, smul_eq_mul, smul_eq_mul,
          dotProduct_comm]
        have : (-s) * ((-s) * (w ⬝ᵥ Sm.val *ᵥ w)) = s ^ 2 * quad Sm.val w := by rw [quad]; ring
        rw [this, hs2]; field_simp; exact le_rfl
      · rw [hworst, dotProduct_sub, dotProduct_smul, smul_eq_mul]
        congr 1
        have : s * quad Sm.val w = Real.sqrt (q * quad Sm.val w) := by
          rw [eq_comm, Real.sqrt_eq_iff_mul_self_eq (by positivity) (by positivity)]
          have : s * quad Sm.val w * (s * quad Sm.val w) = s ^ 2 * quad Sm.val w * quad Sm.val w := by ring
          rw [this, hs2]; field_simp
        exact this

/-! ## C87: worst-case variance -/

theorem trace_form_bound {n : ℕ} {A D : Matrix (Fin n) (Fin n) ℝ} (hA : A.PosDef) (hD : Dᵀ = D) (w : Fin n → ℝ) :
    quad D w ≤ Real.sqrt ((A⁻¹ * D * A⁻¹ * D).trace) * quad A w := by
  obtain ⟨M, hM⟩ := psd_gram hA.inv.posSemidef
  have hunit : IsUnit A.det := hA.det_pos.ne'.isUnit
  have hinv : A⁻¹ * A = 1 := Matrix.nonsing_inv_mul _ hunit
  have hAs : Aᵀ = A := PyV.Psd.symm_of_psd hA.posSemidef
  set Y := M * D * Mᵀ with hY
  have hYs : Yᵀ = Y := by rw [hY]; simp only [transpose_mul, transpose_transpose, hD, Matrix.mul_assoc]
  set v := M *ᵥ (A *ᵥ w) with hv
  have hMv : Mᵀ *ᵥ v = w := by rw [hv, mulVec_mulVec, ← hM, mulVec_mulVec, hinv, one_mulVec]
  have htr : (A⁻¹ * D * A⁻¹ * D).trace = ∑ i, ∑ j, Y i j ^ 2 := by
    have e : (A⁻¹ * D * A⁻¹ * D).trace = (Y * Y).trace := by
      rw [hM, hY]
      have e1 : Mᵀ * M * D * (Mᵀ * M) * D = Mᵀ * (M * D * Mᵀ * M * D) := by simp only [Matrix.mul_assoc]
      rw [e1, trace_mul_comm]; simp only [Matrix.mul_assoc]
    rw [e]
    simp only [trace, diag_apply, mul_apply]
    refine Finset.sum_congr rfl (fun i _ => Finset.sum_congr rfl (fun j _ => ?_))
    have : Y j i = Y i j := congrFun (congrFun hYs i) j
    rw [this, sq]
  have hw : quad D w = ∑ i, ∑ j, Y i j * (v i * v j) := by
    have : quad D w = v ⬝ᵥ (Y *ᵥ v) := by
      rw [hY, ← mulVec_mulVec, ← mulVec_mulVec, hMv, dotProduct_mulVec, ← mulVec_transpose, hMv, quad]
    rw [this]
    simp only [dotProduct, mulVec, Finset.mul_sum]
    exact Finset.sum_congr rfl (fun i _ => Finset.sum_congr rfl (fun j _ => by ring))
  have hvv : quad A w = ∑ i, v i ^ 2 := by
    have : v ⬝ᵥ v = quad A w := by
      have e : v ⬝ᵥ v = (M *ᵥ (A *ᵥ w)) ⬝ᵥ v := rfl
      rw [e, ← vecMul_transpose, ← dotProduct_mulVec, hMv, dotProduct_comm, quad]
    rw [← this, dotProduct]; simp only [sq]
  have hcs := Finset.sum_mul_sq_le_sq_mul_sq (Finset.univ ×ˢ Finset.univ) (fun x : Fin n × Fin n => Y x.1 x.2)
    (fun x => v x.1 * v x.2)
  rw [Finset.sum_product, Finset.sum_product, Finset.sum_product] at hcs
  dsimp only at hcs
  have h4 : ∑ i, ∑ j, (v i * v j) ^ 2 = (quad A w) ^ 2 := by
    rw [hvv, sq, Finset.sum_mul_sum]
    exact Finset.sum_congr rfl (fun i _ => Finset.sum_congr rfl (fun j _ => by ring))
  rw [← hw, ← htr, h4] at hcs
  have hq : 0 ≤ quad A w := PyV.Psd.quad_nonneg hA.posSemidef w
  have h5 := Real.abs_le_sqrt hcs
  rw [Real.sqrt_mul' _ (by positivity), Real.sqrt_sq hq] at h5
  exact (le_abs_self _).trans h5

/-- **C87.** `C_sigma * w' Sigma1 w`, with `C_sigma = cred_radius_sigma_factor(p)`, is the exact maximum of the portfolio
variance over the uncertainty ellipsoid of the covariance, centred at the matrix `get_sigma_ce` returns:
`(nu1+N+1)^3/(2 nu1^2) tr(Sigma1⁻¹ (Sigma - Sigma_ce) Sigma1⁻¹ (Sigma - Sigma_ce)) ≤ q`. -/
theorem C87_worst_variance {ppf : ℝ → ℕ → ℝ} {o : Niw} {P : Params o.n} (hp : o.post = some P) (hv : 0 < P.nu1)
    (hS : P.sigma1.PosDef) {p C : ℝ} (hq : 0 ≤ ppf p (o.n * (o.n + 1) / 2)) (hg : credRadiusSigma ppf o p = .ok C)
    {Sc : OutMat o.n} (hSc : getSigmaCe o = .ok Sc) (w : Fin o.n → ℝ) :
    let inEllipsoid : Matrix (Fin o.n) (Fin o.n) ℝ → Prop := fun Sg => Sgᵀ = Sg ∧
      (P.nu1 + o.n + 1) ^ 3 / (2 * P.nu1 ^ 2) *
        (P.sigma1⁻¹ * (Sg - Sc.val) * P.sigma1⁻¹ * (Sg - Sc.val)).trace ≤ ppf p (o.n * (o.n + 1) / 2)
    (∀ Sg, inEllipsoid Sg → quad Sg w ≤ C * quad P.sigma1 w) ∧
    ∃ Sg, inEllipsoid Sg ∧ quad Sg w = C * quad P.sigma1 w := by
  have hd : (0 : ℝ) < P.nu1 + o.n + 1 := by positivity
  simp only [getSigmaCe, hp] at hSc
  rw [if_neg hd.ne'] at hSc
  injection hSc with hSc
  simp only [credRadiusSigma, hp, chi2Quantile] at hg
  split at hg; · cases hg
  rename_i hpp
  rw [if_neg (not_le.mpr hd)] at hg
  injection hg with hg
  set q := ppf p (o.n * (o.n + 1) / 2) with hqdef
  set den := P.nu1 + o.n + 1 with hden
  set rho := 2 * P.nu1 ^ 2 * q / den ^ 3 with hrho
  have hrho0 : 0 ≤ rho := by positivity
  have hC : C = P.nu1 / den + Real.sqrt rho := by
    rw [← hg]; simp only [cSigma]; rw [← hden, ← hrho, if_neg (not_lt.mpr hrho0)]
  have hM : Sc.val = (P.nu1 / den) • P.sigma1 := by rw [← hSc]
  have hce : quad Sc.val w = P.nu1 / den * quad P.sigma1 w := by
    rw [hM, quad, smul_mulVec, dotProduct_smul, smul_eq_mul, quad]
  have hsymm : P.sigma1ᵀ = P.sigma1 := PyV.Psd.symm_of_psd hS.posSemidef
  have hScs : Sc.valᵀ = Sc.val := by rw [hM, transpose_smul, hsymm]
  have hV0 : 0 ≤ quad P.sigma1 w := PyV.Psd.quad_nonneg hS.posSemidef w
  intro inE
  have hsplit : ∀ Sg, quad Sg w = quad Sc.val w + quad (Sg - Sc.val) w := by
    intro Sg
    simp only [quad, sub_mulVec, dotProduct_sub]; ring
  have hiff : ∀ t : ℝ, den ^ 3 / (2 * P.nu1 ^ 2) * t ≤ q ↔ t ≤ rho := by
    intro t
    rw [hrho, le_div_iff₀ (by positivity), div_mul_eq_mul_div, div_le_iff₀ (by positivity)]
    constructor <;> intro h <;> linarith
  constructor
  · intro Sg ⟨h1, h2⟩
    have h3 := (hiff _).mp h2
    have h4 := trace_form_bound hS (D := Sg - Sc.val) (by rw [transpose_sub, h1, hScs]) w
    have h5 := mul_le_mul_of_nonneg_right (Real.sqrt_le_sqrt h3) hV0
    rw [hsplit, hce, hC, add_mul]
    linarith
  · rcases hV0.eq_or_lt with h0 | hpos
    · refine ⟨Sc.val, ⟨hScs, ?_⟩, ?_⟩
      · rw [hiff, sub_self, Matrix.mul_zero, trace_zero]; exact hrho0
      · rw [hce, ← h0]; simp
    · have hunit : IsUnit P.sigma1.det := hS.det_pos.ne'.isUnit
      have hinv : P.sigma1⁻¹ * P.sigma1 = 1 := Matrix.nonsing_inv_mul _ hunit
      set u := P.sigma1 *ᵥ w with hu
      set V := quad P.sigma1 w with hV
      set c := Real.sqrt rho / V with hc
      set D := c • vecMulVec u u with hD
      have hDs : Dᵀ = D := by rw [hD, transpose_smul, transpose_vecMulVec]
      have hIu : P.sigma1⁻¹ *ᵥ u = w := by rw [hu, mulVec_mulVec, hinv, one_mulVec]
      have hwu : w ⬝ᵥ u = V := rfl
      have hID : P.sigma1⁻¹ * D = c • vecMulVec w u := by
        rw [hD, Matrix.mul_smul, mul_vecMulVec, hIu]
      have htr : (P.sigma1⁻¹ * D * P.sigma1⁻¹ * D).trace = c ^ 2 * V ^ 2 := by
        rw [Matrix.mul_assoc (P.sigma1⁻¹ * D), hID, Matrix.smul_mul, Matrix.mul_smul, trace_smul, trace_smul,
          vecMulVec_mul_vecMulVec, trace_vecMulVec, dotProduct_smul, dotProduct_comm u w, hwu]
        simp only [smul_eq_mul]; ring
      refine ⟨Sc.val + D, ⟨by rw [transpose_add, hScs, hDs], ?_⟩, ?_⟩
      · rw [hiff, add_sub_cancel_left, htr, ← mul_pow, hc, div_mul_cancel₀ _ hpos.ne', Real.sq_sqrt hrho0]
      · rw [hsplit, add_sub_cancel_left, hce, hC, add_mul]
        congr 1
        rw [hD, quad, smul_mulVec, dotProduct_smul, smul_eq_mul, vecMulVec_mulVec]
        have : w ⬝ᵥ (MulOpposite.op (u ⬝ᵥ w) • u) = V * V := by
          rw [dotProduct_comm u w, hwu, op_smul_eq_smul, dotProduct_smul, hwu, smul_eq_mul]
        rw [this, hc]; field_simp

/-- The hypotheses of `C86_worst_mean` and `C87_worst_variance` are met by an updated object. -/
example : let o : Niw := ⟨2, ![0, 0], 1, 1, 1, none, some ⟨2, ![1, 2], 3, 1⟩⟩
    ∃ gam C Sm Sc, credRadiusMu (fun _ _ => 1) o (1 / 2) = .ok gam ∧ getSMu o = .ok Sm ∧
      credRadiusSigma (fun _ _ => 1) o (1 / 2) = .ok C ∧ getSigmaCe o = .ok Sc ∧
      (1 : Matrix (Fin 2) (Fin 2) ℝ).PosDef := by
  intro o
  obtain ⟨-, h2, h3, ⟨x, h4⟩, ⟨y, h5⟩⟩ := C64_getters_answer (fun _ _ => 1) (o := o) (P := ⟨2, ![1, 2], 3, 1⟩) rfl (by norm_num)
    (p := 1 / 2) (by norm_num) (by norm_num)
  exact ⟨x, y, _, _, h4, h2, h5, h3, Matrix.PosDef.one⟩

/-! ## C88: horizon units of the mean uncertainty -/

/-- **C88 (log units).** Over horizon `h` the mean-uncertainty covariance is the covariance of `h mu` when that of `mu` is
`S_mu`: the quadratic form of `w` is that of `h w`; it is positive semidefinite and horizons multiply. -/
theorem C88_log_units (r : Robust) (h g : ℝ) (hS : r.sMu.PosSemidef) :
    (∀ w, quad (covLog r h) w = quad r.sMu (h • w)) ∧ (covLog r h).PosSemidef ∧
    covLog { r with sMu := covLog r h } g = covLog r (g * h) := by
  refine ⟨?_, ?_, ?_⟩
  · intro w
    simp only [quad, covLog, smul_mulVec, dotProduct_smul, mulVec_smul, smul_dotProduct, smul_eq_mul]; ring
  · exact hS.smul (by positivity)
  · simp only [covLog, smul_smul]; congr 1; ring

theorem quad_covSimple (r : Robust) (h : ℝ) (e : Bool) (w : Fin r.n → ℝ) :
    quad (covSimple r h e) w = quad r.sMu (fun i => w i * (h * simpleScale r h e i)) := by
  simp only [quad, covSimple, dotProduct, mulVec, of_apply, Finset.mul_sum]
  exact Finset.sum_congr rfl (fun i _ => Finset.sum_congr rfl (fun j _ => by ring))

theorem portfolio_deriv {n : ℕ} (w mu c d : Fin n → ℝ) (h : ℝ) :
    HasDerivAt (fun t : ℝ => ∑ i, w i * (Real.exp (h * (mu i + t * d i) + c i) - 1))
      (∑ i, w i * (h * Real.exp (h * mu i + c i)) * d i) 0 := by
  apply HasDerivAt.fun_sum
  intro i _
  have h1 : HasDerivAt (fun t : ℝ => h * (mu i + t * d i) + c i) (h * d i) 0 := by
    have := (((hasDerivAt_id (0 : ℝ)).mul_const (d i)).const_add (mu i)).const_mul h |>.add_const (c i)
    simpa using this
  have h2 := (h1.exp.sub_const 1).const_mul (w i)
  have e : w i * (h * Real.exp (h * mu i + c i)) * d i = w i * (Real.exp (h * (mu i + 0 * d i) + c i) * (h * d i)) := by
    simp only [zero_mul, add_zero]; ring
  rw [e]; exact h2

/-- **C88 (simple units).** `mean_uncertainty_cov_simple` (default) is the delta-method covariance of the simple return
`exp(h mu) - 1`: the variance it gives to a portfolio `w` is the variance, under `S_mu`, of the derivative of the
portfolio's simple return with respect to the log mean; it is positive semidefinite. -/
theorem C88_simple_units (r : Robust) (h : ℝ) (w : Fin r.n → ℝ) (hS : r.sMu.PosSemidef) :
    (∃ g : Fin r.n → ℝ,
      (∀ d : Fin r.n → ℝ, HasDerivAt (fun t : ℝ => ∑ i, w i * (Real.exp (h * (r.mu i + t * d i)) - 1)) (g ⬝ᵥ d) 0) ∧
      quad (covSimple r h false) w = quad r.sMu g) ∧ 0 ≤ quad (covSimple r h false) w ∧
    0 ≤ quad (covSimple r h true) w := by
  refine ⟨⟨fun i => w i * (h * Real.exp (h * r.mu i)), ?_, ?_⟩, ?_, ?_⟩
  · intro d
    have := portfolio_deriv w r.mu 0 d h
    simpa [dotProduct] using this
  · rw [quad_covSimple]; congr 1; funext i; simp [simpleScale, mul_comm (r.mu i)]
  · rw [quad_covSimple]; exact PyV.Psd.quad_nonneg hS _
  · rw [quad_covSimple]; exact PyV.Psd.quad_nonneg hS _

/-- **C88 (exact), partial.** With `exact=True` the same holds for the expected simple return of the log-normal horizon
law, `exp(h mu + h Sigma/2) - 1`, but only for the horizon factor 1.  Missing: other horizons (`C88_counterexample`). -/
theorem C88_exact_partial (r : Robust) (w : Fin r.n → ℝ) :
    ∃ g : Fin r.n → ℝ,
      (∀ d : Fin r.n → ℝ, HasDerivAt
        (fun t : ℝ => ∑ i, w i * (Real.exp (1 * (r.mu i + t * d i) + 1 * r.sigma i i / 2) - 1)) (g ⬝ᵥ d) 0) ∧
      quad (covSimple r 1 true) w = quad r.sMu g := by
  refine ⟨fun i => w i * (1 * Real.exp (1 * r.mu i + 1 * r.sigma i i / 2)), ?_, ?_⟩
  · intro d
    exact portfolio_deriv w r.mu (fun i => 1 * r.sigma i i / 2) d 1
  · rw [quad_covSimple]; congr 1; funext i; simp [simpleScale]; left; ring_nf

/-- **C88 (false of the code).** Over a horizon of two periods the log-normal expected return is `exp(2 mu + 2 Sigma/2) - 1`
(the horizon covariance is twice the one-period covariance), but `exact=True` scales the covariance by four. -/
theorem C88_counterexample :
    let r : Robust := ⟨1, ![0], 1, 1, none, none, none⟩
    ∃ w : Fin 1 → ℝ, ∀ g : Fin 1 → ℝ,
      (∀ d : Fin 1 → ℝ, HasDerivAt
        (fun t : ℝ => ∑ i, w i * (Real.exp (2 * (r.mu i + t * d i) + 2 * r.sigma i i / 2) - 1)) (g ⬝ᵥ d) 0) →
      quad (covSimple r 2 true) w ≠ quad r.sMu g := by
  intro r
  refine ⟨![1], fun g hg h => ?_⟩
  have h1 := portfolio_deriv ![1] r.mu (fun i => 2 * r.sigma i i / 2) ![1] 2
  have h2 := (hg ![1]).unique h1
  rw [quad_covSimple] at h
  simp [r, quad, simpleScale, dotProduct, mulVec] at h h2
  rw [h2] at h
  have h3 : (2 : ℝ) * Real.exp (2⁻¹ * 2 ^ 2) * (2 * Real.exp (2⁻¹ * 2 ^ 2)) = 4 * Real.exp 4 := by
    rw [show (2 : ℝ) * Real.exp (2⁻¹ * 2 ^ 2) * (2 * Real.exp (2⁻¹ * 2 ^ 2)) =
      4 * (Real.exp (2⁻¹ * 2 ^ 2) * Real.exp (2⁻¹ * 2 ^ 2)) by ring, ← Real.exp_add]; norm_num
  have h4 : (2 : ℝ) * Real.exp 1 * (2 * Real.exp 1) = 4 * Real.exp 2 := by
    rw [show (2 : ℝ) * Real.exp 1 * (2 * Real.exp 1) = 4 * (Real.exp 1 * Real.exp 1) by ring, ← Real.exp_add]; norm_num
  rw [h3, h4] at h
  have : Real.exp 2 < Real.exp 4 := Real.exp_lt_exp.mpr (by norm_num)
  linarith

/-! ## C89: labels of the sample -/

/-- **C89, partial.** When prior and sample carry the same labels (or only one of them is labelled) the update is the
positional one and the answer carries the prior's labels.  Missing: samples labelled in another order
(`C89_counterexample`). -/
theorem C89_labels_partial {factor : Factor} {n : ℕ} {m sm : Fin n → ℝ} {S Ss : Matrix (Fin n) (Fin n) ℝ} {names : List String}
    {k k'} {t0 nu0 : ℝ} {nObs : ℝ} {o : Niw} {P : Params o.n}
    (ho : init factor ⟨n, m, some names⟩ ⟨n, n, S, some (names, names)⟩ t0 nu0 = .ok o)
    (hu : update factor o ⟨n, sm, k⟩ ⟨n, n, Ss, k'⟩ nObs = .ok P) :
    update factor o ⟨n, sm, none⟩ ⟨n, n, Ss, none⟩ nObs = .ok P ∧
    getMuCe { o with post := some P } = .ok ⟨P.mu1, some names⟩ := by
  obtain ⟨-, -, -, idx, hidx, rfl⟩ := init_ok ho
  refine ⟨hu, ?_⟩
  simp only [mergeIndex, and_self, if_true, Except.ok.injEq] at hidx
  rw [← hidx]; rfl

/-- A prior whose labels disagree between mean and covariance is rejected. -/
theorem C89_prior_mismatch (factor : Factor) {n : ℕ} (m : Fin n → ℝ) (S : Matrix (Fin n) (Fin n) ℝ) (names idx cols : List String)
    (h : idx ≠ names ∨ cols ≠ names) (t0 nu0 : ℝ) :
    init factor ⟨n, m, some names⟩ ⟨n, n, S, some (idx, cols)⟩ t0 nu0 = .error .valueError := by
  unfold init
  split; · rfl
  simp only [mergeIndex]
  rw [if_neg (by rintro ⟨h1, h2⟩; rcases h with h | h <;> contradiction)]

/-- **C89 (false of the code).** A labelled sample whose labels are a permutation of the prior's is used by position:
the same labelled information in another order gives another posterior mean. -/
theorem C89_counterexample {factor : Factor} (hf : FactorOk factor) :
    ∃ (P Q : Params 2),
      niwFit factor ⟨2, ![0, 0], some ["A", "B"]⟩ ⟨2, 2, (1 : Matrix (Fin 2) (Fin 2) ℝ), some (["A", "B"], ["A", "B"])⟩ 1 1
        ⟨2, ![1, 3], some ["A", "B"]⟩ ⟨2, 2, (1 : Matrix (Fin 2) (Fin 2) ℝ), some (["A", "B"], ["A", "B"])⟩ 1 = .ok ⟨2, P⟩ ∧
      niwFit factor ⟨2, ![0, 0], some ["A", "B"]⟩ ⟨2, 2, (1 : Matrix (Fin 2) (Fin 2) ℝ), some (["A", "B"], ["A", "B"])⟩ 1 1
        ⟨2, ![3, 1], some ["B", "A"]⟩ ⟨2, 2, (1 : Matrix (Fin 2) (Fin 2) ℝ), some (["B", "A"], ["B", "A"])⟩ 1 = .ok ⟨2, Q⟩ ∧
      P.mu1 0 ≠ Q.mu1 0 := by
  have hp : (1 : Matrix (Fin 2) (Fin 2) ℝ).PosDef := Matrix.PosDef.one
  have hl : mergeIndex ⟨2, ![0, 0], some ["A", "B"]⟩ ⟨2, 2, (1 : Matrix (Fin 2) (Fin 2) ℝ), some (["A", "B"], ["A", "B"])⟩ =
      .ok (some ["A", "B"]) := rfl
  obtain ⟨P, hP⟩ := C63_total hf (n := 2) two_pos ![0, 0] ![1, 3] hp hp (some ["A", "B"]) (some (["A", "B"], ["A", "B"]))
    (some ["A", "B"]) (some (["A", "B"], ["A", "B"])) _ hl (t0 := 1) one_pos 1 (nObs := 1) one_pos
  obtain ⟨Q, hQ⟩ := C63_total hf (n := 2) two_pos ![0, 0] ![3, 1] hp hp (some ["A", "B"]) (some (["A", "B"], ["A", "B"]))
    (some ["B", "A"]) (some (["B", "A"], ["B", "A"])) _ hl (t0 := 1) one_pos 1 (nObs := 1) one_pos
  obtain ⟨-, -, hP'⟩ := niwFit_ok hP
  obtain ⟨-, -, hQ'⟩ := niwFit_ok hQ
  refine ⟨P, Q, by simpa using hP, by simpa using hQ, ?_⟩
  rw [hP', hQ']
  simp [mu1Of]
  norm_num

end PyV.Props
