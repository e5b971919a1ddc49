import Verif.Model.ViewsApi
import Verif.Props.ViewsCtor
import Verif.Props.FromMoments
import Verif.Props.Factories
import Verif.Props.WrapperCvar
import Verif.Lemmas.Cholesky

/-! # C25 (CVaR views), C143–C147: the outer interface of `FlexibleViewsProcessor` -/

namespace PyV.Props

open PyV PyV.FV PyV.Spec Matrix

variable {S N : ℕ}

/-! ## The posterior is a distribution -/

theorem solveCvar_is_ep {ep : Ep S} {argsort : (Fin S → ℝ) → Equiv.Perm (Fin S)} {round : ℝ → ℤ} {x : Fin S → ℝ} {γ target : ℝ}
    {p q : Fin S → ℝ} {maxNewton : ℕ} (h : solveCvarView ep argsort round x γ target p maxNewton = .ok q) :
    ∃ s, ep p (cvarRows x (argsort x) γ target s) = .ok q := by
  have hsolve : ∀ s c, solveForS ep p x (argsort x) γ target s = some c →
      ep p (cvarRows x (argsort x) γ target s) = .ok c.1 := by
    intro s c hc
    unfold solveForS at hc
    split at hc
    · rename_i q hq
      injection hc with hc; subst hc; exact hq
    · cases hc
  have hloop : ∀ (fuel : ℕ) (s : ℤ) (b : Option ((Fin S → ℝ) × ℝ)),
      (∀ c, b = some c → ∃ s, solveForS ep p x (argsort x) γ target s = some c) →
      ∀ c, newtonLoop (solveForS ep p x (argsort x) γ target) round fuel s b = some c →
        ∃ s, solveForS ep p x (argsort x) γ target s = some c := by
    intro fuel
    induction fuel with
    | zero => intro s b hb c hc; exact hb c hc
    | succ fuel ih =>
      intro s b hb c hc
      unfold newtonLoop at hc
      split at hc
      · exact hb c hc
      · rename_i s' _
        split at hc
        · rename_i c' b' hs'
          refine ih s' _ ?_ c hc
          intro d hd
          split at hd
          · injection hd with hd; subst hd; exact ⟨_, hs'⟩
          · exact hb d (by rw [hd])
        · rename_i c' hs'
          refine ih s' _ ?_ c hc
          intro d hd
          injection hd with hd; subst hd; exact ⟨_, hs'⟩
        · exact ih s' _ hb c hc
  unfold solveCvarView at h
  simp only at h
  split at h
  · rename_i q' k hq'
    injection h with h; subst h
    obtain ⟨s, hs⟩ := hloop _ _ _ (fun c hc => ⟨_, hc⟩) _ hq'
    exact ⟨s, hsolve s _ hs⟩
  · cases h

theorem cvarPass_prob {ep : Ep S} (hep : EpSound ep) {argsort : (Fin S → ℝ) → Equiv.Perm (Fin S)} {round : ℝ → ℤ}
    {assets : Fin N → Label} {R : Fin S → Fin N → ℝ} (l : List (Label × (ℝ × ℝ))) {q q' : Fin S → ℝ} (hq : IsProb q)
    (h : cvarPass ep argsort round assets R l q = .ok q') : IsProb q' := by
  induction l generalizing q with
  | nil => unfold cvarPass at h; injection h with h; subst h; exact hq
  | cons kv l ih =>
    unfold cvarPass at h
    simp only [bind_ok] at h
    obtain ⟨i, -, q1, h1, h2⟩ := h
    obtain ⟨s, hs⟩ := solveCvar_is_ep h1
    exact ih (hep _ _ _ (by simp [cvarRows]) hs).1 h2

theorem sequentialPass_prob {ep : Ep S} (hep : EpSound ep) {R : Fin S → Fin N → ℝ}
    (blocks : List (Bool × ((Fin N → ℝ) → (Fin N → ℝ) → Except PyErr (Rows S)))) {p0 q : Fin S → ℝ} (hp : IsProb p0)
    {mu var : Fin N → ℝ} (h : sequentialPass ep p0 R blocks mu var = .ok q) : IsProb q := by
  induction blocks generalizing p0 mu var with
  | nil => unfold sequentialPass at h; injection h with h; subst h; exact hp
  | cons b l ih =>
    obtain ⟨present, build⟩ := b
    unfold sequentialPass at h
    split at h
    · simp only [bind_ok] at h
      obtain ⟨r, -, q1, h1, h2⟩ := h
      exact ih (doEp_meets hep h1).1 h2
    · exact ih hp h

/-- Whatever the views and the mode, the posterior is a probability vector. -/
theorem computePosterior_prob {ep : Ep S} (hep : EpSound ep) {argsort : (Fin S → ℝ) → Equiv.Perm (Fin S)} {round : ℝ → ℤ}
    {p0 q : Fin S → ℝ} (hp0 : IsProb p0) {assets : Fin N → Label} {R : Fin S → Fin N → ℝ} {v : Views} {sequential : Bool}
    (h : computePosterior ep argsort round p0 assets R v sequential = .ok q) : IsProb q := by
  unfold computePosterior at h
  simp only at h
  split at h
  · injection h with h; subst h; exact hp0
  · simp only [bind_ok] at h
    obtain ⟨q1, h1, q2, h2, h3⟩ := h
    have p1 : IsProb q1 := by
      unfold momentPass at h1
      split at h1
      · exact sequentialPass_prob hep _ hp0 h1
      · exact (simultaneous_meets hep hp0 h1).1
    have p2 : IsProb q2 := by
      unfold quantilePass at h2
      split at h2
      · injection h2 with h2; subst h2; exact p1
      · rw [bind_ok] at h2
        obtain ⟨r, -, h2⟩ := h2
        split at h2
        · injection h2 with h2; subst h2; exact p1
        · exact (doEp_meets hep h2).1
    exact cvarPass_prob hep _ p2 h3

/-! ## C25: CVaR views -/

theorem cvarPass_last {ep : Ep S} (hep : EpSound ep) {argsort : (Fin S → ℝ) → Equiv.Perm (Fin S)} (hs : Risk.IsArgsort argsort)
    {round : ℝ → ℤ} {assets : Fin N → Label} {R : Fin S → Fin N → ℝ} (l : List (Label × (ℝ × ℝ))) (kv : Label × (ℝ × ℝ))
    (hγ : 0 < kv.2.2) {q q' : Fin S → ℝ} (h : cvarPass ep argsort round assets R (l ++ [kv]) q = .ok q') :
    ∃ i, assetIdx assets kv.1 = .ok i ∧ IsCvar q' (fun s => R s i) (1 - kv.2.2) (-kv.2.1) := by
  induction l generalizing q with
  | nil =>
    simp only [List.nil_append] at h
    unfold cvarPass at h
    simp only [bind_ok] at h
    obtain ⟨i, hi, q1, h1, h2⟩ := h
    unfold cvarPass at h2
    injection h2 with h2; subst h2
    exact ⟨i, hi, (C29_solver hep hs hγ).1 _ h1 |>.2.1⟩
  | cons x l ih =>
    rw [List.cons_append] at h
    unfold cvarPass at h
    simp only [bind_ok] at h
    obtain ⟨i, hi, q1, h1, h2⟩ := h
    exact ih h2

/-- **C25** (the part that holds) The CVaR view applied last holds in the posterior, whatever the other views: the asset it names has
CVaR exactly minus the target at confidence `1 - gamma`. -/
theorem C25_cvar_partial {ep : Ep S} (hep : EpSound ep) {argsort : (Fin S → ℝ) → Equiv.Perm (Fin S)} (hs : Risk.IsArgsort argsort)
    (round : ℝ → ℤ) {p0 q : Fin S → ℝ} {assets : Fin N → Label} {R : Fin S → Fin N → ℝ} {v : Views}
    {sequential : Bool} {l : List (Label × (ℝ × ℝ))} {a : Label} {target γ : ℝ} (hγ : 0 < γ) (hv : v.cvar = l ++ [(a, (target, γ))])
    (h : computePosterior ep argsort round p0 assets R v sequential = .ok q) :
    ∃ i, Names assets a i ∧ IsCvar q (fun s => R s i) (1 - γ) (-target) := by
  unfold computePosterior at h
  simp only at h
  split at h
  · rename_i he
    simp only [Bool.and_eq_true, List.isEmpty_iff, hv] at he
    simp at he
  · simp only [bind_ok] at h
    obtain ⟨q1, h1, q2, h2, h3⟩ := h
    rw [hv] at h3
    obtain ⟨i, hi, hc⟩ := cvarPass_last hep hs l _ hγ h3
    exact ⟨i, assetIdx_ok hi, hc⟩

/-! ## C143: scenarios simulated from moments -/

/-- Average of a column, all rows weighing the same. -/
noncomputable def avg (R : Fin S → Fin N → ℝ) (i : Fin N) : ℝ := (∑ s, R s i) / S

/-- Covariance of two columns, all rows weighing the same. -/
noncomputable def covAt (R : Fin S → Fin N → ℝ) (i j : Fin N) : ℝ := (∑ s, (R s i - avg R i) * (R s j - avg R j)) / S

theorem avg_affine (hS : 0 < S) (Z : Fin S → Fin N → ℝ) (L : Matrix (Fin N) (Fin N) ℝ) (mu : Fin N → ℝ) (i : Fin N) :
    avg (affine Z L mu) i = mu i + ∑ k, L i k * avg Z k := by
  have hS' : (S : ℝ) ≠ 0 := Nat.cast_ne_zero.mpr hS.ne'
  unfold avg affine
  rw [Finset.sum_add_distrib, Finset.sum_const, Finset.card_univ, Fintype.card_fin, nsmul_eq_mul, add_div, mul_div_cancel_left₀ _ hS',
    Finset.sum_comm, Finset.sum_div, add_comm]
  congr 1
  refine Finset.sum_congr rfl fun k _ => ?_
  rw [← Finset.sum_mul]
  ring

theorem covAt_affine (hS : 0 < S) (Z : Fin S → Fin N → ℝ) (L : Matrix (Fin N) (Fin N) ℝ) (mu : Fin N → ℝ) (i j : Fin N) :
    covAt (affine Z L mu) i j = ∑ k, ∑ l, L i k * covAt Z k l * L j l := by
  have hdev : ∀ s i, affine Z L mu s i - avg (affine Z L mu) i = ∑ k, L i k * (Z s k - avg Z k) := by
    intro s i
    rw [avg_affine hS]
    unfold affine
    simp only [mul_sub, Finset.sum_sub_distrib]
    have : ∑ k, Z s k * L i k = ∑ k, L i k * Z s k := Finset.sum_congr rfl fun k _ => mul_comm _ _
    rw [this]; ring
  unfold covAt
  simp only [hdev, Finset.sum_mul_sum]
  rw [Finset.sum_comm, Finset.sum_div]
  refine Finset.sum_congr rfl fun k _ => ?_
  rw [Finset.sum_comm, Finset.sum_div]
  refine Finset.sum_congr rfl fun l _ => ?_
  rw [mul_div_assoc', mul_comm _ (L j l), mul_div_assoc', Finset.mul_sum, Finset.mul_sum]
  congr 1
  exact Finset.sum_congr rfl fun s _ => by ring

/-- The labels a processor built from moments uses: those of the mean, else those of the covariance, else the positions. -/
def LabelsFrom {n : ℕ} (mi ci : Option (Fin n → Label)) (lab : Fin n → Label) : Prop :=
  (∀ l, mi = some l → lab = l) ∧ (mi = none → ∀ l, ci = some l → lab = l) ∧
    (mi = none → ci = none → ∀ i, lab i = .str (Nat.repr i))

theorem labels_from {n : ℕ} (mu : Fin n → ℝ) (C : Fin n → Fin n → ℝ) (mi ci : Option (Fin n → Label)) :
    LabelsFrom mi ci (FV.momentLabels ⟨n, mu, mi⟩ ⟨n, n, C, ci⟩ rfl) := by
  unfold LabelsFrom FV.momentLabels
  cases mi <;> cases ci <;> simp [defaultLabels]

/-- **C143.** Scenarios simulated from a prior mean and covariance (symmetric part positive semidefinite): the construction succeeds
for every positive number of scenarios; scenario `s` is `mu + L z_s` for the generator's draws `z_s`, where `L L'` is the symmetric
part of the covariance plus `1e-6` on the diagonal; so mean and covariance of the scenario set are the affine images of those of the
draws, for any draws; the prior is uniform. -/
theorem C143_simulation {factor : Bayes.Factor} (hf : CholOk factor) (normals : (S n : ℕ) → Fin S → Fin n → ℝ) {n : ℕ}
    (mu : Fin n → ℝ) (mi : Option (Fin n → Label)) (C : Fin n → Fin n → ℝ) (ci : Option (Fin n → Label))
    (hpsd : (Matrix.of (fun i j => (C i j + C j i) / 2)).PosSemidef) (k : ℕ) (hk : 0 < k) :
    ∃ (R : Fin k → Fin n → ℝ) (lab : Fin n → Label) (L : Fin n → Fin n → ℝ),
      FV.fromMoments factor normals none (some ⟨n, mu, mi⟩) (some ⟨n, n, C, ci⟩) (some k) =
        .ok ⟨k, n, R, lab, mi.isSome || ci.isSome, none⟩ ∧
      LabelsFrom mi ci lab ∧
      (∀ i j, ∑ l, L i l * L j l = (C i j + C j i) / 2 + if i = j then 1 / 10 ^ 6 else 0) ∧
      (∀ s i, R s i = mu i + ∑ l, L i l * normals k n s l) ∧
      (∀ i, avg R i = mu i + ∑ l, L i l * avg (normals k n) l) ∧
      ∀ i j, covAt R i j = ∑ l, ∑ l', L i l * covAt (normals k n) l l' * L j l' := by
  have hreg : regularised (Matrix.of C) =
      Matrix.of (fun i j => (C i j + C j i) / 2) + (1 / 10 ^ 6 : ℝ) • (1 : Matrix (Fin n) (Fin n) ℝ) := by
    unfold regularised
    ext i j
    simp only [Matrix.add_apply, Matrix.smul_apply, Matrix.transpose_apply, Matrix.of_apply, smul_eq_mul]
    ring
  obtain ⟨L, hL, hchol⟩ := cholSquare_ok hf (regularised (Matrix.of C)) (by
    rw [hreg]; exact exists_chol_add hpsd (by positivity))
  refine ⟨affine (normals k n) L mu, FV.momentLabels ⟨n, mu, mi⟩ ⟨n, n, C, ci⟩ rfl, L, ?_, labels_from mu C mi ci, ?_, ?_, ?_, ?_⟩
  · have hk' : ¬ ((k : ℤ) ≤ 0) := by omega
    unfold FV.fromMoments countOf simulated sized
    simp only [hk', if_false, and_self, dite_true, Int.toNat_natCast, Fin.cast_refl, id_eq]
    have : (Bayes.cholSquare factor (regularised (Matrix.of fun i j => C i j))).result = .ok L := hL
    simp only [this]
    rfl
  · intro i j
    have := congrFun (congrFun hchol.1 i) j
    rw [mul_apply] at this
    simp only [transpose_apply] at this
    rw [this, hreg]
    simp only [Matrix.add_apply, Matrix.smul_apply, Matrix.of_apply, Matrix.one_apply, smul_eq_mul]
    split <;> simp
  · intro s i
    unfold affine
    rw [add_comm]
    congr 1
    exact Finset.sum_congr rfl fun l _ => mul_comm _ _
  · exact fun i => avg_affine hk _ _ _ i
  · exact fun i j => covAt_affine hk _ _ _ i j

/-- **C143.** When the draws have mean zero and identity covariance, the scenario set has exactly the prior mean, and exactly the
prior covariance plus `1e-6` on the diagonal. -/
theorem C143_exact_moments {factor : Bayes.Factor} (hf : CholOk factor) (normals : (S n : ℕ) → Fin S → Fin n → ℝ) {n : ℕ}
    (mu : Fin n → ℝ) (mi : Option (Fin n → Label)) (C : Fin n → Fin n → ℝ) (ci : Option (Fin n → Label))
    (hsym : ∀ i j, C i j = C j i) (hpsd : (Matrix.of C).PosSemidef) (k : ℕ) (hk : 0 < k) (h0 : ∀ l, avg (normals k n) l = 0)
    (h1 : ∀ l l', covAt (normals k n) l l' = if l = l' then 1 else 0) :
    ∃ (R : Fin k → Fin n → ℝ) (lab : Fin n → Label),
      FV.fromMoments factor normals none (some ⟨n, mu, mi⟩) (some ⟨n, n, C, ci⟩) (some k) =
        .ok ⟨k, n, R, lab, mi.isSome || ci.isSome, none⟩ ∧ LabelsFrom mi ci lab ∧
      (∀ i, avg R i = mu i) ∧ ∀ i j, covAt R i j = C i j + if i = j then 1 / 10 ^ 6 else 0 := by
  have hC : Matrix.of (fun i j => (C i j + C j i) / 2) = Matrix.of C := by
    ext i j; simp only [Matrix.of_apply]; rw [hsym j i]; ring
  obtain ⟨R, lab, L, hsrc, hlab, hL, -, hm, hc⟩ := C143_simulation hf normals mu mi C ci (by rw [hC]; exact hpsd) k hk
  refine ⟨R, lab, hsrc, hlab, fun i => ?_, fun i j => ?_⟩
  · rw [hm]; simp [h0]
  · rw [hc]
    have : ∀ l, ∑ l', L i l * covAt (normals k n) l l' * L j l' = L i l * L j l := by
      intro l
      simp only [h1]
      simp
    simp only [this, hL]
    rw [hsym j i]; ring

/-- **C143.** A custom scenario generator receives the prior mean and the symmetrised covariance plus `1e-6` on the diagonal; what it
returns is used as it is if it has one row per scenario and one column per asset, and is rejected with `ValueError` otherwise.  It is
called again without the generator when the first call raises `TypeError`. -/
theorem C143_custom_generator {factor : Bayes.Factor} (hf : CholOk factor) (normals : (S n : ℕ) → Fin S → Fin n → ℝ) {n : ℕ}
    (mu : Fin n → ℝ) (mi : Option (Fin n → Label)) (C : Fin n → Fin n → ℝ) (ci : Option (Fin n → Label))
    (hpsd : (Matrix.of (fun i j => (C i j + C j i) / 2)).PosSemidef) (k : ℕ) (hk : 0 < k) (f : DistFn) (a : Array2)
    (hfa : f.withRng n mu (Matrix.of (fun i j => (C i j + C j i) / 2) + (1 / 10 ^ 6 : ℝ) • 1) k = .ok a ∨
      f.withRng n mu (Matrix.of (fun i j => (C i j + C j i) / 2) + (1 / 10 ^ 6 : ℝ) • 1) k = .error .typeError ∧
      f.without n mu (Matrix.of (fun i j => (C i j + C j i) / 2) + (1 / 10 ^ 6 : ℝ) • 1) k = .ok a) :
    (∀ R : Fin k → Fin n → ℝ, a = ⟨k, n, R⟩ → ∃ lab, LabelsFrom mi ci lab ∧
      FV.fromMoments factor normals (some f) (some ⟨n, mu, mi⟩) (some ⟨n, n, C, ci⟩) (some k) =
        .ok ⟨k, n, R, lab, mi.isSome || ci.isSome, none⟩) ∧
    (¬ (a.rows = k ∧ a.cols = n) →
      FV.fromMoments factor normals (some f) (some ⟨n, mu, mi⟩) (some ⟨n, n, C, ci⟩) (some k) = .error .valueError) := by
  have hreg : regularised (Matrix.of C) =
      Matrix.of (fun i j => (C i j + C j i) / 2) + (1 / 10 ^ 6 : ℝ) • (1 : Matrix (Fin n) (Fin n) ℝ) := by
    unfold regularised
    ext i j
    simp only [Matrix.add_apply, Matrix.smul_apply, Matrix.transpose_apply, Matrix.of_apply, smul_eq_mul]
    ring
  obtain ⟨L, hL, hchol⟩ := cholSquare_ok hf (regularised (Matrix.of C)) (by
    rw [hreg]; exact exists_chol_add hpsd (by positivity))
  have hcall : f.call mu (regularised (Matrix.of C)) k = .ok a := by
    unfold DistFn.call
    rw [hreg]
    rcases hfa with h | ⟨h, h'⟩
    · rw [h]
    · rw [h]; exact h'
  have hk' : ¬ ((k : ℤ) ≤ 0) := by omega
  have hsim : simulated factor normals (some f) mu (Matrix.of fun i j => C i j) k = .ok a := by
    unfold simulated
    have : (Bayes.cholSquare factor (regularised (Matrix.of fun i j => C i j))).result = .ok L := hL
    simp only [this]
    exact hcall
  constructor
  · rintro R rfl
    refine ⟨_, labels_from mu C mi ci, ?_⟩
    unfold FV.fromMoments countOf
    simp only [hk', if_false, and_self, dite_true, Int.toNat_natCast, Fin.cast_refl, id_eq, hsim]
    unfold sized
    simp only [and_self, dite_true]
    rfl
  · intro hne
    unfold FV.fromMoments countOf
    simp only [hk', if_false, and_self, dite_true, Int.toNat_natCast, Fin.cast_refl, id_eq, hsim]
    unfold sized
    rw [dif_neg hne]

/-- **C143.** Missing moments, a number of scenarios that is not a positive integer and a covariance whose shape does not match the
mean are rejected with `ValueError`, before anything is simulated. -/
theorem C143_rejects (factor : Bayes.Factor) (normals : (S n : ℕ) → Fin S → Fin n → ℝ) (fn : Option DistFn)
    (mean : Option PriorMean) (cov : Option PriorCov) (num : Option ℤ)
    (h : mean = none ∨ cov = none ∨ (∀ k, num = some k → k ≤ 0) ∨
      ∃ m c, mean = some m ∧ cov = some c ∧ ¬ (c.rows = m.n ∧ c.cols = m.n)) :
    FV.fromMoments factor normals fn mean cov num = .error .valueError := by
  unfold FV.fromMoments
  cases mean with
  | none => rfl
  | some m =>
    cases cov with
    | none => rfl
    | some c =>
      simp only
      cases hc : countOf num with
      | error e =>
        unfold countOf at hc
        cases num with
        | none => injection hc with hc; rw [hc]
        | some k =>
          simp only at hc
          split at hc
          · injection hc with hc; rw [hc]
          · cases hc
      | ok count =>
        simp only
        rcases h with h | h | h | ⟨m', c', hm, hc', hne⟩
        · cases h
        · cases h
        · unfold countOf at hc
          cases num with
          | none => cases hc
          | some k => simp only at hc; rw [if_pos (h k rfl)] at hc; cases hc
        · injection hm with hm; injection hc' with hc'; subst hm; subst hc'
          rw [dif_neg hne]

/-- Draws with mean zero and identity covariance exist: the four sign patterns for two assets. -/
example : ∃ Z : Fin 4 → Fin 2 → ℝ, (∀ l, avg Z l = 0) ∧ ∀ l l', covAt Z l l' = if l = l' then 1 else 0 := by
  refine ⟨![![1, 1], ![1, -1], ![-1, 1], ![-1, -1]], fun l => ?_, fun l l' => ?_⟩
  · fin_cases l <;> simp [avg, Fin.sum_univ_four]
  · fin_cases l <;> fin_cases l' <;> simp [covAt, avg, Fin.sum_univ_four] <;> norm_num

end PyV.Props
