import Verif.Model.LabelledMoments
import Mathlib.Tactic

/-! # Property C253: converting labelled moments -/

namespace PyV.Props

open PyV PyV.Boxed

variable {n : ℕ}

/-- The Series (mean) gives the asset called `l` the value `x`. -/
def MeanFor : Vec n → String → ℝ → Prop
  | .array _, _, _ => False
  | .series index _ v, l, x => ∃ i, index i = l ∧ v i = x

/-- The DataFrame (covariance) gives the assets called `l` (row) and `m` (column) the value `x`. -/
def CovFor : Mat n → String → String → ℝ → Prop
  | .array _, _, _, _ => False
  | .frame index columns A, l, m, x => ∃ i j, index i = l ∧ columns j = m ∧ A i j = x

/-- Same kind of container: an array for an array, a Series with the same labels in the same order (and the same name) for a Series. -/
def SameVecBox : Vec n → Vec n → Prop
  | .array _, .array _ => True
  | .series i s _, .series i' s' _ => i = i' ∧ s = s'
  | _, _ => False

/-- Same kind of container: an array for an array, a DataFrame with the same index and columns for a DataFrame. -/
def SameMatBox : Mat n → Mat n → Prop
  | .array _, .array _ => True
  | .frame i c _, .frame i' c' _ => i = i' ∧ c = c'
  | _, _ => False

private theorem wrapVector_same (x : Fin n → ℝ) (b : Vec n) : SameVecBox b (wrapVector x b) := by cases b <;> simp [wrapVector, SameVecBox]
private theorem wrapMatrix_same (x : Fin n → Fin n → ℝ) (b : Mat n) : SameMatBox b (wrapMatrix x b) := by cases b <;> simp [wrapMatrix, SameMatBox]
private theorem wrapVector_val (x : Fin n → ℝ) (b : Vec n) : (wrapVector x b).toNumpy = x := by cases b <;> rfl
private theorem wrapMatrix_val (x : Fin n → Fin n → ℝ) (b : Mat n) : (wrapMatrix x b).toNumpy = x := by cases b <;> rfl

/-- **C253** (containers) `log2simple`, `simple2log` and `project_mean_covariance` return the mean in the container of the mean and the covariance in the
container of the covariance, labels included, and compute the same numbers whatever the containers. -/
theorem C253_containers (mu : Vec n) (cov : Mat n) :
    (SameVecBox mu (Boxed.log2simple mu cov).1 ∧ SameMatBox cov (Boxed.log2simple mu cov).2 ∧
      (∀ i, (Boxed.log2simple mu cov).1.toNumpy i = Real.exp (mu.toNumpy i + cov.toNumpy i i / 2) - 1) ∧
      ∀ i j, (Boxed.log2simple mu cov).2.toNumpy i j =
        Real.exp (mu.toNumpy i + mu.toNumpy j + (cov.toNumpy i i + cov.toNumpy j j) / 2) * (Real.exp (cov.toNumpy i j) - 1)) ∧
    ((∃ i, mu.toNumpy i ≤ -1) → Boxed.simple2log mu cov = .error .valueError) ∧
    ((∀ i, -1 < mu.toNumpy i) → ∃ r, Boxed.simple2log mu cov = .ok r ∧ SameVecBox mu r.1 ∧ SameMatBox cov r.2 ∧
      (∀ i, r.1.toNumpy i = Real.log (1 + mu.toNumpy i) - Real.log (1 + cov.toNumpy i i / (1 + mu.toNumpy i) ^ 2) / 2) ∧
      ∀ i j, r.2.toNumpy i j = Real.log (1 + cov.toNumpy i j / ((1 + mu.toNumpy i) * (1 + mu.toNumpy j)))) ∧
    ∀ f, SameVecBox mu (Boxed.projectMeanCov mu cov f).1 ∧ SameMatBox cov (Boxed.projectMeanCov mu cov f).2 ∧
      (∀ i, (Boxed.projectMeanCov mu cov f).1.toNumpy i = f * mu.toNumpy i) ∧
      ∀ i j, (Boxed.projectMeanCov mu cov f).2.toNumpy i j = f * cov.toNumpy i j := by
  refine ⟨⟨wrapVector_same _ _, wrapMatrix_same _ _, fun i => ?_, fun i j => ?_⟩, ?_, ?_, fun f => ⟨wrapVector_same _ _, wrapMatrix_same _ _, fun i => ?_, fun i j => ?_⟩⟩
  · simp only [Boxed.log2simple, wrapVector_val, Proj.log2simple]
    rw [show (1 / 2 : ℝ) * cov.toNumpy i i = cov.toNumpy i i / 2 by ring]
  · simp only [Boxed.log2simple, wrapMatrix_val, Proj.log2simple]
    rw [mul_sub, mul_one, ← Real.exp_add, ← Real.exp_add]
    congr 2 <;> ring
  · rintro ⟨i, hi⟩
    unfold Boxed.simple2log Proj.simple2log
    simp only
    rw [if_pos ⟨i, by linarith⟩]
  · intro h
    have hneg : ¬ ∃ i, mu.toNumpy i + 1 ≤ 0 := by rintro ⟨i, hi⟩; have := h i; linarith
    unfold Boxed.simple2log Proj.simple2log
    simp only
    rw [if_neg hneg]
    refine ⟨_, rfl, wrapVector_same _ _, wrapMatrix_same _ _, fun i => ?_, fun i j => ?_⟩
    · rw [wrapVector_val]
      simp only [add_comm (mu.toNumpy _) 1]
      ring
    · rw [wrapMatrix_val]
      by_cases hij : i = j
      · subst hij
        dsimp only
        rw [if_pos rfl]
        simp only [add_comm (mu.toNumpy _) 1, sq]
      · dsimp only
        rw [if_neg hij]
        simp only [add_comm (mu.toNumpy _) 1]
  · simp only [Boxed.projectMeanCov, wrapVector_val, Proj.projectMeanCov, mul_comm]
  · simp only [Boxed.projectMeanCov, wrapMatrix_val, Proj.projectMeanCov, mul_comm]

/-- **C253** (robust posterior) The uncertainty and scale matrices come in the container of the matrix they are computed from. -/
theorem C253_posterior (r : Posterior n) (h : ℝ) (exact_ : Bool) :
    SameMatBox r.sMu (Boxed.covLog r h) ∧ (∀ i j, (Boxed.covLog r h).toNumpy i j = h ^ 2 * r.sMu.toNumpy i j) ∧
    SameMatBox r.sMu (Boxed.covSimple r h exact_) ∧
    (∀ i j, (Boxed.covSimple r h exact_).toNumpy i j = h ^ 2 * r.sMu.toNumpy i j *
      (Real.exp (h * r.mu.toNumpy i + if exact_ then h ^ 2 * r.sigma.toNumpy i i / 2 else 0) *
        Real.exp (h * r.mu.toNumpy j + if exact_ then h ^ 2 * r.sigma.toNumpy j j / 2 else 0))) ∧
    ∀ A, Boxed.sigma1 r = .ok A → SameMatBox r.sigma A ∧
      ∃ v k, r.nu1 = some v ∧ r.nAssets = some k ∧ ∀ i j, A.toNumpy i j = (v + k + 1) / v * r.sigma.toNumpy i j := by
  refine ⟨wrapMatrix_same _ _, fun i j => ?_, wrapMatrix_same _ _, fun i j => ?_, fun A hA => ?_⟩
  · unfold Boxed.covLog
    rw [wrapMatrix_val]
    rfl
  · unfold Boxed.covSimple
    rw [wrapMatrix_val]
    have hs : ∀ i : Fin n, Bayes.simpleScale r.numbers h exact_ i = Real.exp (h * r.mu.toNumpy i + if exact_ then h ^ 2 * r.sigma.toNumpy i i / 2 else 0) := by
      intro i
      unfold Bayes.simpleScale
      cases exact_
      · simp [Posterior.numbers, mul_comm]
      · show Real.exp (r.mu.toNumpy i * h + (1 / 2 : ℝ) * (r.sigma.toNumpy i i * h ^ 2)) = _
        rw [if_pos rfl]
        congr 1
        ring
    show Bayes.simpleScale r.numbers h exact_ i * (r.sMu.toNumpy i j * h ^ 2) * Bayes.simpleScale r.numbers h exact_ j = _
    rw [hs, hs]
    ring
  · unfold Boxed.sigma1 Bayes.sigma1 at hA
    cases hv : r.nu1 with
    | none => simp [Posterior.numbers, hv] at hA
    | some v =>
      cases hk : r.nAssets with
      | none => simp [Posterior.numbers, hv, hk] at hA
      | some k =>
        simp only [Posterior.numbers, hv, hk, Except.ok.injEq] at hA
        subst hA
        refine ⟨wrapMatrix_same _ _, v, k, rfl, rfl, fun i j => ?_⟩
        rw [wrapMatrix_val]
        rfl

/-- **C253** (by label; partial: for moments that list the assets in the same order, `C253_counterexample`) The converted mean of an asset is
`exp(its mean + half its variance) - 1`, all looked up by name. -/
theorem C253_by_label_partial (index : Fin n → String) (hi : Function.Injective index) (name : Option String) (v : Fin n → ℝ) (A : Fin n → Fin n → ℝ)
    {l m : String} {x y s t c : ℝ} (hx : MeanFor (.series index name v) l x) (hy : MeanFor (.series index name v) m y)
    (hs : CovFor (.frame index index A) l l s) (ht : CovFor (.frame index index A) m m t) (hc : CovFor (.frame index index A) l m c) :
    MeanFor (Boxed.log2simple (.series index name v) (.frame index index A)).1 l (Real.exp (x + s / 2) - 1) ∧
      CovFor (Boxed.log2simple (.series index name v) (.frame index index A)).2 l m (Real.exp (x + y + (s + t) / 2) * (Real.exp c - 1)) := by
  obtain ⟨i, rfl, rfl⟩ := hx
  obtain ⟨j, rfl, rfl⟩ := hy
  obtain ⟨a, b, h1, h2, hs⟩ := hs
  rw [hi h1, hi h2] at hs
  obtain ⟨a', b', h3, h4, ht⟩ := ht
  rw [hi h3, hi h4] at ht
  obtain ⟨a'', b'', h5, h6, hc⟩ := hc
  rw [hi h5, hi h6] at hc
  subst hs; subst ht; subst hc
  obtain ⟨⟨-, -, k1, k2⟩, -⟩ := C253_containers (.series index name v) (.frame index index A)
  exact ⟨⟨i, rfl, k1 i⟩, ⟨i, j, rfl, rfl, k2 i j⟩⟩

/-- Non-vacuity: two assets. -/
example : Function.Injective (![ "A", "B"] : Fin 2 → String) ∧ MeanFor (.series ![ "A", "B"] none ![1, 2]) "A" 1 ∧
    CovFor (.frame ![ "A", "B"] ![ "A", "B"] (fun i j => if i = j then 1 else 1 / 2)) "A" "B" (1 / 2) := by
  refine ⟨?_, ⟨0, rfl, rfl⟩, ⟨0, 1, rfl, rfl, by simp⟩⟩
  intro i j h
  fin_cases i <;> fin_cases j <;> first | rfl | (exact absurd h (by decide))

/-- **C253 is false.** Asset A has mean zero and variance zero, B has mean zero and variance one; the mean lists B first.  `log2simple` raises no error and
reports a positive mean for A, which cannot move, and zero for B: moments are paired by position. -/
theorem C253_counterexample :
    let mu : Vec 2 := .series ![ "B", "A"] none ![0, 0]
    let cov : Mat 2 := .frame ![ "A", "B"] ![ "A", "B"] ![![0, 0], ![0, 1]]
    MeanFor mu "A" 0 ∧ CovFor cov "A" "A" 0 ∧ MeanFor (Boxed.log2simple mu cov).1 "A" (Real.exp (1 / 2) - 1) ∧
      MeanFor (Boxed.log2simple mu cov).1 "B" 0 ∧ Real.exp (1 / 2) - 1 ≠ Real.exp (0 + 0 / 2) - 1 := by
  intro mu cov
  refine ⟨⟨1, rfl, rfl⟩, ⟨0, 0, rfl, rfl, rfl⟩, ⟨1, rfl, ?_⟩, ⟨0, rfl, ?_⟩, ?_⟩
  · simp [Proj.log2simple, Vec.toNumpy, Mat.toNumpy, mu, cov]
  · simp [Proj.log2simple, Vec.toNumpy, Mat.toNumpy, mu, cov]
  · have := Real.add_one_lt_exp (show (1 / 2 : ℝ) ≠ 0 by norm_num)
    rw [zero_div, add_zero, Real.exp_zero]
    intro h
    linarith

end PyV.Props
