import Verif.Props.FromMoments
import Verif.Props.Projection
import Mathlib.Analysis.SpecialFunctions.Pow.Real

/-! # C267: projected log moments compound -/

namespace PyV.Props

open PyV PyV.Proj

variable {N : ℕ}

/-- The simple-return moments over `h` periods of log returns with per-period mean `mu` and covariance `cov`: `project_mean_covariance`
followed by `log2simple`. -/
noncomputable def simpleOver (mu : Fin N → ℝ) (cov : Fin N → Fin N → ℝ) (h : ℝ) : (Fin N → ℝ) × (Fin N → Fin N → ℝ) :=
  log2simple (projectMeanCov mu cov h).1 (projectMeanCov mu cov h).2

/-- `E[(1 + rᵢ)(1 + rⱼ)]` for simple returns with mean `m` and covariance `C`. -/
def grossProduct (m : Fin N → ℝ) (C : Fin N → Fin N → ℝ) (i j : Fin N) : ℝ := C i j + (1 + m i) * (1 + m j)

theorem gross_mean (mu : Fin N → ℝ) (cov : Fin N → Fin N → ℝ) (h : ℝ) (i : Fin N) :
    1 + (simpleOver mu cov h).1 i = Real.exp ((mu i + 1 / 2 * cov i i) * h) := by
  simp only [simpleOver, log2simple, projectMeanCov]
  rw [add_sub_cancel]
  congr 1
  ring

theorem gross_product (mu : Fin N → ℝ) (cov : Fin N → Fin N → ℝ) (h : ℝ) (i j : Fin N) :
    grossProduct (simpleOver mu cov h).1 (simpleOver mu cov h).2 i j =
      Real.exp ((mu i + mu j + 1 / 2 * (cov i i + cov j j + 2 * cov i j)) * h) := by
  unfold grossProduct
  simp only [simpleOver, log2simple, projectMeanCov]
  rw [add_sub_cancel, add_sub_cancel, sub_add_cancel]
  congr 1
  ring

/-- **C267** Expected gross returns and expected products of gross returns compound: over `h` periods they are the `h`-th powers of
the one-period ones. -/
theorem C267_compounding (mu : Fin N → ℝ) (cov : Fin N → Fin N → ℝ) (h : ℝ) (i j : Fin N) :
    (0 < 1 + (log2simple mu cov).1 i ∧ 1 + (simpleOver mu cov h).1 i = (1 + (log2simple mu cov).1 i) ^ h) ∧
    (0 < grossProduct (log2simple mu cov).1 (log2simple mu cov).2 i j ∧
      grossProduct (simpleOver mu cov h).1 (simpleOver mu cov h).2 i j =
        grossProduct (log2simple mu cov).1 (log2simple mu cov).2 i j ^ h) := by
  have h1 : log2simple mu cov = simpleOver mu cov 1 := by
    simp only [simpleOver, projectMeanCov, mul_one]
  rw [h1, gross_mean, gross_mean, gross_product, gross_product, mul_one, mul_one]
  exact ⟨⟨Real.exp_pos _, (Real.exp_mul _ _)⟩, Real.exp_pos _, (Real.exp_mul _ _)⟩

/-- **C267** For a whole number of periods: the moments of the compounded return of `n` independent periods. -/
theorem C267_whole_periods (mu : Fin N → ℝ) (cov : Fin N → Fin N → ℝ) (n : ℕ) (i j : Fin N) :
    (simpleOver mu cov n).1 i = (1 + (log2simple mu cov).1 i) ^ n - 1 ∧
    (simpleOver mu cov n).2 i j = grossProduct (log2simple mu cov).1 (log2simple mu cov).2 i j ^ n -
      ((1 + (log2simple mu cov).1 i) * (1 + (log2simple mu cov).1 j)) ^ n := by
  obtain ⟨⟨-, h1⟩, -, h2⟩ := C267_compounding mu cov n i j
  obtain ⟨⟨-, h3⟩, -⟩ := C267_compounding mu cov n j i
  rw [Real.rpow_natCast] at h1 h2 h3
  refine ⟨by linarith, ?_⟩
  rw [← h2, mul_pow, ← h1, ← h3]
  unfold grossProduct
  ring

/-- **C267** Horizons add up: projecting over `h` periods and then over `k` of those is projecting over `k h`, and gross returns over
`h + k` periods multiply. -/
theorem C267_horizons (mu : Fin N → ℝ) (cov : Fin N → Fin N → ℝ) (h k : ℝ) (i j : Fin N) :
    projectMeanCov (projectMeanCov mu cov h).1 (projectMeanCov mu cov h).2 k = projectMeanCov mu cov (h * k) ∧
    1 + (simpleOver mu cov (h + k)).1 i = (1 + (simpleOver mu cov h).1 i) * (1 + (simpleOver mu cov k).1 i) ∧
    grossProduct (simpleOver mu cov (h + k)).1 (simpleOver mu cov (h + k)).2 i j =
      grossProduct (simpleOver mu cov h).1 (simpleOver mu cov h).2 i j *
        grossProduct (simpleOver mu cov k).1 (simpleOver mu cov k).2 i j := by
  refine ⟨?_, ?_, ?_⟩
  · simp only [projectMeanCov, mul_assoc]
  · rw [gross_mean, gross_mean, gross_mean, mul_add, Real.exp_add]
  · rw [gross_product, gross_product, gross_product, mul_add, Real.exp_add]

open PyV.Api in
/-- **C267** The wrapper: `from_moments(mu·n, cov·n, return_type="log")` stores the moments of the compounded return, computed from
what it stores for one period. -/
theorem C267_wrapper {mu₁ muₙ : VecArg} {cov₁ covₙ : GridArg} {N : ℕ} (hN : 0 < N) {m : Fin N → ℝ} {C : Fin N → Fin N → ℝ}
    (n : ℕ) (hm₁ : mu₁.Holds m) (hC₁ : cov₁.Holds C) (hmₙ : muₙ.Holds (fun i => m i * n)) (hCₙ : covₙ.Holds (fun i j => C i j * n))
    (hpsd : (Matrix.of C).PosSemidef)
    (hl₁ : ∀ l ∈ momentLabels mu₁ cov₁, ∀ l' ∈ momentLabels mu₁ cov₁, l = l')
    (hlₙ : ∀ l ∈ momentLabels muₙ covₙ, ∀ l' ∈ momentLabels muₙ covₙ, l = l') :
    ∃ v₁ vₙ V₁ Vₙ names₁ namesₙ, fromMoments mu₁ cov₁ "log" = .ok ⟨N, some v₁, some V₁, none, names₁⟩ ∧
      fromMoments muₙ covₙ "log" = .ok ⟨N, some vₙ, some Vₙ, none, namesₙ⟩ ∧
      ∀ i j, vₙ i = (1 + v₁ i) ^ n - 1 ∧
        Vₙ i j = (V₁ i j + (1 + v₁ i) * (1 + v₁ j)) ^ n - ((1 + v₁ i) * (1 + v₁ j)) ^ n := by
  obtain ⟨P₁, v₁, V₁, names₁, h₁, hr₁, hv₁, hV₁, -⟩ := C103_log hN hm₁ hC₁ hl₁
  obtain ⟨Pₙ, vₙ, Vₙ, namesₙ, hₙ, hrₙ, hvₙ, hVₙ, -⟩ := C103_log hN hmₙ hCₙ hlₙ
  have hP₁ : ∀ i j, P₁ i j = C i j := hr₁.2.2 hpsd
  have hpsdn : (Matrix.of (fun i j => C i j * (n : ℝ))).PosSemidef := by
    have := hpsd.smul (Nat.cast_nonneg (α := ℝ) n)
    convert this using 1
    ext i j
    simp [mul_comm]
  have hPₙ : ∀ i j, Pₙ i j = C i j * n := hrₙ.2.2 hpsdn
  have e1 : ∀ i, 1 + v₁ i = Real.exp (m i + C i i / 2) := fun i => by rw [hv₁, hP₁]; ring
  have en : ∀ i, 1 + vₙ i = Real.exp ((m i + C i i / 2) * n) := fun i => by rw [hvₙ, hPₙ]; ring_nf
  have p1 : ∀ i j, V₁ i j + (1 + v₁ i) * (1 + v₁ j) = Real.exp (m i + m j + (C i i + C j j) / 2 + C i j) := fun i j => by
    rw [e1, e1, hV₁, hP₁, hP₁, hP₁, ← Real.exp_add, mul_sub, mul_one, ← Real.exp_add]
    have : m i + C i i / 2 + (m j + C j j / 2) = m i + m j + (C i i + C j j) / 2 := by ring
    rw [this]; ring
  have pn : ∀ i j, Vₙ i j + (1 + vₙ i) * (1 + vₙ j) = Real.exp ((m i + m j + (C i i + C j j) / 2 + C i j) * n) := fun i j => by
    rw [en, en, hVₙ, hPₙ, hPₙ, hPₙ, ← Real.exp_add, mul_sub, mul_one, ← Real.exp_add]
    have h1 : (m i + C i i / 2) * n + (m j + C j j / 2) * n = m i * n + m j * n + (C i i * n + C j j * n) / 2 := by ring
    have h2 : (m i + m j + (C i i + C j j) / 2 + C i j) * n = m i * n + m j * n + (C i i * n + C j j * n) / 2 + C i j * n := by ring
    rw [h1, h2]; ring
  have pw : ∀ x : ℝ, Real.exp (x * n) = Real.exp x ^ n := fun x => by rw [mul_comm, Real.exp_nat_mul]
  refine ⟨v₁, vₙ, V₁, Vₙ, names₁, namesₙ, h₁, hₙ, fun i j => ⟨?_, ?_⟩⟩
  · have := en i
    rw [pw, ← e1] at this
    linarith
  · have h1 := pn i j
    have h2 := en i
    have h3 := en j
    rw [pw, ← e1] at h2 h3
    rw [pw, ← p1, h2, h3] at h1
    rw [mul_pow]
    linarith

/-- Twelve monthly periods of two assets. -/
example : ∀ i j : Fin 2, (simpleOver ![1 / 100, 1 / 50] (fun i j => if i = j then 1 / 1000 else 0) (12 : ℕ)).1 i =
    (1 + (log2simple ![1 / 100, 1 / 50] (fun i j : Fin 2 => if i = j then (1 / 1000 : ℝ) else 0)).1 i) ^ 12 - 1 := fun i j =>
  (C267_whole_periods _ _ 12 i j).1

open PyV.Api in
/-- Twelve periods through the wrapper, plain arrays. -/
example : ∃ v₁ vₙ : Fin 2 → ℝ, ∃ V₁ Vₙ names₁ namesₙ,
    fromMoments (.array [.fin (1 / 100), .fin (1 / 50)]) (.array ⟨2, 2, fun i j => .fin (if i = j then 1 else 0)⟩) "log" =
      .ok ⟨2, some v₁, some V₁, none, names₁⟩ ∧
    fromMoments (.array [.fin (1 / 100 * 12), .fin (1 / 50 * 12)]) (.array ⟨2, 2, fun i j => .fin ((if i = j then 1 else 0) * 12)⟩) "log" =
      .ok ⟨2, some vₙ, some Vₙ, none, namesₙ⟩ ∧ ∀ i, vₙ i = (1 + v₁ i) ^ 12 - 1 := by
  obtain ⟨v₁, vₙ, V₁, Vₙ, n₁, nₙ, h1, h2, h3⟩ := C267_wrapper (N := 2) (by norm_num)
    (mu₁ := .array [.fin (1 / 100), .fin (1 / 50)]) (muₙ := .array [.fin (1 / 100 * 12), .fin (1 / 50 * 12)])
    (cov₁ := .array ⟨2, 2, fun i j => .fin (if i = j then 1 else 0)⟩)
    (covₙ := .array ⟨2, 2, fun i j => .fin ((if i = j then 1 else 0) * 12)⟩)
    (m := ![1 / 100, 1 / 50]) (C := fun i j => if i = j then 1 else 0) 12
    (by simp [VecArg.Holds, VecArg.vals]) ⟨_, .inl rfl, rfl, rfl, fun _ _ => rfl⟩
    (by simp [VecArg.Holds, VecArg.vals]) ⟨_, .inl rfl, rfl, rfl, fun _ _ => by norm_num⟩
    (by
      have : (Matrix.of (fun i j : Fin 2 => if i = j then (1 : ℝ) else 0)) = 1 := by ext i j; simp [Matrix.one_apply]
      rw [this]; exact Matrix.PosSemidef.one)
    (by simp [momentLabels, labelLists]) (by simp [momentLabels, labelLists])
  exact ⟨v₁, vₙ, V₁, Vₙ, n₁, nₙ, h1, h2, fun i => (h3 i i).1⟩

end PyV.Props
