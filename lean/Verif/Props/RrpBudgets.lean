import Verif.Props.RrpUnits
import Mathlib.Tactic

/-! # Property C252: only the relative sizes of risk budgets matter to relaxed risk parity -/

namespace PyV.Props

open PyV PyV.Api PyV.Spec.Api PyV.Opt PyV.Spec.Opt PyV.Spec.Con Matrix

variable {N : ℕ}

/-- Budgets that `RelaxedRiskParity` brings to a total of exactly one: their total is one, or further from one than the tolerance of `np.isclose`. -/
def Normalised (b : Fin N → ℝ) : Prop := ∑ i, b i = 1 ∨ 1 / 10 ^ 8 + 1 / 10 ^ 5 < |∑ i, b i - 1|

private theorem budgets_of {b : Fin N → ℝ} (hn : Normalised b) :
    rrpBudgets (some b) = if ∃ i, b i ≤ 0 then .error .valueError else .ok (fun i => b i / ∑ j, b j) := by
  unfold rrpBudgets
  dsimp only
  by_cases h : ∃ i, b i ≤ 0
  · rw [if_pos h, if_pos h]
  rw [if_neg h, if_neg h]
  by_cases hc : isclose (∑ i, b i) 1
  · rw [if_pos hc]
    rcases hn with e | e
    · rw [e]; simp
    · unfold isclose at hc
      rw [abs_one, mul_one] at hc
      exact absurd hc (not_le.2 e)
  · rw [if_neg hc]

private theorem budgets_times {b : Fin N → ℝ} {k : ℝ} (hk : 0 < k) (hn : Normalised b) (hn' : Normalised (fun i => k * b i)) :
    rrpBudgets (some (fun i => k * b i)) = rrpBudgets (some b) := by
  rw [budgets_of hn, budgets_of hn']
  have hp : (∃ i, k * b i ≤ 0) ↔ ∃ i, b i ≤ 0 := by
    refine exists_congr fun i => ?_
    rw [mul_nonpos_iff]
    constructor
    · rintro (⟨-, h⟩ | ⟨h, -⟩)
      · exact h
      · exact absurd h (not_le.2 hk)
    · exact fun h => .inl ⟨hk.le, h⟩
  by_cases h : ∃ i, b i ≤ 0
  · rw [if_pos h, if_pos (hp.2 h)]
  · rw [if_neg h, if_neg (fun h' => h (hp.1 h'))]
    refine congrArg Except.ok (funext fun i => ?_)
    rw [← Finset.mul_sum, mul_div_mul_left _ _ hk.ne']

/-- **C252** (partial: for budgets whose total is one, or visibly different from one; see `C252_counterexample`) Multiplying all risk budgets by a positive
number changes nothing in `RelaxedRiskParity`, `relaxed_risk_parity_portfolio` or `relaxed_risk_parity_frontier`. -/
theorem C252_scale_partial (solver : Opt.Solver) (factor : Bayes.Factor) {b : Fin N → ℝ} {k : ℝ} (hk : 0 < k) (hn : Normalised b)
    (hn' : Normalised (fun i => k * b i)) :
    (∀ mean cov (u : User N), rrpInit factor mean cov u (some fun i => k * b i) = rrpInit factor mean cov u (some b)) ∧
    (∀ (w : Wrapper N) lam mult target con, w.relaxed solver factor lam mult target (some fun i => k * b i) con =
      w.relaxed solver factor lam mult target (some b) con) ∧
    ∀ (w : Wrapper N) num maxMult lam mults rp con, w.relaxedFrontier solver factor num maxMult lam mults rp (some fun i => k * b i) con =
      w.relaxedFrontier solver factor num maxMult lam mults rp (some b) con := by
  have h : ∀ mean cov (u : User N), rrpInit factor mean cov u (some fun i => k * b i) = rrpInit factor mean cov u (some b) := by
    intro mean cov u
    unfold rrpInit
    rw [budgets_times hk hn hn']
  refine ⟨h, fun w lam mult target con => ?_, fun w num maxMult lam mults rp con => ?_⟩
  · unfold Wrapper.relaxed
    simp only [h]
  · unfold Wrapper.relaxedFrontier
    simp only [h]

/-- **C252** (partial, like `C252_scale_partial`) Giving no budgets is giving all assets the same positive budget. -/
theorem C252_default_partial (solver : Opt.Solver) (factor : Bayes.Factor) (hN : 0 < N) {k : ℝ} (hk : 0 < k) (hn : Normalised (fun _ : Fin N => k)) :
    (∀ mean cov (u : User N), rrpInit factor mean cov u (some fun _ => k) = rrpInit factor mean cov u none) ∧
    (∀ (w : Wrapper N) lam mult target con, w.relaxed solver factor lam mult target (some fun _ => k) con =
      w.relaxed solver factor lam mult target none con) ∧
    ∀ (w : Wrapper N) num maxMult lam mults rp con, w.relaxedFrontier solver factor num maxMult lam mults rp (some fun _ => k) con =
      w.relaxedFrontier solver factor num maxMult lam mults rp none con := by
  have h : ∀ mean cov (u : User N), rrpInit factor mean cov u (some fun _ => k) = rrpInit factor mean cov u none := by
    intro mean cov u
    have hN' : (N : ℝ) ≠ 0 := by exact_mod_cast hN.ne'
    have : rrpBudgets (some fun _ : Fin N => k) = rrpBudgets none := by
      rw [budgets_of hn, if_neg (by rintro ⟨i, hi⟩; exact absurd hi (not_le.2 hk))]
      unfold rrpBudgets
      refine congrArg Except.ok (funext fun i => ?_)
      simp
      field_simp
    unfold rrpInit
    rw [this]
  refine ⟨h, fun w lam mult target con => ?_, fun w num maxMult lam mults rp con => ?_⟩
  · unfold Wrapper.relaxed
    simp only [h]
  · unfold Wrapper.relaxedFrontier
    simp only [h]

/-- Non-vacuity: budgets 1 and 3, and their double; their totals are 4 and 8. -/
example : Normalised (![1, 3] : Fin 2 → ℝ) ∧ Normalised (fun i => 2 * (![1, 3] : Fin 2 → ℝ) i) ∧ Normalised (fun _ : Fin 2 => (7 : ℝ)) := by
  refine ⟨.inr ?_, .inr ?_, .inr ?_⟩ <;> simp [Fin.sum_univ_two] <;> norm_num [abs_of_pos]

private theorem one_asset {solver : Opt.Solver} (hsnd : Sound solver) (hcmp : Complete solver) {factor : Bayes.Factor} (hf : CholOk factor) {b : ℝ} (hb : 0 < b)
    (hclose : isclose b 1) : ∃ a res, rrpInit factor (fun _ : Fin 1 => (0 : ℝ)) 1 ⟨none, none⟩ (some fun _ => b) = .ok a ∧
      rrpSolve solver a 0 none none = .ok res ∧ 0 ≤ res.gamma ∧ b * res.gamma ^ 2 = 1 := by
  have hone : IsChol (1 : Matrix (Fin 1) (Fin 1) ℝ) 1 := ⟨by simp, fun i j h => by omega, fun i => by simp⟩
  obtain ⟨L, hL, hc⟩ := cholSquare_ok hf _ ⟨_, hone⟩
  obtain rfl := isChol_unique hc hone
  have hsym : Bayes.symPart (1 : Matrix (Fin 1) (Fin 1) ℝ) = 1 := by
    unfold Bayes.symPart; rw [Matrix.transpose_one, ← two_smul ℝ, smul_smul]; norm_num
  have hinit : rrpInit factor (fun _ : Fin 1 => (0 : ℝ)) 1 ⟨none, none⟩ (some fun _ => b) = .ok ⟨fun _ => 0, 1, 1, fun _ => b, ⟨none, none⟩⟩ := by
    have : rrpBudgets (some fun _ : Fin 1 => b) = .ok fun _ => b := by
      unfold rrpBudgets
      dsimp only
      rw [if_neg (by rintro ⟨i, hi⟩; exact absurd hi (not_le.2 hb)), if_pos (by simpa using hclose)]
    unfold rrpInit; rw [hsym, hL, this]
  set a : Rrp 1 := ⟨fun _ => 0, 1, 1, fun _ => b, ⟨none, none⟩⟩ with ha
  obtain ⟨res, hres⟩ := (C96_total hsnd hcmp a (by norm_num) (fun _ => hb) 0 le_rfl).1
    ⟨fun _ => 1, (holding_free _).2 ⟨fun i => by norm_num, by simp⟩, fun i => by simp [ha, Matrix.one_apply]; positivity⟩ none
  obtain ⟨-, hcd, -, -, hg0, hfl, hmax, -, -⟩ := C96_solution hsnd a (by norm_num) (fun _ => hb.le) 0 _ none res hres
  obtain ⟨-, w1⟩ := (holding_free _).1 hcd.1
  rw [Fin.sum_univ_one] at w1
  have hcon : ∀ i, contribution a.cov res.w i = 1 := fun i => by
    obtain rfl : i = 0 := Subsingleton.elim _ _
    simp [contribution, ha, w1]
  refine ⟨a, res, hinit, hres, hg0, le_antisymm ?_ ?_⟩
  · have := hfl 0
    rwa [hcon] at this
  · have h := hmax (Real.sqrt (1 / b)) (Real.sqrt_nonneg _) (fun i => by
      rw [hcon, Real.sq_sqrt (by positivity)]
      show b * (1 / b) ≤ 1
      rw [mul_one_div_cancel hb.ne'])
    have h2 := mul_le_mul_of_nonneg_left (pow_le_pow_left₀ (Real.sqrt_nonneg _) h 2) hb.le
    rwa [Real.sq_sqrt (by positivity), mul_one_div_cancel hb.ne'] at h2

/-- **C252 is false.** One asset of unit risk: the budget 1 and the budget 1.000005 (which `np.isclose` takes for one and leaves as it is) give different
contribution levels and objectives, though every other multiple of the budget gives the first. -/
theorem C252_counterexample {solver : Opt.Solver} (hsnd : Sound solver) (hcmp : Complete solver) {factor : Bayes.Factor} (hf : CholOk factor) :
    ∃ a a' res res', rrpInit factor (fun _ : Fin 1 => (0 : ℝ)) 1 ⟨none, none⟩ (some fun _ => 1) = .ok a ∧
      rrpInit factor (fun _ : Fin 1 => (0 : ℝ)) 1 ⟨none, none⟩ (some fun _ => 1000005 / 1000000 * 1) = .ok a' ∧
      rrpSolve solver a 0 none none = .ok res ∧ rrpSolve solver a' 0 none none = .ok res' ∧ res.gamma = 1 ∧ res'.gamma < 1 := by
  obtain ⟨a, res, h1, h2, h3, h4⟩ := one_asset hsnd hcmp hf (b := 1) one_pos (by unfold isclose; norm_num)
  obtain ⟨a', res', g1, g2, g3, g4⟩ := one_asset hsnd hcmp hf (b := 1000005 / 1000000 * 1) (by norm_num) (by
    unfold isclose; rw [abs_of_pos (by norm_num), abs_one]; norm_num)
  refine ⟨a, a', res, res', h1, g1, h2, g2, ?_, ?_⟩
  · nlinarith
  · by_contra hno
    push Not at hno
    nlinarith

end PyV.Props
