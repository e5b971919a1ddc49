import Verif.Spec.Prob
import Verif.Model.Views

/-! # What views say about a distribution, in plain moments -/

namespace PyV.Spec

open PyV.FV

variable {S N : ℕ}

/-- Expected value of column `i`. -/
noncomputable def meanAt (q : Fin S → ℝ) (R : Fin S → Fin N → ℝ) (i : Fin N) : ℝ := expect q (fun s => R s i)

/-- Variance of column `i`. -/
noncomputable def varAt (q : Fin S → ℝ) (R : Fin S → Fin N → ℝ) (i : Fin N) : ℝ := expect q (fun s => (R s i - meanAt q R i) ^ 2)

/-- Skewness of column `i`. -/
noncomputable def skewAt (q : Fin S → ℝ) (R : Fin S → Fin N → ℝ) (i : Fin N) : ℝ :=
  expect q (fun s => (R s i - meanAt q R i) ^ 3) / Real.sqrt (varAt q R i) ^ 3

/-- Correlation of columns `i` and `j`. -/
noncomputable def corrAt (q : Fin S → ℝ) (R : Fin S → Fin N → ℝ) (i j : Fin N) : ℝ :=
  expect q (fun s => (R s i - meanAt q R i) * (R s j - meanAt q R j)) /
    (Real.sqrt (varAt q R i) * Real.sqrt (varAt q R j))

/-- What a view value says about the number `x` it constrains (strict operators are read as non-strict). -/
def Says : ViewVal → ℝ → Prop
  | .scalar (.fin t), x => x = t
  | .spec .eq (.fin t), x => x = t
  | .spec .ge (.fin t), x => t ≤ x
  | .spec .gt (.fin t), x => t ≤ x
  | .spec .le (.fin t), x => x ≤ t
  | .spec .lt (.fin t), x => x ≤ t
  | .between (.fin lo) (.fin hi), x => lo ≤ x ∧ x ≤ hi
  | _, _ => False

/-- Column `i` is the one a label names: its label, or the integer label a digit string stands for when no column
carries the string itself. -/
def Names (assets : Fin N → Label) (key : Label) (i : Fin N) : Prop :=
  assets i = key ∨ ((∀ j, assets j ≠ key) ∧ ∃ s k, key = .str s ∧ digits? s = some k ∧ assets i = .int k)

/-- A mean view on a distribution. -/
def MeanHolds (assets : Fin N → Label) (R : Fin S → Fin N → ℝ) (q : Fin S → ℝ) : MKey × ViewVal → Prop
  | (.single a, v) => ∃ i, Names assets a i ∧ Says v (meanAt q R i)
  | (.pair a b, v) => ∃ i j, Names assets a i ∧ Names assets b j ∧ Says v (meanAt q R i - meanAt q R j)

/-- A volatility view. -/
def VolHolds (assets : Fin N → Label) (R : Fin S → Fin N → ℝ) (q : Fin S → ℝ) (kv : Label × ViewVal) : Prop :=
  ∃ i, Names assets kv.1 i ∧ Says kv.2 (Real.sqrt (varAt q R i))

/-- A variance view. -/
def VarHolds (assets : Fin N → Label) (R : Fin S → Fin N → ℝ) (q : Fin S → ℝ) (kv : Label × ViewVal) : Prop :=
  ∃ i, Names assets kv.1 i ∧ Says kv.2 (varAt q R i)

/-- A skewness view. -/
def SkewHolds (assets : Fin N → Label) (R : Fin S → Fin N → ℝ) (q : Fin S → ℝ) (kv : Label × ViewVal) : Prop :=
  ∃ i, Names assets kv.1 i ∧ Says kv.2 (skewAt q R i)

/-- A correlation view. -/
def CorrHolds (assets : Fin N → Label) (R : Fin S → Fin N → ℝ) (q : Fin S → ℝ) (kv : (Label × Label) × ViewVal) : Prop :=
  ∃ i j, Names assets kv.1.1 i ∧ Names assets kv.1.2 j ∧ Says kv.2 (corrAt q R i j)

/-- A quantile view `P(R_i ≤ level) {op} p`. -/
def QuantileHolds (assets : Fin N → Label) (R : Fin S → Fin N → ℝ) (q : Fin S → ℝ) (kv : Label × (ℝ × ViewVal)) : Prop :=
  ∃ i, Names assets kv.1 i ∧ Says kv.2.2 (prob q (fun s => R s i ≤ kv.2.1))

/-- Equality and inequality rows satisfied by a vector. -/
def MeetsRows (r : Rows S) (q : Fin S → ℝ) : Prop :=
  (∀ p ∈ r.eq, ∑ s, p.1 s * q s = p.2) ∧ (∀ p ∈ r.ineq, ∑ s, p.1 s * q s ≤ p.2)

end PyV.Spec
