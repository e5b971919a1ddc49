import Verif.Model.BlackLittermanApi
import Mathlib.Data.Nat.Digits.Defs

/-!
# Specification: what a Black–Litterman view means

Written from the documentation of `BlackLittermanProcessor`, without the model's helper functions; only the types of the arguments
(`Label`, `MKey`, `Val`, `ConfArg`, `OmegaArg`, `Args`) are shared with the model.
-/

namespace PyV.Spec.BL

open PyV PyV.FV PyV.BL Matrix

/-- The integer a label can be read as: an integer itself, or a non-empty string of decimal digits. -/
def ReadsAs (label : Label) (k : ℤ) : Prop :=
  label = .int k ∨ ∃ s : String, label = .str s ∧ s ≠ "" ∧ (∀ c ∈ s.toList, c.isDigit = true) ∧
    k = ((Nat.ofDigits 10 (s.toList.reverse.map (fun c => c.toNat - '0'.toNat)) : ℕ) : ℤ)

/-- Which asset a label refers to: the asset of that name; failing that, the asset whose name is the integer it reads as; failing that,
the asset at that position. -/
def Refers {N : ℕ} (assets : Fin N → Label) (label : Label) (i : Fin N) : Prop :=
  assets i = label ∨ (∀ j, assets j ≠ label) ∧ ∃ k, ReadsAs label k ∧ (assets i = .int k ∨ (∀ j, assets j ≠ .int k) ∧ ((i : ℕ) : ℤ) = k)

/-- The number a view asks for: a number, or a sequence with one number. -/
def Asks (v : Val) (t : ℝ) : Prop := v = .scalar t ∨ v = .seq [t]

/-- The row of a view: `P m` is the mean of the asset, or the difference of the two assets' means. -/
def IsRow {N : ℕ} (assets : Fin N → Label) (key : MKey) (row : Fin N → ℝ) : Prop :=
  (∃ a i, key = .single a ∧ Refers assets a i ∧ ∀ m, row ⬝ᵥ m = m i) ∨
  (∃ a b i j, key = .pair a b ∧ Refers assets a i ∧ Refers assets b j ∧ (i ≠ j → ∀ m, row ⬝ᵥ m = m i - m j) ∧
    (i = j → ∀ m, row ⬝ᵥ m = -m i))

/-- The confidence of the `k`-th view: the number given for all views; the dictionary's entry, or 1 if there is none; the `k`-th entry of an
array with one entry per view. -/
def HasConfidence (conf : ConfArg) (keys : List MKey) (k : ℕ) (c : ℝ) : Prop :=
  match conf with
  | .none => False
  | .scalar x => c = x
  | .dict d => ∃ key, keys[k]? = some key ∧ ((key, c) ∈ d ∨ (∀ x, (key, x) ∉ d) ∧ c = 1)
  | .array l => l.length = keys.length ∧ l[k]? = some c

/-- The view covariance: diagonal with the prior variance of each view; with odds `(1 - c) / c` times it for Idzorek confidences
(clipped to [1e-6, 1 - 1e-6]); a given diagonal; or a given matrix. -/
def IsOmega {N K : ℕ} (a : Args N) (sigma : Matrix (Fin N) (Fin N) ℝ) (P : Fin K → Fin N → ℝ) (om : Matrix (Fin K) (Fin K) ℝ) : Prop :=
  match a.omega with
  | .none => (∀ i j, i ≠ j → om i j = 0) ∧ ∀ k, om k k = a.tau * (P k ⬝ᵥ (sigma *ᵥ P k))
  | .idzorek => (∀ i j, i ≠ j → om i j = 0) ∧ ∀ k : Fin K, ∃ c, HasConfidence a.conf (a.views.map Prod.fst) k c ∧
      let c' := max (1 / 10 ^ 6) (min c (1 - 1 / 10 ^ 6))
      om k k = (1 - c') / c' * ((if a.idzorekUseTau then a.tau else 1) * (P k ⬝ᵥ (sigma *ᵥ P k)))
  | .vec l => l.length = K ∧ (∀ i j, i ≠ j → om i j = 0) ∧ ∀ k : Fin K, l[(k : ℕ)]? = some (om k k)
  | .mat m f => m = K ∧ ∀ i j : Fin K, om i j = f i j

/-- The published posterior (He and Litterman). -/
def IsPosterior {N K : ℕ} (tau : ℝ) (sigma : Matrix (Fin N) (Fin N) ℝ) (pi : Fin N → ℝ) (P : Matrix (Fin K) (Fin N) ℝ) (Q : Fin K → ℝ)
    (om : Matrix (Fin K) (Fin K) ℝ) (mu : Fin N → ℝ) (cov : Matrix (Fin N) (Fin N) ℝ) : Prop :=
  let A := P * (tau • sigma) * Pᵀ + om
  mu = pi + ((tau • sigma) * Pᵀ) *ᵥ (A⁻¹ *ᵥ (Q - P *ᵥ pi)) ∧
  (omᵀ = om → sigmaᵀ = sigma → cov = sigma + tau • sigma - (tau • sigma) * Pᵀ * A⁻¹ * (P * (tau • sigma))) ∧ covᵀ = cov

end PyV.Spec.BL
