import Verif.Model.Constraints

/-! # What a constraint specification means, independently of the matrices -/

namespace PyV.Spec.Con

open PyV PyV.Con

variable {K : Type*} [Field K] [LinearOrder K] [IsStrictOrderedRing K]

/-- `x` is at least the (finite, if present) bound. -/
def AtLeast (lo : Option (PyFloat K)) (x : K) : Prop := ∀ a, lo = some (.fin a) → a ≤ x
/-- `x` is at most the (finite, if present) bound. -/
def AtMost (hi : Option (PyFloat K)) (x : K) : Prop := ∀ b, hi = some (.fin b) → x ≤ b

/-- Per-asset bounds, in each of the accepted shapes. -/
def InBounds {n : ℕ} (w : Fin n → K) : Option (Bounds K) → Prop
  | none => True
  | some (.pair lo hi) => ∀ i, AtLeast lo (w i) ∧ AtMost hi (w i)
  | some (.dict l) => ∀ e ∈ l, ∀ i : Fin n, (i : ℤ) = e.1 → AtLeast e.2.1 (w i) ∧ AtMost e.2.2 (w i)
  | some (.seq l) => ∀ i : Fin n, ∀ e, l[(i : ℕ)]? = some e → AtLeast e.1 (w i) ∧ AtMost e.2 (w i)

/-- Total weight held in a group of assets (each member counted once). -/
def groupWeight {n : ℕ} (idx : List ℤ) (w : Fin n → K) : K := ∑ i : Fin n, if (i : ℤ) ∈ idx then w i else 0

/-- The literal meaning of a specification. -/
structure Satisfies {n : ℕ} (c : Spec K) (w : Fin n → K) : Prop where
  long : c.longOnly = true → ∀ i, 0 ≤ w i
  total : ∀ t, c.totalWeight = some (.fin t) → ∑ i, w i = t
  bounds : InBounds w c.bounds
  relative : ∀ e ∈ c.relative, ∀ k, e.2.2 = .fin k → ∀ i j : Fin n, (i : ℤ) = e.1 → (j : ℤ) = e.2.1 →
    w i - w j ≤ k
  groups : ∀ e ∈ c.groups, ∀ lo hi, e.2.2.1 = .fin lo → e.2.2.2 = .fin hi →
    lo ≤ groupWeight e.2.1 w ∧ groupWeight e.2.1 w ≤ hi
  ineq : ∀ e ∈ c.ineqRows, ∀ r, e.2 = .fin r → ∑ i : Fin n, e.1.getD i 0 * w i ≤ r
  eq : ∀ e ∈ c.eqRows, ∀ r, e.2 = .fin r → ∑ i : Fin n, e.1.getD i 0 * w i = r

/-- The limits other than the total weight and the equality rows exclude some weight vector. -/
def Limited (n : ℕ) (c : Spec K) : Prop := ∃ x : Fin n → K, ¬ Satisfies { c with totalWeight := none, eqRows := [] } x

/-- A finite number. -/
def Fin' (x : PyFloat K) : Prop := ∃ v, x = .fin v
/-- Absent, or a finite number. -/
def FinOpt (x : Option (PyFloat K)) : Prop := ∀ y, x = some y → Fin' y
/-- Bounds that are finite where present and not crossed. -/
def PairOK (lo hi : Option (PyFloat K)) : Prop :=
  FinOpt lo ∧ FinOpt hi ∧ ∀ a b, lo = some (.fin a) → hi = some (.fin b) → a ≤ b

/-- Accepted `bounds` for `n` assets. -/
def BoundsOK (n : ℕ) : Option (Bounds K) → Prop
  | none => True
  | some (.pair lo hi) => PairOK lo hi
  | some (.dict l) => ∀ e ∈ l, (0 ≤ e.1 ∧ e.1 < n) ∧ PairOK e.2.1 e.2.2
  | some (.seq l) => l.length = n ∧ ∀ e ∈ l, PairOK e.1 e.2

/-- The documented acceptance conditions. -/
structure Valid (nAssets : ℤ) (c : Spec K) : Prop where
  pos : 0 < nAssets
  total : FinOpt c.totalWeight
  bounds : BoundsOK nAssets.toNat c.bounds
  relative : ∀ e ∈ c.relative, (0 ≤ e.1 ∧ e.1 < nAssets) ∧ (0 ≤ e.2.1 ∧ e.2.1 < nAssets) ∧ e.1 ≠ e.2.1 ∧ Fin' e.2.2
  groups : ∀ e ∈ c.groups, (∀ i ∈ e.2.1, 0 ≤ i ∧ i < nAssets) ∧
    ∃ lo hi, e.2.2.1 = .fin lo ∧ e.2.2.2 = .fin hi ∧ lo ≤ hi
  ineq : ∀ e ∈ c.ineqRows, (e.1.length : ℤ) = nAssets ∧ Fin' e.2
  eq : ∀ e ∈ c.eqRows, (e.1.length : ℤ) = nAssets ∧ Fin' e.2

/-- `G w ≤ h`, with an absent pair meaning no constraint (rows and right-hand sides pair up one to one). -/
def MatLe {n : ℕ} (G : Option (List (Fin n → K))) (h : Option (List K)) (w : Fin n → K) : Prop :=
  List.Forall₂ (fun row r => ∑ i, row i * w i ≤ r) (G.getD []) (h.getD [])

/-- `A w = b`. -/
def MatEq {n : ℕ} (A : Option (List (Fin n → K))) (b : Option (List K)) (w : Fin n → K) : Prop :=
  List.Forall₂ (fun row r => ∑ i, row i * w i = r) (A.getD []) (b.getD [])

end PyV.Spec.Con
