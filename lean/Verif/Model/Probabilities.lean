import Verif.Model.PyFloat
import Mathlib.Analysis.SpecialFunctions.Pow.Real
import Mathlib.Analysis.SpecialFunctions.Log.Basic

/-! # Model of `pyvallocation/probabilities.py` -/

namespace PyV.Probs

open PyV

section field

variable {K : Type*} [Field K] [LinearOrder K] [IsStrictOrderedRing K]

/-- `np.isclose(total, 1.0)` with the default tolerances on finite numbers (probabilities.py:43). -/
def isclose1 (x : K) : Bool := decide (|x - 1| ≤ 1 / 10 ^ 8 + 1 / 10 ^ 5 * |(1 : K)|)

/-- `normalize_probability_vector` (probabilities.py:10-45). A finite sum of finite numbers is finite (overflow not
modelled), so the `np.isfinite(total)` test never fires. -/
def normalize (xs : List (PyFloat K)) (strictlyPositive : Bool) : Except PyErr (List K) :=
  if xs.isEmpty then .error .valueError
  else if ¬ xs.all PyFloat.isFinite then .error .valueError
  else if strictlyPositive && xs.any (fun x => x.le (.fin 0)) then .error .valueError
  else if !strictlyPositive && xs.any (fun x => x.lt (.fin 0)) then .error .valueError
  else
    let ps := xs.map PyFloat.val
    let total := ps.sum
    if total ≤ 0 then .error .valueError
    else if !isclose1 total then .ok (ps.map (· / total))
    else .ok ps

/-- `generate_uniform_probabilities` (probabilities.py:78-93). -/
def uniform (n : ℤ) : Except PyErr (List K) :=
  if n ≤ 0 then .error .valueError else .ok (List.replicate n.toNat (1 / (n : K)))

/-- `resolve_probabilities` (probabilities.py:48-75). -/
def resolve (xs : Option (List (PyFloat K))) (n : ℤ) (strictlyPositive : Bool) : Except PyErr (List K) :=
  match xs with
  | none => uniform n
  | some xs =>
    match normalize xs strictlyPositive with
    | .error e => .error e
    | .ok ps => if (ps.length : ℤ) ≠ n then .error .valueError else .ok ps

/-- `compute_effective_number_scenarios_hhi` (probabilities.py:200-213). -/
def ensHhi {S : ℕ} (p : Fin S → K) : K := 1 / ∑ s, p s ^ 2

end field

/-- `generate_exp_decay_probabilities` (probabilities.py:96-114); `t = 0, …, T-1` is `np.arange(1, T+1) - 1`. -/
noncomputable def expDecay (T : ℕ) (halfLife : ℝ) : Except PyErr (Fin T → ℝ) :=
  if halfLife ≤ 0 then .error .valueError
  else
    let p : Fin T → ℝ := fun t => Real.exp (-(Real.log 2) / halfLife * ((T : ℝ) - ((t : ℕ) + 1)))
    .ok (fun t => p t / ∑ s, p s)

/-- `np.mean` of a vector. -/
noncomputable def mean {n : ℕ} (x : Fin n → ℝ) : ℝ := (∑ i, x i) / n

/-- `silverman_bandwidth` (probabilities.py:117-126); with one observation `np.std(ddof=1)` is NaN; with none `0 ** (-1/5)` raises, see
`gaussianKernel`. -/
noncomputable def silverman {n : ℕ} (x : Fin n → ℝ) : PyFloat ℝ :=
  if n ≤ 1 then .nan
  else .fin (106 / 100 * Real.sqrt ((∑ i, (x i - mean x) ^ 2) / (n - 1)) * (n : ℝ) ^ (-(1:ℝ) / 5))

/-- `np.exp(-((v - x_T)**2) / (2*h**2))` for a positive bandwidth (probabilities.py:159); `h = inf` gives weight 1. -/
noncomputable def kernel (h : PyFloat ℝ) (d : ℝ) : ℝ :=
  match h with
  | .fin h => Real.exp (-(d ^ 2) / (2 * h ^ 2))
  | _ => 1

/-- `generate_gaussian_kernel_probabilities` (probabilities.py:129-163). `x`, `v`, `x_T` finite; the bandwidth may be
any float. Underflow of `exp` is not modelled, so the weight sum is non-positive only for an empty `v`; a NaN
bandwidth makes the weight sum NaN, which is rejected.  Without data and without a bandwidth `silverman_bandwidth` divides by zero. -/
noncomputable def gaussianKernel {n m : ℕ} (x : Fin n → ℝ) (v : Fin m → ℝ) (h : Option (PyFloat ℝ))
    (xT : Option ℝ) : Except PyErr (Fin m → ℝ) :=
  if h = none ∧ n = 0 then .error .zeroDivision
  else
  let h := h.getD (silverman x)
  if h.le (.fin 0) then .error .valueError
  else
    let last : Option ℝ := if hn : 0 < n then some (x ⟨n - 1, by omega⟩) else none
    match (match xT with | some c => some c | none => last) with
    | none => .error .indexError
    | some c =>
      if h = .nan then .error .valueError
      else
        let w : Fin m → ℝ := fun t => kernel h (v t - c)
        if ∑ t, w t ≤ 0 then .error .valueError
        else .ok (fun t => w t / ∑ s, w s)

/-- `compute_effective_number_scenarios` (probabilities.py:166-197): the mask `p > 0` is explicit. -/
noncomputable def ens {S : ℕ} (p : Fin S → ℝ) : ℝ :=
  Real.exp (-(∑ s, if 0 < p s then p s * Real.log (p s) else 0))

end PyV.Probs
