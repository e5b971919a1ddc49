import Verif.Model.Probabilities

/-!
# Model of `entropy_pooling` and `_entropy_pooling_dual_objective` (views.py:79-301)

Equality rows are indexed by `Fin Ke`, inequality rows by `Fin Ki`; the stacked system
`np.vstack((A, G))` is indexed by the sum type.  `scipy.optimize.minimize` is an oracle.
-/

namespace PyV.EP

open PyV

/-- `np.clip(x, lo, hi)`. -/
noncomputable def clip (lo hi x : ℝ) : ℝ := min (max x lo) hi

/-- `log_p - 1 - lhs.T @ λ` (views.py:160, 288). -/
noncomputable def exponent {S : ℕ} {κ : Type} [Fintype κ] (logp : Fin S → ℝ) (lhs : κ → Fin S → ℝ) (l : κ → ℝ)
    (s : Fin S) : ℝ := logp s - 1 - ∑ k, lhs k s * l k

/-- `x = np.exp(np.clip(exponent, -700, 700))` (views.py:161-162, 289-290). -/
noncomputable def primal {S : ℕ} {κ : Type} [Fintype κ] (logp : Fin S → ℝ) (lhs : κ → Fin S → ℝ) (l : κ → ℝ)
    (s : Fin S) : ℝ := Real.exp (clip (-700) 700 (exponent logp lhs l s))

/-- `_entropy_pooling_dual_objective` (views.py:79-168): value and gradient. -/
noncomputable def dualObjective {S : ℕ} {κ : Type} [Fintype κ] (logp : Fin S → ℝ) (lhs : κ → Fin S → ℝ)
    (rhs : κ → ℝ) (l : κ → ℝ) : ℝ × (κ → ℝ) :=
  let x := primal logp lhs l
  (1000 * (-(-(∑ s, x s) - ∑ k, l k * rhs k)), fun k => 1000 * (rhs k - ∑ s, lhs k s * x s))

/-- `scipy.optimize.minimize` with `jac=True` and lower bounds: objective/gradient function, which coordinates are
bounded below by zero; `none` is `not solution.success`. -/
abbrev Minimizer := {κ : Type} → [Fintype κ] → ((κ → ℝ) → ℝ × (κ → ℝ)) → (κ → Bool) → Option (κ → ℝ)

/-- `normalize_probability_vector(p, strictly_positive=…)` on a vector (probabilities.py:10-45). -/
noncomputable def normalizeVec {S : ℕ} (p : Fin S → PyFloat ℝ) (strict : Bool) : Except PyErr (Fin S → ℝ) :=
  match Probs.normalize (List.ofFn p) strict with
  | .error e => .error e
  | .ok ps => .ok (fun s => ps.getD s 0)

/-- Solver call, recovery and normalisation of the posterior (views.py:258-301) for stacked rows. `exp` of a clipped
exponent is finite and positive, so the three guards at 298-306 cannot fire (`S > 0` after prior validation). -/
noncomputable def solve (minimize : Minimizer) {S : ℕ} {κ : Type} [Fintype κ] (p : Fin S → ℝ)
    (lhs : κ → Fin S → ℝ) (rhs : κ → ℝ) (lb : κ → Bool) : Except PyErr (Fin S → ℝ) :=
  let logp := fun s => Real.log (p s)
  match minimize (dualObjective logp lhs rhs) lb with
  | none => .error .runtimeError
  | some l =>
    let q := primal logp lhs l
    let total := ∑ s, q s
    if total ≤ 0 then .error .runtimeError
    else .ok (fun s => q s / total)

/-- Method resolution `method or "TNC"` and its check (views.py:229-233). -/
def methodOk (method : Option String) : Bool :=
  let m := match method with | none => "TNC" | some m => if m = "" then "TNC" else m
  m == "TNC" || m == "L-BFGS-B"

/-- `entropy_pooling` (views.py:170-301). The inequality block is used only when both `G` and `h` are given. -/
noncomputable def entropyPooling (minimize : Minimizer) {S Ke Ki : ℕ} (p : Fin S → PyFloat ℝ)
    (A : Fin Ke → Fin S → ℝ) (b : Fin Ke → ℝ) (G : Option (Fin Ki → Fin S → ℝ)) (h : Option (Fin Ki → ℝ))
    (method : Option String) : Except PyErr (Fin S → ℝ) :=
  if ¬ methodOk method then .error .valueError
  else
    match normalizeVec p true with
    | .error e => .error e
    | .ok prior =>
      match G, h with
      | some G, some h =>
        solve minimize (κ := Fin Ke ⊕ Fin Ki) prior (Sum.elim A G) (Sum.elim b h)
          (Sum.elim (fun _ => false) (fun _ => true))
      | _, _ => solve minimize (κ := Fin Ke) prior A b (fun _ => false)

end PyV.EP
