import Verif.Model.MomentsRobust
import Verif.Model.PyFloat
import Mathlib.Analysis.SpecialFunctions.Pow.Real

/-!
# Model of the graphical lasso of `pyvallocation/moments.py` (lines 759-928)

`eigh` is `np.linalg.eigh`: eigenvalues and a matrix whose columns are eigenvectors. Entries are finite, so `np.nan_to_num` is the
identity. pandas labels are not modelled.
-/

namespace PyV.Mom

open PyV PyV.Valid Matrix

variable {N T : ℕ}

/-- `np.linalg.eigh`. -/
abbrev Eigh (N : ℕ) := Matrix (Fin N) (Fin N) ℝ → (Fin N → ℝ) × Matrix (Fin N) (Fin N) ℝ

/-- The new `Theta` of one iteration (moments.py:801-809). -/
noncomputable def admmTheta (eigh : Eigh N) (rho : ℝ) (S Z U : Matrix (Fin N) (Fin N) ℝ) : Matrix (Fin N) (Fin N) ℝ :=
  let K := rho • (Z - U) - S
  let e := eigh K
  let d := fun l => (e.1 l + Real.sqrt (max (e.1 l ^ 2 + 4 * rho) 0)) / (2 * rho)
  let Theta := Matrix.of (fun i j => e.2 i j * d j) * e.2ᵀ
  (1 / 2 : ℝ) • (Theta + Thetaᵀ)

/-- The stopping test (moments.py:819-824). -/
def admmDone (rho tol : ℝ) (Theta Z Zprev U : Matrix (Fin N) (Fin N) ℝ) : Prop :=
  frob (Theta - Z) ≤ tol * Real.sqrt N + tol * max (frob Theta) (frob Z) ∧
    frob (rho • (Z - Zprev)) ≤ tol * Real.sqrt N + tol * frob (rho • U)

/-- The loop (moments.py:800-827): `RuntimeError` when the iterations run out. -/
noncomputable def admmLoop (eigh : Eigh N) (S : Matrix (Fin N) (Fin N) ℝ) (alpha rho tol : ℝ) :
    ℕ → Matrix (Fin N) (Fin N) ℝ → Matrix (Fin N) (Fin N) ℝ → Except PyErr (Matrix (Fin N) (Fin N) ℝ)
  | 0, _, _ => .error .runtimeError
  | fuel + 1, Z, U => by
    classical
    exact
      let Theta := admmTheta eigh rho S Z U
      let Z' := softOff (alpha / rho) (Theta + U)
      let U' := U + Theta - Z'
      if admmDone rho tol Theta Z' Z U' then .ok Theta else admmLoop eigh S alpha rho tol fuel Z' U'

/-- `_graphical_lasso_admm` (moments.py:776-835) with its default `rho = 1`, `max_iter = 200`, `tol = 1e-4`: covariance and precision.
`pinv` is only used for a singular precision. -/
noncomputable def admm (eigh : Eigh N) (pinv : Matrix (Fin N) (Fin N) ℝ → Matrix (Fin N) (Fin N) ℝ) (S : Matrix (Fin N) (Fin N) ℝ)
    (alpha : ℝ) : Except PyErr (Matrix (Fin N) (Fin N) ℝ × Matrix (Fin N) (Fin N) ℝ) := by
  classical
  exact
    if (S + alpha • (1 : Matrix (Fin N) (Fin N) ℝ)).det = 0 then .error .other
    else
      match admmLoop eigh S alpha 1 (1 / 10 ^ 4) 200 (S + alpha • 1)⁻¹ 0 with
      | .error e => .error e
      | .ok precision =>
        match ensurePsd (if precision.det = 0 then pinv precision else precision⁻¹) defaultJitter with
        | .error e => .error e
        | .ok cov => .ok (cov, precision)

/-- Second moment of the rows selected by `sel`: `X[mask].T @ X[mask] / count` (moments.py:901-907). -/
noncomputable def partMoment (X : Fin T → Fin N → ℝ) (sel : Fin T → Prop) : Matrix (Fin N) (Fin N) ℝ := by
  classical
  exact Matrix.of (fun i j => (∑ t, if sel t then X t i * X t j else 0) / ((Finset.univ.filter sel).card : ℝ))

/-- The validation score of one fold (moments.py:896-910): fit on the rows whose number is not `fold` modulo `K`, Gaussian
log-likelihood (up to constants) of the others. `slogdet(·)[1]` is `log |det|`. -/
noncomputable def foldScore (eigh : Eigh N) (pinv : Matrix (Fin N) (Fin N) ℝ → Matrix (Fin N) (Fin N) ℝ) (X : Fin T → Fin N → ℝ)
    (K : ℕ) (alpha : ℝ) (fold : ℕ) : Except PyErr ℝ :=
  match admm eigh pinv (partMoment X (fun t => (t : ℕ) % K ≠ fold)) alpha with
  | .error e => .error e
  | .ok cp => .ok (Real.log |cp.2.det| - (partMoment X (fun t => (t : ℕ) % K = fold) * cp.2).trace)

/-- The average score of a penalty (moments.py:894-912); with at least two rows and one column no fold is skipped. -/
noncomputable def cvScore (eigh : Eigh N) (pinv : Matrix (Fin N) (Fin N) ℝ → Matrix (Fin N) (Fin N) ℝ) (X : Fin T → Fin N → ℝ)
    (alpha : ℝ) : Except PyErr ℝ :=
  match mapE (foldScore eigh pinv X (min 5 T) alpha) (List.range (min 5 T)) with
  | .error e => .error e
  | .ok scores => .ok (scores.sum / scores.length)

/-- `alpha_max` (moments.py:885-887), for at least one asset. -/
noncomputable def alphaMax (S : Matrix (Fin N) (Fin N) ℝ) : ℝ :=
  max (⨆ ij : Fin N × Fin N, |if ij.1 = ij.2 then 0 else S ij.1 ij.2|) (1 / 10 ^ 6)

/-- `np.geomspace(alpha_max, alpha_max/100, num=5)` (moments.py:888). -/
noncomputable def alphaGrid (S : Matrix (Fin N) (Fin N) ℝ) : List ℝ :=
  (List.range 5).map (fun k : ℕ => alphaMax S * (1 / 100 : ℝ) ^ ((k : ℝ) / 4))

/-- One candidate of the search (moments.py:912-915); `none` is the initial `best_score = -inf`. -/
noncomputable def betterAlpha (best : Option (ℝ × ℝ)) (alpha score : ℝ) : Option (ℝ × ℝ) :=
  match best with
  | none => some (alpha, score)
  | some b => if score > b.2 + 1 / 10 ^ 8 then some (alpha, score) else some b

/-- The search over the grid (moments.py:893-915). -/
noncomputable def searchAlpha (score : ℝ → Except PyErr ℝ) : List ℝ → Option (ℝ × ℝ) → Except PyErr (Option (ℝ × ℝ))
  | [], best => .ok best
  | a :: as, best =>
    match score a with
    | .error e => .error e
    | .ok s => searchAlpha score as (betterAlpha best a s)

/-- `alpha`: `"auto"` or a number. -/
inductive GlassoAlpha where
  | auto
  | num (a : ℝ)

/-- `chosen_alpha` (moments.py:884-921); without an accepted candidate the last grid point is kept (moments.py:889). -/
noncomputable def chooseAlpha (eigh : Eigh N) (pinv : Matrix (Fin N) (Fin N) ℝ → Matrix (Fin N) (Fin N) ℝ) (X : Fin T → Fin N → ℝ) :
    GlassoAlpha → Except PyErr ℝ
  | .auto =>
    if N = 0 then .error .valueError
    else
      match searchAlpha (cvScore eigh pinv X) (alphaGrid (secondMoment X)) none with
      | .error e => .error e
      | .ok none => .ok ((alphaGrid (secondMoment X)).getLastD 0)
      | .ok (some b) => .ok b.1
  | .num a => if a ≤ 0 then .error .valueError else .ok a

/-- The data used (moments.py:864-865). -/
noncomputable def glassoData (R : Fin T → Fin N → ℝ) (assumeCentered : Bool) : Fin T → Fin N → ℝ :=
  if assumeCentered then R else centred R

/-- `sparse_precision_glasso` (moments.py:838-928): covariance and precision. -/
noncomputable def glasso (eigh : Eigh N) (pinv : Matrix (Fin N) (Fin N) ℝ → Matrix (Fin N) (Fin N) ℝ) (R : Fin T → Fin N → ℝ)
    (alpha : GlassoAlpha) (assumeCentered : Bool) : Except PyErr (Matrix (Fin N) (Fin N) ℝ × Matrix (Fin N) (Fin N) ℝ) :=
  if T < 2 then .error .valueError
  else
    match chooseAlpha eigh pinv (glassoData R assumeCentered) alpha with
    | .error e => .error e
    | .ok a => admm eigh pinv (secondMoment (glassoData R assumeCentered)) a

end PyV.Mom
