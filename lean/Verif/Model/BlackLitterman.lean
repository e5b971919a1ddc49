import Verif.Model.Views
import Mathlib.LinearAlgebra.Matrix.PosDef

/-! # Model of `BlackLittermanProcessor` (views.py:1175-1595) -/

namespace PyV.BL

open PyV PyV.FV Matrix

/-- `_asset_index` (views.py:1401-1421): label first, then integer position, then digit strings. -/
def assetIndex {N : ℕ} (assets : Fin N → Label) (label : Label) : Except PyErr (Fin N) :=
  match indexOf assets label with
  | some i => .ok i
  | none =>
    match label with
    | .int k => if h : 0 ≤ k ∧ k < N then .ok ⟨k.toNat, by omega⟩ else .error .valueError
    | .str s =>
      match digits? s with
      | none => .error .valueError
      | some k =>
        match indexOf assets (.int k) with
        | some i => .ok i
        | none => if h : 0 ≤ k ∧ k < N then .ok ⟨k.toNat, by omega⟩ else .error .valueError

/-- A view value: a number or a sequence (views.py:1441-1449). -/
inductive Val where
  | scalar (t : ℝ)
  | seq (ts : List ℝ)

/-- Target of one view (views.py:1441-1449): sequences must have exactly one element. -/
def target : Val → Except PyErr ℝ
  | .scalar t => .ok t
  | .seq [t] => .ok t
  | .seq _ => .error .valueError

/-- Row of the pick matrix (views.py:1451-1459): `row[i], row[j] = 1.0, -1.0` assigns left to right. -/
def pickRow {N : ℕ} (assets : Fin N → Label) : MKey → Except PyErr (Fin N → ℝ)
  | .pair a b => do
      let i ← assetIndex assets a
      let j ← assetIndex assets b
      .ok (Function.update (Function.update (fun _ => 0) i 1) j (-1))
  | .single a => do
      let i ← assetIndex assets a
      .ok (Function.update (fun _ => 0) i 1)

/-- `_build_views` (views.py:1424-1471): rows of `P` with the entries of `Q`. -/
def buildViews {N : ℕ} (assets : Fin N → Label) (views : List (MKey × Val)) : Except PyErr (List ((Fin N → ℝ) × ℝ)) :=
  mapE (fun kv => do
    let t ← target kv.2
    let row ← pickRow assets kv.1
    .ok (row, t)) views

/-- `view_confidences` argument. -/
inductive ConfArg where
  | none
  | scalar (c : ℝ)
  | dict (d : List (MKey × ℝ))
  | array (l : List ℝ)

/-- `_parse_conf` (views.py:1474-1503): missing dictionary keys default to 1. -/
def parseConf (conf : ConfArg) (keys : List MKey) : Except PyErr (Option (List ℝ)) :=
  match conf with
  | .none => .ok .none
  | .scalar c => .ok (some (keys.map (fun _ => c)))
  | .dict d => .ok (some (keys.map (fun k => match d.find? (fun kv => decide (kv.1 = k)) with
      | some kv => kv.2
      | .none => 1)))
  | .array l => if l.length ≠ keys.length then .error .valueError else .ok (some l)

/-- `omega` argument: `None`, `"idzorek"`, a 1-d array, or a square 2-d array of size `m`. -/
inductive OmegaArg where
  | none
  | idzorek
  | vec (l : List ℝ)
  | mat (m : ℕ) (f : ℕ → ℕ → ℝ)

/-- The clipped confidence `np.clip(conf, 1e-6, 1 - 1e-6)` (views.py:1533). -/
noncomputable def clipConf (c : ℝ) : ℝ := min (max c (1 / 10 ^ 6)) (1 - 1 / 10 ^ 6)

/-- `_build_omega` (views.py:1506-1561). -/
noncomputable def buildOmega {N K : ℕ} (omega : OmegaArg) (conf : Option (List ℝ)) (useTau : Bool) (tau : ℝ)
    (sigma : Matrix (Fin N) (Fin N) ℝ) (P : Matrix (Fin K) (Fin N) ℝ) : Except PyErr (Matrix (Fin K) (Fin K) ℝ) :=
  let tauSigma := tau • sigma
  match omega with
  | .idzorek =>
    match conf with
    | none => .error .valueError
    | some c =>
      let base := if useTau then tauSigma else sigma
      .ok (Matrix.diagonal (fun k => (1 - clipConf (c.getD k 0)) / clipConf (c.getD k 0) * (P k ⬝ᵥ (base *ᵥ P k))))
  | .none => .ok (Matrix.diagonal (fun k => (P * tauSigma * Pᵀ) k k))
  | .vec l => if l.length = K then .ok (Matrix.diagonal (fun k => l.getD k 0)) else .error .valueError
  | .mat m f => if m = K then .ok (Matrix.of (fun i j => f i j)) else .error .valueError

/-- `np.linalg.solve(A, b)`: raises for a singular matrix. -/
noncomputable def linSolve {K : ℕ} (A : Matrix (Fin K) (Fin K) ℝ) (b : Fin K → ℝ) : Except PyErr (Fin K → ℝ) := by
  classical
  exact if A.det = 0 then .error .other else .ok (A⁻¹ *ᵥ b)

/-- `_compute_posterior` with at least one view (views.py:1580-1595). -/
noncomputable def posterior {N K : ℕ} (tau : ℝ) (sigma : Matrix (Fin N) (Fin N) ℝ) (pi : Fin N → ℝ)
    (P : Matrix (Fin K) (Fin N) ℝ) (Q : Fin K → ℝ) (omega : Matrix (Fin K) (Fin K) ℝ) :
    Except PyErr ((Fin N → ℝ) × Matrix (Fin N) (Fin N) ℝ) :=
  let tauSigma := tau • sigma
  let A := P * tauSigma * Pᵀ + omega
  match linSolve A (Q - P *ᵥ pi) with
  | .error e => .error e
  | .ok shift =>
    let mean := pi + (tauSigma * Pᵀ) *ᵥ shift
    let middle := tauSigma * Pᵀ * (A⁻¹ * (P * tauSigma))
    let cov := sigma + tauSigma - middle
    .ok (mean, (1 / 2 : ℝ) • (cov + covᵀ))

/-- Symmetrisation of the prior covariance (views.py:1334-1336): only if `np.allclose(Σ, Σᵀ, atol=1e-8)`
(`rtol = 1e-5`) fails. -/
noncomputable def symmetrise {N : ℕ} (sigma : Matrix (Fin N) (Fin N) ℝ) : Matrix (Fin N) (Fin N) ℝ := by
  classical
  exact if ∀ i j, |sigma i j - sigma j i| ≤ 1 / 10 ^ 8 + 1 / 10 ^ 5 * |sigma j i| then sigma
    else (1 / 2 : ℝ) • (sigma + sigmaᵀ)

/-- Prior mean (views.py:1342-1356): `pi`, else `δ Σ w/Σw`, else `prior_mean`. Weights summing to zero give NaN in NumPy;
we report an error. -/
noncomputable def priorPi {N : ℕ} (sigma : Matrix (Fin N) (Fin N) ℝ) (riskAversion : ℝ) (pi marketWeights priorMean :
    Option (Fin N → ℝ)) : Except PyErr (Fin N → ℝ) := by
  classical
  exact match pi with
  | some p => .ok p
  | none =>
    match marketWeights with
    | some w => if ∑ i, w i = 0 then .error .other else .ok (riskAversion • (sigma *ᵥ (fun i => w i / ∑ j, w j)))
    | none =>
      match priorMean with
      | some m => .ok m
      | none => .error .valueError

/-- Constructor arguments (views.py:1291-1305). -/
structure Args (N : ℕ) where
  sigma : Matrix (Fin N) (Fin N) ℝ
  assets : Fin N → Label
  priorMean : Option (Fin N → ℝ)
  marketWeights : Option (Fin N → ℝ)
  riskAversion : ℝ
  tau : ℝ
  idzorekUseTau : Bool
  pi : Option (Fin N → ℝ)
  views : List (MKey × Val)
  conf : ConfArg
  omega : OmegaArg

/-- `BlackLittermanProcessor.__init__` and `get_posterior` (views.py:1291-1395, 1564-1595). -/
noncomputable def construct {N : ℕ} (a : Args N) : Except PyErr ((Fin N → ℝ) × Matrix (Fin N) (Fin N) ℝ) :=
  let sigma := symmetrise a.sigma
  if a.riskAversion ≤ 0 then .error .valueError
  else do
    let pi ← priorPi sigma a.riskAversion a.pi a.marketWeights a.priorMean
    let rows ← buildViews a.assets a.views
    let conf ← parseConf a.conf (a.views.map Prod.fst)
    if rows = [] then
      .ok (pi, sigma)
    else
      let P : Matrix (Fin rows.length) (Fin N) ℝ := Matrix.of (fun k => (rows.get k).1)
      let Q : Fin rows.length → ℝ := fun k => (rows.get k).2
      let om ← buildOmega a.omega conf a.idzorekUseTau a.tau sigma P
      posterior a.tau sigma pi P Q om

end PyV.BL
