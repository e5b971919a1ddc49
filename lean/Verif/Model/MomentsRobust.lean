import Verif.Model.Moments
import Mathlib.Data.Real.Sign
import Mathlib.Data.Nat.Sqrt
import Mathlib.Data.List.Sort

/-! # Model of the robust and factor estimators of `pyvallocation/moments.py`

`eigh`, `pinv` and the random permutation are parameters. -/

namespace PyV.Mom

open PyV PyV.Valid Matrix

variable {T N : ℕ}

/-- `np.median` of a list (`none` for an empty one, where NumPy gives NaN). -/
noncomputable def median (l : List ℝ) : Option ℝ :=
  let s := l.insertionSort (· ≤ ·)
  let n := s.length
  if n = 0 then none
  else if n % 2 = 1 then s[n / 2]?
  else
    match s[n / 2 - 1]?, s[n / 2]? with
    | some a, some b => some ((a + b) / 2)
    | _, _ => none

/-- `np.cov(X, rowvar=False, ddof=1)` for at least two rows. -/
noncomputable def npCov1 (X : Fin T → Fin N → ℝ) : Matrix (Fin N) (Fin N) ℝ :=
  Matrix.of (fun i j => (∑ t, centred X t i * centred X t j) / ((T : ℝ) - 1))

/-! ## POET -/

/-- `scale` (moments.py:516-520). -/
noncomputable def poetScale (standardize : Bool) (Xc : Fin T → Fin N → ℝ) : Fin N → ℝ := by
  classical
  exact fun i =>
    if standardize then
      let s := Real.sqrt ((∑ t, centred Xc t i ^ 2) / ((T : ℝ) - 1))
      if s ≤ 1 / 10 ^ 12 then 1 else s
    else 1

/-- `k`: `"auto"` or an integer. -/
inductive PoetK where
  | auto
  | num (k : ℤ)

/-- Selected number of factors (moments.py:527-545): the eigenvalue "acceleration" or the given number, clipped to
`[1, N]`. -/
noncomputable def poetSelect (vals : Fin N → ℝ) : PoetK → Except PyErr ℕ
  | .auto =>
    if N ≤ 2 then .ok (max 1 (min 1 N))
    else
      let v : ℕ → ℝ := fun l => if h : l < N then vals ⟨l, h⟩ else 0
      let accel : Fin (N - 2) → ℝ := fun l => (v (l + 1) - v l) - (v (l + 2) - v (l + 1))
      match firstArgmax accel with
      | some l => .ok (max 1 (min ((l : ℕ) + 1) N))
      | none => .error .valueError
  | .num k => if k ≤ 0 then .error .valueError else .ok (max 1 (min k.toNat N))

/-- `S_factor = B @ B.T`, `B = loadings * sqrt(max(eigvals, 0))` for the first `k` factors (moments.py:546-549). -/
noncomputable def poetFactor (k : ℕ) (vals : Fin N → ℝ) (vecs : Matrix (Fin N) (Fin N) ℝ) : Matrix (Fin N) (Fin N) ℝ :=
  Matrix.of (fun i j => ∑ l : Fin N, if (l : ℕ) < k then
    (vecs i l * Real.sqrt (max (vals l) 0)) * (vecs j l * Real.sqrt (max (vals l) 0)) else 0)

/-- `np.sign(x) * np.maximum(np.abs(x) - tau, 0)` off the diagonal (moments.py:562-564; also `_soft_threshold`,
moments.py:759-773). -/
noncomputable def softOff (tau : ℝ) (A : Matrix (Fin N) (Fin N) ℝ) : Matrix (Fin N) (Fin N) ℝ :=
  Matrix.of (fun i j => if i = j then A i j else Real.sign (A i j) * max (|A i j| - tau) 0)

/-- `thresh`: `"auto"` or a number. -/
inductive PoetThresh where
  | auto
  | num (t : ℝ)

/-- `tau` (moments.py:552-561). -/
noncomputable def poetTau (nObs : ℕ) (residual : Matrix (Fin N) (Fin N) ℝ) : PoetThresh → Except PyErr ℝ
  | .auto =>
    let off := (List.finRange N).flatMap (fun i =>
      ((List.finRange N).filter (fun j => decide (i ≠ j))).map (fun j => |residual i j|))
    match median off with
    | none => .ok 0
    | some m => .ok (m * Real.sqrt (Real.log (max (N : ℝ) 2) / max (nObs : ℝ) 1))
  | .num t => by
      classical
      exact if t < 0 then .error .valueError else .ok t

/-- Unscaled estimate before the PSD guard (moments.py:565-569). -/
noncomputable def poetCombine (scale : Fin N → ℝ) (tau : ℝ) (Sfac resid : Matrix (Fin N) (Fin N) ℝ) :
    Matrix (Fin N) (Fin N) ℝ :=
  let A := Sfac + softOff tau resid
  let B := (1 / 2 : ℝ) • (A + Aᵀ)
  let C := Matrix.diagonal scale * B * Matrix.diagonal scale
  (1 / 2 : ℝ) • (C + Cᵀ)

/-- Everything up to the PSD guard (moments.py:508-569). `eigh` returns eigenvalues and eigenvectors, already reordered
descending (moments.py:523-526). Fewer than two rows or a single column make `np.cov`/`eigh` fail. -/
noncomputable def poetRaw (eigh : Matrix (Fin N) (Fin N) ℝ → (Fin N → ℝ) × Matrix (Fin N) (Fin N) ℝ)
    (R : Fin T → Fin N → ℝ) (k : PoetK) (thresh : PoetThresh) (standardize : Bool) :
    Except PyErr (Matrix (Fin N) (Fin N) ℝ) :=
  if T ≤ 1 ∨ N ≤ 1 then .error .other
  else
    let Xc := centred R
    let scale := poetScale standardize Xc
    let S := npCov1 (fun t i => Xc t i / scale i)
    match poetSelect (eigh S).1 k with
    | .error e => .error e
    | .ok ks =>
      let Sf := poetFactor ks (eigh S).1 (eigh S).2
      let res := (1 / 2 : ℝ) • ((S - Sf) + (S - Sf)ᵀ)
      match poetTau T res thresh with
      | .error e => .error e
      | .ok tau => .ok (poetCombine scale tau Sf res)

/-- `factor_covariance_poet` (moments.py:486-577), covariance output. -/
noncomputable def poet (eigh : Matrix (Fin N) (Fin N) ℝ → (Fin N → ℝ) × Matrix (Fin N) (Fin N) ℝ)
    (R : Fin T → Fin N → ℝ) (k : PoetK) (thresh : PoetThresh) (standardize : Bool) :
    Except PyErr (Matrix (Fin N) (Fin N) ℝ) :=
  match poetRaw eigh R k thresh standardize with
  | .error e => .error e
  | .ok C => ensurePsd C defaultJitter

/-! ## Tyler -/

/-- Frobenius norm. -/
noncomputable def frob (A : Matrix (Fin N) (Fin N) ℝ) : ℝ := Real.sqrt (∑ i, ∑ j, A i j ^ 2)

/-- The weight `sqrt(clip(N/clip(quad, 1e-6), 0, 1e6))` squared (moments.py:676-685). -/
noncomputable def tylerWeight (G : Matrix (Fin N) (Fin N) ℝ) (x : Fin N → ℝ) : ℝ :=
  min (max ((N : ℝ) / max (x ⬝ᵥ (G *ᵥ x)) (1 / 10 ^ 6)) 0) (10 ^ 6)

/-- `updated` before shrinkage (moments.py:686-690). A zero trace gives NaN, which the next `pinv` (or the PSD guard)
rejects with `ValueError`; simplification: when this happens in the last of `max_iter` iterations and `ensure_psd=False`, the code returns a
NaN matrix instead, where the model reports the error. -/
noncomputable def tylerUpdate (G : Matrix (Fin N) (Fin N) ℝ) (X : Fin T → Fin N → ℝ) :
    Except PyErr (Matrix (Fin N) (Fin N) ℝ) := by
  classical
  exact
    let U : Matrix (Fin N) (Fin N) ℝ := Matrix.of (fun i j =>
      (∑ t, (X t i * Real.sqrt (tylerWeight G (X t))) * (X t j * Real.sqrt (tylerWeight G (X t)))) / T)
    let V := (1 / 2 : ℝ) • (U + Uᵀ)
    if V.trace = 0 then .error .valueError else .ok (((N : ℝ) / V.trace) • V)

/-- The fixed-point iteration (moments.py:671-703); running out of iterations only warns. -/
noncomputable def tylerLoop (pinv : Matrix (Fin N) (Fin N) ℝ → Matrix (Fin N) (Fin N) ℝ) (X : Fin T → Fin N → ℝ)
    (shrinkage tol : ℝ) (target : Matrix (Fin N) (Fin N) ℝ) :
    ℕ → Matrix (Fin N) (Fin N) ℝ → Except PyErr (Matrix (Fin N) (Fin N) ℝ)
  | 0, C => .ok C
  | n + 1, C => by
    classical
    exact
      match tylerUpdate (pinv C) X with
      | .error e => .error e
      | .ok U =>
        let U' := if 0 < shrinkage then (1 - shrinkage) • U + shrinkage • target else U
        if frob (U' - C) / max (frob C) (1 / 10 ^ 12) ≤ tol then .ok U'
        else tylerLoop pinv X shrinkage tol target n U'

/-- The normalised target (moments.py:658-668): identity, or a symmetrised and guarded custom matrix, scaled to trace `N`.
A custom target of zero trace gives inf/NaN, which is rejected later when the target is used, that is when `shrinkage > 0`. -/
noncomputable def tylerTarget (shrinkage : ℝ) (target : Option (Matrix (Fin N) (Fin N) ℝ)) : Except PyErr (Matrix (Fin N) (Fin N) ℝ) := by
  classical
  exact match target with
  | none => .ok (((N : ℝ) / (1 : Matrix (Fin N) (Fin N) ℝ).trace) • 1)
  | some A =>
    match ensurePsd ((1 / 2 : ℝ) • (A + Aᵀ)) defaultJitter with
    | .error e => .error e
    | .ok B => if B.trace = 0 ∧ 0 < shrinkage then .error .valueError else .ok (((N : ℝ) / B.trace) • B)

/-- `trace_target` (moments.py:655-657). -/
noncomputable def tylerTraceTarget (S : Matrix (Fin N) (Fin N) ℝ) : ℝ := by
  classical
  exact if S.trace / max N 1 ≤ 0 then 1 else S.trace / max N 1

/-- `robust_covariance_tyler` (moments.py:618-709). With one asset `np.cov` is zero-dimensional and the PSD guard raises;
with one observation it is NaN and the guard raises; `max_iter ≤ 0` fails with an unbound local. -/
noncomputable def tyler (pinv : Matrix (Fin N) (Fin N) ℝ → Matrix (Fin N) (Fin N) ℝ) (R : Fin T → Fin N → ℝ)
    (shrinkage tol : ℝ) (target : Option (Matrix (Fin N) (Fin N) ℝ)) (maxIter : ℤ) (guard : Bool) :
    Except PyErr (Matrix (Fin N) (Fin N) ℝ) := by
  classical
  exact
    if T = 0 ∨ N = 0 then .error .valueError
    else if ¬ (0 ≤ shrinkage ∧ shrinkage ≤ 1) then .error .valueError
    else if T = 1 ∨ N = 1 then .error .valueError
    else
      match ensurePsd (npCov1 (centred R)) defaultJitter with
      | .error e => .error e
      | .ok S =>
        match tylerTarget shrinkage target with
        | .error e => .error e
        | .ok F =>
          if maxIter ≤ 0 then .error .other
          else
            match tylerLoop pinv (centred R) shrinkage tol F maxIter.toNat (((N : ℝ) / tylerTraceTarget S) • S) with
            | .error e => .error e
            | .ok C =>
              let D := (tylerTraceTarget S / N) • C
              let E := (1 / 2 : ℝ) • (D + Dᵀ)
              if guard then ensurePsd E defaultJitter else .ok E

/-! ## Robust means -/

/-- Weight of one observation in the Huber iteration (moments.py:1018-1019). -/
noncomputable def huberWeight (tau mu x : ℝ) : ℝ := min 1 (tau / max |x - mu| (1 / 10 ^ 12))

/-- `mu_new` (moments.py:1020). -/
noncomputable def huberNext (tau : ℝ) (xs : List ℝ) (mu : ℝ) : ℝ :=
  (xs.map (fun x => huberWeight tau mu x * x)).sum / (xs.map (huberWeight tau mu)).sum

/-- The Huber loop (moments.py:1016-1024). -/
noncomputable def huberLoop (tau tol : ℝ) (xs : List ℝ) : ℕ → ℝ → ℝ
  | 0, mu => mu
  | n + 1, mu => by
    classical
    exact
      let mu' := huberNext tau xs mu
      if |mu' - mu| ≤ tol * (|mu| + 1) then mu' else huberLoop tau tol xs n mu'

/-- One column of `robust_mean_huber` (moments.py:1011-1025). -/
noncomputable def huberColumn (tol : ℝ) (maxIter : ℕ) (xs : List ℝ) : Option ℝ :=
  match median xs with
  | none => none
  | some m =>
    match median (xs.map (fun x => |x - m|)) with
    | none => none
    | some mad =>
      let scale := 1.4826 * mad + 1 / 10 ^ 12
      let n : ℝ := xs.length
      let tau := scale * Real.sqrt (n / max (Real.log (max n 3)) 2)
      some (huberLoop tau tol xs maxIter m)

/-- `n_blocks`: `"auto"` or an integer. -/
inductive Blocks where
  | auto
  | num (n : ℤ)

/-- `int(np.ceil(np.sqrt(n)))`. -/
def ceilSqrt (n : ℕ) : ℕ := if Nat.sqrt n * Nat.sqrt n = n then Nat.sqrt n else Nat.sqrt n + 1

/-- `B` (moments.py:1053-1059). -/
def momBlocks (nObs : ℕ) : Blocks → Except PyErr ℕ
  | .auto => .ok (max 1 (min (ceilSqrt (max nObs 1)) nObs))
  | .num k => if k ≤ 0 then .error .valueError else .ok (max 1 (min (min k.toNat nObs) nObs))

/-- `block_sizes` (moments.py:1062-1065): `T // B` each, one more for the first `T % B`. -/
def blockSizes (nObs B : ℕ) : List ℕ := (List.range B).map (fun b => nObs / B + if b < nObs % B then 1 else 0)

/-- `Xp[indices[b] : indices[b+1]]` for the cumulative `indices` (moments.py:1066-1069). -/
def splitBySizes {α : Type*} : List ℕ → List α → List (List α)
  | [], _ => []
  | s :: ss, l => l.take s :: splitBySizes ss (l.drop s)

/-- Mean of a block; `none` (NaN) for an empty one. -/
noncomputable def listMean (l : List ℝ) : Option ℝ := if l.length = 0 then none else some (l.sum / l.length)

/-- `robust_mean_median_of_means` for one column (moments.py:1029-1071): the rows in the drawn order `perm`. -/
noncomputable def medianOfMeans (perm : Equiv.Perm (Fin T)) (n : Blocks) (x : Fin T → ℝ) : Except PyErr (Option ℝ) :=
  match momBlocks T n with
  | .error e => .error e
  | .ok B =>
    let xp := (List.finRange T).map (fun t => x (perm t))
    let means := (splitBySizes (blockSizes T B) xp).map listMean
    if means.all Option.isSome then .ok (median (means.filterMap id)) else .ok none

end PyV.Mom
