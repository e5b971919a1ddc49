import Verif.Model.BlackLitterman

/-!
# Model of the argument handling of `BlackLittermanProcessor.__init__` (views.py:1323-1395)

`Model.BlackLitterman` starts from arguments of consistent sizes; here vectors are lists of any length, the covariance is any 2-d array,
views may be a dictionary or a vector, and the caller's arrays are tracked.
-/

namespace PyV.BL

open PyV PyV.FV Matrix

/-- The `mean_views` argument (views.py:1360-1378). -/
inductive ViewsArg where
  | none
  | dict (d : List (MKey × Val))
  | vec (l : List ℝ)

/-- `_vec_to_dict` (views.py:1360-1376). Labels are assumed distinct, as everywhere in the model. -/
def viewsDict {N : ℕ} (assets : Fin N → Label) : ViewsArg → Except PyErr (List (MKey × Val))
  | .none => .ok []
  | .dict d => .ok d
  | .vec l => if l.length = N then .ok (List.ofFn (fun i : Fin N => (MKey.single (assets i), Val.scalar (l.getD i 0)))) else .error .valueError

/-- Constructor arguments before any check (views.py:1291-1305). `labels = none`: `prior_cov` is an ndarray; then the asset labels are
`0, 1, …` (views.py:1323-1328). `inPlace`: `market_weights` is a contiguous float64 ndarray, so `np.asarray(…).ravel()` shares its memory. -/
structure Inputs where
  r : ℕ
  c : ℕ
  cov : Fin r → Fin c → ℝ
  labels : Option (Fin r → Label)
  pi : Option (List ℝ)
  marketWeights : Option (List ℝ)
  inPlace : Bool
  priorMean : Option (List ℝ)
  riskAversion : ℝ
  tau : ℝ
  idzorekUseTau : Bool
  views : ViewsArg
  conf : ConfArg
  omega : OmegaArg

/-- `self._assets` (views.py:1323-1328). -/
def Inputs.assets (x : Inputs) : Fin x.r → Label := x.labels.getD (fun i => .int (i : ℕ))

/-- `self._sigma` after symmetrisation (views.py:1329-1336), once the shape has been checked. -/
noncomputable def Inputs.sigma (x : Inputs) (h : x.r = x.c) : Matrix (Fin x.r) (Fin x.r) ℝ :=
  symmetrise (Matrix.of (fun i j => x.cov i (Fin.cast h j)))

/-- Choice of the prior mean (views.py:1342-1356). A sum of zero gives NaN in NumPy; we report an error. -/
noncomputable def priorVec {N : ℕ} (sigma : Matrix (Fin N) (Fin N) ℝ) (riskAversion : ℝ) (pi marketWeights priorMean :
    Option (List ℝ)) : Except PyErr (List ℝ) := by
  classical
  exact match pi with
  | some p => .ok p
  | none =>
    match marketWeights with
    | some w =>
      if w.length ≠ N then .error .valueError
      else if w.sum = 0 then .error .other
      else .ok (List.ofFn (riskAversion • (sigma *ᵥ (fun i : Fin N => w.getD i 0 / w.sum))))
    | none =>
      match priorMean with
      | some m => .ok m
      | none => .error .valueError

/-- What the constructor returns through `get_posterior`: the mean keeps the length of the prior mean vector. -/
structure Post (N : ℕ) where
  mu : List ℝ
  cov : Matrix (Fin N) (Fin N) ℝ
  labels : Option (Fin N → Label)

/-- Without views the prior is returned (views.py:1575-1578); building the labelled Series fails on a length mismatch (views.py:1391-1395). -/
def packPrior {N : ℕ} (labels : Option (Fin N → Label)) (pi : List ℝ) (sigma : Matrix (Fin N) (Fin N) ℝ) : Except PyErr (Post N) :=
  if labels.isSome ∧ pi.length ≠ N then .error .valueError else .ok ⟨pi, sigma, labels⟩

/-- The matrix of pick rows. -/
def pickMat {N : ℕ} (rows : List ((Fin N → ℝ) × ℝ)) : Matrix (Fin rows.length) (Fin N) ℝ := Matrix.of (fun k => (rows.get k).1)

/-- The posterior with at least one view (views.py:1580-1595); `self._p @ self._pi` fails on a length mismatch (views.py:1584). -/
noncomputable def packPosterior {N : ℕ} (labels : Option (Fin N → Label)) (tau : ℝ) (pi : List ℝ) (sigma : Matrix (Fin N) (Fin N) ℝ)
    (rows : List ((Fin N → ℝ) × ℝ)) (om : Matrix (Fin rows.length) (Fin rows.length) ℝ) : Except PyErr (Post N) :=
  if pi.length ≠ N then .error .valueError
  else match posterior tau sigma (fun i => pi.getD i 0) (pickMat rows) (fun k => (rows.get k).2) om with
    | .error e => .error e
    | .ok r => .ok ⟨List.ofFn r.1, r.2, labels⟩

/-- Everything after the prior mean (views.py:1378-1395). -/
noncomputable def finish {N : ℕ} (x : Inputs) (assets : Fin N → Label) (labels : Option (Fin N → Label)) (sigma : Matrix (Fin N) (Fin N) ℝ)
    (pi : List ℝ) : Except PyErr (Post N) := do
  let views ← viewsDict assets x.views
  let rows ← buildViews assets views
  let conf ← parseConf x.conf (views.map Prod.fst)
  if rows = [] then packPrior labels pi sigma
  else do
    let om ← buildOmega x.omega conf x.idzorekUseTau x.tau sigma (pickMat rows)
    packPosterior labels x.tau pi sigma rows om

/-- `BlackLittermanProcessor(…).get_posterior()` (views.py:1291-1395). -/
noncomputable def processor (x : Inputs) : Except PyErr (Post x.r) :=
  if h : x.r = x.c then
    if x.riskAversion ≤ 0 then .error .valueError
    else
      match priorVec (x.sigma h) x.riskAversion x.pi x.marketWeights x.priorMean with
      | .error e => .error e
      | .ok pi => finish x x.assets x.labels (x.sigma h) pi
  else .error .valueError

/-- The contents of the caller's `market_weights` array after the call: `weights /= weights.sum()` (views.py:1346-1349) works on the array
itself when `np.asarray(…).ravel()` did not have to copy. -/
noncomputable def weightsAfter (x : Inputs) : Option (List ℝ) := by
  classical
  exact match x.marketWeights with
  | none => none
  | some w =>
    if x.r = x.c ∧ 0 < x.riskAversion ∧ x.pi = none ∧ w.length = x.r ∧ x.inPlace = true then some (w.map (fun v => v / w.sum))
    else some w

/-- A Black–Litterman call as written: `none` marks an omitted keyword (`mean_views=None` and `view_confidences=None` are the defaults, so
omission and `None` are the same for them; `omega = some .none` is an explicit `omega=None`). -/
structure Call where
  r : ℕ
  c : ℕ
  cov : Fin r → Fin c → ℝ
  labels : Option (Fin r → Label)
  pi : Option (List ℝ)
  marketWeights : Option (List ℝ)
  inPlace : Bool
  priorMean : Option (List ℝ)
  riskAversion : Option ℝ
  tau : Option ℝ
  idzorekUseTau : Option Bool
  views : ViewsArg
  conf : ConfArg
  omega : Option OmegaArg

/-- The arguments after Python has filled in the defaults `risk_aversion=1.0`, `tau=0.05`, `idzorek_use_tau=True` and the given default of
`omega` (views.py:1291-1305, moments.py:1074-1085). -/
noncomputable def Call.inputs (k : Call) (dflt : OmegaArg) : Inputs where
  r := k.r
  c := k.c
  cov := k.cov
  labels := k.labels
  pi := k.pi
  marketWeights := k.marketWeights
  inPlace := k.inPlace
  priorMean := k.priorMean
  riskAversion := k.riskAversion.getD 1
  tau := k.tau.getD (1 / 20)
  idzorekUseTau := k.idzorekUseTau.getD true
  views := k.views
  conf := k.conf
  omega := k.omega.getD dflt

/-- `BlackLittermanProcessor(…).get_posterior()` for a call as written: `omega` defaults to `None` (views.py:1291-1305, 1279-1289). -/
noncomputable def Call.processor (k : Call) : Except PyErr (Post k.r) := BL.processor (k.inputs .none)

/-- `posterior_moments_black_litterman` (moments.py:1074-1118): every argument is handed to the processor, `omega` defaults to `"idzorek"`. -/
noncomputable def Call.moments (k : Call) : Except PyErr (Post k.r) := BL.processor (k.inputs .idzorek)

end PyV.BL
