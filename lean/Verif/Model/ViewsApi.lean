import Verif.Model.Views
import Verif.Model.Bayesian
import Verif.Model.Distribution

/-!
# The outer part of `FlexibleViewsProcessor` (views.py:484-629, 1124-1173)

Where the scenarios come from (given, or simulated from a prior mean and covariance), views given as vectors, and what the three
accessors return.  Labels of pandas objects are unique.
-/

namespace PyV.FV

open PyV Matrix

/-- `prior_mean`: an array, or a Series with its index. -/
structure PriorMean where
  n : ℕ
  val : Fin n → ℝ
  index : Option (Fin n → Label)

/-- `prior_cov`: a two-dimensional array, or a DataFrame with its index (its columns are never read). -/
structure PriorCov where
  rows : ℕ
  cols : ℕ
  val : Fin rows → Fin cols → ℝ
  index : Option (Fin rows → Label)

/-- A two-dimensional array of floats. -/
structure Array2 where
  rows : ℕ
  cols : ℕ
  val : Fin rows → Fin cols → ℝ

/-- `distribution_fn`, called with a generator and, after a `TypeError`, without (views.py:556-559).  The generator is not modelled:
its draws are part of the function. -/
structure DistFn where
  withRng : (n : ℕ) → (Fin n → ℝ) → Matrix (Fin n) (Fin n) ℝ → ℕ → Except PyErr Array2
  without : (n : ℕ) → (Fin n → ℝ) → Matrix (Fin n) (Fin n) ℝ → ℕ → Except PyErr Array2

/-- `try: distribution_fn(mu, cov, n, rng) except TypeError: distribution_fn(mu, cov, n)` (views.py:556-559). -/
def DistFn.call (f : DistFn) {n : ℕ} (mu : Fin n → ℝ) (cov : Matrix (Fin n) (Fin n) ℝ) (count : ℕ) : Except PyErr Array2 :=
  match f.withRng n mu cov count with
  | .error .typeError => f.without n mu cov count
  | r => r

/-- The scenario set, the labels, whether results are pandas objects, and the prior probabilities still to be normalised
(`none` for uniform). -/
structure Source where
  S : ℕ
  N : ℕ
  R : Fin S → Fin N → ℝ
  assets : Fin N → Label
  pandas : Bool
  prior : Option (Fin S → PyFloat ℝ)

/-- `[str(i) for i in range(N)]` (views.py:493, 527). -/
def defaultLabels (N : ℕ) : Fin N → Label := fun i => .str (Nat.repr i)

/-- `self.assets` for a prior given by moments (views.py:521-536): the index of `prior_mean` if it is a Series, else the index of
`prior_cov` if it is a DataFrame, else the positions. -/
def momentLabels (m : PriorMean) (c : PriorCov) (h : c.rows = m.n) : Fin m.n → Label :=
  match m.index, c.index with
  | some l, _ => l
  | none, some l => fun i => l (i.cast h.symm)
  | none, none => defaultLabels m.n

/-- `cov = 0.5 * (cov + cov.T); cov = cov + np.eye(N) * 1e-6` (views.py:544-545). -/
noncomputable def regularised {n : ℕ} (C : Matrix (Fin n) (Fin n) ℝ) : Matrix (Fin n) (Fin n) ℝ :=
  (1 / 2 : ℝ) • (C + Cᵀ) + (1 / 10 ^ 6 : ℝ) • (1 : Matrix (Fin n) (Fin n) ℝ)

/-- `standard_normals @ chol.T + mu` (views.py:551-554). -/
def affine {S n : ℕ} (Z : Fin S → Fin n → ℝ) (L : Matrix (Fin n) (Fin n) ℝ) (mu : Fin n → ℝ) : Fin S → Fin n → ℝ :=
  fun s i => ∑ k, Z s k * L i k + mu i

/-- The simulated scenarios, before the shape test (views.py:546-561): `normals` are the draws of the generator. -/
noncomputable def simulated (factor : Bayes.Factor) (normals : (S n : ℕ) → Fin S → Fin n → ℝ) (fn : Option DistFn) {n : ℕ}
    (mu : Fin n → ℝ) (C : Matrix (Fin n) (Fin n) ℝ) (count : ℕ) : Except PyErr Array2 :=
  match (Bayes.cholSquare factor (regularised C)).result with
  | .error e => .error e
  | .ok L =>
    match fn with
    | none => .ok ⟨count, n, affine (normals count n) L mu⟩
    | some f => f.call mu (regularised C) count

/-- `self.R.shape != (num_scenarios, N)` (views.py:562-566). -/
def sized (a : Array2) (S N : ℕ) : Except PyErr (Fin S → Fin N → ℝ) :=
  if h : a.rows = S ∧ a.cols = N then .ok (fun s i => a.val (s.cast h.1.symm) (i.cast h.2.symm)) else .error .valueError

/-- `num_scenarios` must be a positive `int` (views.py:518-519); `none` stands for a value of another type. -/
def countOf : Option ℤ → Except PyErr ℕ
  | none => .error .valueError
  | some k => if k ≤ 0 then .error .valueError else .ok k.toNat

/-- A prior given by moments (views.py:512-569).  The prior probabilities argument is not looked at. -/
noncomputable def fromMoments (factor : Bayes.Factor) (normals : (S n : ℕ) → Fin S → Fin n → ℝ) (fn : Option DistFn)
    (mean : Option PriorMean) (cov : Option PriorCov) (num : Option ℤ) : Except PyErr Source :=
  match mean, cov with
  | some m, some c =>
    match countOf num with
    | .error e => .error e
    | .ok count =>
      if h : c.rows = m.n ∧ c.cols = m.n then
        let C : Matrix (Fin m.n) (Fin m.n) ℝ := Matrix.of (fun i j => c.val (i.cast h.1.symm) (j.cast h.2.symm))
        match simulated factor normals fn m.val C count with
        | .error e => .error e
        | .ok a =>
          match sized a count m.n with
          | .error e => .error e
          | .ok R => .ok ⟨count, m.n, R, momentLabels m c h.1, m.index.isSome || c.index.isSome, none⟩
      else .error .valueError
  | _, _ => .error .valueError

/-- `prior_risk_drivers`: a two-dimensional array or a DataFrame with its columns (views.py:487-494). -/
structure Drivers where
  S : ℕ
  N : ℕ
  R : Fin S → Fin N → ℝ
  columns : Option (Fin N → Label)

/-- `prior_probabilities` for `S` scenarios (views.py:498-510): an array of another length is rejected.  The order of the length test
and the tests of `normalize_probability_vector` is not observable, all of them being `ValueError`s. -/
def priorFor (S : ℕ) : Option (List (PyFloat ℝ)) → Except PyErr (Option (Fin S → PyFloat ℝ))
  | none => .ok none
  | some l => if l.length = S then .ok (some (fun s => l.getD s .nan)) else .error .valueError

/-- A prior given by scenarios (views.py:486-510). -/
def fromDrivers (d : Drivers) (p : Option (List (PyFloat ℝ))) : Except PyErr Source :=
  match priorFor d.S p with
  | .error e => .error e
  | .ok q =>
    match d.columns with
    | some l => .ok ⟨d.S, d.N, d.R, l, true, q⟩
    | none => .ok ⟨d.S, d.N, d.R, defaultLabels d.N, false, q⟩

/-- Views per asset: absent, a dictionary, or a vector of numbers (views.py:575-592). -/
inductive VecViews (κ : Type) where
  | none
  | dict (d : List (κ × ViewVal))
  | vector (x : List (PyFloat ℝ))

/-- `_vec_to_dict` (views.py:575-592); `key` turns a label into a dictionary key. -/
def vecToDict {κ : Type} {N : ℕ} (assets : Fin N → Label) (key : Label → κ) : VecViews κ → Except PyErr (List (κ × ViewVal))
  | .none => .ok []
  | .dict d => .ok d
  | .vector x =>
    if x.length = N then .ok ((List.finRange N).map (fun i : Fin N => (key (assets i), ViewVal.scalar (x.getD i .nan))))
    else .error .valueError

/-- `cvar_views`: absent, a dictionary of `(target, gamma)`, or a vector of targets at the default `gamma = 0.05`
(views.py:599-602, 1111-1116). -/
inductive CvarViews where
  | none
  | dict (d : List (Label × (ℝ × ℝ)))
  | vector (x : List ℝ)

/-- See `CvarViews`. -/
noncomputable def cvarToDict {N : ℕ} (assets : Fin N → Label) : CvarViews → Except PyErr (List (Label × (ℝ × ℝ)))
  | .none => .ok []
  | .dict d => .ok d
  | .vector x =>
    if x.length = N then .ok ((List.finRange N).map (fun i : Fin N => (assets i, (x.getD i 0, 1 / 20)))) else .error .valueError

/-- All view arguments of the constructor (views.py:437-445).  `quantile_views` and `corr_views` are dictionaries. -/
structure ViewArgs where
  mean : VecViews MKey := .none
  vol : VecViews Label := .none
  var : VecViews Label := .none
  skew : VecViews Label := .none
  corr : List ((Label × Label) × ViewVal) := []
  cvar : CvarViews := .none
  quantile : List (Label × (ℝ × ViewVal)) := []
  rankMean : Option (List Label) := none
  sequential : Bool := false

/-- The view dictionaries of the object (views.py:594-612). -/
noncomputable def viewsOf {N : ℕ} (assets : Fin N → Label) (a : ViewArgs) : Except PyErr Views := do
  let m ← vecToDict assets MKey.single a.mean
  let vo ← vecToDict assets id a.vol
  let va ← vecToDict assets id a.var
  let sk ← vecToDict assets id a.skew
  let cv ← cvarToDict assets a.cvar
  let m' ← rankedDict m a.rankMean
  .ok ⟨m', vo, va, sk, a.corr, a.quantile, cv⟩

/-- A constructed processor (views.py:616-629): the posterior vector, and the posterior mean and covariance. -/
structure Processor where
  S : ℕ
  N : ℕ
  R : Fin S → Fin N → ℝ
  assets : Fin N → Label
  pandas : Bool
  q : Fin S → ℝ
  mean : Fin N → ℝ
  cov : Matrix (Fin N) (Fin N) ℝ

/-- `np.cov(R.T, aweights=q, bias=True)` (views.py:620): weighted average, weighted products of the deviations, divided by the sum of
the weights. -/
noncomputable def npCovW {S N : ℕ} (R : Fin S → Fin N → ℝ) (q : Fin S → ℝ) : Matrix (Fin N) (Fin N) ℝ :=
  let avg : Fin N → ℝ := fun i => (∑ s, R s i * q s) / ∑ s, q s
  Matrix.of (fun i j => (∑ s, (R s i - avg i) * (R s j - avg j) * q s) / ∑ s, q s)

/-- The constructor after the scenarios have been found (views.py:571-629); the covariance of a single column is a scalar, on which
`np.diag` raises `ValueError` (views.py:572-573). -/
noncomputable def process (ep : (S : ℕ) → Ep S) (argsort : (S : ℕ) → (Fin S → ℝ) → Equiv.Perm (Fin S)) (round : ℝ → ℤ)
    (src : Source) (a : ViewArgs) : Except PyErr Processor := do
  let p0 ← priorOf src.prior
  if src.N = 1 then
    .error .valueError
  else
    let v ← viewsOf src.assets a
    let q ← computePosterior (ep src.S) (argsort src.S) round p0 src.assets src.R v a.sequential
    .ok ⟨src.S, src.N, src.R, src.assets, src.pandas, q, meanOf src.R q, npCovW src.R q⟩

/-- `get_scenarios` (views.py:1124-1137): a DataFrame over the assets (default row index) or an array.  `name` is the rendering of
labels as column names. -/
def Processor.scenarios (p : Processor) (name : Label → String) : Api.GridArg :=
  let g : Api.Grid := ⟨p.S, p.N, fun s i => .fin (p.R s i)⟩
  if p.pandas then .frame g (fun s => Nat.repr s) (fun i => name (p.assets i)) else .array g

/-- `get_posterior_probabilities` (views.py:1139-1152): the `S x 1` array, flattened by its consumers. -/
def Processor.probabilities (p : Processor) : List (PyFloat ℝ) := List.ofFn (fun s => PyFloat.fin (p.q s))

/-- `get_posterior` (views.py:622-629, 1154-1173), mean. -/
def Processor.posteriorMean (p : Processor) (name : Label → String) : Api.VecArg :=
  if p.pandas then .series (List.ofFn (fun i => (name (p.assets i), PyFloat.fin (p.mean i))))
  else .array (List.ofFn (fun i => PyFloat.fin (p.mean i)))

/-- `get_posterior` (views.py:622-629, 1154-1173), covariance. -/
def Processor.posteriorCov (p : Processor) (name : Label → String) : Api.GridArg :=
  let g : Api.Grid := ⟨p.N, p.N, fun i j => .fin (p.cov i j)⟩
  if p.pandas then .frame g (fun i => name (p.assets i)) (fun i => name (p.assets i)) else .array g

end PyV.FV
