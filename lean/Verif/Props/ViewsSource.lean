import Verif.Props.ViewsHandoff

/-! # C157: scenarios and probabilities given to a views processor; C28, C143 and C147 for the whole constructor -/

namespace PyV.Props

open PyV PyV.FV PyV.Spec

/-! ## Specification -/

/-- The labels of given scenarios: the columns of a table, or the positions. -/
def labelsFor (d : Drivers) (i : Fin d.N) : Label :=
  match d.columns with
  | some l => l i
  | none => .str (Nat.repr i)

/-! ## Proof -/

/-- The mean views of `ViewArgs` as the argument of the constructor modelled in `Model/Views`. -/
private def meanArgOf {N : ℕ} : VecViews MKey → MeanArg N
  | .none => .none
  | .dict d => .dict d
  | .vector x => .vector fun i => x.getD i .nan

private theorem meanArg_dict {N : ℕ} {assets : Fin N → Label} {m : VecViews MKey} {d : List (MKey × ViewVal)}
    (h : vecToDict assets MKey.single m = .ok d) : meanArgToDict assets (meanArgOf m) = d := by
  cases m with
  | none => injection h
  | dict d' => injection h
  | vector x =>
    simp only [vecToDict] at h
    split at h
    · injection h
    · cases h

/-- The two models of the constructor agree. -/
theorem process_eq_construct (ep : (S : ℕ) → Ep S) (argsort : (S : ℕ) → (Fin S → ℝ) → Equiv.Perm (Fin S)) (round : ℝ → ℤ)
    {src : Source} {a : ViewArgs} {P : Processor} (h : process ep argsort round src a = .ok P) :
    ∃ (arg : MeanArg src.N) (rest : Views) (b : Built src.S src.N), rest.corr = a.corr ∧ rest.quantile = a.quantile ∧
      cvarToDict src.assets a.cvar = .ok rest.cvar ∧ vecToDict src.assets MKey.single a.mean = .ok (meanArgToDict src.assets arg) ∧
      construct (ep src.S) (argsort src.S) round src.assets src.R src.prior arg rest a.rankMean a.sequential = .ok b ∧
      P = ⟨src.S, src.N, src.R, src.assets, src.pandas, b.posterior, b.posteriorMean, npCovW src.R b.posterior⟩ := by
  unfold process at h
  simp only [bind_ok] at h
  obtain ⟨p0, h1, h2⟩ := h
  split at h2
  · cases h2
  rename_i hN
  simp only [bind_ok] at h2
  obtain ⟨v, hv, q, hq, hP⟩ := h2
  injection hP with hP
  unfold viewsOf at hv
  simp only [bind_ok] at hv
  obtain ⟨m, e1, vo, e2, va, e3, sk, e4, cv, e5, m', e6, e7⟩ := hv
  injection e7 with e7
  subst e7
  have k1 : vecToDict src.assets MKey.single a.mean = .ok (meanArgToDict src.assets (meanArgOf (N := src.N) a.mean)) := by
    rw [e1, meanArg_dict e1]
  have k2 : construct (ep src.S) (argsort src.S) round src.assets src.R src.prior (meanArgOf a.mean) ⟨[], vo, va, sk, a.corr, a.quantile, cv⟩
      a.rankMean a.sequential = .ok ⟨q, meanOf src.R q, callerView (N := src.N) (meanArgOf a.mean) m'⟩ := by
    unfold construct
    rw [h1]
    simp only [bind, Except.bind]
    rw [if_neg hN, meanArg_dict e1, e6]
    simp only
    rw [hq]
  exact ⟨meanArgOf a.mean, ⟨[], vo, va, sk, a.corr, a.quantile, cv⟩, ⟨q, meanOf src.R q, callerView (N := src.N) (meanArgOf a.mean) m'⟩,
    rfl, rfl, e5, k1, k2, hP.symm⟩

/-- **C28.** Through the whole constructor: in a processor built with `rank_mean = [a₁, …, aₖ]` (no explicit view on those pairs, no
quantile or CVaR views, simultaneous mode) the reported posterior means are in that order. -/
theorem C28_processor {ep : (S : ℕ) → Ep S} (hep : ∀ S, EpSound (ep S)) {argsort : (S : ℕ) → (Fin S → ℝ) → Equiv.Perm (Fin S)} {round : ℝ → ℤ}
    {src : Source} (ha : Function.Injective src.assets) {p : Fin src.S → ℝ} (hp : ∀ s, 0 < p s) (hp1 : IsProb p)
    (hprior : src.prior = some fun s => .fin (p s)) {a : ViewArgs} (hq0 : a.quantile = []) (hc0 : a.cvar = .none)
    (hseq : a.sequential = false) {l : List Label} (hl : a.rankMean = some l)
    (hno : a.mean = .none ∨ (∃ x, a.mean = .vector x) ∨ ∃ d, a.mean = .dict d ∧ ∀ x y, ConsecPair l x y → ∀ v, (MKey.pair x y, v) ∉ d)
    {P : Processor} (h : process ep argsort round src a = .ok P) :
    ∃ q : Fin src.S → ℝ, P = ⟨src.S, src.N, src.R, src.assets, src.pandas, q, meanAt q src.R, npCovW src.R q⟩ ∧
      ∀ m n (hm : m < n) (hn : n < l.length) (i j : Fin src.N), Names src.assets (l[m]'(hm.trans hn)) i → Names src.assets l[n] j →
        meanAt q src.R j ≤ meanAt q src.R i := by
  obtain ⟨arg, rest, b, -, e2, e3, e4, e5, e6⟩ := process_eq_construct ep argsort round h
  have hcv : rest.cvar = [] := by
    rw [hc0] at e3
    injection e3 with e3
    exact e3.symm
  rw [hprior, hl, hseq] at e5
  have hno' : ∀ x y, ConsecPair l x y → ∀ v, (MKey.pair x y, v) ∉ meanArgToDict src.assets arg := by
    intro x y hxy v hm
    rcases hno with hn | ⟨xs, hn⟩ | ⟨d, hn, hd⟩
    · rw [hn] at e4
      injection e4 with e4
      rw [← e4] at hm
      cases hm
    · rw [hn] at e4
      simp only [vecToDict] at e4
      split at e4
      · injection e4 with e4
        rw [← e4] at hm
        simp at hm
      · cases e4
    · rw [hn] at e4
      injection e4 with e4
      rw [← e4] at hm
      exact hd x y hxy v hm
  have hr := C28_ranking (hep _) ha hp hp1 (e2.trans hq0) hcv hno' e5
  obtain ⟨-, -, -, -, -, -, hmean, -⟩ := construct_ok e5
  refine ⟨b.posterior, ?_, hr⟩
  rw [e6]
  congr 1
  rw [hmean]
  funext i
  exact meanOf_eq src.R b.posterior i

/-- **C143.** Only a `TypeError` of a custom generator leads to the second call without a generator; any other error is passed on. -/
theorem C143_generator_error {factor : Bayes.Factor} (hf : CholOk factor) (normals : (S n : ℕ) → Fin S → Fin n → ℝ) {n : ℕ}
    (mu : Fin n → ℝ) (mi : Option (Fin n → Label)) (C : Fin n → Fin n → ℝ) (ci : Option (Fin n → Label))
    (hpsd : (Matrix.of (fun i j => (C i j + C j i) / 2)).PosSemidef) (k : ℕ) (hk : 0 < k) (f : DistFn) (e : PyErr) (he : e ≠ .typeError)
    (hfa : f.withRng n mu (Matrix.of (fun i j => (C i j + C j i) / 2) + (1 / 10 ^ 6 : ℝ) • 1) k = .error e) :
    FV.fromMoments factor normals (some f) (some ⟨n, mu, mi⟩) (some ⟨n, n, C, ci⟩) (some k) = .error e := by
  have hreg : regularised (Matrix.of C) =
      Matrix.of (fun i j => (C i j + C j i) / 2) + (1 / 10 ^ 6 : ℝ) • (1 : Matrix (Fin n) (Fin n) ℝ) := by
    unfold regularised
    ext i j
    simp only [Matrix.add_apply, Matrix.smul_apply, Matrix.transpose_apply, Matrix.of_apply, smul_eq_mul]
    ring
  obtain ⟨L, hL, hchol⟩ := cholSquare_ok hf (regularised (Matrix.of C)) (by
    rw [hreg]; exact exists_chol_add hpsd (by positivity))
  have hcall : f.call mu (regularised (Matrix.of C)) k = .error e := by
    unfold DistFn.call
    rw [hreg, hfa]
    cases e <;> first | rfl | exact absurd rfl he
  have hk' : ¬ ((k : ℤ) ≤ 0) := by omega
  have hsim : simulated factor normals (some f) mu (Matrix.of fun i j => C i j) k = .error e := by
    unfold simulated
    have : (Bayes.cholSquare factor (regularised (Matrix.of fun i j => C i j))).result = .ok L := hL
    simp only [this]
    exact hcall
  unfold FV.fromMoments countOf
  simp only [hk', if_false, and_self, dite_true, Int.toNat_natCast, Fin.cast_refl, id_eq, hsim]

/-- **C157.** Given scenarios are accepted with probabilities of the same number, or none, and kept as they are, under the columns of the
table or the positions; any other number of probabilities is a `ValueError`. -/
theorem C157_source (d : Drivers) (p : Option (List (PyFloat ℝ))) :
    (∀ src, fromDrivers d p = .ok src → (∀ l, p = some l → l.length = d.S) ∧
      ∃ q, src = ⟨d.S, d.N, d.R, labelsFor d, d.columns.isSome, q⟩ ∧ (p = none → q = none) ∧
        ∀ l, p = some l → ∃ f, q = some f ∧ ∀ s : Fin d.S, l[(s : ℕ)]? = some (f s)) ∧
    ((∀ l, p = some l → l.length = d.S) → ∃ src, fromDrivers d p = .ok src) ∧
    ((∃ l, p = some l ∧ l.length ≠ d.S) → fromDrivers d p = .error .valueError) := by
  have hlab : ∀ q : Option (Fin d.S → PyFloat ℝ), (match d.columns with
      | some l => (.ok ⟨d.S, d.N, d.R, l, true, q⟩ : Except PyErr Source)
      | none => .ok ⟨d.S, d.N, d.R, defaultLabels d.N, false, q⟩) = .ok ⟨d.S, d.N, d.R, labelsFor d, d.columns.isSome, q⟩ := by
    intro q
    cases hc : d.columns with
    | none =>
      simp only [Option.isSome_none]
      congr 2
      funext i
      simp [labelsFor, hc, defaultLabels]
    | some l =>
      simp only [Option.isSome_some]
      congr 2
      funext i
      simp [labelsFor, hc]
  cases p with
  | none =>
    have e : fromDrivers d none = .ok ⟨d.S, d.N, d.R, labelsFor d, d.columns.isSome, none⟩ := by
      unfold fromDrivers priorFor
      exact hlab none
    refine ⟨fun src h => ⟨by simp, none, ?_, fun _ => rfl, by simp⟩, fun _ => ⟨_, e⟩, by simp⟩
    rw [e] at h
    injection h with h
    exact h.symm
  | some l =>
    by_cases hl : l.length = d.S
    · have e : fromDrivers d (some l) = .ok ⟨d.S, d.N, d.R, labelsFor d, d.columns.isSome, some fun s => l.getD s .nan⟩ := by
        unfold fromDrivers
        have : priorFor d.S (some l) = .ok (some fun s => l.getD s .nan) := if_pos hl
        rw [this]
        exact hlab _
      refine ⟨fun src h => ⟨fun l' h' => ?_, some fun s => l.getD s .nan, ?_, by simp, fun l' h' => ⟨fun s => l.getD s .nan, rfl, fun s => ?_⟩⟩, fun _ => ⟨_, e⟩, ?_⟩
      · injection h' with h'
        rw [← h']
        exact hl
      · rw [e] at h
        injection h with h
        exact h.symm
      · injection h' with h'
        subst h'
        have : (s : ℕ) < l.length := by rw [hl]; exact s.2
        simp [this]
      · rintro ⟨l', h', hne⟩
        injection h' with h'
        exact absurd (h' ▸ hl) hne
    · have e : fromDrivers d (some l) = .error .valueError := by
        unfold fromDrivers
        have : priorFor d.S (some l) = .error .valueError := if_neg hl
        rw [this]
      refine ⟨fun src h => ?_, fun h => absurd (h l rfl) hl, fun _ => e⟩
      rw [e] at h
      cases h

/-- **C157.** Without views, the posterior of given scenarios and strictly positive probabilities is those scenarios and probabilities, and
without probabilities the uniform ones, whatever the solver; the reported mean is the mean under them. -/
theorem C157_no_views (ep : (S : ℕ) → Ep S) (argsort : (S : ℕ) → (Fin S → ℝ) → Equiv.Perm (Fin S)) (round : ℝ → ℤ) (d : Drivers)
    (hN : d.N ≠ 1) (sequential : Bool) :
    (∀ p : Fin d.S → ℝ, (∀ s, 0 < p s) → IsProb p →
      ∃ src, fromDrivers d (some (List.ofFn fun s => .fin (p s))) = .ok src ∧
        process ep argsort round src { sequential := sequential } =
          .ok ⟨d.S, d.N, d.R, labelsFor d, d.columns.isSome, p, meanAt p d.R, npCovW d.R p⟩) ∧
    ∃ src, fromDrivers d none = .ok src ∧ process ep argsort round src { sequential := sequential } =
      .ok ⟨d.S, d.N, d.R, labelsFor d, d.columns.isSome, fun _ => 1 / (d.S : ℝ), meanAt (fun _ => 1 / (d.S : ℝ)) d.R,
        npCovW d.R fun _ => 1 / (d.S : ℝ)⟩ := by
  have hm : ∀ q : Fin d.S → ℝ, meanOf d.R q = meanAt q d.R := fun q => funext fun i => meanOf_eq d.R q i
  have hproc : ∀ (prior : Option (Fin d.S → PyFloat ℝ)) (q : Fin d.S → ℝ), priorOf prior = .ok q →
      process ep argsort round ⟨d.S, d.N, d.R, labelsFor d, d.columns.isSome, prior⟩ { sequential := sequential } =
        .ok ⟨d.S, d.N, d.R, labelsFor d, d.columns.isSome, q, meanAt q d.R, npCovW d.R q⟩ := by
    intro prior q hq
    unfold process
    rw [hq]
    simp only [bind, Except.bind]
    rw [if_neg hN]
    simp only [viewsOf, bind, Except.bind, vecToDict, cvarToDict, rankedDict]
    have : computePosterior (ep d.S) (argsort d.S) round q (labelsFor d) d.R ⟨[], [], [], [], [], [], []⟩ sequential = .ok q := by
      unfold computePosterior
      simp
    rw [this]
    simp only [hm]
  constructor
  · intro p hpos hp
    obtain ⟨h1, h2, -⟩ := C157_source d (some (List.ofFn fun s => .fin (p s)))
    obtain ⟨src, hs⟩ := h2 (by intro l h; injection h with h; rw [← h]; simp)
    obtain ⟨-, q, rfl, -, hq⟩ := h1 src hs
    obtain ⟨f, rfl, hf⟩ := hq _ rfl
    have hfp : f = fun s => .fin (p s) := by
      funext s
      have := hf s
      simpa using this.symm
    subst hfp
    refine ⟨_, hs, hproc _ p ?_⟩
    obtain ⟨b, hb, hbp, -⟩ := (C26_no_views_prior (N := 0) (ep d.S) (argsort d.S) round (fun i => i.elim0) (fun _ i => i.elim0) (by norm_num) false).2 p
      hpos hp
    obtain ⟨p0, d', hp0, -, hd, hpost, -⟩ := construct_ok hb
    have e0 : computePosterior (ep d.S) (argsort d.S) round p0 (fun i : Fin 0 => i.elim0) (fun _ i => i.elim0) { noViews with mean := d' } false = .ok p0 := by
      have : d' = [] := by injection hd with hd; exact hd.symm
      rw [this]
      unfold computePosterior
      simp [noViews]
    rw [e0] at hpost
    injection hpost with hpost
    rw [hp0, hpost, hbp]
  · obtain ⟨h1, h2, -⟩ := C157_source d none
    obtain ⟨src, hs⟩ := h2 (by simp)
    obtain ⟨-, q, rfl, hq, -⟩ := h1 src hs
    rw [hq rfl] at hs
    exact ⟨_, hs, hproc none _ rfl⟩

/-- **C147.** A vector of CVaR views is read at the 5% level: in the reported posterior the last asset's CVaR at confidence 95% is minus its
entry (earlier entries are overridden, C25). -/
theorem C147_cvar_vector {ep : (S : ℕ) → Ep S} (hep : ∀ S, EpSound (ep S)) {argsort : (S : ℕ) → (Fin S → ℝ) → Equiv.Perm (Fin S)}
    (hs : ∀ S, Risk.IsArgsort (argsort S)) {round : ℝ → ℤ} {S n : ℕ} {R : Fin S → Fin (n + 1) → ℝ} {assets : Fin (n + 1) → Label}
    (ha : Function.Injective assets) {pandas : Bool} {prior : Option (Fin S → PyFloat ℝ)} {a : ViewArgs} (x : Fin (n + 1) → ℝ)
    (hx : a.cvar = .vector (List.ofFn x)) {P : Processor} (h : process ep argsort round ⟨S, n + 1, R, assets, pandas, prior⟩ a = .ok P) :
    ∃ q : Fin S → ℝ, P = ⟨S, n + 1, R, assets, pandas, q, meanAt q R, npCovW R q⟩ ∧
      IsCvar q (fun s => R s (Fin.last n)) (1 - 1 / 20) (-x (Fin.last n)) := by
  obtain ⟨arg, rest, b, -, e2, e3, e4, e5, e6⟩ := process_eq_construct ep argsort round h
  obtain ⟨p0, d', -, -, -, hpost, hmean, -⟩ := construct_ok e5
  have hcv : rest.cvar = ((List.finRange n).map fun i : Fin n => (assets i.castSucc, (x i.castSucc, (1 / 20 : ℝ)))) ++
      [(assets (Fin.last n), (x (Fin.last n), 1 / 20))] := by
    rw [hx] at e3
    simp only [cvarToDict, List.length_ofFn, if_true] at e3
    injection e3 with e3
    rw [← e3, List.finRange_succ_last]
    simp only [List.map_append, List.map_map, List.map_cons, List.map_nil]
    have hd : ∀ i : Fin (n + 1), (List.ofFn x).getD (i : ℕ) 0 = x i := fun i => by
      rw [List.getD_eq_getElem?_getD, List.getElem?_ofFn, dif_pos i.2]
      rfl
    simp only [Function.comp_def, hd]
  obtain ⟨i, hi, hc⟩ := C25_cvar_partial (v := { rest with mean := d' }) (hep S) (hs S) round (by norm_num : (0 : ℝ) < 1 / 20) hcv hpost
  have : i = Fin.last n := names_unique ha hi (.inl rfl)
  subst this
  refine ⟨b.posterior, ?_, hc⟩
  rw [e6]
  congr 1
  rw [hmean]
  funext i
  exact meanOf_eq R b.posterior i

end PyV.Props
