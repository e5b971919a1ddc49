import Verif.Model.BlackLittermanHandoff
import Verif.Props.BlackLittermanApi
import Verif.Props.FromMoments
import Verif.Props.Wrapper
import Mathlib.Tactic

/-! # Properties C162–C164: the one-shot Black–Litterman function, its confidences, and the way to the portfolio -/

namespace PyV.Props

open PyV PyV.FV PyV.BL PyV.Api PyV.Spec.Api PyV.Opt PyV.Spec.Opt PyV.Spec.Con PyV.Spec Matrix

/-- The processor reads the confidences only through their values for the view keys. -/
theorem processor_conf (x : Inputs) (c : ConfArg)
    (h : ∀ views, viewsDict x.assets x.views = .ok views → parseConf x.conf (views.map Prod.fst) = parseConf c (views.map Prod.fst)) :
    BL.processor x = BL.processor { x with conf := c } := by
  have hf : ∀ (sigma : Matrix (Fin x.r) (Fin x.r) ℝ) (pi : List ℝ), finish x x.assets x.labels sigma pi =
      finish { x with conf := c } x.assets x.labels sigma pi := by
    intro sigma pi
    unfold finish
    cases hv : viewsDict x.assets x.views with
    | error e => rfl
    | ok views =>
      simp only [bind, Except.bind]
      cases hb : buildViews x.assets views with
      | error e => rfl
      | ok rows =>
        simp only
        rw [h views hv]
  unfold BL.processor
  by_cases hrc : x.r = x.c
  · rw [dif_pos hrc, dif_pos (show ({ x with conf := c } : Inputs).r = _ from hrc)]
    by_cases hra : x.riskAversion ≤ 0
    · rw [if_pos hra, if_pos (show ({ x with conf := c } : Inputs).riskAversion ≤ 0 from hra)]
    · rw [if_neg hra, if_neg (show ¬ ({ x with conf := c } : Inputs).riskAversion ≤ 0 from hra)]
      show _ = (match priorVec (x.sigma hrc) x.riskAversion x.pi x.marketWeights x.priorMean with
        | .error e => (Except.error e : Except PyErr (Post x.r))
        | .ok pi => finish { x with conf := c } x.assets x.labels (x.sigma hrc) pi)
      cases priorVec (x.sigma hrc) x.riskAversion x.pi x.marketWeights x.priorMean with
      | error e => rfl
      | ok pi => exact hf _ _
  · rw [dif_neg hrc, dif_neg (show ¬ ({ x with conf := c } : Inputs).r = _ from hrc)]

/-- **C162** (one shot) `posterior_moments_black_litterman` returns what a processor built with the same arguments returns; leaving `omega` out
means `omega="idzorek"`. -/
theorem C162_one_shot (k : Call) :
    (∀ om, k.omega = some om → k.moments = k.processor) ∧
    (k.omega = none → k.moments = Call.processor { k with omega := some .idzorek }) := by
  constructor
  · intro om h
    cases k
    simp only at h
    subst h
    rfl
  · intro h
    cases k
    simp only at h
    subst h
    rfl

/-- **C162** (defaults) Leaving an argument out means passing `risk_aversion=1`, `tau=0.05`, `idzorek_use_tau=True`, and `omega=None` to the
processor but `omega="idzorek"` to the one-shot function. -/
theorem C162_defaults (k : Call) :
    k.processor = Call.processor { k with
      riskAversion := some (k.riskAversion.getD 1), tau := some (k.tau.getD 0.05),
      idzorekUseTau := some (k.idzorekUseTau.getD true), omega := some (k.omega.getD .none) } ∧
    k.moments = Call.moments { k with
      riskAversion := some (k.riskAversion.getD 1), tau := some (k.tau.getD 0.05),
      idzorekUseTau := some (k.idzorekUseTau.getD true), omega := some (k.omega.getD .idzorek) } := by
  have e : (0.05 : ℝ) = 1 / 20 := by norm_num
  rw [e]
  exact ⟨rfl, rfl⟩

/-- **C162** (no views) Without views the one-shot function returns the prior, like the processor. -/
theorem C162_no_views (k : Call) (h : k.r = k.c) (hra : ∀ d, k.riskAversion = some d → 0 < d) {pi : Fin k.r → ℝ} (om : OmegaArg)
    (hpi : AsksPrior (k.inputs om) ((k.inputs om).sigma h) pi) (hv : k.views = .none ∨ k.views = .dict []) (hc : ∀ l, k.conf = .array l → l = []) :
    k.moments = .ok ⟨List.ofFn pi, (k.inputs om).sigma h, k.labels⟩ ∧ k.processor = k.moments := by
  have hra' : ∀ om, 0 < (k.inputs om).riskAversion := by
    intro om
    show 0 < k.riskAversion.getD 1
    cases hr : k.riskAversion with
    | none => simp
    | some d => simpa using hra d hr
  have hvs : ∀ om, AsksViews (k.inputs om) [] := by
    intro om
    rcases hv with hv | hv
    · exact Or.inl ⟨hv, rfl⟩
    · exact Or.inr (Or.inl hv)
  have h1 : k.moments = .ok ⟨List.ofFn pi, (k.inputs om).sigma h, k.labels⟩ :=
    C130_no_views (x := k.inputs .idzorek) h (hra' _) hpi (hvs _) hc
  refine ⟨h1, ?_⟩
  rw [h1]
  exact C130_no_views (x := k.inputs .none) h (hra' _) hpi (hvs _) hc

theorem idzorek_needs_conf (x : Inputs) (h : x.r = x.c) (hra : 0 < x.riskAversion) {pi : Fin x.r → ℝ}
    (hpi : AsksPrior x (x.sigma h) pi) {views : List (MKey × Val)} (hv : AsksViews x views)
    (hne : views ≠ []) {rows : List ((Fin x.r → ℝ) × ℝ)} (hrows : buildViews x.assets views = .ok rows)
    (hom : x.omega = .idzorek) (hc : x.conf = .none) : BL.processor x = .error .valueError := by
  have hr : rows ≠ [] := by
    rintro rfl
    have := (FV.mapE_ok.mp hrows).length_eq
    exact hne (List.length_eq_zero_iff.mp this)
  rw [C130_prior h hra hpi hv]
  unfold BL.construct
  have hb : buildViews (sized x h pi views).assets (sized x h pi views).views = .ok rows := hrows
  have ho : (sized x h pi views).omega = .idzorek := hom
  have hcf : (sized x h pi views).conf = .none := hc
  have hp : priorPi (symmetrise (sized x h pi views).sigma) (sized x h pi views).riskAversion
      (sized x h pi views).pi (sized x h pi views).marketWeights (sized x h pi views).priorMean = .ok pi := rfl
  have hra2 : ¬ (sized x h pi views).riskAversion ≤ 0 := not_le.mpr hra
  simp only [hra2, if_false, hp, hb, hcf, parseConf, bind, Except.bind, ho, buildOmega]
  rw [if_neg hr]
  rfl

/-- **C162** (confidences are required) With views but without confidences and without `omega`, a call that is otherwise in order is a `ValueError`,
although the processor itself accepts such calls. -/
theorem C162_needs_confidences (k : Call) (h : k.r = k.c) (hra : ∀ d, k.riskAversion = some d → 0 < d) {pi : Fin k.r → ℝ}
    (hpi : AsksPrior (k.inputs .none) ((k.inputs .none).sigma h) pi) {views : List (MKey × Val)} (hv : AsksViews (k.inputs .none) views)
    (hne : views ≠ []) {rows : List ((Fin k.r → ℝ) × ℝ)} (hrows : buildViews (k.inputs .none).assets views = .ok rows)
    (hom : k.omega = none) (hc : k.conf = .none) : k.moments = .error .valueError := by
  have hra' : 0 < (k.inputs .idzorek).riskAversion := by
    show 0 < k.riskAversion.getD 1
    cases hr : k.riskAversion with
    | none => simp
    | some d => simpa using hra d hr
  refine idzorek_needs_conf (k.inputs .idzorek) h hra' hpi hv hne hrows ?_ hc
  show k.omega.getD .idzorek = _
  rw [hom]; rfl

/-- **C163** is false of the code: the confidence written as in the module documentation, under the joined key `"A,B"` of the relative view
`("A", "B")`, is not found, and the call is the one with full confidence — whatever the number. -/
theorem C163_counterexample (k : Call) (a b : String) (t c : ℝ) (hv : k.views = .dict [(.pair (.str a) (.str b), .scalar t)])
    (hc : k.conf = .dict [(.single (.str (a ++ "," ++ b)), c)]) :
    k.moments = Call.moments { k with conf := .scalar 1 } := by
  refine processor_conf (k.inputs .idzorek) (.scalar 1) (fun views h => ?_)
  have hvd : viewsDict (k.inputs .idzorek).assets (k.inputs .idzorek).views = .ok [(.pair (.str a) (.str b), .scalar t)] := by
    show viewsDict _ k.views = _
    rw [hv]; rfl
  rw [hvd] at h
  injection h with h; subst h
  show parseConf k.conf _ = _
  rw [hc]
  simp [parseConf]

/-- **C163** Confidences keyed by the view keys themselves, or one number, apply to their views. -/
theorem C163_keys_partial (k : Call) (views : List (MKey × Val)) (hv : k.views = .dict views) (hd : (views.map Prod.fst).Nodup) (d : List (MKey × ℝ))
    (hk : (d.map Prod.fst).Nodup) (hc : k.conf = .dict d) (l : List ℝ) (hl : l.length = views.length)
    (hall : ∀ (i : ℕ) kv, views[i]? = some kv → ∀ c, l[i]? = some c → (kv.1, c) ∈ d) :
    k.moments = Call.moments { k with conf := .array l } := by
  have hfind : ∀ key c, (key, c) ∈ d → d.find? (fun kv => decide (kv.1 = key)) = some (key, c) := by
    intro key c hm
    cases hf : d.find? (fun kv => decide (kv.1 = key)) with
    | none =>
      rw [List.find?_eq_none] at hf
      simpa using hf _ hm
    | some kv =>
      have h1 := List.find?_some hf
      have h2 := List.mem_of_find?_eq_some hf
      simp only [decide_eq_true_eq] at h1
      exact congrArg some (List.inj_on_of_nodup_map hk h2 hm h1)
  have hlist : (views.map Prod.fst).map (fun k => match d.find? (fun kv => decide (kv.1 = k)) with
      | some kv => kv.2
      | .none => (1 : ℝ)) = l := by
    rw [List.map_map]
    apply List.ext_getElem?
    intro i
    by_cases hi : i < views.length
    · rw [List.getElem?_map, List.getElem?_eq_getElem hi, List.getElem?_eq_getElem (by omega)]
      simp only [Option.map_some, Function.comp]
      rw [hfind _ _ (hall i _ (List.getElem?_eq_getElem hi) _ (List.getElem?_eq_getElem (by omega : i < l.length)))]
    · rw [List.getElem?_eq_none (by simpa using hi), List.getElem?_eq_none (by omega)]
  refine processor_conf (k.inputs .idzorek) (.array l) (fun vs h => ?_)
  have hvd : viewsDict (k.inputs .idzorek).assets (k.inputs .idzorek).views = .ok views := by
    show viewsDict _ k.views = _
    rw [hv]; rfl
  rw [hvd] at h
  injection h with h; subst h
  show parseConf k.conf _ = _
  rw [hc]
  simp only [parseConf, List.length_map, hl, ne_eq, not_true, if_false]
  exact congrArg (fun l => Except.ok (some l)) hlist

/-- The labels of the prior covariance, as asset names. -/
def blNames {N : ℕ} (labels : Option (Fin N → Label)) (name : Label → String) : Option (List String) :=
  labels.map (fun l => List.ofFn (fun i => name (l i)))

/-- **C164** (hand-off) The posterior of a call with a positive semidefinite prior covariance and non-negative `tau` is accepted by
`PortfolioWrapper.from_moments`, which stores exactly the posterior mean and covariance, under the labels of the prior covariance. -/
theorem C164_moments {x : Inputs} (h : x.r = x.c) (hN : 0 < x.r) (hra : 0 < x.riskAversion) {pi : Fin x.r → ℝ} (hpi : AsksPrior x (x.sigma h) pi)
    {views : List (MKey × Val)} (hv : AsksViews x views) (hS : (Matrix.of fun i j => x.cov i (Fin.cast h j)).PosSemidef) (htau : 0 ≤ x.tau)
    (hU : UserOmegaPsd x.omega) {p : Post x.r} (hp : BL.processor x = .ok p) (name : Label → String) (rt : String) (hrt : rt ≠ "log") :
    ∃ m : Fin x.r → ℝ, p.mu = List.ofFn m ∧ p.cov.PosSemidef ∧
      Api.fromMoments (p.meanArg name) (p.covArg name) rt = .ok ⟨x.r, some m, some p.cov, none, blNames x.labels name⟩ := by
  rw [C130_prior h hra hpi hv] at hp
  cases hc : BL.construct (sized x h pi views) with
  | error e => rw [hc] at hp; cases hp
  | ok r =>
    rw [hc] at hp
    simp only [Except.map, Except.ok.injEq] at hp
    subst hp
    obtain ⟨-, hpsd, -⟩ := C32_covariance_bounds (a := sized x h pi views) hS htau hU hc
    refine ⟨r.1, rfl, hpsd, ?_⟩
    have hm : (Post.meanArg ⟨List.ofFn r.1, r.2, x.labels⟩ name).Holds r.1 := by
      unfold Post.meanArg Api.VecArg.Holds
      simp only
      split
      · simp only [Api.VecArg.vals]
        rw [List.map_snd_zip (by simp), List.map_ofFn]
        rfl
      · simp only [Api.VecArg.vals]
        rw [List.map_ofFn]
        rfl
    have hC : (Post.covArg ⟨List.ofFn r.1, r.2, x.labels⟩ name).Holds (fun i j => r.2 i j) := by
      unfold Post.covArg
      simp only
      split
      · exact ⟨_, .inr ⟨_, _, rfl⟩, rfl, rfl, fun _ _ => rfl⟩
      · exact ⟨_, .inl rfl, rfl, rfl, fun _ _ => rfl⟩
    have hlab : ∀ l, l ∈ momentLabels (Post.meanArg ⟨List.ofFn r.1, r.2, x.labels⟩ name) (Post.covArg ⟨List.ofFn r.1, r.2, x.labels⟩ name) ↔
        blNames x.labels name = some l := by
      intro l
      unfold momentLabels Api.labelLists Post.meanArg Post.covArg blNames
      cases hb : x.labels with
      | none => simp
      | some lab =>
        simp only [Option.map_some, List.map_fst_zip (l₁ := List.ofFn fun i => name (lab i)) (l₂ := (List.ofFn r.1).map PyFloat.fin) (by simp),
          List.nil_append, List.append_nil, List.mem_append, List.mem_cons, List.not_mem_nil, or_false, or_self, Option.some.injEq]
        exact eq_comm
    obtain ⟨Q, names, hd, hrep, hnm, hnm'⟩ := C103_simple hN hm hC (by
      intro l hl l' hl'
      rw [hlab] at hl hl'
      rw [hl] at hl'; injection hl') rt hrt
    rw [hd]
    have : Q = r.2 := by
      ext i j; exact hrep.2.2 hpsd i j
    rw [this]
    have hn : names = blNames x.labels name := by
      cases hno : blNames x.labels name with
      | none => exact hnm' (List.eq_nil_iff_forall_not_mem.mpr fun l hl => by rw [hlab, hno] at hl; cases hl)
      | some l => exact hnm l ((hlab l).mpr hno)
    rw [hn]

theorem quad_dot {N : ℕ} (S : Fin N → Fin N → ℝ) (y : Fin N → ℝ) : quad S y = y ⬝ᵥ (Matrix.of S) *ᵥ y := by
  unfold quad
  simp only [dotProduct, mulVec, Finset.mul_sum, of_apply]
  exact Finset.sum_congr rfl fun i _ => Finset.sum_congr rfl fun j _ => by ring

/-- **C164** (variance) The posterior variance of every portfolio lies between its prior variance and `1 + tau` times it. -/
theorem C164_variance {x : Inputs} (h : x.r = x.c) (hra : 0 < x.riskAversion) {pi : Fin x.r → ℝ} (hpi : AsksPrior x (x.sigma h) pi)
    {views : List (MKey × Val)} (hv : AsksViews x views) (hS : (Matrix.of fun i j => x.cov i (Fin.cast h j)).PosSemidef) (htau : 0 ≤ x.tau)
    (hU : UserOmegaPsd x.omega) {p : Post x.r} (hp : BL.processor x = .ok p) (y : Fin x.r → ℝ) :
    ∑ i, ∑ j, y i * x.cov i (Fin.cast h j) * y j ≤ y ⬝ᵥ p.cov *ᵥ y ∧
      y ⬝ᵥ p.cov *ᵥ y ≤ (1 + x.tau) * ∑ i, ∑ j, y i * x.cov i (Fin.cast h j) * y j := by
  show quad (fun i j => x.cov i (Fin.cast h j)) y ≤ y ⬝ᵥ p.cov *ᵥ y ∧
    y ⬝ᵥ p.cov *ᵥ y ≤ (1 + x.tau) * quad (fun i j => x.cov i (Fin.cast h j)) y
  rw [C130_prior h hra hpi hv] at hp
  cases hc : BL.construct (sized x h pi views) with
  | error e => rw [hc] at hp; cases hp
  | ok r =>
    rw [hc] at hp
    simp only [Except.map, Except.ok.injEq] at hp
    subst hp
    obtain ⟨-, -, hB⟩ := C32_covariance_bounds (a := sized x h pi views) hS htau hU hc
    have := hB y
    rwa [show (sized x h pi views).sigma = Matrix.of fun i j => x.cov i (Fin.cast h j) from rfl, ← quad_dot] at this

/-- **C164** (optimum) With constraints `c` on the posterior handed over, the `min_risk` portfolio of the variance frontier satisfies `c`, reports
its posterior expected return and volatility, and no portfolio satisfying `c` has a smaller posterior variance; its prior variance is at most
`1 + tau` times the smallest prior variance among the portfolios satisfying `c`. -/
theorem C164_optimum {x : Inputs} (h : x.r = x.c) (hN : 0 < x.r) (hra : 0 < x.riskAversion) {pi : Fin x.r → ℝ} (hpi : AsksPrior x (x.sigma h) pi)
    {views : List (MKey × Val)} (hv : AsksViews x views) (hS : (Matrix.of fun i j => x.cov i (Fin.cast h j)).PosSemidef) (htau : 0 ≤ x.tau)
    (hU : UserOmegaPsd x.omega) {p : Post x.r} (hp : BL.processor x = .ok p) (name : Label → String) {solver : Opt.Solver} (hsnd : Sound solver)
    (hcmp : Complete solver) (sort : Api.Argsort) (c : PyV.Con.Spec ℝ) (lo : Bool) (t : Option (PyFloat ℝ))
    (bd : Option (PyV.Con.Bounds ℝ)) (num : ℕ) (hnum : 1 ≤ num) :
    ∃ m : Fin x.r → ℝ, ∃ d, p.mu = List.ofFn m ∧ Api.fromMoments (p.meanArg name) (p.covArg name) "simple" = .ok ⟨x.r, some m, some p.cov, none, d⟩ ∧
      ∀ w : Wrapper x.r, mkWrapper ⟨x.r, some m, some p.cov, none, d⟩ (some c) none lo t bd = .ok w →
        (∃ M, ∀ y : Fin x.r → ℝ, Satisfies c y → ∀ i, |y i| ≤ M) → (∃ y : Fin x.r → ℝ, Satisfies c y) → Limited x.r c →
        ∃ F q, w.varianceFrontier solver sort num none none = .ok F ∧ F.f.minRisk none = .ok q ∧ Satisfies c q.w ∧
          q.ret = ∑ i, m i * q.w i ∧ q.risk = Real.sqrt (q.w ⬝ᵥ p.cov *ᵥ q.w) ∧
          (∀ y, Satisfies c y → q.w ⬝ᵥ p.cov *ᵥ q.w ≤ y ⬝ᵥ p.cov *ᵥ y) ∧
          ∀ y, Satisfies c y → ∑ i, ∑ j, q.w i * x.cov i (Fin.cast h j) * q.w j ≤
            (1 + x.tau) * ∑ i, ∑ j, y i * x.cov i (Fin.cast h j) * y j := by
  obtain ⟨m, hm, hpsd, hd⟩ := C164_moments h hN hra hpi hv hS htau hU hp name "simple" (by decide)
  refine ⟨m, _, hm, hd, ?_⟩
  intro w hw hb hne hlim
  obtain ⟨hin, hmu, hcov, -⟩ := C105_constructor hw hlim.excludes
  have hw' := hw
  unfold Api.mkWrapper at hw'
  split at hw'
  · cases hw'
  · simp only [Api.applyCosts] at hw'
    injection hw' with hw'
    have hlog : w.isLog = false := by rw [← hw']
    have htr : Trading w none none none none := Or.inr ⟨rfl, by rw [← hw']; rfl⟩
    have hcv : IsCov (fun i j => p.cov i j) := by
      refine ⟨fun i j => ?_, fun y => ?_⟩
      · have := hpsd.1.apply j i
        simpa using this
      · have := hpsd.dotProduct_mulVec_nonneg y
        rw [star_trivial] at this
        show 0 ≤ quad (fun i j => p.cov i j) y
        rw [quad_dot]
        exact this
    obtain ⟨F, hF, ⟨q, hq⟩, -, hmin, -⟩ := C106_selectors hsnd hcmp sort w _ _ hmu hcov hlog hcv none c hin hb hne hlim
      htr num hnum
    obtain ⟨h1, h2, h3, h4⟩ := hmin q hq
    have hbnd := C164_variance h hra hpi hv hS htau hU hp
    refine ⟨F, q, hF, hq, h1, h2, ?_, fun y hy => ?_, fun y hy => ?_⟩
    · rw [h3, quad_dot]; rfl
    · have := h4 y hy
      rwa [quad_dot, quad_dot] at this
    · have := h4 y hy
      rw [quad_dot, quad_dot] at this
      exact ((hbnd q.w).1.trans this).trans (hbnd y).2

/-- A call for two labelled assets with one relative view and the documented way of leaving `omega` out. -/
noncomputable def exCall (conf : ConfArg) : Call where
  r := 2
  c := 2
  cov := (1 : Matrix (Fin 2) (Fin 2) ℝ)
  labels := some ![.str "A", .str "B"]
  pi := none
  marketWeights := none
  inPlace := false
  priorMean := some [0, 0]
  riskAversion := none
  tau := none
  idzorekUseTau := none
  views := .dict [(.pair (.str "A") (.str "B"), .scalar (1 / 50))]
  conf := conf
  omega := none

/-- The hypotheses of C162 and C164 are met: the call succeeds with a confidence and fails without one. -/
example : (∃ p, (exCall (.scalar (1 / 2))).moments = .ok p) ∧ (exCall .none).moments = .error .valueError := by
  obtain ⟨row, hrow⟩ := exArgs_views
  constructor
  · have hpi : AsksPrior ((exCall (.scalar (1 / 2))).inputs .idzorek) (((exCall (.scalar (1 / 2))).inputs .idzorek).sigma rfl) (fun _ => 0) :=
      Or.inr (Or.inr ⟨rfl, rfl, by simp [exCall, Call.inputs]⟩)
    have h1 : (sized ((exCall (.scalar (1 / 2))).inputs .idzorek) rfl (fun _ => 0)
        [(.pair (.str "A") (.str "B"), .scalar (1 / 50))]).sigma.PosDef := (PosDef.one : (1 : Matrix (Fin 2) (Fin 2) ℝ).PosDef)
    obtain ⟨m, cov, h, -⟩ := C31_processor h1 (by show (0:ℝ) < (none : Option ℝ).getD (1 / 20); norm_num)
      (by show (0:ℝ) < (none : Option ℝ).getD 1; norm_num)
      (Or.inr (Or.inl ⟨rfl, _, rfl⟩)) (pi := fun _ => 0) rfl hrow (by simp [sized])
    refine ⟨⟨List.ofFn m, cov, some ![.str "A", .str "B"]⟩, ?_⟩
    show BL.processor ((exCall (.scalar (1 / 2))).inputs .idzorek) = _
    have := C130_prior (x := (exCall (.scalar (1 / 2))).inputs .idzorek) rfl (by show (0:ℝ) < (none : Option ℝ).getD 1; norm_num) hpi
      (Or.inr (Or.inl rfl))
    rw [this, h]
    rfl
  · exact C162_needs_confidences (exCall .none) rfl (by intro d hd; cases hd) (pi := fun _ => 0)
      (Or.inr (Or.inr ⟨rfl, rfl, by simp [exCall, Call.inputs]⟩)) (Or.inr (Or.inl rfl)) (by simp) hrow rfl rfl

end PyV.Props
