import Verif.Model.Wrapper
import Verif.Spec.Wrapper
import Verif.Props.OptFrontier
import Verif.Props.Frontier

/-! # C105-C108: the mean-variance methods of `PortfolioWrapper`, end to end -/

namespace PyV.Props

open PyV PyV.Api PyV.Spec.Api PyV.Opt PyV.Spec.Opt PyV.Spec.Con Matrix

theorem allowed_toUser {N : ℕ} {c : PyV.Con.Spec ℝ} {m : PyV.Con.Matrices (Int.toNat (N : ℤ)) ℝ}
    (h : PyV.Con.build (N : ℤ) c = .ok m) (x : Fin N → ℝ) : Allowed (toUser m) x ↔ Satisfies c x := by
  obtain ⟨h1, h2, h3, -, h5, h6⟩ := PyV.Con.build_spec h
  refine Iff.trans ?_ (h1 x)
  have key : ∀ (R : ℝ → ℝ → Prop) (G : Option (List (Fin N → ℝ))) (r : Option (List ℝ)), (G.getD []).length = (r.getD []).length →
      (G = none ↔ r = none) →
      ((∀ e ∈ (match G, r with | some g, some h => some (g.zip h) | _, _ => none : Option (List (Row (Fin N)))).getD [],
        R (∑ i, e.1 i * x i) e.2) ↔ List.Forall₂ (fun row b => R (∑ i, row i * x i) b) (G.getD []) (r.getD [])) := by
    intro R G r hl hn
    cases G with
    | none =>
      have : r = none := hn.1 rfl
      subst this; simp
    | some g =>
      cases r with
      | none => exact absurd (hn.2 rfl) (by simp)
      | some r =>
        simp only [Option.getD_some] at hl ⊢
        rw [List.forall₂_iff_zip]
        constructor
        · intro H; exact ⟨hl, fun {a b} hab => H (a, b) hab⟩
        · rintro ⟨-, H⟩ ⟨a, b⟩ he; exact H he
  exact and_congr (key (· ≤ ·) m.G m.h h2 h5) (key (· = ·) m.A m.b h3 h6)

/-- The rows in force are those built from the specification in force. -/
theorem user_built {N : ℕ} {w : Wrapper N} {con : Option (PyV.Con.Spec ℝ)} {c : PyV.Con.Spec ℝ} (h : InForce w con c) :
    ∃ m, PyV.Con.build (N : ℤ) c = .ok m ∧ w.user con = .ok (toUser m) := by
  rcases h with ⟨rfl, hv⟩ | ⟨rfl, hb, hex⟩
  · obtain ⟨m, hm⟩ := (PyV.Con.build_isOk (nAssets := (N : ℤ)) (c := c) (rn := true)).mpr hv
    refine ⟨m, hm, ?_⟩
    unfold Wrapper.user Fr.resolveConstraints
    simp only [hm]
  · obtain ⟨m, hm, hsp⟩ := C56_constructor_partial N c true none none w.mats hb hex
    have hmm : m = w.mats := by
      unfold Fr.resolveConstraints at hm
      cases hG : w.mats.G with
      | some g => cases hA : w.mats.A <;> simp [hG, hA] at hm <;> exact hm.symm
      | none =>
        cases hA : w.mats.A with
        | some a => simp [hG, hA] at hm; exact hm.symm
        | none =>
          exfalso
          obtain ⟨x, hx⟩ := hex
          apply hx
          obtain ⟨h1, -, -, -, h5, h6⟩ := PyV.Con.build_spec hb
          refine (h1 x).1 ⟨?_, ?_⟩
          · rw [MatLe, hG, h5.1 hG]; simp
          · rw [MatEq, hA, h6.1 hA]; simp
    subst hmm
    refine ⟨w.mats, hb, ?_⟩
    unfold Wrapper.user
    rw [hm]

theorem user_spec {N : ℕ} {w : Wrapper N} {con : Option (PyV.Con.Spec ℝ)} {c : PyV.Con.Spec ℝ} (h : InForce w con c) :
    ∃ u, w.user con = .ok u ∧ ∀ x, Allowed u x ↔ Satisfies c x := by
  obtain ⟨m, hm, hu⟩ := user_built h
  exact ⟨toUser m, hu, allowed_toUser hm⟩

/-- Limits of the specification in force are inequality rows of the optimiser. -/
theorem user_limited {N : ℕ} {w : Wrapper N} {con : Option (PyV.Con.Spec ℝ)} {c : PyV.Con.Spec ℝ} (h : InForce w con c) (hl : Limited N c)
    {u : Opt.User N} (hu : w.user con = .ok u) : u.G.getD [] ≠ [] := by
  obtain ⟨m, hm, hu'⟩ := user_built h
  rw [hu] at hu'; injection hu' with hu'; subst hu'
  have hG := PyV.Con.rows_of_limited hm hl
  obtain ⟨-, h2, -, h4, h5, -⟩ := PyV.Con.build_spec hm
  unfold toUser
  cases hg : m.G with
  | none => exact absurd hg hG
  | some g =>
    cases hh : m.h with
    | none => exact absurd (h5.2 hh) hG
    | some r =>
      have h1 := (h4 rfl).1
      rw [hg] at h1 h2; rw [hh] at h2
      simp only [Option.getD_some] at h2 ⊢
      intro h0
      have : (g.zip r).length = 0 := by rw [h0]; rfl
      rw [List.length_zip, h2, min_self, ← h2] at this
      exact h1 (by rw [List.length_eq_zero_iff.1 this])

/-- The default constraints limit the weights from below. -/
theorem _root_.PyV.Spec.Con.Limited.excludes {N : ℕ} {c : PyV.Con.Spec ℝ} (h : Limited N c) : ∃ x : Fin N → ℝ, ¬ Satisfies c x := by
  obtain ⟨x, hx⟩ := h
  exact ⟨x, fun hc => hx ⟨hc.long, fun t ht => by (cases ht), hc.bounds, hc.relative, hc.groups, hc.ineq, fun e he => by (cases he)⟩⟩

theorem limited_default {N : ℕ} (hN : 0 < N) : Limited N (PyV.Con.defaultSpec : PyV.Con.Spec ℝ) := by
  refine ⟨fun _ => -1, fun h => ?_⟩
  have := h.long rfl ⟨0, hN⟩
  norm_num at this

/-- A wrapper built with a specification that excludes something has it in force. -/
theorem C105_constructor {d : Dist} {c : PyV.Con.Spec ℝ} {costs : Option Costs} {lo : Bool} {t : Option (PyFloat ℝ)}
    {bd : Option (PyV.Con.Bounds ℝ)} {w : Wrapper d.N} (h : mkWrapper d (some c) costs lo t bd = .ok w)
    (hex : ∃ x : Fin d.N → ℝ, ¬ Satisfies c x) : InForce w none c ∧ w.mu = d.mu ∧ w.cov = d.cov ∧ w.scen = d.scen := by
  unfold mkWrapper at h
  cases h1 : Fr.setupConstraints d.N (some c) lo t bd with
  | error e => rw [h1] at h; cases h
  | ok m =>
    rw [h1] at h
    cases h2 : applyCosts d.N costs with
    | error e => rw [h2] at h; cases h
    | ok cs =>
      rw [h2] at h
      injection h with h; subst h
      exact ⟨Or.inr ⟨rfl, h1, hex⟩, rfl, rfl, rfl⟩

theorem resolve_trading {N : ℕ} {w : Wrapper N} {costs : Option Costs} {w0 imp prop : Option (Fin N → ℝ)}
    (h : Trading w costs w0 imp prop) :
    w.resolveCosts costs = ⟨w0.map List.ofFn, imp.map List.ofFn, prop.map List.ofFn⟩ := by
  rcases h with ⟨c, v, rfl, rfl, rfl⟩ | ⟨rfl, h⟩
  · rfl
  · exact h

theorem vecOf_ofFn {N : ℕ} (v : Fin N → ℝ) : vecOf N (List.ofFn v) = v := by
  funext i; simp [vecOf]

theorem mvCost_eq {N : ℕ} (C : Fin N → Fin N → ℝ) (w0 imp : Option (Fin N → ℝ)) : mvCost C w0 imp = varianceCost C w0 imp := by
  funext x
  unfold mvCost varianceCost
  cases w0 <;> cases imp <;> simp [impact]

theorem mvOf_trading {N : ℕ} {w : Wrapper N} {costs : Option Costs} {w0 imp prop : Option (Fin N → ℝ)}
    (h : Trading w costs w0 imp prop) (mu : Fin N → ℝ) (C : Fin N → Fin N → ℝ) (u : User N) :
    mvOf mu C u (w.resolveCosts costs) = .ok (mvInit mu C u w0 imp) := by
  rw [resolve_trading h]
  cases w0 <;> cases imp <;> simp [mvOf, mvInit, vecOf_ofFn]

variable {N : ℕ}

/-- **C105** `variance_frontier` delivers the efficient frontier of the constraints in force: on a non-empty bounded set of allowed
portfolios the call succeeds; its columns are an efficient frontier (`IsFrontier`) of variance plus trading impact over the portfolios
satisfying the specification; and the returns and volatilities reported are those of the columns. -/
theorem C105_variance_frontier_partial {solver : Opt.Solver} (hsnd : Sound solver) (hcmp : Complete solver) (argsort : Argsort)
    (w : Wrapper N) (mu : Fin N → ℝ) (cov : Matrix (Fin N) (Fin N) ℝ) (hmu : w.mu = some mu) (hcov : w.cov = some cov)
    (hlog : w.isLog = false) (hpsd : IsCov (fun i j => cov i j)) (con : Option (PyV.Con.Spec ℝ)) (c : PyV.Con.Spec ℝ)
    (hin : InForce w con c) (hb : ∃ M, ∀ x : Fin N → ℝ, Satisfies c x → ∀ i, |x i| ≤ M) (hne : ∃ x : Fin N → ℝ, Satisfies c x)
    (hlim : Limited N c) (costs : Option Costs) (w0 imp prop : Option (Fin N → ℝ)) (htr : Trading w costs w0 imp prop)
    (himp : ∀ l, imp = some l → ∀ i, 0 ≤ l i) (num : ℕ) :
    ∃ (cols : List (Fin N → ℝ)) (f : Fr.Frontier String ℝ N cols.length),
      w.varianceFrontier solver argsort num con costs = .ok ⟨cols.length, f⟩ ∧
      IsFrontier {x | Satisfies c x} (ret mu) (varianceCost (fun i j => cov i j) w0 imp) num cols ∧
      ∀ j, (∀ i, f.weights i j = cols.get j i) ∧ f.returns j = ret mu (cols.get j) ∧
        f.risks j = Real.sqrt (quad (fun i j => cov i j) (cols.get j)) := by
  obtain ⟨u, hu, hall⟩ := user_spec hin
  have hset : {x | Allowed u x} = {x : Fin N → ℝ | Satisfies c x} := Set.ext hall
  obtain ⟨cols, h1, h2⟩ := C91_mean_variance_total hsnd hcmp mu (fun i j => cov i j) u w0 imp hpsd himp
    (by obtain ⟨M, hM⟩ := hb; exact ⟨M, fun x hx => hM x ((hall x).1 hx)⟩)
    (by obtain ⟨x, hx⟩ := hne; exact ⟨x, (hall x).2 hx⟩) (user_limited hin hlim hu) num
  rw [hset, mvCost_eq] at h2
  refine ⟨cols, ⟨fun i j => cols.get j i, fun j => retOf mu (cols.get j), fun j => vol (fun i j => cov i j) (cols.get j),
    "Volatility", overlay argsort w cols⟩, ?_, h2, fun j => ⟨fun i => rfl, rfl, rfl⟩⟩
  unfold Wrapper.varianceFrontier Wrapper.moments
  simp only [hmu, hcov, hu, mvOf_trading htr, h1, Wrapper.report, hlog]
  rfl

/-- **C106** Without trading costs, `min_risk` on a variance frontier is the portfolio of least variance of all portfolios satisfying
the constraints, reported with its own return and volatility; and when the frontier has more than one column, `max_return` has the
largest attainable return.  Every selected portfolio satisfies the constraints and is efficient. -/
theorem C106_selectors {solver : Opt.Solver} (hsnd : Sound solver) (hcmp : Complete solver) (argsort : Argsort)
    (w : Wrapper N) (mu : Fin N → ℝ) (cov : Matrix (Fin N) (Fin N) ℝ) (hmu : w.mu = some mu) (hcov : w.cov = some cov)
    (hlog : w.isLog = false) (hpsd : IsCov (fun i j => cov i j)) (con : Option (PyV.Con.Spec ℝ)) (c : PyV.Con.Spec ℝ)
    (hin : InForce w con c) (hb : ∃ M, ∀ x : Fin N → ℝ, Satisfies c x → ∀ i, |x i| ≤ M) (hne : ∃ x : Fin N → ℝ, Satisfies c x)
    (hlim : Limited N c) (htr : Trading w none none none none) (num : ℕ) (hnum : 1 ≤ num) :
    ∃ F : AnyFrontier N, w.varianceFrontier solver argsort num con none = .ok F ∧
      (∃ p, F.f.minRisk none = .ok p) ∧ (∃ p, F.f.maxReturn = .ok p) ∧
      (∀ p, F.f.minRisk none = .ok p → Satisfies c p.w ∧ p.ret = ret mu p.w ∧
        p.risk = Real.sqrt (quad (fun i j => cov i j) p.w) ∧
        ∀ x, Satisfies c x → quad (fun i j => cov i j) p.w ≤ quad (fun i j => cov i j) x) ∧
      (∀ p, F.f.maxReturn = .ok p → Satisfies c p.w ∧ p.ret = ret mu p.w ∧
        p.risk = Real.sqrt (quad (fun i j => cov i j) p.w) ∧ (1 < F.M → ∀ x, Satisfies c x → ret mu x ≤ ret mu p.w)) ∧
      (∀ t p, F.f.atReturn t none = .ok p → Satisfies c p.w ∧ t ≤ ret mu p.w ∧
        ∀ x, Satisfies c x → ret mu p.w ≤ ret mu x → quad (fun i j => cov i j) p.w ≤ quad (fun i j => cov i j) x) := by
  obtain ⟨cols, f, h1, h2, h3⟩ := C105_variance_frontier_partial hsnd hcmp argsort w mu cov hmu hcov hlog hpsd con c hin hb hne hlim none
    none none none htr (by simp) num
  have hq : varianceCost (fun i j => cov i j) none none = quad (fun i j => cov i j) := by
    funext x; simp [varianceCost]
  rw [hq] at h2
  have hlen : 0 < cols.length := by
    rcases h2.len with h | h
    · omega
    · omega
  have hw : ∀ (p : Fr.Pick ℝ N) i, (∀ a, p.w a = f.weights a i) → p.w = cols.get i := fun p i h => by
    funext a; rw [h, (h3 i).1]
  have hnn : ∀ x, 0 ≤ quad (fun i j => cov i j) x := hpsd.2
  refine ⟨⟨cols.length, f⟩, h1, ?_, ?_, ?_, ?_, ?_⟩
  · exact (C52_min_risk_errors f none).2 hlen ⟨f.risks, Or.inl ⟨Or.inl rfl, rfl⟩⟩
  · unfold Fr.Frontier.maxReturn
    cases hi : firstArgmax f.returns with
    | some i => exact ⟨_, rfl⟩
    | none => exact absurd hi (by obtain ⟨i, hi'⟩ := firstArgmax_ne_none hlen f.returns; rw [hi']; simp)
  · intro p hp
    obtain ⟨r, i, hr, hi, hp1, hp2, hp3⟩ := (C52_min_risk f none p).1 hp
    have hr' : r = f.risks := by
      rcases hr with ⟨-, h⟩ | ⟨l, h, -⟩
      · exact h
      · cases h
    subst hr'
    have hpw := hw p i hp1
    have hmem : p.w ∈ cols := by rw [hpw]; exact List.get_mem _ _
    refine ⟨h2.inside _ hmem, by rw [hp2, (h3 i).2.1, hpw], by rw [hp3, (h3 i).2.2, hpw], fun x hx => ?_⟩
    have h0 := hi.2.1 ⟨0, hlen⟩ trivial
    rw [(h3 i).2.2, (h3 _).2.2, ← hpw] at h0
    have h0' : quad (fun i j => cov i j) p.w ≤ quad (fun i j => cov i j) (cols.get ⟨0, hlen⟩) :=
      (Real.sqrt_le_sqrt_iff (hnn _)).1 h0
    refine le_trans h0' (h2.first _ ?_ x hx)
    rw [List.head?_eq_getElem?]; simp [hlen]
  · intro p hp
    obtain ⟨i, hi, hp1, hp2, hp3⟩ := (C52_max_return f p).1 hp
    have hpw := hw p i hp1
    have hmem : p.w ∈ cols := by rw [hpw]; exact List.get_mem _ _
    refine ⟨h2.inside _ hmem, by rw [hp2, (h3 i).2.1, hpw], by rw [hp3, (h3 i).2.2, hpw], fun hM x hx => ?_⟩
    change 1 < cols.length at hM
    have h0 := hi.2.1 ⟨cols.length - 1, by omega⟩ trivial
    rw [(h3 i).2.1, (h3 _).2.1, ← hpw] at h0
    refine le_trans (h2.top _ ?_ hM x hx) h0
    rw [List.getLast?_eq_getElem?]; simp [hlen]
  · intro t p hp
    obtain ⟨r, i, hr, hi, hp1, hp2, hp3⟩ := (C53_at_return f t none p).1 hp
    have hpw := hw p i hp1
    have hmem : p.w ∈ cols := by rw [hpw]; exact List.get_mem _ _
    refine ⟨h2.inside _ hmem, ?_, fun x hx hxr => h2.efficient _ hmem x hx hxr⟩
    have := hi.1
    simp only [(h3 i).2.1, ← hpw] at this
    exact this

theorem mvSolve_error {solver : Opt.Solver} (m : Opt.MV N) (target : Option ℝ) (e : PyErr)
    (h : mvSolve solver m target = .error e) : e = .runtimeError := by
  unfold mvSolve at h
  split at h
  · cases h
  · unfold assertOptimal at h
    split at h
    · cases h
    · injection h with h; exact h.symm

/-- **C107** `min_variance_at_return` returns a portfolio satisfying the constraints in force, with at least the requested return, that
minimises variance plus trading impact among all such portfolios, and reports its return and volatility; when no allowed portfolio
reaches the return it raises `InfeasibleOptimizationError`. -/
theorem C107_min_variance_at_return {solver : Opt.Solver} (hsnd : Sound solver) (hcmp : Complete solver)
    (w : Wrapper N) (mu : Fin N → ℝ) (cov : Matrix (Fin N) (Fin N) ℝ) (hmu : w.mu = some mu) (hcov : w.cov = some cov)
    (hlog : w.isLog = false) (hpsd : IsCov (fun i j => cov i j)) (con : Option (PyV.Con.Spec ℝ)) (c : PyV.Con.Spec ℝ)
    (hin : InForce w con c) (hb : ∃ M, ∀ x : Fin N → ℝ, Satisfies c x → ∀ i, |x i| ≤ M)
    (costs : Option Costs) (w0 imp prop : Option (Fin N → ℝ)) (htr : Trading w costs w0 imp prop)
    (himp : ∀ l, imp = some l → ∀ i, 0 ≤ l i) (target : ℝ) :
    ((∃ x : Fin N → ℝ, Satisfies c x ∧ target ≤ ret mu x) →
      ∃ r, w.minVarianceAtReturn solver target con costs = .ok r ∧ Satisfies c r.w ∧ target ≤ r.ret ∧ r.ret = ret mu r.w ∧
        r.risk = Real.sqrt (quad (fun i j => cov i j) r.w) ∧
        ∀ x, Satisfies c x → target ≤ ret mu x →
          varianceCost (fun i j => cov i j) w0 imp r.w ≤ varianceCost (fun i j => cov i j) w0 imp x) ∧
    ((∀ x : Fin N → ℝ, Satisfies c x → ret mu x < target) →
      w.minVarianceAtReturn solver target con costs = .error .infeasible) := by
  obtain ⟨u, hu, hall⟩ := user_spec hin
  have hb' : ∃ M, ∀ x, Allowed u x → ∀ i, |x i| ≤ M := by
    obtain ⟨M, hM⟩ := hb; exact ⟨M, fun x hx => hM x ((hall x).1 hx)⟩
  have hre : ∀ x, Reaches u mu (some target) x ↔ Satisfies c x ∧ target ≤ ret mu x := by
    intro x
    constructor
    · rintro ⟨h1, h2⟩; exact ⟨(hall x).1 h1, h2 _ rfl⟩
    · rintro ⟨h1, h2⟩; exact ⟨(hall x).2 h1, fun t ht => by injection ht with ht; subst ht; exact h2⟩
  constructor
  · rintro ⟨x, hx⟩
    have hn : ∃ x, Reaches u mu (some target) x := ⟨x, (hre x).2 hx⟩
    obtain ⟨y, hy1, hy2⟩ := C90_total hcmp mu (fun i j => cov i j) u w0 imp hpsd himp (some target) hb' hn
    obtain ⟨h1, h2⟩ := C90_min_variance hsnd mu (fun i j => cov i j) u w0 imp hpsd himp (some target) y (fun _ => ⟨y, hy1⟩) hy2
    refine ⟨⟨y, retOf mu y, vol (fun i j => cov i j) y⟩, ?_, ((hre y).1 h1).1, ((hre y).1 h1).2, rfl, rfl, fun x hx ht => ?_⟩
    · unfold Wrapper.minVarianceAtReturn Wrapper.moments
      simp only [hmu, hcov, hu, mvOf_trading htr, hy2, asInfeasible, Wrapper.report, hlog]
      rfl
    · rw [← mvCost_eq]; exact h2 x ((hre x).2 ⟨hx, ht⟩)
  · intro hno
    unfold Wrapper.minVarianceAtReturn Wrapper.moments
    simp only [hmu, hcov, hu, mvOf_trading htr]
    cases hs : mvSolve solver (mvInit mu (fun i j => cov i j) u w0 imp) (some target) with
    | error e =>
      rw [mvSolve_error _ _ _ hs]; rfl
    | ok y =>
      exfalso
      obtain ⟨_, _, h1, -⟩ := C90_min_variance_with_ridge hsnd mu (fun i j => cov i j) u w0 imp hpsd himp (some target) y hs
      obtain ⟨h1, h2⟩ := (hre y).1 h1
      exact absurd h2 (not_le.2 (hno y h1))

/-! ### Concrete wrappers -/

theorem satisfies_default (x : Fin N → ℝ) : Satisfies (PyV.Con.defaultSpec : PyV.Con.Spec ℝ) x ↔ (∀ i, 0 ≤ x i) ∧ ∑ i, x i = 1 := by
  constructor
  · intro h; exact ⟨h.long rfl, h.total 1 rfl⟩
  · rintro ⟨h1, h2⟩
    refine ⟨fun _ => h1, ?_, trivial, ?_, ?_, ?_, ?_⟩
    · intro t ht
      injection ht with ht; injection ht with ht
      rw [← ht]; exact h2
    all_goals intro e he; simp [PyV.Con.defaultSpec] at he

theorem default_bounded : ∃ M, ∀ x : Fin N → ℝ, Satisfies (PyV.Con.defaultSpec : PyV.Con.Spec ℝ) x → ∀ i, |x i| ≤ M := by
  refine ⟨1, fun x hx i => ?_⟩
  obtain ⟨h1, h2⟩ := (satisfies_default x).1 hx
  rw [abs_of_nonneg (h1 i), ← h2]
  exact Finset.single_le_sum (fun j _ => h1 j) (Finset.mem_univ i)

/-- A wrapper with the default constraints (long only, fully invested). -/
theorem exists_wrapper (hN : 0 < N) (mu : Option (Fin N → ℝ)) (cov : Option (Matrix (Fin N) (Fin N) ℝ)) (sc : Option (Scen N))
    (l : Bool) : ∃ w : Wrapper N, w.mu = mu ∧ w.cov = cov ∧ w.scen = sc ∧ w.isLog = l ∧ w.unc = none ∧
      InForce w none PyV.Con.defaultSpec ∧ Trading w none none none none := by
  obtain ⟨m, hm, -⟩ := C10_default_is_simplex (K := ℝ) N hN
  refine ⟨⟨mu, cov, sc, m, ⟨none, none, none⟩, l, none⟩, rfl, rfl, rfl, rfl, rfl, Or.inr ⟨rfl, hm, ?_⟩, Or.inr ⟨rfl, rfl⟩⟩
  refine ⟨fun _ => 0, fun h => ?_⟩
  have := ((satisfies_default _).1 h).2
  simp at this

/-- The hypotheses of C105-C107 hold for a two-asset wrapper with the default constraints and some solver. -/
example : ∃ (w : Wrapper 2) (solver : Opt.Solver), Sound solver ∧ Complete solver ∧
    ∃ r, w.minVarianceAtReturn solver (1 / 20) none none = .ok r ∧ 1 / 20 ≤ r.ret := by
  obtain ⟨solver, h1, h2⟩ := exists_solver
  obtain ⟨w, hmu, hcov, -, hlog, -, hin, htr⟩ := exists_wrapper (by norm_num) (some ![1 / 10, 1 / 50])
    (some (Matrix.diagonal ![4, 1])) none false
  refine ⟨w, solver, h1, h2, ?_⟩
  obtain ⟨r, hr, -, h3, -⟩ := (C107_min_variance_at_return h1 h2 w _ _ hmu hcov hlog (by
    constructor
    · intro i j; fin_cases i <;> fin_cases j <;> simp
    · intro x
      simp [Fin.sum_univ_two]
      nlinarith [sq_nonneg (x 0), sq_nonneg (x 1)]) none _ hin default_bounded none _ _ _ htr (by simp) (1 / 20)).1
    ⟨![1, 0], (satisfies_default _).2 ⟨by intro i; fin_cases i <;> simp, by simp⟩, by simp [ret, Fin.sum_univ_two]; norm_num⟩
  exact ⟨r, hr, h3⟩

/-- **C108** (partial: what a wrapper of log-return moments minimises is the variance of log returns, and the target bounds the mean
log return; what it reports are the simple moments) -/
theorem C108_log_moments_partial {solver : Opt.Solver} (hsnd : Sound solver) (hcmp : Complete solver)
    (w : Wrapper N) (mu : Fin N → ℝ) (cov : Matrix (Fin N) (Fin N) ℝ) (hmu : w.mu = some mu) (hcov : w.cov = some cov)
    (hlog : w.isLog = true) (hpsd : IsCov (fun i j => cov i j)) (con : Option (PyV.Con.Spec ℝ)) (c : PyV.Con.Spec ℝ)
    (hin : InForce w con c) (hb : ∃ M, ∀ x : Fin N → ℝ, Satisfies c x → ∀ i, |x i| ≤ M)
    (htr : Trading w none none none none) (target : ℝ) (hex : ∃ x : Fin N → ℝ, Satisfies c x ∧ target ≤ ret mu x) :
      ∃ r, w.minVarianceAtReturn solver target con none = .ok r ∧ Satisfies c r.w ∧
        r.ret = ret (fun i => Real.exp (mu i + cov i i / 2) - 1) r.w ∧
        r.risk = Real.sqrt (quad (fun i j => Real.exp (mu i + mu j + (cov i i + cov j j) / 2) * (Real.exp (cov i j) - 1)) r.w) ∧
        target ≤ ret mu r.w ∧
        ∀ x, Satisfies c x → target ≤ ret mu x → quad (fun i j => cov i j) r.w ≤ quad (fun i j => cov i j) x := by
  obtain ⟨u, hu, hall⟩ := user_spec hin
  have hb' : ∃ M, ∀ x, Allowed u x → ∀ i, |x i| ≤ M := by
    obtain ⟨M, hM⟩ := hb; exact ⟨M, fun x hx => hM x ((hall x).1 hx)⟩
  have hre : ∀ x, Reaches u mu (some target) x ↔ Satisfies c x ∧ target ≤ ret mu x := by
    intro x
    constructor
    · rintro ⟨h1, h2⟩; exact ⟨(hall x).1 h1, h2 _ rfl⟩
    · rintro ⟨h1, h2⟩; exact ⟨(hall x).2 h1, fun t ht => by injection ht with ht; subst ht; exact h2⟩
  obtain ⟨x, hx⟩ := hex
  obtain ⟨y, hy1, hy2⟩ := C90_total hcmp mu (fun i j => cov i j) u none none hpsd (by simp) (some target) hb' ⟨x, (hre x).2 hx⟩
  obtain ⟨h1, h2⟩ := C90_min_variance hsnd mu (fun i j => cov i j) u none none hpsd (by simp) (some target) y (fun _ => ⟨y, hy1⟩) hy2
  refine ⟨⟨y, retOf (Proj.log2simple mu (fun i j => cov i j)).1 y, vol (Proj.log2simple mu (fun i j => cov i j)).2 y⟩, ?_,
    ((hre y).1 h1).1, ?_, ?_, ((hre y).1 h1).2, fun x hx ht => ?_⟩
  · unfold Wrapper.minVarianceAtReturn Wrapper.moments
    simp only [hmu, hcov, hu, mvOf_trading htr, hy2, asInfeasible, Wrapper.report, hlog]
    rfl
  · simp only [retOf, ret, Proj.log2simple]
    refine Finset.sum_congr rfl fun i _ => ?_
    congr 3; ring
  · simp only [vol, quad, Proj.log2simple]
    congr 1
    refine Finset.sum_congr rfl fun i _ => Finset.sum_congr rfl fun j _ => ?_
    congr 2
    rw [mul_sub, mul_one, ← Real.exp_add, ← Real.exp_add]
    congr 2 <;> ring
  · have := h2 x ((hre x).2 ⟨hx, ht⟩)
    simpa [mvCost] using this

/-- **C108** is false: for two assets with log-return covariance `diag(ln 2, 2 ln 2)` and simple mean zero, another allowed portfolio
has the reported return and less than the reported volatility. -/
theorem C108_counterexample : ∃ (w : Wrapper 2) (mu : Fin 2 → ℝ) (cov : Matrix (Fin 2) (Fin 2) ℝ),
    w.mu = some mu ∧ w.cov = some cov ∧ w.isLog = true ∧ InForce w none PyV.Con.defaultSpec ∧ ∃ target : ℝ,
    ∀ solver, Sound solver → Complete solver → ∃ r, w.minVarianceAtReturn solver target none none = .ok r ∧
      ∃ x : Fin 2 → ℝ, Satisfies (PyV.Con.defaultSpec : PyV.Con.Spec ℝ) x ∧ target ≤ ret mu x ∧
        ret (Proj.log2simple mu (fun i j => cov i j)).1 x = r.ret ∧
        Real.sqrt (quad (Proj.log2simple mu (fun i j => cov i j)).2 x) < r.risk := by
  have hl : 0 < Real.log 2 := Real.log_pos (by norm_num)
  have e2 : Real.exp (2 * Real.log 2) = 4 := by
    rw [two_mul, Real.exp_add, Real.exp_log (by norm_num)]; norm_num
  obtain ⟨w, hmu, hcov, -, hlog, -, hin, htr⟩ := exists_wrapper (N := 2) (by norm_num)
    (some ![-(Real.log 2) / 2, -(Real.log 2)]) (some (Matrix.diagonal ![Real.log 2, 2 * Real.log 2])) none true
  refine ⟨w, _, _, hmu, hcov, hlog, hin, -(Real.log 2), fun solver hs hc => ?_⟩
  obtain ⟨r, hr, hr1, hr2, hr3, hr4, hr5⟩ := C108_log_moments_partial hs hc w _ _ hmu hcov hlog (by
    constructor
    · intro i j; fin_cases i <;> fin_cases j <;> simp
    · intro x
      simp [Fin.sum_univ_two]
      have h1 := mul_nonneg hl.le (sq_nonneg (x 0))
      have h2 := mul_nonneg hl.le (sq_nonneg (x 1))
      nlinarith) none _ hin default_bounded htr (-(Real.log 2))
    ⟨![1, 0], (satisfies_default _).2 ⟨by intro i; fin_cases i <;> simp, by simp⟩, by simp [ret, Fin.sum_univ_two]; linarith⟩
  have hx : Satisfies (PyV.Con.defaultSpec : PyV.Con.Spec ℝ) (![3 / 4, 1 / 4] : Fin 2 → ℝ) :=
    (satisfies_default _).2 ⟨by intro i; fin_cases i <;> simp; norm_num, by simp [Fin.sum_univ_two]; norm_num⟩
  have hy : Satisfies (PyV.Con.defaultSpec : PyV.Con.Spec ℝ) (![2 / 3, 1 / 3] : Fin 2 → ℝ) :=
    (satisfies_default _).2 ⟨by intro i; fin_cases i <;> simp; norm_num, by simp [Fin.sum_univ_two]; norm_num⟩
  have hbest := hr5 _ hy (by simp [ret, Fin.sum_univ_two]; linarith)
  obtain ⟨hp, hsum⟩ := (satisfies_default _).1 hr1
  simp [quad, Fin.sum_univ_two] at hbest
  rw [Fin.sum_univ_two] at hsum
  have hw1 : r.w 1 = 1 - r.w 0 := by linarith
  rw [hw1] at hbest
  have hsq : Real.log 2 * (3 * (r.w 0 - 2 / 3) ^ 2) ≤ 0 := by nlinarith
  have hw0 : r.w 0 = 2 / 3 := by
    have : 3 * (r.w 0 - 2 / 3) ^ 2 ≤ 0 := by
      by_contra hcon
      push Not at hcon
      exact absurd hsq (not_le.2 (mul_pos hl hcon))
    nlinarith [sq_nonneg (r.w 0 - 2 / 3)]
  refine ⟨r, hr, ![3 / 4, 1 / 4], hx, by simp [ret, Fin.sum_univ_two]; linarith, ?_, ?_⟩
  · rw [hr2]
    simp [ret, Proj.log2simple, Fin.sum_univ_two]
    ring_nf
    simp
    norm_num
  · rw [hr3]
    have e : ∀ x : Fin 2 → ℝ, quad (Proj.log2simple ![-(Real.log 2) / 2, -(Real.log 2)] (fun i j =>
        (Matrix.diagonal ![Real.log 2, 2 * Real.log 2] : Matrix (Fin 2) (Fin 2) ℝ) i j)).2 x = x 0 ^ 2 + 3 * x 1 ^ 2 := by
      intro x
      simp [quad, Proj.log2simple, Fin.sum_univ_two]
      ring_nf
      simp [mul_comm, e2, Real.exp_log]
      ring_nf
    have e' : ∀ x : Fin 2 → ℝ, quad (fun i j => Real.exp (![-(Real.log 2) / 2, -(Real.log 2)] i + ![-(Real.log 2) / 2, -(Real.log 2)] j +
        ((Matrix.diagonal ![Real.log 2, 2 * Real.log 2] : Matrix (Fin 2) (Fin 2) ℝ) i i +
          (Matrix.diagonal ![Real.log 2, 2 * Real.log 2] : Matrix (Fin 2) (Fin 2) ℝ) j j) / 2) *
        (Real.exp ((Matrix.diagonal ![Real.log 2, 2 * Real.log 2] : Matrix (Fin 2) (Fin 2) ℝ) i j) - 1)) x = x 0 ^ 2 + 3 * x 1 ^ 2 := by
      intro x
      simp [quad, Fin.sum_univ_two]
      ring_nf
      simp [mul_comm, e2, Real.exp_log]
      ring_nf
    rw [e, e', hw1, hw0]
    apply Real.sqrt_lt_sqrt
    · simp; norm_num
    · simp; norm_num

/-- With nothing but a total weight and equality rows the builder has no inequality rows. -/
theorem build_only_equalities {n : ℤ} {c : PyV.Con.Spec ℝ} (h1 : c.longOnly = false) (h2 : c.bounds = none) (h3 : c.relative = []) (h4 : c.groups = [])
    (h5 : c.ineqRows = []) {m : PyV.Con.Matrices n.toNat ℝ} (h : PyV.Con.build n c = .ok m) : m.G = none := by
  unfold PyV.Con.build at h
  split at h
  · cases h
  · simp only [h1, h2, h3, h4, h5, PyV.Con.boundsBlock, PyV.mapE, PyV.Con.joinE] at h
    split at h
    · cases h
    · split at h
      · cases h
      · injection h with h
        subst h
        rfl

/-- **C105** (negation of the unrestricted claim) With nothing in force but a total weight and equality rows `variance_frontier` fails, whatever the
solver, also where a single portfolio is allowed: the linear program for the largest return is given no inequality matrix, which CVXOPT rejects. -/
theorem C105_counterexample (solver : Opt.Solver) (argsort : Argsort) (w : Wrapper N) (con : Option (PyV.Con.Spec ℝ)) (c : PyV.Con.Spec ℝ)
    (hin : InForce w con c) (h1 : c.longOnly = false) (h2 : c.bounds = none) (h3 : c.relative = []) (h4 : c.groups = []) (h5 : c.ineqRows = [])
    (costs : Option Costs) (num : ℕ) : ∀ F, w.varianceFrontier solver argsort num con costs ≠ .ok F := by
  intro F h
  obtain ⟨m, hm, hu⟩ := user_built hin
  have hG : (toUser m).G = none := by
    unfold toUser
    rw [build_only_equalities h1 h2 h3 h4 h5 hm]
  unfold Wrapper.varianceFrontier at h
  cases hmom : w.moments with
  | error e => rw [hmom] at h; cases h
  | ok mc =>
    rw [hmom, hu] at h
    simp only at h
    cases hv : mvOf mc.1 (fun i j => mc.2 i j) (toUser m) (w.resolveCosts costs) with
    | error e => rw [hv] at h; cases h
    | ok mv =>
      rw [hv] at h
      simp only at h
      have hmv : mv.user = toUser m := by
        unfold mvOf at hv
        split at hv
        · split_ifs at hv <;> cases hv <;> rfl
        · injection hv with hv; rw [← hv]; rfl
      cases hf : Opt.mvFrontier solver mv num with
      | error e => rw [hf] at h; cases h
      | ok cols => exact C91_no_inequality solver mv (by rw [hmv]; exact hG) num cols hf

/-- The hypotheses of `C105_counterexample` are met by one fully invested asset, shorting allowed: exactly one portfolio is allowed, and it is not returned. -/
example : ∃ (w : Wrapper 1) (c : PyV.Con.Spec ℝ), InForce w (some c) c ∧ (∀ x : Fin 1 → ℝ, Satisfies c x ↔ x 0 = 1) ∧
    w.mu = some (fun _ => 1 / 10) ∧ w.cov = some 1 ∧ ∀ solver argsort num F, w.varianceFrontier solver argsort num (some c) none ≠ .ok F := by
  obtain ⟨w, hmu, hcov, -⟩ := exists_wrapper (N := 1) (by norm_num) (some fun _ => 1 / 10) (some 1) none false
  have hv : Valid 1 (⟨false, some (.fin 1), none, [], [], [], []⟩ : PyV.Con.Spec ℝ) :=
    ⟨by norm_num, fun y hy => by injection hy with hy; exact ⟨1, hy.symm⟩, trivial, by simp, by simp, by simp, by simp⟩
  refine ⟨w, ⟨false, some (.fin 1), none, [], [], [], []⟩, Or.inl ⟨rfl, hv⟩, fun x => ⟨fun h => ?_, fun h => ?_⟩, hmu, hcov, fun solver sort num F =>
    C105_counterexample solver sort w _ _ (Or.inl ⟨rfl, hv⟩) rfl rfl rfl rfl rfl none num F⟩
  · have := h.total 1 rfl
    simpa using this
  · exact ⟨by simp, fun t ht => by simp at ht; simp [h, ht], trivial, by simp, by simp, by simp, by simp⟩

end PyV.Props
