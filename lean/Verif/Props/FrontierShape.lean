import Verif.Props.FrontierUnique
import Verif.Props.WrapperCvar
import Mathlib.Algebra.QuadraticDiscriminant
import Mathlib.Tactic

/-! # Properties C180–C182: the shape of efficient frontiers, and how their risk answers to constraints, targets and units -/

namespace PyV.Props

open PyV PyV.Api PyV.Spec.Api PyV.Opt PyV.Spec.Opt PyV.Spec.Con PyV.Risk PyV.Spec

variable {N : ℕ}

/-- Volatility is a convex function of the portfolio. -/
theorem vol_midpoint {C : Fin N → Fin N → ℝ} (hC : IsCov C) (u v : Fin N → ℝ) :
    2 * Real.sqrt (quad C (fun i => (u i + v i) / 2)) ≤ Real.sqrt (quad C u) + Real.sqrt (quad C v) := by
  set b : ℝ := ∑ i, ∑ j, u i * C i j * v j with hb
  have hb' : ∑ i, ∑ j, v i * C i j * u j = b := by
    rw [hb, Finset.sum_comm]
    exact Finset.sum_congr rfl fun i _ => Finset.sum_congr rfl fun j _ => by rw [hC.1 j i]; ring
  have hexp : ∀ s t : ℝ, quad C (fun i => s * u i + t * v i) = s ^ 2 * quad C u + 2 * (s * t) * b + t ^ 2 * quad C v := by
    intro s t
    have h1 : quad C (fun i => s * u i + t * v i) = s ^ 2 * quad C u + (s * t) * b + (s * t) * ∑ i, ∑ j, v i * C i j * u j + t ^ 2 * quad C v := by
      rw [hb]
      unfold quad
      simp only [Finset.mul_sum, ← Finset.sum_add_distrib]
      exact Finset.sum_congr rfl fun i _ => Finset.sum_congr rfl fun j _ => by ring
    rw [h1, hb']; ring
  have hu : 0 ≤ quad C u := hC.2 u
  have hv : 0 ≤ quad C v := hC.2 v
  have hdis : discrim (quad C u) (2 * b) (quad C v) ≤ 0 := by
    apply discrim_le_zero
    intro t
    have h1 := hexp t 1
    have h2 : 0 ≤ quad C (fun i => t * u i + 1 * v i) := hC.2 _
    rw [h1] at h2
    nlinarith
  have hcs : b ≤ Real.sqrt (quad C u) * Real.sqrt (quad C v) := by
    rw [← Real.sqrt_mul hu]
    refine Real.le_sqrt_of_sq_le ?_
    unfold discrim at hdis
    nlinarith
  have hmid : quad C (fun i => (u i + v i) / 2) = quad C u / 4 + b / 2 + quad C v / 4 := by
    have h1 := hexp (1 / 2) (1 / 2)
    have h2 : (fun i => (u i + v i) / 2) = fun i => 1 / 2 * u i + 1 / 2 * v i := by funext i; ring
    rw [h2, h1]; ring
  have h4 : Real.sqrt (quad C (fun i => (u i + v i) / 2)) ≤ (Real.sqrt (quad C u) + Real.sqrt (quad C v)) / 2 := by
    refine Real.sqrt_le_iff.mpr ⟨by positivity, ?_⟩
    rw [hmid]
    have e1 := Real.sq_sqrt hu
    have e2 := Real.sq_sqrt hv
    nlinarith
  linarith

/-- The portfolios admitted by a specification in force form a convex set. -/
theorem satisfies_mid {w : Wrapper N} {con : Option (PyV.Con.Spec ℝ)} {c : PyV.Con.Spec ℝ} (hin : InForce w con c) {u v : Fin N → ℝ}
    (hu : Satisfies c u) (hv : Satisfies c v) : Satisfies c (fun i => (u i + v i) / 2) := by
  obtain ⟨usr, -, hall⟩ := user_spec hin
  rw [← hall] at hu hv ⊢
  have hlin : ∀ r : Fin N → ℝ, ∑ i, r i * ((u i + v i) / 2) = (∑ i, r i * u i + ∑ i, r i * v i) / 2 := by
    intro r
    rw [← Finset.sum_add_distrib, Finset.sum_div]
    exact Finset.sum_congr rfl fun i _ => by ring
  exact ⟨fun r hr => by rw [hlin]; linarith [hu.1 r hr, hv.1 r hr], fun r hr => by rw [hlin, hu.2 r hr, hv.2 r hr]; ring⟩

theorem ret_mid (mu u v : Fin N → ℝ) : ret mu (fun i => (u i + v i) / 2) = (ret mu u + ret mu v) / 2 := by
  unfold ret
  rw [← Finset.sum_add_distrib, Finset.sum_div]
  exact Finset.sum_congr rfl fun i _ => by ring

/-- Along the columns of a frontier of a midpoint-convex risk over a midpoint-convex set, the risk is convex. -/
theorem frontier_convex {allowed : Set (Fin N → ℝ)} {mu : Fin N → ℝ} {risk f : (Fin N → ℝ) → ℝ} {num : ℕ} {cols : List (Fin N → ℝ)}
    (h : IsFrontier allowed (ret mu) risk num cols) {r : ℝ} (hr : IsGreatest (ret mu '' allowed) r)
    (hset : ∀ u ∈ allowed, ∀ v ∈ allowed, (fun i => (u i + v i) / 2) ∈ allowed)
    (hf : ∀ u v, risk u ≤ risk v → f u ≤ f v) (hrisk : ∀ u v, 2 * f (fun i => (u i + v i) / 2) ≤ f u + f v) (k : ℕ) (h2 : k + 2 < cols.length) :
    2 * f (cols[k + 1]'(by omega)) ≤ f (cols[k]'(by omega)) + f cols[k + 2] := by
  have hlen : 1 < cols.length := by omega
  obtain ⟨v, hv⟩ : ∃ v, cols.head? = some v := by
    cases cols with
    | nil => simp at hlen
    | cons a l => exact ⟨a, rfl⟩
  have g0 := h.grid k _ (List.getElem?_eq_getElem (by omega)) v hv r hr hlen
  have g2 := h.grid (k + 2) _ (List.getElem?_eq_getElem h2) v hv r hr hlen
  have l1 := h.least (k + 1) _ (List.getElem?_eq_getElem (by omega)) v hv r hr hlen
    (fun i => ((cols[k]'(by omega)) i + (cols[k + 2]) i) / 2)
    (hset _ (h.inside _ (List.getElem_mem _)) _ (h.inside _ (List.getElem_mem _))) (by
      rw [ret_mid]
      push_cast at g2 ⊢
      linarith)
  exact (mul_le_mul_of_nonneg_left (hf _ _ l1) (by norm_num)).trans (hrisk _ _)

/-- Rearranging the columns of a frontier by return does not change the sequence of risks. -/
theorem frontier_sorted {allowed : Set (Fin N → ℝ)} {rt risk : (Fin N → ℝ) → ℝ} {num : ℕ} {cols : List (Fin N → ℝ)}
    (h : IsFrontier allowed rt risk num cols) {σ : Equiv.Perm (Fin cols.length)} (hσ : Monotone (fun j => rt (cols.get (σ j)))) (j : Fin cols.length) :
    risk (cols.get (σ j)) = risk (cols.get j) := by
  have h1 : Monotone ((fun j => risk (cols.get j)) ∘ σ) := by
    intro a b hab
    exact h.efficient _ (List.get_mem _ _) _ (h.inside _ (List.get_mem _ _)) (hσ hab)
  have h2 : Monotone ((fun j => risk (cols.get j)) ∘ (Equiv.refl (Fin cols.length))) := by
    intro a b hab
    rcases hab.eq_or_lt with rfl | hlt
    · exact le_rfl
    · exact List.pairwise_iff_get.mp h.mono a b hlt
  exact congrFun (Tuple.unique_monotone h1 h2) j

/-- **C180** (variance) Along a variance frontier without trading costs the volatility never decreases and is convex: every portfolio's volatility
is at most the average of its neighbours'. -/
theorem C180_variance {solver : Opt.Solver} (hsnd : Sound solver) (hcmp : Complete solver) (argsort : Argsort)
    (w : Wrapper N) (mu : Fin N → ℝ) (cov : Matrix (Fin N) (Fin N) ℝ) (hmu : w.mu = some mu) (hcov : w.cov = some cov)
    (hlog : w.isLog = false) (hpsd : IsCov (fun i j => cov i j)) (con : Option (PyV.Con.Spec ℝ)) (c : PyV.Con.Spec ℝ)
    (hin : InForce w con c) (hb : ∃ M, ∀ x : Fin N → ℝ, Satisfies c x → ∀ i, |x i| ≤ M) (hne : ∃ x : Fin N → ℝ, Satisfies c x) (hlim : Limited N c)
    (htr : Trading w none none none none) (num : ℕ) :
    ∃ F : AnyFrontier N, w.varianceFrontier solver argsort num con none = .ok F ∧ Monotone F.f.risks ∧
      ∀ a b c : Fin F.M, (b : ℕ) = a + 1 → (c : ℕ) = b + 1 → F.f.risks b ≤ (F.f.risks a + F.f.risks c) / 2 := by
  obtain ⟨cols, f, h1, h2, h3⟩ := C105_variance_frontier_partial hsnd hcmp argsort w mu cov hmu hcov hlog hpsd con c hin hb hne hlim none none none none htr
    (by simp) num
  have hz : varianceCost (fun i j => cov i j) none none = quad (fun i j => cov i j) := by funext x; simp [varianceCost]
  rw [hz] at h2
  refine ⟨_, h1, ?_, ?_⟩
  · intro a b hab
    show f.risks a ≤ f.risks b
    rw [(h3 a).2.2, (h3 b).2.2]
    rcases hab.eq_or_lt with rfl | hlt
    · exact le_rfl
    · exact Real.sqrt_le_sqrt (List.pairwise_iff_get.mp h2.mono a b hlt)
  · intro a b d hab hbd
    show f.risks b ≤ (f.risks a + f.risks d) / 2
    have hd : (d : ℕ) < cols.length := d.2
    rw [(h3 a).2.2, (h3 b).2.2, (h3 d).2.2]
    obtain ⟨u, -, hall⟩ := user_spec hin
    have hset : {x | Allowed u x} = {x : Fin N → ℝ | Satisfies c x} := Set.ext hall
    obtain ⟨r, hr⟩ := greatest_return (u := u) (by obtain ⟨M, hM⟩ := hb; exact ⟨M, fun x hx => hM x ((hall x).1 hx)⟩)
      (by obtain ⟨x, hx⟩ := hne; exact ⟨x, (hall x).2 hx⟩) mu
    rw [hset] at hr
    have key := frontier_convex h2 hr (fun u hu v hv => satisfies_mid hin hu hv) (f := fun x => Real.sqrt (quad (fun i j => cov i j) x))
      (fun u v h => Real.sqrt_le_sqrt h) (fun u v => vol_midpoint hpsd u v) a (by omega)
    have e1 : cols.get b = cols[(a : ℕ) + 1]'(by omega) := by rw [List.get_eq_getElem]; congr 1
    have e2 : cols.get d = cols[(a : ℕ) + 2]'(by omega) := by rw [List.get_eq_getElem]; congr 1; omega
    rw [e1, e2, List.get_eq_getElem]
    linarith

/-- CVaR is convex in the portfolio. -/
theorem cvar_midpoint {s : Scen N} (hp : IsProb s.p) {alpha : ℝ} (h0 : 0 < alpha) {u v : Fin N → ℝ} {cu cv cm : ℝ}
    (hu : IsCvar s.p (pnl s u) (1 - alpha) cu) (hv : IsCvar s.p (pnl s v) (1 - alpha) cv)
    (hm : IsCvar s.p (pnl s (fun i => (u i + v i) / 2)) (1 - alpha) cm) : 2 * cm ≤ cu + cv := by
  obtain ⟨⟨a, ha⟩, -⟩ := hu
  obtain ⟨⟨b, hb⟩, -⟩ := hv
  have h1 := hm.2 ⟨(a + b) / 2, rfl⟩
  refine (mul_le_mul_of_nonneg_left h1 (by norm_num)).trans ?_
  rw [← ha, ← hb]
  unfold ru expect
  have hpn : ∀ t, pnl s (fun i => (u i + v i) / 2) t = (pnl s u t + pnl s v t) / 2 := by
    intro t
    unfold pnl
    rw [← Finset.sum_add_distrib, Finset.sum_div]
    exact Finset.sum_congr rfl fun i _ => by ring
  have h2 : 2 * ∑ t, s.p t * max (-(pnl s (fun i => (u i + v i) / 2) t) - (a + b) / 2) 0 ≤
      ∑ t, s.p t * max (-(pnl s u t) - a) 0 + ∑ t, s.p t * max (-(pnl s v t) - b) 0 := by
    rw [Finset.mul_sum, ← Finset.sum_add_distrib]
    refine Finset.sum_le_sum fun t _ => ?_
    rw [← mul_add, mul_left_comm]
    refine mul_le_mul_of_nonneg_left ?_ (hp.1 t)
    rw [hpn]
    have m1 := le_max_left (-(pnl s u t) - a) 0
    have m2 := le_max_left (-(pnl s v t) - b) 0
    have m3 := le_max_right (-(pnl s u t) - a) 0
    have m4 := le_max_right (-(pnl s v t) - b) 0
    rcases max_cases (-((pnl s u t + pnl s v t) / 2) - (a + b) / 2) 0 with h | h <;> rw [h.1] <;> linarith
  have h3 : (1 : ℝ) - (1 - alpha) = alpha := by ring
  rw [h3]
  beta_reduce
  revert h2
  generalize ∑ t, s.p t * max (-(pnl s (fun i => (u i + v i) / 2) t) - (a + b) / 2) 0 = X
  generalize ∑ t, s.p t * max (-(pnl s u t) - a) 0 = Y
  generalize ∑ t, s.p t * max (-(pnl s v t) - b) 0 = Z
  intro h2
  have h4 : 2 * (X / alpha) ≤ Y / alpha + Z / alpha := by
    rw [← add_div, ← mul_div_assoc]; exact div_le_div_of_nonneg_right h2 h0.le
  linarith

/-- **C180** (CVaR) Likewise the CVaR along a CVaR frontier (envelope off, scenario mean in use, no trading costs), as long as no admissible portfolio
has a negative CVaR — the reported risk is the absolute value. -/
theorem C180_cvar {solver : Opt.Solver} (hsnd : Sound solver) (hcmp : Complete solver) (argsort : Argsort)
    (hs : ∀ T, IsArgsort (argsort T)) (sim : Sim) (w : Wrapper N) (s : Scen N) (hscen : w.scen = some s) (hp : IsProb s.p)
    (hmu : w.mu = none ∨ w.mu = some (scenMean s)) (hlog : w.isLog = false) (con : Option (PyV.Con.Spec ℝ)) (c : PyV.Con.Spec ℝ)
    (hin : InForce w con c) (hb : ∃ M, ∀ x : Fin N → ℝ, Satisfies c x → ∀ i, |x i| ≤ M) (hne : ∃ x : Fin N → ℝ, Satisfies c x)
    (htr : Trading w none none none none) (alpha : ℝ) (h0 : 0 < alpha) (h1 : alpha < 1)
    (hpos : ∀ x v, Satisfies c x → IsCvar s.p (pnl s x) (1 - alpha) v → 0 ≤ v) (seed : Option ℤ) (num : ℕ) :
    ∃ F : AnyFrontier N, w.cvarFrontier solver argsort sim num alpha seed con none false = .ok F ∧ Monotone F.f.returns ∧ Monotone F.f.risks ∧
      ∀ a b c : Fin F.M, (b : ℕ) = a + 1 → (c : ℕ) = b + 1 → F.f.risks b ≤ (F.f.risks a + F.f.risks c) / 2 := by
  obtain ⟨cvar, cols, f, σ, hcv, hok, hfr, hw, hret, hmono, -, hrisk, -⟩ := C114_cvar_frontier hsnd hcmp argsort hs sim w s hscen hp
    hlog con c hin hb hne none none none none htr (by simp) alpha h0 h1 seed num false
  have hm' : w.mu.getD (scenMean s) = scenMean s := by rcases hmu with h | h <;> rw [h] <;> rfl
  have hz : turnoverCost cvar none none = cvar := by funext x; simp [turnoverCost]
  rw [hz] at hfr
  rw [hm'] at hret
  have hmono' : Monotone (fun j => ret (scenMean s) (cols.get (σ j))) := by
    intro a b hab
    have := hmono hab
    rwa [hret, hret] at this
  have hr : ∀ j, f.risks j = cvar (cols.get j) := by
    intro j
    rw [hrisk rfl, abs_of_nonneg (hpos _ _ (hfr.inside _ (List.get_mem _ _)) (hcv _))]
    exact frontier_sorted hfr hmono' j
  refine ⟨_, hok, hmono, ?_, ?_⟩
  · intro a b hab
    show f.risks a ≤ f.risks b
    rw [hr, hr]
    rcases hab.eq_or_lt with rfl | hlt
    · exact le_rfl
    · exact List.pairwise_iff_get.mp hfr.mono a b hlt
  · intro a b d hab hbd
    show f.risks b ≤ (f.risks a + f.risks d) / 2
    have hd : (d : ℕ) < cols.length := d.2
    rw [hr, hr, hr]
    obtain ⟨u, -, hall⟩ := user_spec hin
    have hset : {x | Allowed u x} = {x : Fin N → ℝ | Satisfies c x} := Set.ext hall
    obtain ⟨r, hgr⟩ := greatest_return (u := u) (by obtain ⟨M, hM⟩ := hb; exact ⟨M, fun x hx => hM x ((hall x).1 hx)⟩)
      (by obtain ⟨x, hx⟩ := hne; exact ⟨x, (hall x).2 hx⟩) (scenMean s)
    rw [hset] at hgr
    have key := frontier_convex hfr hgr (fun u hu v hv => satisfies_mid hin hu hv) (f := cvar)
      (fun u v h => h) (fun u v => cvar_midpoint hp h0 (hcv u) (hcv v) (hcv _)) a (by omega)
    have e1 : cols.get b = cols[(a : ℕ) + 1]'(by omega) := by rw [List.get_eq_getElem]; congr 1
    have e2 : cols.get d = cols[(a : ℕ) + 2]'(by omega) := by rw [List.get_eq_getElem]; congr 1; omega
    rw [e1, e2, List.get_eq_getElem]
    linarith

/-- The hypotheses of `C180_variance` hold for two uncorrelated assets under the default constraints. -/
example : ∃ (w : Wrapper 2) (solver : Opt.Solver), Sound solver ∧ Complete solver ∧ ∃ F,
    w.varianceFrontier solver (fun _ _ => Equiv.refl _) 5 none none = .ok F ∧ Monotone F.f.risks := by
  obtain ⟨solver, h1, h2⟩ := exists_solver
  obtain ⟨w, hmu, hcov, -, hlog, -, hin, htr⟩ := exists_wrapper (N := 2) (by norm_num) (some ![1 / 10, 1 / 50]) (some !![1, 0; 0, 2]) none false
  have hq : ∀ x : Fin 2 → ℝ, quad (fun i j => (!![1, 0; 0, 2] : Matrix (Fin 2) (Fin 2) ℝ) i j) x = x 0 ^ 2 + 2 * x 1 ^ 2 := by
    intro x
    simp [quad, Fin.sum_univ_two]
    ring
  obtain ⟨F, a, b, -⟩ := C180_variance h1 h2 (fun _ _ => Equiv.refl _) w _ _ hmu hcov hlog
    ⟨by intro i j; fin_cases i <;> fin_cases j <;> simp, fun x => by
      show 0 ≤ quad _ x
      rw [hq]; positivity⟩ none _ hin default_bounded
    ⟨![1, 0], by rw [satisfies_default]; simp [Fin.sum_univ_two, Fin.forall_fin_two]⟩
    (limited_default (by norm_num)) htr 5
  exact ⟨w, solver, h1, h2, F, a, b⟩

end PyV.Props
