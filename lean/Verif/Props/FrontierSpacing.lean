import Verif.Props.CvarSolver
import Verif.Props.FrontierUnique
import Mathlib.Tactic

/-! # Property C198 (and C179): the portfolios of a frontier are evenly spaced in expected return -/

namespace PyV.Props

open PyV PyV.Api PyV.Spec.Api PyV.Opt PyV.Spec.Opt PyV.Spec.Con PyV.Risk PyV.Spec

variable {N : ℕ}

/-- A mixture of two portfolios. -/
def mix (θ : ℝ) (u v : Fin N → ℝ) : Fin N → ℝ := fun i => (1 - θ) * u i + θ * v i

private theorem ret_mix (mu : Fin N → ℝ) (θ : ℝ) (u v : Fin N → ℝ) : ret mu (mix θ u v) = (1 - θ) * ret mu u + θ * ret mu v := by
  unfold ret mix
  rw [Finset.mul_sum, Finset.mul_sum, ← Finset.sum_add_distrib]
  exact Finset.sum_congr rfl fun i _ => by ring

theorem satisfies_mix {w : Wrapper N} {con : Option (PyV.Con.Spec ℝ)} {c : PyV.Con.Spec ℝ} (hin : InForce w con c) {θ : ℝ} (h0 : 0 ≤ θ) (h1 : θ ≤ 1)
    {u v : Fin N → ℝ} (hu : Satisfies c u) (hv : Satisfies c v) : Satisfies c (mix θ u v) := by
  obtain ⟨usr, -, hall⟩ := user_spec hin
  rw [← hall] at hu hv ⊢
  have hlin : ∀ r : Fin N → ℝ, ∑ i, r i * (mix θ u v i) = (1 - θ) * (∑ i, r i * u i) + θ * ∑ i, r i * v i := by
    intro r
    unfold mix
    rw [Finset.mul_sum, Finset.mul_sum, ← Finset.sum_add_distrib]
    exact Finset.sum_congr rfl fun i _ => by ring
  refine ⟨fun r hr => ?_, fun r hr => ?_⟩
  · rw [hlin]
    have := hu.1 r hr
    have := hv.1 r hr
    nlinarith
  · rw [hlin, hu.2 r hr, hv.2 r hr]
    ring

/-- Where the least-risk portfolios have one return and risk is convex, the returns of a frontier are exactly the grid. -/
theorem frontier_spacing {allowed : Set (Fin N → ℝ)} {mu : Fin N → ℝ} {risk : (Fin N → ℝ) → ℝ} {num : ℕ} {cols : List (Fin N → ℝ)}
    (h : IsFrontier allowed (ret mu) risk num cols) {r : ℝ} (hr : IsGreatest (ret mu '' allowed) r)
    (hset : ∀ θ, 0 ≤ θ → θ ≤ 1 → ∀ u ∈ allowed, ∀ v ∈ allowed, mix θ u v ∈ allowed)
    (hrisk : ∀ θ, 0 ≤ θ → θ ≤ 1 → ∀ u v, risk (mix θ u v) ≤ (1 - θ) * risk u + θ * risk v)
    (hmin : ∀ u ∈ allowed, ∀ v ∈ allowed, (∀ x ∈ allowed, risk u ≤ risk x) → (∀ x ∈ allowed, risk v ≤ risk x) → ret mu u = ret mu v)
    (hlen : 1 < cols.length) (k : Fin cols.length) :
    ret mu (cols.get k) = ret mu (cols.get ⟨0, by omega⟩) + k * ((r - ret mu (cols.get ⟨0, by omega⟩)) / (cols.length - 1)) := by
  obtain ⟨v, c', rfl⟩ := List.exists_cons_of_ne_nil h.nonempty
  have hnum : (num : ℝ) = ((v :: c').length : ℝ) := by
    rcases h.len with h' | ⟨h', -⟩
    · rw [h']
    · omega
  have hv : v ∈ allowed := h.inside v (by simp)
  have hk := List.getElem?_eq_getElem k.2
  set x := (v :: c')[(k : ℕ)]'k.2 with hx
  have hxa : x ∈ allowed := h.inside x (List.getElem_mem _)
  have hg := h.grid k x hk v rfl r hr hlen
  have hl := h.least k x hk v rfl r hr hlen
  rw [hnum] at hg hl
  show ret mu x = ret mu v + k * ((r - ret mu v) / ((v :: c').length - 1))
  set t := ret mu v + k * ((r - ret mu v) / ((v :: c').length - 1)) with ht
  have hvr : ret mu v ≤ r := hr.2 ⟨v, hv, rfl⟩
  have hM : (1 : ℝ) < ((v :: c').length : ℝ) := by exact_mod_cast hlen
  have htv : ret mu v ≤ t := by
    have : 0 ≤ (k : ℝ) * ((r - ret mu v) / ((v :: c').length - 1)) :=
      mul_nonneg (Nat.cast_nonneg _) (div_nonneg (by linarith) (by linarith))
    rw [ht]; linarith
  by_contra hne
  have hlt : t < ret mu x := lt_of_le_of_ne hg (Ne.symm hne)
  have hfirst := h.first v rfl
  have hrv : risk v < risk x := by
    rcases (hfirst x hxa).eq_or_lt with he | hlt'
    · have := hmin v hv x hxa hfirst (fun y hy => he ▸ hfirst y hy)
      linarith
    · exact hlt'
  have hd : 0 < ret mu x - ret mu v := by linarith
  set θ := (t - ret mu v) / (ret mu x - ret mu v) with hθ
  have h0 : 0 ≤ θ := div_nonneg (by linarith) hd.le
  have h1 : θ < 1 := (div_lt_one hd).mpr (by linarith)
  have hret : ret mu (mix θ v x) = t := by
    rw [ret_mix]
    have : θ * (ret mu x - ret mu v) = t - ret mu v := div_mul_cancel₀ _ hd.ne'
    linarith
  have := hl (mix θ v x) (hset θ h0 h1.le v hv x hxa) hret.ge
  have := hrisk θ h0 h1.le v x
  nlinarith

private theorem cost_mix {C : Fin N → Fin N → ℝ} (hC : IsCov C) (w0 imp : Option (Fin N → ℝ)) (himp : ∀ l, imp = some l → ∀ i, 0 ≤ l i) {θ : ℝ} (h0 : 0 ≤ θ)
    (h1 : θ ≤ 1) (u v : Fin N → ℝ) : varianceCost C w0 imp (mix θ u v) ≤ (1 - θ) * varianceCost C w0 imp u + θ * varianceCost C w0 imp v := by
  have hq : quad C (mix θ u v) = (1 - θ) * quad C u + θ * quad C v - θ * (1 - θ) * quad C (fun i => u i - v i) := by
    unfold quad mix
    simp only [Finset.mul_sum]
    rw [← Finset.sum_add_distrib, ← Finset.sum_sub_distrib]
    refine Finset.sum_congr rfl fun i _ => ?_
    rw [← Finset.sum_add_distrib, ← Finset.sum_sub_distrib]
    exact Finset.sum_congr rfl fun j _ => by ring
  have hn : 0 ≤ quad C (fun i => u i - v i) := hC.2 _
  have hi : ∑ i, (imp.getD 0) i * (mix θ u v i - (w0.getD (mix θ u v)) i) ^ 2 ≤
      (1 - θ) * (∑ i, (imp.getD 0) i * (u i - (w0.getD u) i) ^ 2) + θ * ∑ i, (imp.getD 0) i * (v i - (w0.getD v) i) ^ 2 := by
    rw [Finset.mul_sum, Finset.mul_sum, ← Finset.sum_add_distrib]
    refine Finset.sum_le_sum fun i _ => ?_
    have hp : 0 ≤ (imp.getD 0) i := by
      cases imp with
      | none => simp
      | some l => exact himp l rfl i
    cases w0 with
    | none => simp
    | some a =>
      simp only [Option.getD_some]
      have : (mix θ u v i - a i) ^ 2 ≤ (1 - θ) * (u i - a i) ^ 2 + θ * (v i - a i) ^ 2 := by
        unfold mix
        nlinarith [mul_nonneg (mul_nonneg h0 (sub_nonneg.2 h1)) (sq_nonneg (u i - v i))]
      calc _ ≤ (imp.getD 0) i * ((1 - θ) * (u i - a i) ^ 2 + θ * (v i - a i) ^ 2) := mul_le_mul_of_nonneg_left this hp
        _ = _ := by ring
  unfold varianceCost
  rw [hq]
  have := mul_nonneg (mul_nonneg h0 (sub_nonneg.2 h1)) hn
  linarith

theorem cvar_mix {s : Scen N} (hp : IsProb s.p) {alpha : ℝ} (ha : 0 < alpha) {θ : ℝ} (h0 : 0 ≤ θ) (h1 : θ ≤ 1) {u v : Fin N → ℝ} {cu cv cm : ℝ}
    (hu : IsCvar s.p (pnl s u) (1 - alpha) cu) (hv : IsCvar s.p (pnl s v) (1 - alpha) cv)
    (hm : IsCvar s.p (pnl s (mix θ u v)) (1 - alpha) cm) : cm ≤ (1 - θ) * cu + θ * cv := by
  obtain ⟨⟨a, ha'⟩, -⟩ := hu
  obtain ⟨⟨b, hb⟩, -⟩ := hv
  have h2 := hm.2 ⟨(1 - θ) * a + θ * b, rfl⟩
  refine h2.trans ?_
  rw [← ha', ← hb]
  unfold ru expect
  have hpn : ∀ t, pnl s (mix θ u v) t = (1 - θ) * pnl s u t + θ * pnl s v t := by
    intro t
    unfold pnl mix
    rw [Finset.mul_sum, Finset.mul_sum, ← Finset.sum_add_distrib]
    exact Finset.sum_congr rfl fun i _ => by ring
  have h3 : ∑ t, s.p t * max (-(pnl s (mix θ u v) t) - ((1 - θ) * a + θ * b)) 0 ≤
      (1 - θ) * (∑ t, s.p t * max (-(pnl s u t) - a) 0) + θ * ∑ t, s.p t * max (-(pnl s v t) - b) 0 := by
    rw [Finset.mul_sum, Finset.mul_sum, ← Finset.sum_add_distrib]
    refine Finset.sum_le_sum fun t _ => ?_
    rw [mul_left_comm, mul_left_comm θ, ← mul_add]
    refine mul_le_mul_of_nonneg_left ?_ (hp.1 t)
    rw [hpn]
    have m1 := mul_le_mul_of_nonneg_left (le_max_left (-(pnl s u t) - a) 0) (sub_nonneg.2 h1)
    have m2 := mul_le_mul_of_nonneg_left (le_max_left (-(pnl s v t) - b) 0) h0
    have m3 := mul_le_mul_of_nonneg_left (le_max_right (-(pnl s u t) - a) 0) (sub_nonneg.2 h1)
    have m4 := mul_le_mul_of_nonneg_left (le_max_right (-(pnl s v t) - b) 0) h0
    refine max_le ?_ ?_ <;> nlinarith
  have h4 : (1 : ℝ) - (1 - alpha) = alpha := by ring
  rw [h4]
  beta_reduce
  revert h3
  generalize ∑ t, s.p t * max (-(pnl s (mix θ u v) t) - ((1 - θ) * a + θ * b)) 0 = X
  generalize ∑ t, s.p t * max (-(pnl s u t) - a) 0 = Y
  generalize ∑ t, s.p t * max (-(pnl s v t) - b) 0 = Z
  intro h3
  have : X / alpha ≤ ((1 - θ) * Y + θ * Z) / alpha := div_le_div_of_nonneg_right h3 ha.le
  have e : ((1 - θ) * Y + θ * Z) / alpha = (1 - θ) * (Y / alpha) + θ * (Z / alpha) := by ring
  rw [e] at this
  linarith

/-- The returns are evenly spaced and end at `r`. -/
def EvenlySpaced {M : ℕ} (returns : Fin M → ℝ) (r : ℝ) : Prop :=
  ∀ a b : Fin M, (a : ℕ) = 0 → returns b = returns a + b * ((r - returns a) / (M - 1))

/-- **C198** (variance) Unless it consists of one portfolio, a variance frontier steps from the least-risk portfolio to the greatest attainable expected return
in equal steps of expected return, whenever the least-risk portfolios agree on their return (in particular with a positive definite covariance). -/
theorem C198_variance {solver : Opt.Solver} (hsnd : Sound solver) (hcmp : Complete solver) (argsort : Argsort)
    (w : Wrapper N) (mu : Fin N → ℝ) (cov : Matrix (Fin N) (Fin N) ℝ) (hmu : w.mu = some mu) (hcov : w.cov = some cov)
    (hlog : w.isLog = false) (hpsd : IsCov (fun i j => cov i j)) (con : Option (PyV.Con.Spec ℝ)) (c : PyV.Con.Spec ℝ)
    (hin : InForce w con c) (hb : ∃ M, ∀ x : Fin N → ℝ, Satisfies c x → ∀ i, |x i| ≤ M) (hne : ∃ x : Fin N → ℝ, Satisfies c x) (hlim : Limited N c)
    (costs : Option Costs) (w0 imp prop : Option (Fin N → ℝ)) (htr : Trading w costs w0 imp prop)
    (himp : ∀ l, imp = some l → ∀ i, 0 ≤ l i) (num : ℕ) {r : ℝ} (hr : IsGreatest (ret mu '' {x : Fin N → ℝ | Satisfies c x}) r)
    (hmin : (∀ x : Fin N → ℝ, x ≠ 0 → 0 < quad (fun i j => cov i j) x) ∨
      ∀ x y : Fin N → ℝ, Satisfies c x → Satisfies c y → (∀ z, Satisfies c z → varianceCost (fun i j => cov i j) w0 imp x ≤ varianceCost (fun i j => cov i j) w0 imp z) →
        (∀ z, Satisfies c z → varianceCost (fun i j => cov i j) w0 imp y ≤ varianceCost (fun i j => cov i j) w0 imp z) → ret mu x = ret mu y) :
    ∃ F : AnyFrontier N, w.varianceFrontier solver argsort num con costs = .ok F ∧ (1 < F.M → EvenlySpaced F.f.returns r) := by
  obtain ⟨cols, f, h1, h2, h3⟩ := C105_variance_frontier_partial hsnd hcmp argsort w mu cov hmu hcov hlog hpsd con c hin hb hne hlim costs w0 imp prop htr himp num
  refine ⟨_, h1, fun hM a b ha => ?_⟩
  have hM' : 1 < cols.length := hM
  have key := frontier_spacing h2 hr (fun θ h0 h1 u hu v hv => satisfies_mix hin h0 h1 hu hv) (fun θ h0 h1 u v => cost_mix hpsd w0 imp himp h0 h1 u v) (by
    intro u hu v hv hu' hv'
    rcases hmin with hpd | hmin
    · obtain ⟨usr, -, hall⟩ := user_spec hin
      have hset : {x | Allowed usr x} = {x : Fin N → ℝ | Satisfies c x} := Set.ext hall
      have := unique_min hpd w0 imp himp usr mu
      rw [hset] at this
      rw [this (min (ret mu u) (ret mu v)) u hu v hv (min_le_left _ _) (min_le_right _ _) (fun x hx _ => hu' x hx) (fun x hx _ => hv' x hx)]
    · exact hmin u v hu hv hu' hv') hM' b
  have ea : a = ⟨0, by omega⟩ := Fin.ext ha
  rw [(h3 b).2.1, (h3 a).2.1, ea]
  exact key

theorem returns_sorted {mu : Fin N → ℝ} {cols : List (Fin N → ℝ)} {σ : Equiv.Perm (Fin cols.length)} {f : Fin cols.length → ℝ}
    (hf : ∀ j, f j = ret mu (cols.get (σ j))) (hm : Monotone f) (hc : Monotone fun j => ret mu (cols.get j)) (j : Fin cols.length) : f j = ret mu (cols.get j) := by
  have h1 : Monotone ((fun j => ret mu (cols.get j)) ∘ σ) := by
    intro a b hab
    have := hm hab
    rwa [hf, hf] at this
  have h2 : Monotone ((fun j => ret mu (cols.get j)) ∘ Equiv.refl _) := hc
  rw [hf]
  exact congrFun (Tuple.unique_monotone h1 h2) j

/-- The risks of a sorted frontier, in the order of the columns of the optimiser. -/
theorem sorted_risks {allowed : Set (Fin N → ℝ)} {mu : Fin N → ℝ} {risk : (Fin N → ℝ) → ℝ} {num : ℕ} {cols : List (Fin N → ℝ)}
    (hfr : IsFrontier allowed (ret mu) risk num cols) {σ : Equiv.Perm (Fin cols.length)} {returns risks : Fin cols.length → ℝ}
    (hret : ∀ j, returns j = ret mu (cols.get (σ j))) (hmono : Monotone returns) (hrisk : ∀ j, risks j = |risk (cols.get (σ j))|) :
    List.ofFn risks = (cols.map risk).map abs := by
  apply List.ext_getElem
  · simp
  · intro k hk1 hk2
    rw [List.getElem_ofFn, hrisk, frontier_sorted hfr (fun a b hab => by
      have := hmono hab
      rwa [hret, hret] at this)]
    simp

/-- Two frontiers of one problem, sorted by return, have the same returns. -/
theorem frontier_returns {allowed : Set (Fin N → ℝ)} {mu : Fin N → ℝ} {risk : (Fin N → ℝ) → ℝ} {num : ℕ} {c d : List (Fin N → ℝ)}
    (hset : ∀ θ, 0 ≤ θ → θ ≤ 1 → ∀ u ∈ allowed, ∀ v ∈ allowed, mix θ u v ∈ allowed)
    (hrisk : ∀ θ, 0 ≤ θ → θ ≤ 1 → ∀ u v, risk (mix θ u v) ≤ (1 - θ) * risk u + θ * risk v)
    (hmin : ∀ u ∈ allowed, ∀ v ∈ allowed, (∀ x ∈ allowed, risk u ≤ risk x) → (∀ x ∈ allowed, risk v ≤ risk x) → ret mu u = ret mu v)
    {r : ℝ} (hr : IsGreatest (ret mu '' allowed) r)
    (h1 : IsFrontier allowed (ret mu) risk num c) (h2 : IsFrontier allowed (ret mu) risk num d)
    {σ : Equiv.Perm (Fin c.length)} {τ : Equiv.Perm (Fin d.length)} {f : Fin c.length → ℝ} {g : Fin d.length → ℝ}
    (hf : ∀ j, f j = ret mu (c.get (σ j))) (hg : ∀ j, g j = ret mu (d.get (τ j))) (hfm : Monotone f) (hgm : Monotone g) :
    List.ofFn f = List.ofFn g := by
  have hhead : ∀ u v, c.head? = some u → d.head? = some v → ret mu u = ret mu v := fun u v hu hv =>
    hmin u (h1.inside u (List.mem_of_mem_head? hu)) v (h2.inside v (List.mem_of_mem_head? hv)) (h1.first u hu) (h2.first v hv)
  have hlen : c.length = d.length := by simpa using congrArg List.length (frontier_risks h1 h2 hr hhead)
  have hm : ∀ {e : List (Fin N → ℝ)}, IsFrontier allowed (ret mu) risk num e → Monotone fun j => ret mu (e.get j) := by
    intro e he
    have hpos : 0 < e.length := List.length_pos_of_ne_nil he.nonempty
    rcases Nat.lt_or_ge 1 e.length with hl | hl
    · intro a b hab
      simp only
      rw [frontier_spacing he hr hset hrisk hmin hl a, frontier_spacing he hr hset hrisk hmin hl b]
      have hle : ret mu (e.get ⟨0, hpos⟩) ≤ r := hr.2 ⟨_, he.inside _ (List.get_mem _ _), rfl⟩
      have hM : (1 : ℝ) < (e.length : ℝ) := by exact_mod_cast hl
      have hab' : (a : ℝ) ≤ (b : ℝ) := by exact_mod_cast hab
      have := mul_le_mul_of_nonneg_right hab' (div_nonneg (sub_nonneg.2 hle) (by linarith : (0 : ℝ) ≤ e.length - 1))
      linarith
    · intro a b _
      have : a = b := Fin.ext (by omega)
      rw [this]
  have hc0 : 0 < c.length := List.length_pos_of_ne_nil h1.nonempty
  have h00 : ret mu (c.get ⟨0, hc0⟩) = ret mu (d.get ⟨0, hlen ▸ hc0⟩) :=
    hhead _ _ (by rw [List.head?_eq_getElem?, List.getElem?_eq_getElem hc0]; rfl)
      (by rw [List.head?_eq_getElem?, List.getElem?_eq_getElem (hlen ▸ hc0)]; rfl)
  apply List.ext_getElem (by simpa using hlen)
  intro k k1 k2
  have k1' : k < c.length := by simpa using k1
  have k2' : k < d.length := by simpa using k2
  rw [List.getElem_ofFn, List.getElem_ofFn, returns_sorted hf hfm (hm h1), returns_sorted hg hgm (hm h2)]
  rcases Nat.lt_or_ge 1 c.length with hl | hl
  · rw [frontier_spacing h1 hr hset hrisk hmin hl, frontier_spacing h2 hr hset hrisk hmin (hlen ▸ hl), h00]
    have hcast : (c.length : ℝ) = (d.length : ℝ) := by exact_mod_cast hlen
    simp only [hcast]
  · have : k = 0 := by omega
    subst this
    exact h00

/-- **C198** (CVaR) The same for CVaR frontiers on scenarios without trading costs, whenever the portfolios of least CVaR agree on their return. -/
theorem C198_cvar {solver : Opt.Solver} (hsnd : Sound solver) (hcmp : Complete solver) (argsort : Argsort)
    (ha : ∀ T, IsArgsort (argsort T)) (sim : Sim)
    (w : Wrapper N) (s : Scen N) (hscen : w.scen = some s) (hp : IsProb s.p) (hmu : w.mu = none ∨ w.mu = some (scenMean s)) (hlog : w.isLog = false)
    (con : Option (PyV.Con.Spec ℝ)) (c : PyV.Con.Spec ℝ) (hin : InForce w con c) (hb : ∃ B, ∀ x : Fin N → ℝ, Satisfies c x → ∀ i, |x i| ≤ B)
    (hne : ∃ x : Fin N → ℝ, Satisfies c x)
    (htr : Trading w none none none none) (alpha : ℝ) (h0 : 0 < alpha) (h1 : alpha < 1) (seed : Option ℤ) (num : ℕ) (enforce : Bool)
    {r : ℝ} (hr : IsGreatest (ret (scenMean s) '' {x : Fin N → ℝ | Satisfies c x}) r)
    (huniq : ∀ x y v, Satisfies c x → Satisfies c y → IsCvar s.p (pnl s x) (1 - alpha) v → IsCvar s.p (pnl s y) (1 - alpha) v →
      (∀ z vz, Satisfies c z → IsCvar s.p (pnl s z) (1 - alpha) vz → v ≤ vz) → ret (scenMean s) x = ret (scenMean s) y) :
    ∃ F, w.cvarFrontier solver argsort sim num alpha seed con none enforce = .ok F ∧ (1 < F.M → EvenlySpaced F.f.returns r) ∧
      ∀ a : Fin F.M, (a : ℕ) = 0 → ∃ x v, Satisfies c x ∧ IsCvar s.p (pnl s x) (1 - alpha) v ∧ F.f.returns a = ret (scenMean s) x ∧
        ∀ z vz, Satisfies c z → IsCvar s.p (pnl s z) (1 - alpha) vz → v ≤ vz := by
  have hm' : w.mu.getD (scenMean s) = scenMean s := by rcases hmu with h | h <;> rw [h] <;> rfl
  obtain ⟨cvar, cols, f, σ, hcv, hok, hfr, hw, hret, hmono, -, -, -⟩ := C114_cvar_frontier hsnd hcmp argsort ha sim w s hscen hp
    hlog con c hin hb hne none none none none htr (by simp) alpha h0 h1 seed num enforce
  have hz : turnoverCost cvar none none = cvar := by funext x; simp [turnoverCost]
  rw [hz] at hfr
  rw [hm'] at hret
  have hmin : ∀ u ∈ {x : Fin N → ℝ | Satisfies c x}, ∀ v ∈ {x : Fin N → ℝ | Satisfies c x}, (∀ x ∈ {x : Fin N → ℝ | Satisfies c x}, cvar u ≤ cvar x) →
      (∀ x ∈ {x : Fin N → ℝ | Satisfies c x}, cvar v ≤ cvar x) → ret (scenMean s) u = ret (scenMean s) v := by
    intro u hu v hv hu' hv'
    have he : cvar u = cvar v := le_antisymm (hu' v hv) (hv' u hu)
    exact huniq u v (cvar u) hu hv (hcv u) (he ▸ hcv v) (fun z vz hz' hvz => by rw [cvar_unique hvz (hcv z)]; exact hu' z hz')
  have hsp := fun (hl : 1 < cols.length) (k : Fin cols.length) => frontier_spacing hfr hr (fun θ h0 h1 u hu v hv => satisfies_mix hin h0 h1 hu hv)
    (fun θ t0 t1 u v => cvar_mix hp h0 t0 t1 (hcv u) (hcv v) (hcv _)) hmin hl k
  have hpos : 0 < cols.length := List.length_pos_of_ne_nil hfr.nonempty
  have hcm : Monotone fun j => ret (scenMean s) (cols.get j) := by
    rcases Nat.lt_or_ge 1 cols.length with hl | hl
    · intro a b hab
      simp only
      rw [hsp hl a, hsp hl b]
      have hle : ret (scenMean s) (cols.get ⟨0, hpos⟩) ≤ r := hr.2 ⟨_, hfr.inside _ (List.get_mem _ _), rfl⟩
      have hM : (1 : ℝ) < (cols.length : ℝ) := by exact_mod_cast hl
      have hab' : (a : ℝ) ≤ (b : ℝ) := by exact_mod_cast hab
      have := mul_le_mul_of_nonneg_right hab' (div_nonneg (sub_nonneg.2 hle) (by linarith : (0 : ℝ) ≤ cols.length - 1))
      linarith
    · intro a b _
      have : a = b := Fin.ext (by omega)
      rw [this]
  have hrt := returns_sorted hret hmono hcm
  refine ⟨_, hok, fun hM a b ha => ?_, fun a ha => ?_⟩
  · have hM' : 1 < cols.length := hM
    have ea : a = ⟨0, by omega⟩ := Fin.ext ha
    show f.returns b = f.returns a + b * ((r - f.returns a) / (cols.length - 1))
    rw [hrt, hrt, ea]
    exact hsp hM' b
  · have ea : a = ⟨0, hpos⟩ := Fin.ext ha
    refine ⟨cols.get ⟨0, hpos⟩, cvar (cols.get ⟨0, hpos⟩), hfr.inside _ (List.get_mem _ _), hcv _, ?_, fun z vz hz' hvz => ?_⟩
    · show f.returns a = _
      rw [hrt, ea]
    · rw [cvar_unique hvz (hcv z)]
      refine hfr.first _ ?_ z hz'
      rw [List.head?_eq_getElem?, List.getElem?_eq_getElem hpos]
      rfl

/-- **C179** (returns; partial, as `C179_frontier_partial`) Any two correct solvers give CVaR frontiers with the same expected returns. -/
theorem C179_returns_partial {s1 s2 : Opt.Solver} (hs1 : Sound s1) (hc1 : Complete s1) (hs2 : Sound s2) (hc2 : Complete s2) (a1 a2 : Argsort)
    (ha1 : ∀ T, IsArgsort (a1 T)) (ha2 : ∀ T, IsArgsort (a2 T)) (sim : Sim)
    (w : Wrapper N) (s : Scen N) (hscen : w.scen = some s) (hp : IsProb s.p) (hmu : w.mu = none ∨ w.mu = some (scenMean s)) (hlog : w.isLog = false)
    (con : Option (PyV.Con.Spec ℝ)) (c : PyV.Con.Spec ℝ) (hin : InForce w con c) (hb : ∃ B, ∀ x : Fin N → ℝ, Satisfies c x → ∀ i, |x i| ≤ B)
    (hne : ∃ x : Fin N → ℝ, Satisfies c x)
    (htr : Trading w none none none none) (alpha : ℝ) (h0 : 0 < alpha) (h1 : alpha < 1) (seed seed' : Option ℤ) (num : ℕ)
    (huniq : ∀ x y v, Satisfies c x → Satisfies c y → IsCvar s.p (pnl s x) (1 - alpha) v → IsCvar s.p (pnl s y) (1 - alpha) v →
      (∀ z vz, Satisfies c z → IsCvar s.p (pnl s z) (1 - alpha) vz → v ≤ vz) → ret (scenMean s) x = ret (scenMean s) y) :
    ∃ F F', w.cvarFrontier s1 a1 sim num alpha seed con none false = .ok F ∧ w.cvarFrontier s2 a2 sim num alpha seed' con none false = .ok F' ∧
      List.ofFn F'.f.returns = List.ofFn F.f.returns := by
  obtain ⟨u, -, hall⟩ := user_spec hin
  have hset : {x | Allowed u x} = {x : Fin N → ℝ | Satisfies c x} := Set.ext hall
  obtain ⟨r, hgr⟩ := greatest_return (u := u) (by obtain ⟨M, hM⟩ := hb; exact ⟨M, fun x hx => hM x ((hall x).1 hx)⟩)
    (by obtain ⟨x, hx⟩ := hne; exact ⟨x, (hall x).2 hx⟩) (scenMean s)
  rw [hset] at hgr
  obtain ⟨F, e1, f1, g1⟩ := C198_cvar hs1 hc1 a1 ha1 sim w s hscen hp hmu hlog con c hin hb hne htr alpha h0 h1 seed num false hgr huniq
  obtain ⟨F', e2, f2, g2⟩ := C198_cvar hs2 hc2 a2 ha2 sim w s hscen hp hmu hlog con c hin hb hne htr alpha h0 h1 seed' num false hgr huniq
  obtain ⟨G, G', e3, e4, e5⟩ := C179_frontier_partial hs1 hc1 hs2 hc2 a1 a2 ha1 ha2 sim w s hscen hp hmu hlog con c hin hb hne htr alpha h0 h1 seed seed' num huniq
  rw [e1] at e3
  rw [e2] at e4
  injection e3 with e3; injection e4 with e4; subst e3; subst e4
  refine ⟨F, F', e1, e2, ?_⟩
  have hM : F'.M = F.M := by simpa using congrArg List.length e5
  obtain ⟨M, f⟩ := F
  obtain ⟨M', f'⟩ := F'
  replace hM : M' = M := hM
  subst hM
  change ∀ a : Fin M', _ at g1
  change ∀ a : Fin M', _ at g2
  change 1 < M' → _ at f1
  change 1 < M' → _ at f2
  refine congrArg List.ofFn ?_
  funext (b : Fin M')
  have hpos : 0 < M' := b.pos
  obtain ⟨x, v, hx, hv, hxr, hxm⟩ := g1 ⟨0, hpos⟩ rfl
  obtain ⟨y, v', hy, hv', hyr, hym⟩ := g2 ⟨0, hpos⟩ rfl
  have he : v = v' := le_antisymm (hxm y v' hy hv') (hym x v hx hv)
  subst he
  have h00 : f'.returns ⟨0, hpos⟩ = f.returns ⟨0, hpos⟩ := by
    refine hyr.trans (Eq.trans ?_ hxr.symm)
    exact (huniq x y v hx hy hv hv' hxm).symm
  rcases Nat.lt_or_ge 1 M' with hl | hl
  · have k1 := f1 hl ⟨0, hpos⟩ b rfl
    have k2 := f2 hl ⟨0, hpos⟩ b rfl
    simp only at k1 k2
    rw [k1, k2, h00]
  · have : b = ⟨0, hpos⟩ := Fin.ext (by
      have hb' : (b : ℕ) < M' := b.2
      simp only
      omega)
    rw [this]
    exact h00

/-- The hypotheses of `C198_variance` hold for two uncorrelated assets under the default constraints, and the greatest return there is that of the first asset. -/
example : ∃ (w : Wrapper 2) (solver : Opt.Solver), Sound solver ∧ Complete solver ∧ ∃ F : AnyFrontier 2,
    w.varianceFrontier solver (fun _ _ => Equiv.refl _) 5 none none = .ok F ∧ (1 < F.M → EvenlySpaced F.f.returns (1 / 10)) := by
  obtain ⟨solver, h1, h2⟩ := exists_solver
  obtain ⟨w, hmu, hcov, -, hlog, -, hin, htr⟩ := exists_wrapper (N := 2) (by norm_num) (some ![1 / 10, 1 / 50]) (some !![1, 0; 0, 2]) none false
  have hq : ∀ x : Fin 2 → ℝ, quad (fun i j => (!![1, 0; 0, 2] : Matrix (Fin 2) (Fin 2) ℝ) i j) x = x 0 ^ 2 + 2 * x 1 ^ 2 := by
    intro x
    simp [quad, Fin.sum_univ_two]
    ring
  obtain ⟨F, a, b⟩ := C198_variance h1 h2 (fun _ _ => Equiv.refl _) w _ _ hmu hcov hlog
    ⟨by intro i j; fin_cases i <;> fin_cases j <;> simp, fun x => by
      show 0 ≤ quad _ x
      rw [hq]; positivity⟩ none _ hin default_bounded
    ⟨![1, 0], by rw [satisfies_default]; simp [Fin.sum_univ_two, Fin.forall_fin_two]⟩ (limited_default (by norm_num)) none none none none htr (by simp) 5 (r := 1 / 10)
    ⟨⟨![1, 0], (satisfies_default _).2 ⟨by intro i; fin_cases i <;> simp, by simp⟩, by simp [ret, Fin.sum_univ_two]⟩, by
      rintro _ ⟨x, hx, rfl⟩
      obtain ⟨h3, h4⟩ := (satisfies_default x).1 hx
      have := h3 1
      simp only [ret, Fin.sum_univ_two, Matrix.cons_val_zero, Matrix.cons_val_one] at h4 ⊢
      linarith⟩
    (Or.inl fun x hx => by
      rw [hq]
      by_contra hle
      have h0 : x 0 = 0 := by nlinarith [sq_nonneg (x 0), sq_nonneg (x 1)]
      have h1 : x 1 = 0 := by nlinarith [sq_nonneg (x 0), sq_nonneg (x 1)]
      exact hx (funext fun i => by fin_cases i <;> simp [h0, h1]))
  exact ⟨w, solver, h1, h2, F, a, b⟩

/-- The hypotheses of `C198_cvar` and `C179_returns_partial` hold for the scenarios (10 %, 10 %) and (5 %, 35 %). -/
example : ∃ (w : Wrapper 2) (solver : Opt.Solver), Sound solver ∧ Complete solver ∧ ∃ F F',
    w.cvarFrontier solver (fun _ x => Tuple.sort x) (fun _ _ _ _ _ _ _ => 0) 3 (1 / 2) none none none false = .ok F ∧
    w.cvarFrontier (preferring ![1, 0]) (fun _ x => Tuple.sort x) (fun _ _ _ _ _ _ _ => 0) 3 (1 / 2) none none none false = .ok F' ∧
    List.ofFn F'.f.returns = List.ofFn F.f.returns := by
  obtain ⟨solver, hs, hc⟩ := exists_solver
  obtain ⟨w, hmu, -, hsc, hlog, -, hin, htr⟩ := exists_wrapper (N := 2) (by norm_num) none none (some exScen) false
  have hone : ∀ x v, Satisfies (PyV.Con.defaultSpec : PyV.Con.Spec ℝ) x → IsCvar exScen.p (pnl exScen x) (1 - 1 / 2) v →
      (∀ z vz, Satisfies (PyV.Con.defaultSpec : PyV.Con.Spec ℝ) z → IsCvar exScen.p (pnl exScen z) (1 - 1 / 2) vz → v ≤ vz) → x = ![1, 0] := by
    intro x v hx hv hmin
    have hA := (satisfies_default ![(1 : ℝ), 0]).2 ⟨by intro i; fin_cases i <;> simp, by simp⟩
    obtain ⟨vz, hvz⟩ : ∃ vz, IsCvar exScen.p (pnl exScen ![1, 0]) (1 - 1 / 2) vz := ⟨_, cvar_two _⟩
    have h2 := hmin ![1, 0] vz hA hvz
    rw [exScen_cvar x hx v hv, exScen_cvar _ hA vz hvz] at h2
    simp only [Matrix.cons_val_zero] at h2
    obtain ⟨h3, h4⟩ := (satisfies_default _).1 hx
    rw [Fin.sum_univ_two] at h4
    have := h3 1
    have h5 : x 1 = 0 := by linarith
    have h6 : x 0 = 1 := by linarith
    funext i
    fin_cases i <;> simp [h5, h6]
  obtain ⟨F, F', h⟩ := C179_returns_partial hs hc (preferring_sound ![1, 0]) (preferring_complete _) (fun _ x => Tuple.sort x) (fun _ x => Tuple.sort x)
    (fun T x => Tuple.monotone_sort x) (fun T x => Tuple.monotone_sort x) (fun _ _ _ _ _ _ _ => 0) w exScen hsc exScen_prob (Or.inl hmu) hlog none _ hin
    default_bounded ⟨![1, 0], (satisfies_default _).2 ⟨by intro i; fin_cases i <;> simp, by simp⟩⟩ htr (1 / 2) (by norm_num) (by norm_num) none none 3
    (fun x y v hx hy hvx hvy hmin => by rw [hone x v hx hvx hmin, hone y v hy hvy hmin])
  exact ⟨w, solver, hs, hc, F, F', h⟩

end PyV.Props
