import Verif.Props.Wrapper
import Mathlib.Tactic

/-! # Properties C168–C169: variance frontiers are determined by their inputs and do not depend on the order of the assets -/

namespace PyV.Props

open PyV PyV.Api PyV.Spec.Api PyV.Opt PyV.Spec.Opt PyV.Spec.Con PyV.Spec

variable {N : ℕ}

/-- Least-risk portfolios above a return are unique. -/
def UniqueMin (allowed : Set (Fin N → ℝ)) (rt risk : (Fin N → ℝ) → ℝ) : Prop :=
  ∀ t : ℝ, ∀ u ∈ allowed, ∀ v ∈ allowed, t ≤ rt u → t ≤ rt v → (∀ x ∈ allowed, t ≤ rt x → risk u ≤ risk x) →
    (∀ x ∈ allowed, t ≤ rt x → risk v ≤ risk x) → u = v

theorem frontier_unique {allowed : Set (Fin N → ℝ)} {rt risk : (Fin N → ℝ) → ℝ} {num : ℕ} {c d : List (Fin N → ℝ)}
    (h1 : IsFrontier allowed rt risk num c) (h2 : IsFrontier allowed rt risk num d) {r : ℝ} (hr : IsGreatest (rt '' allowed) r)
    (hu : UniqueMin allowed rt risk) : c = d := by
  obtain ⟨v, c', rfl⟩ := List.exists_cons_of_ne_nil h1.nonempty
  obtain ⟨v', d', rfl⟩ := List.exists_cons_of_ne_nil h2.nonempty
  have hv : v = v' := by
    have a1 := h1.first v rfl
    have a2 := h2.first v' rfl
    exact hu (min (rt v) (rt v')) v (h1.inside _ (by simp)) v' (h2.inside _ (by simp)) (min_le_left _ _) (min_le_right _ _)
      (fun x hx _ => a1 x hx) (fun x hx _ => a2 x hx)
  subst hv
  have hlen1 : (v :: c').length = 1 → (v :: d').length = 1 := by
    intro h
    rcases h1.len with h' | ⟨-, h' | h'⟩
    · rcases h2.len with h'' | h''
      · omega
      · exact h''.1
    · rcases h2.len with h'' | h''
      · rw [h'] at h''; simp at h''
      · exact h''.1
    · exact h2.flat v rfl r hr (h' v rfl r hr)
  have hlen2 : (v :: d').length = 1 → (v :: c').length = 1 := by
    intro h
    rcases h2.len with h' | ⟨-, h' | h'⟩
    · rcases h1.len with h'' | h''
      · omega
      · exact h''.1
    · rcases h1.len with h'' | h''
      · rw [h'] at h''; simp at h''
      · exact h''.1
    · exact h1.flat v rfl r hr (h' v rfl r hr)
  by_cases hone : (v :: c').length = 1
  · have := hlen1 hone
    simp at hone this
    rw [hone, this]
  have hone' : (v :: d').length ≠ 1 := fun h => hone (hlen2 h)
  have hlen : (v :: c').length = (v :: d').length := by
    rcases h1.len with h | h
    · rcases h2.len with h' | h'
      · omega
      · exact absurd h'.1 hone'
    · exact absurd h.1 hone
  have hgt1 : 1 < (v :: c').length := by simp at hone ⊢; exact List.length_pos_of_ne_nil hone
  have hgt2 : 1 < (v :: d').length := by omega
  apply List.ext_getElem hlen
  intro k hk1 hk2
  have e1 := List.getElem?_eq_getElem hk1
  have e2 := List.getElem?_eq_getElem hk2
  exact hu _ _ (h1.inside _ (List.getElem_mem hk1)) _ (h2.inside _ (List.getElem_mem hk2)) (h1.grid k _ e1 v rfl r hr hgt1)
    (h2.grid k _ e2 v rfl r hr hgt2) (h1.least k _ e1 v rfl r hr hgt1) (h2.least k _ e2 v rfl r hr hgt2)

theorem frontier_image {M : ℕ} {allowed : Set (Fin N → ℝ)} {allowed' : Set (Fin M → ℝ)} {rt risk : (Fin N → ℝ) → ℝ} {rt' risk' : (Fin M → ℝ) → ℝ} {num : ℕ} {c : List (Fin N → ℝ)}
    (e : (Fin N → ℝ) → (Fin M → ℝ)) (ha : ∀ x, e x ∈ allowed' ↔ x ∈ allowed) (hon : ∀ y ∈ allowed', ∃ x, e x = y) (hrt : ∀ x, rt' (e x) = rt x) (hrk : ∀ x, risk' (e x) = risk x)
    (h : IsFrontier allowed rt risk num c) : IsFrontier allowed' rt' risk' num (c.map e) := by
  have hall : ∀ P : (Fin M → ℝ) → Prop, (∀ v ∈ allowed', P v) ↔ ∀ x ∈ allowed, P (e x) := by
    intro P
    constructor
    · intro h x hx; exact h _ ((ha x).mpr hx)
    · intro h v hv
      obtain ⟨x, rfl⟩ := hon v hv
      exact h x ((ha x).mp hv)
  have hgr : ∀ r, IsGreatest (rt' '' allowed') r → IsGreatest (rt '' allowed) r := by
    rintro r ⟨⟨y, hy, rfl⟩, h2⟩
    obtain ⟨x, rfl⟩ := hon y hy
    refine ⟨⟨x, (ha x).mp hy, (hrt x).symm⟩, ?_⟩
    rintro _ ⟨y, hy, rfl⟩
    rw [← hrt]
    exact h2 ⟨e y, (ha y).mpr hy, rfl⟩
  have hget : ∀ (k : ℕ) w, (c.map e)[k]? = some w → ∃ x, c[k]? = some x ∧ w = e x := by
    intro k w hw
    rw [List.getElem?_map] at hw
    obtain ⟨x, hx, rfl⟩ := Option.map_eq_some_iff.mp hw
    exact ⟨x, hx, rfl⟩
  have hhead : ∀ w, (c.map e).head? = some w → ∃ x, c.head? = some x ∧ w = e x := by
    intro w hw
    rw [List.head?_map] at hw
    obtain ⟨x, hx, rfl⟩ := Option.map_eq_some_iff.mp hw
    exact ⟨x, hx, rfl⟩
  refine ⟨?_, ?_, ?_, ?_, ?_, ?_, ?_, ?_, ?_, ?_⟩
  · intro w hw
    obtain ⟨x, hx, rfl⟩ := List.mem_map.mp hw
    exact (ha x).mpr (h.inside x hx)
  · intro w hw
    obtain ⟨x, hx, rfl⟩ := List.mem_map.mp hw
    rw [hall (fun v => rt' (e x) ≤ rt' v → risk' (e x) ≤ risk' v)]
    intro y hy
    rw [hrt, hrt, hrk, hrk]
    exact h.efficient x hx y hy
  · intro w hw
    obtain ⟨x, hx, rfl⟩ := hhead w hw
    rw [hall (fun v => risk' (e x) ≤ risk' v)]
    intro y hy
    rw [hrk, hrk]
    exact h.first x hx y hy
  · rw [List.pairwise_map]
    exact h.mono.imp fun {a b} hab => by rw [hrk, hrk]; exact hab
  · intro k w hw v hv r hr hl
    obtain ⟨x, hx, rfl⟩ := hget k w hw
    obtain ⟨y, hy, rfl⟩ := hhead v hv
    rw [hrt, hrt]
    exact h.grid k x hx y hy r (hgr r hr) (by simpa using hl)
  · intro k w hw v hv r hr hl
    obtain ⟨x, hx, rfl⟩ := hget k w hw
    obtain ⟨y, hy, rfl⟩ := hhead v hv
    rw [hall (fun u => rt' (e y) + k * ((r - rt' (e y)) / (num - 1)) ≤ rt' u → risk' (e x) ≤ risk' u)]
    intro z hz
    rw [hrt, hrt, hrk, hrk]
    exact h.least k x hx y hy r (hgr r hr) (by simpa using hl) z hz
  · intro w hw r hr hc
    obtain ⟨x, hx, rfl⟩ := hhead w hw
    rw [hrt] at hc
    rw [List.length_map]
    exact h.flat x hx r (hgr r hr) hc
  · simpa using h.nonempty
  · rw [List.length_map]
    rcases h.len with h' | ⟨h1, h' | h'⟩
    · exact Or.inl h'
    · exact Or.inr ⟨h1, Or.inl h'⟩
    · refine Or.inr ⟨h1, Or.inr fun w hw r hr => ?_⟩
      obtain ⟨x, hx, rfl⟩ := hhead w hw
      rw [hrt]
      exact h' x hx r (hgr r hr)
  · intro w hw hl
    rw [List.getLast?_map] at hw
    obtain ⟨x, hx, rfl⟩ := Option.map_eq_some_iff.mp hw
    rw [hall (fun v => rt' v ≤ rt' (e x))]
    intro y hy
    rw [hrt, hrt]
    exact h.top x hx (by simpa using hl) y hy

theorem frontier_map {allowed allowed' : Set (Fin N → ℝ)} {rt rt' risk risk' : (Fin N → ℝ) → ℝ} {num : ℕ} {c : List (Fin N → ℝ)}
    (e : (Fin N → ℝ) ≃ (Fin N → ℝ)) (ha : ∀ x, e x ∈ allowed' ↔ x ∈ allowed) (hrt : ∀ x, rt' (e x) = rt x) (hrk : ∀ x, risk' (e x) = risk x)
    (h : IsFrontier allowed rt risk num c) : IsFrontier allowed' rt' risk' num (c.map e) :=
  frontier_image e ha (fun y _ => ⟨e.symm y, e.apply_symm_apply y⟩) hrt hrk h

private theorem cost_midpoint (C : Fin N → Fin N → ℝ) (w0 imp : Option (Fin N → ℝ)) (himp : ∀ l, imp = some l → ∀ i, 0 ≤ l i) (u v : Fin N → ℝ) :
    varianceCost C w0 imp (fun i => (u i + v i) / 2) ≤
      (varianceCost C w0 imp u + varianceCost C w0 imp v) / 2 - quad C (fun i => u i - v i) / 4 := by
  have hq : quad C (fun i => (u i + v i) / 2) = (quad C u + quad C v) / 2 - quad C (fun i => u i - v i) / 4 := by
    unfold quad
    rw [← Finset.sum_add_distrib, Finset.sum_div, Finset.sum_div, ← Finset.sum_sub_distrib]
    refine Finset.sum_congr rfl fun i _ => ?_
    rw [← Finset.sum_add_distrib, Finset.sum_div, Finset.sum_div, ← Finset.sum_sub_distrib]
    exact Finset.sum_congr rfl fun j _ => by ring
  have hi : ∑ i, (imp.getD 0) i * ((u i + v i) / 2 - (w0.getD (fun i => (u i + v i) / 2)) i) ^ 2 ≤
      (∑ i, (imp.getD 0) i * (u i - (w0.getD u) i) ^ 2 + ∑ i, (imp.getD 0) i * (v i - (w0.getD v) i) ^ 2) / 2 := by
    rw [← Finset.sum_add_distrib, Finset.sum_div]
    refine Finset.sum_le_sum fun i _ => ?_
    have h0 : 0 ≤ (imp.getD 0) i := by
      cases imp with
      | none => simp
      | some l => exact himp l rfl i
    cases w0 with
    | none => simp
    | some a =>
      simp only [Option.getD_some]
      have : ((u i + v i) / 2 - a i) ^ 2 ≤ ((u i - a i) ^ 2 + (v i - a i) ^ 2) / 2 := by nlinarith [sq_nonneg (u i - v i)]
      calc _ ≤ (imp.getD 0) i * (((u i - a i) ^ 2 + (v i - a i) ^ 2) / 2) := mul_le_mul_of_nonneg_left this h0
        _ = _ := by ring
  unfold varianceCost
  rw [hq]
  linarith

theorem unique_min {C : Fin N → Fin N → ℝ} (hpd : ∀ x : Fin N → ℝ, x ≠ 0 → 0 < quad C x) (w0 imp : Option (Fin N → ℝ))
    (himp : ∀ l, imp = some l → ∀ i, 0 ≤ l i) (u : Opt.User N) (mu : Fin N → ℝ) :
    UniqueMin {x | Allowed u x} (ret mu) (varianceCost C w0 imp) := by
  intro t x hx y hy htx hty hmx hmy
  by_contra hne
  have hmid : Allowed u (fun i => (x i + y i) / 2) := by
    have hlin : ∀ r : Fin N → ℝ, ∑ i, r i * ((x i + y i) / 2) = (∑ i, r i * x i + ∑ i, r i * y i) / 2 := by
      intro r
      rw [← Finset.sum_add_distrib, Finset.sum_div]
      exact Finset.sum_congr rfl fun i _ => by ring
    exact ⟨fun r hr => by rw [hlin]; linarith [hx.1 r hr, hy.1 r hr], fun r hr => by rw [hlin, hx.2 r hr, hy.2 r hr]; ring⟩
  have hret : t ≤ ret mu (fun i => (x i + y i) / 2) := by
    have : ret mu (fun i => (x i + y i) / 2) = (ret mu x + ret mu y) / 2 := by
      unfold ret
      rw [← Finset.sum_add_distrib, Finset.sum_div]
      exact Finset.sum_congr rfl fun i _ => by ring
    rw [this]; linarith
  have h1 := cost_midpoint C w0 imp himp x y
  have h2 := hpd (fun i => x i - y i) (fun h => hne (funext fun i => sub_eq_zero.mp (congrFun h i)))
  have h3 := hmx _ hmid hret
  have h4 := hmy x hx htx
  linarith

theorem greatest_return {u : Opt.User N} (hb : ∃ M, ∀ w, Allowed u w → ∀ i, |w i| ≤ M) (hne : ∃ w, Allowed u w) (mu : Fin N → ℝ) :
    ∃ r, IsGreatest (ret mu '' {x | Allowed u x}) r := by
  obtain ⟨w, hw⟩ := hne
  obtain ⟨b, hb1, hb2⟩ := PyV.Opt.exists_min u mu none hb ⟨w, hw, by simp⟩ (fun v => -(ret mu v)) (by unfold ret; fun_prop)
  refine ⟨ret mu b, ⟨b, hb1.1, rfl⟩, ?_⟩
  rintro _ ⟨y, hy, rfl⟩
  have := hb2 y ⟨hy, by simp⟩
  linarith

/-- What a frontier lists: its portfolios with their expected returns and volatilities, in order. -/
def listing (F : AnyFrontier N) : List ((Fin N → ℝ) × ℝ × ℝ) :=
  List.ofFn (fun j : Fin F.M => ((fun i => F.f.weights i j), F.f.returns j, F.f.risks j))

theorem listing_eq {cols : List (Fin N → ℝ)} {f : Fr.Frontier String ℝ N cols.length} {mu : Fin N → ℝ} {C : Fin N → Fin N → ℝ}
    (h : ∀ j, (∀ i, f.weights i j = cols.get j i) ∧ f.returns j = ret mu (cols.get j) ∧ f.risks j = Real.sqrt (quad C (cols.get j))) :
    listing ⟨cols.length, f⟩ = cols.map (fun x => (x, ret mu x, Real.sqrt (quad C x))) := by
  unfold listing
  apply List.ext_getElem
  · simp
  · intro k h1 h2
    simp only [List.getElem_ofFn, List.getElem_map]
    obtain ⟨a, b, c⟩ := h ⟨k, by simpa using h2⟩
    simp only [List.get_eq_getElem] at a b c
    rw [b, c]
    congr 1
    exact funext a

/-- **C169** (asset order) Two wrappers describe the same assets in different orders: means, covariances, trading costs and constraints correspond
under `σ`.  Then their variance frontiers, computed by any correct solvers, list the same portfolios (in the respective orders) with the same
returns and volatilities — provided the covariance is positive definite, so that optimal portfolios are unique. -/
theorem C169_asset_order {s1 s2 : Opt.Solver} (hs1 : Sound s1) (hc1 : Complete s1) (hs2 : Sound s2) (hc2 : Complete s2) (a1 a2 : Argsort)
    (σ : Equiv.Perm (Fin N)) (w w' : Wrapper N) (mu : Fin N → ℝ) (cov : Matrix (Fin N) (Fin N) ℝ)
    (hmu : w.mu = some mu) (hcov : w.cov = some cov) (hlog : w.isLog = false)
    (hmu' : w'.mu = some (fun i => mu (σ i))) (hcov' : w'.cov = some (cov.submatrix σ σ)) (hlog' : w'.isLog = false)
    (hpsd : IsCov (fun i j => cov i j)) (hpd : ∀ x : Fin N → ℝ, x ≠ 0 → 0 < quad (fun i j => cov i j) x)
    (con con' : Option (PyV.Con.Spec ℝ)) (c c' : PyV.Con.Spec ℝ) (hin : InForce w con c) (hin' : InForce w' con' c')
    (hcc : ∀ x : Fin N → ℝ, Satisfies c' (fun i => x (σ i)) ↔ Satisfies c x)
    (hb : ∃ M, ∀ x : Fin N → ℝ, Satisfies c x → ∀ i, |x i| ≤ M) (hne : ∃ x : Fin N → ℝ, Satisfies c x) (hlim : Limited N c) (hlim' : Limited N c')
    (costs costs' : Option Costs) (w0 imp prop prop' : Option (Fin N → ℝ)) (htr : Trading w costs w0 imp prop)
    (htr' : Trading w' costs' (w0.map fun v i => v (σ i)) (imp.map fun v i => v (σ i)) prop')
    (himp : ∀ l, imp = some l → ∀ i, 0 ≤ l i) (num : ℕ) :
    ∃ F F', w.varianceFrontier s1 a1 num con costs = .ok F ∧ w'.varianceFrontier s2 a2 num con' costs' = .ok F' ∧
      listing F' = (listing F).map (fun p => (fun i => p.1 (σ i), p.2)) := by
  have hret : ∀ x, ret (fun i => mu (σ i)) (fun i => x (σ i)) = ret mu x := by
    intro x; unfold ret
    exact Equiv.sum_comp σ (fun i => mu i * x i)
  have hquad : ∀ x, quad (fun i j => (cov.submatrix σ σ) i j) (fun i => x (σ i)) = quad (fun i j => cov i j) x := by
    intro x; unfold quad
    simp only [Matrix.submatrix_apply]
    rw [Equiv.sum_comp σ (fun i => ∑ j, x i * cov i (σ j) * x (σ j))]
    exact Finset.sum_congr rfl fun i _ => Equiv.sum_comp σ (fun j => x i * cov i j * x j)
  have hcost : ∀ x, varianceCost (fun i j => (cov.submatrix σ σ) i j) (w0.map fun v i => v (σ i)) (imp.map fun v i => v (σ i)) (fun i => x (σ i)) =
      varianceCost (fun i j => cov i j) w0 imp x := by
    intro x; unfold varianceCost
    rw [hquad]
    congr 1
    rw [← Equiv.sum_comp σ (fun i => (imp.getD 0) i * (x i - (w0.getD x) i) ^ 2)]
    refine Finset.sum_congr rfl fun i _ => ?_
    cases w0 <;> cases imp <;> simp
  let e : (Fin N → ℝ) ≃ (Fin N → ℝ) := ⟨fun x i => x (σ i), fun x i => x (σ.symm i), fun x => by simp, fun x => by simp⟩
  have hpsd' : IsCov (fun i j => (cov.submatrix σ σ) i j) := by
    refine ⟨fun i j => hpsd.1 (σ i) (σ j), fun x => ?_⟩
    have := hquad (e.symm x)
    have hx : (fun i => (e.symm x) (σ i)) = x := e.apply_symm_apply x
    rw [hx] at this
    show 0 ≤ quad _ x
    rw [this]
    exact hpsd.2 _
  have hb' : ∃ M, ∀ x : Fin N → ℝ, Satisfies c' x → ∀ i, |x i| ≤ M := by
    obtain ⟨M, hM⟩ := hb
    refine ⟨M, fun x hx i => ?_⟩
    have hx' : (fun i => (e.symm x) (σ i)) = x := e.apply_symm_apply x
    have := hM (e.symm x) ((hcc _).mp (by rw [hx']; exact hx)) (σ i)
    rwa [congrFun hx' i] at this
  have hne' : ∃ x : Fin N → ℝ, Satisfies c' x := by
    obtain ⟨x, hx⟩ := hne; exact ⟨_, (hcc x).mpr hx⟩
  obtain ⟨cols, f, h1, h2, h3⟩ := C105_variance_frontier_partial hs1 hc1 a1 w mu cov hmu hcov hlog hpsd con c hin hb hne hlim costs w0 imp prop htr himp num
  obtain ⟨cols', f', h1', h2', h3'⟩ := C105_variance_frontier_partial hs2 hc2 a2 w' _ _ hmu' hcov' hlog' hpsd' con' c' hin' hb' hne' hlim' costs' _ _ prop' htr'
    (by
      intro l hl i
      cases imp with
      | none => cases hl
      | some l' => injection hl with hl; subst hl; exact himp l' rfl _) num
  have hm : IsFrontier {x | Satisfies c' x} (ret fun i => mu (σ i)) (varianceCost (fun i j => (cov.submatrix σ σ) i j)
      (w0.map fun v i => v (σ i)) (imp.map fun v i => v (σ i))) num (cols.map e) :=
    frontier_map e hcc hret hcost h2
  obtain ⟨u, -, hall⟩ := user_spec hin'
  have hset : {x | Allowed u x} = {x : Fin N → ℝ | Satisfies c' x} := Set.ext hall
  obtain ⟨r, hr⟩ := greatest_return (u := u) (by obtain ⟨M, hM⟩ := hb'; exact ⟨M, fun x hx => hM x ((hall x).1 hx)⟩)
    (by obtain ⟨x, hx⟩ := hne'; exact ⟨x, (hall x).2 hx⟩) (fun i => mu (σ i))
  have huq := unique_min (C := fun i j => (cov.submatrix σ σ) i j) (fun x hx => by
      have h := hquad (e.symm x)
      have hx' : (fun i => (e.symm x) (σ i)) = x := e.apply_symm_apply x
      rw [hx'] at h
      rw [h]
      refine hpd _ fun h0 => hx ?_
      rw [← hx', h0]; rfl) (w0.map fun v i => v (σ i)) (imp.map fun v i => v (σ i)) (by
      intro l hl i
      cases imp with
      | none => cases hl
      | some l' => injection hl with hl; subst hl; exact himp l' rfl _) u (fun i => mu (σ i))
  rw [hset] at hr huq
  have heq := frontier_unique h2' hm hr huq
  refine ⟨_, _, h1, h1', ?_⟩
  rw [listing_eq h3, listing_eq h3', heq, List.map_map, List.map_map]
  refine List.map_congr_left fun x _ => ?_
  show (e x, ret (fun i => mu (σ i)) (e x), Real.sqrt (quad _ (e x))) = _
  rw [show ret (fun i => mu (σ i)) (e x) = ret mu x from hret x, show quad _ (e x) = _ from hquad x]
  rfl

/-- **C168** (one frontier) With a positive definite covariance, the variance frontier does not depend on the solver: any two correct solvers
give the same portfolios, returns and volatilities. -/
theorem C168_solver_independent {s1 s2 : Opt.Solver} (hs1 : Sound s1) (hc1 : Complete s1) (hs2 : Sound s2) (hc2 : Complete s2) (a1 a2 : Argsort)
    (w : Wrapper N) (mu : Fin N → ℝ) (cov : Matrix (Fin N) (Fin N) ℝ)
    (hmu : w.mu = some mu) (hcov : w.cov = some cov) (hlog : w.isLog = false)
    (hpsd : IsCov (fun i j => cov i j)) (hpd : ∀ x : Fin N → ℝ, x ≠ 0 → 0 < quad (fun i j => cov i j) x)
    (con : Option (PyV.Con.Spec ℝ)) (c : PyV.Con.Spec ℝ) (hin : InForce w con c)
    (hb : ∃ M, ∀ x : Fin N → ℝ, Satisfies c x → ∀ i, |x i| ≤ M) (hne : ∃ x : Fin N → ℝ, Satisfies c x) (hlim : Limited N c)
    (costs : Option Costs) (w0 imp prop : Option (Fin N → ℝ)) (htr : Trading w costs w0 imp prop)
    (himp : ∀ l, imp = some l → ∀ i, 0 ≤ l i) (num : ℕ) :
    ∃ F F', w.varianceFrontier s1 a1 num con costs = .ok F ∧ w.varianceFrontier s2 a2 num con costs = .ok F' ∧ listing F' = listing F := by
  have h := C169_asset_order hs1 hc1 hs2 hc2 a1 a2 (Equiv.refl _) w w mu cov hmu hcov hlog hmu hcov hlog hpsd hpd con con c c hin hin
    (fun x => Iff.rfl) hb hne hlim hlim costs costs w0 imp prop prop htr (by simpa using htr) himp num
  simpa using h

/-- **C168** (one portfolio) Likewise the minimum-variance portfolio at a target return: any two correct solvers give the same portfolio, return
and volatility, or both refuse. -/
theorem C168_min_variance {s1 s2 : Opt.Solver} (hs1 : Sound s1) (hc1 : Complete s1) (hs2 : Sound s2) (hc2 : Complete s2)
    (w : Wrapper N) (mu : Fin N → ℝ) (cov : Matrix (Fin N) (Fin N) ℝ)
    (hmu : w.mu = some mu) (hcov : w.cov = some cov) (hlog : w.isLog = false)
    (hpsd : IsCov (fun i j => cov i j)) (hpd : ∀ x : Fin N → ℝ, x ≠ 0 → 0 < quad (fun i j => cov i j) x)
    (con : Option (PyV.Con.Spec ℝ)) (c : PyV.Con.Spec ℝ) (hin : InForce w con c)
    (hb : ∃ M, ∀ x : Fin N → ℝ, Satisfies c x → ∀ i, |x i| ≤ M)
    (costs : Option Costs) (w0 imp prop : Option (Fin N → ℝ)) (htr : Trading w costs w0 imp prop)
    (himp : ∀ l, imp = some l → ∀ i, 0 ≤ l i) (target : ℝ) :
    (∃ r r', w.minVarianceAtReturn s1 target con costs = .ok r ∧ w.minVarianceAtReturn s2 target con costs = .ok r' ∧
      r.w = r'.w ∧ r.ret = r'.ret ∧ r.risk = r'.risk) ∨
    (w.minVarianceAtReturn s1 target con costs = .error .infeasible ∧ w.minVarianceAtReturn s2 target con costs = .error .infeasible) := by
  obtain ⟨h1, h1'⟩ := C107_min_variance_at_return hs1 hc1 w mu cov hmu hcov hlog hpsd con c hin hb costs w0 imp prop htr himp target
  obtain ⟨h2, h2'⟩ := C107_min_variance_at_return hs2 hc2 w mu cov hmu hcov hlog hpsd con c hin hb costs w0 imp prop htr himp target
  by_cases hex : ∃ x : Fin N → ℝ, Satisfies c x ∧ target ≤ ret mu x
  · left
    obtain ⟨r, e, a1, a2, a3, a4, a5⟩ := h1 hex
    obtain ⟨r', e', b1, b2, b3, b4, b5⟩ := h2 hex
    obtain ⟨u, -, hall⟩ := user_spec hin
    have huq := unique_min hpd w0 imp himp u mu
    have hset : {x | Allowed u x} = {x : Fin N → ℝ | Satisfies c x} := Set.ext hall
    rw [hset] at huq
    have hw : r.w = r'.w := huq target r.w a1 r'.w b1 (by rw [← a3]; exact a2) (by rw [← b3]; exact b2) a5 b5
    exact ⟨r, r', e, e', hw, by rw [a3, b3, hw], by rw [a4, b4, hw]⟩
  · right
    push Not at hex
    exact ⟨h1' hex, h2' hex⟩

/-- The hypotheses of C168 and C169 hold: two assets, their order exchanged, positive definite covariance, default constraints. -/
example : ∃ (w w' : Wrapper 2) (solver : Opt.Solver), Sound solver ∧ Complete solver ∧ ∃ F F',
    w.varianceFrontier solver (fun _ _ => Equiv.refl _) 5 none none = .ok F ∧ w'.varianceFrontier solver (fun _ _ => Equiv.refl _) 5 none none = .ok F' ∧
      listing F' = (listing F).map (fun p => (fun i => p.1 (Equiv.swap 0 1 i), p.2)) := by
  obtain ⟨solver, h1, h2⟩ := exists_solver
  obtain ⟨w, hmu, hcov, -, hlog, -, hin, htr⟩ := exists_wrapper (N := 2) (by norm_num) (some ![1 / 10, 1 / 50])
    (some !![1, 0; 0, 2]) none false
  obtain ⟨w', hmu', hcov', -, hlog', -, hin', htr'⟩ := exists_wrapper (N := 2) (by norm_num)
    (some fun i => ![1 / 10, 1 / 50] (Equiv.swap (0 : Fin 2) 1 i)) (some ((!![1, 0; 0, 2] : Matrix (Fin 2) (Fin 2) ℝ).submatrix
      (Equiv.swap (0 : Fin 2) 1) (Equiv.swap (0 : Fin 2) 1))) none false
  have hq : ∀ x : Fin 2 → ℝ, quad (fun i j => (!![1, 0; 0, 2] : Matrix (Fin 2) (Fin 2) ℝ) i j) x = x 0 ^ 2 + 2 * x 1 ^ 2 := by
    intro x
    simp [quad, Fin.sum_univ_two]
    ring
  obtain ⟨F, F', a, b, c⟩ := C169_asset_order h1 h2 h1 h2 (fun _ _ => Equiv.refl _) (fun _ _ => Equiv.refl _) (Equiv.swap (0 : Fin 2) 1) w w' _ _ hmu hcov hlog hmu' hcov' hlog'
    ⟨by intro i j; fin_cases i <;> fin_cases j <;> simp, fun x => by
      show 0 ≤ quad _ x
      rw [hq]; positivity⟩
    (fun x hx => by
      rw [hq]
      by_contra hle
      have h0 : x 0 = 0 := by nlinarith [sq_nonneg (x 0), sq_nonneg (x 1)]
      have h1 : x 1 = 0 := by nlinarith [sq_nonneg (x 0), sq_nonneg (x 1)]
      exact hx (funext fun i => by fin_cases i <;> simp [h0, h1]))
    none none _ _ hin hin' (fun x => by
      rw [satisfies_default, satisfies_default]
      simp [Fin.sum_univ_two, Fin.forall_fin_two, add_comm, and_comm])
    default_bounded ⟨![1, 0], by rw [satisfies_default]; simp [Fin.sum_univ_two, Fin.forall_fin_two]⟩
    (limited_default (by norm_num)) (limited_default (by norm_num)) none none none none none none htr htr' (by simp) 5
  exact ⟨w, w', solver, h1, h2, F, F', a, b, c⟩

end PyV.Props
