import Verif.Props.Transfer
import Mathlib.Tactic

/-! # Property C233: excluding an asset by its bounds is the same as not listing it -/

namespace PyV.Props

open PyV PyV.Api PyV.Spec.Api PyV.Opt PyV.Spec.Opt PyV.Spec.Con PyV.Risk PyV.Spec

variable {N M : ℕ}

/-- The constraints of the larger problem allow exactly the portfolios that hold nothing outside `keep` and are allowed in the smaller problem. -/
def Excludes (keep : Fin N ↪ Fin M) (c c' : PyV.Con.Spec ℝ) : Prop :=
  ∀ y : Fin M → ℝ, Satisfies c' y ↔ (∀ l, l ∉ Set.range keep → y l = 0) ∧ Satisfies c (fun i => y (keep i))

theorem embed_restrict {keep : Fin N ↪ Fin M} {y : Fin M → ℝ} (h : ∀ l, l ∉ Set.range keep → y l = 0) : embed keep (fun i => y (keep i)) = y := by
  funext l
  by_cases hl : l ∈ Set.range keep
  · obtain ⟨i, rfl⟩ := hl
    exact embed_apply keep _ i
  · rw [embed_off keep _ hl, h l hl]

theorem excludes_embed {keep : Fin N ↪ Fin M} {c c' : PyV.Con.Spec ℝ} (h : Excludes keep c c') (x : Fin N → ℝ) :
    Satisfies c' (embed keep x) ↔ Satisfies c x := by
  rw [h]
  have e : (fun i => embed keep x (keep i)) = x := funext fun i => embed_apply keep x i
  rw [e]
  exact ⟨fun h => h.2, fun hx => ⟨fun l hl => embed_off keep x hl, hx⟩⟩

theorem bounded_excluding {keep : Fin N ↪ Fin M} {c c' : PyV.Con.Spec ℝ} (h : Excludes keep c c')
    (hb : ∃ B, ∀ x : Fin N → ℝ, Satisfies c x → ∀ i, |x i| ≤ B) : ∃ B, ∀ y : Fin M → ℝ, Satisfies c' y → ∀ l, |y l| ≤ B := by
  obtain ⟨B, hB⟩ := hb
  refine ⟨max B 0, fun y hy l => ?_⟩
  obtain ⟨h1, h2⟩ := (h y).1 hy
  by_cases hl : l ∈ Set.range keep
  · obtain ⟨i, rfl⟩ := hl
    exact (hB _ h2 i).trans (le_max_left _ _)
  · rw [h1 l hl, abs_zero]
    exact le_max_right _ _

private theorem isCov_keep (keep : Fin N ↪ Fin M) {cov : Matrix (Fin M) (Fin M) ℝ} (h : IsCov (fun i j => cov i j)) :
    IsCov (fun i j => (cov.submatrix keep keep) i j) :=
  ⟨fun i j => h.1 _ _, fun x => by
    show 0 ≤ quad _ x
    rw [← quad_embed keep (C := fun i j => (cov.submatrix keep keep) i j) (C' := fun i j => cov i j) (fun i j => rfl) x]
    exact h.2 _⟩

/-- **C233** (variance) A minimum-variance problem in which some assets are excluded by the constraints has the same least volatility as the problem in which
these assets are not listed at all, or both report infeasibility; the excluded assets are not held, and with a positive definite covariance of the others
the holdings are the same. -/
theorem C233_min_variance {s1 s2 : Opt.Solver} (hs1 : Sound s1) (hc1 : Complete s1) (hs2 : Sound s2) (hc2 : Complete s2)
    (w : Wrapper N) (w' : Wrapper M) (keep : Fin N ↪ Fin M) (mu : Fin M → ℝ) (cov : Matrix (Fin M) (Fin M) ℝ)
    (hmu : w.mu = some (fun i => mu (keep i))) (hcov : w.cov = some (cov.submatrix keep keep)) (hlog : w.isLog = false)
    (hmu' : w'.mu = some mu) (hcov' : w'.cov = some cov) (hlog' : w'.isLog = false) (hpsd : IsCov (fun i j => cov i j))
    (con con' : Option (PyV.Con.Spec ℝ)) (c c' : PyV.Con.Spec ℝ) (hin : InForce w con c) (hin' : InForce w' con' c') (hex : Excludes keep c c')
    (hb : ∃ B, ∀ x : Fin N → ℝ, Satisfies c x → ∀ i, |x i| ≤ B)
    (htr : Trading w none none none none) (htr' : Trading w' none none none none) (target : ℝ) :
    (∃ r r', w.minVarianceAtReturn s1 target con none = .ok r ∧ w'.minVarianceAtReturn s2 target con' none = .ok r' ∧ r'.risk = r.risk ∧
      (∀ l, l ∉ Set.range keep → r'.w l = 0) ∧
      ((∀ x : Fin N → ℝ, x ≠ 0 → 0 < quad (fun i j => cov (keep i) (keep j)) x) → (∀ i, r'.w (keep i) = r.w i) ∧ r'.ret = r.ret)) ∨
    (w.minVarianceAtReturn s1 target con none = .error .infeasible ∧ w'.minVarianceAtReturn s2 target con' none = .error .infeasible) := by
  have hb' := bounded_excluding hex hb
  have h := transfer_variance hs1 hc1 hs2 hc2 w w' _ _ mu cov hmu hcov hlog hmu' hcov' hlog' (isCov_keep keep hpsd) hpsd con con' c c' hin hin' hb hb' htr htr'
    (k := 1) one_pos (embed keep) (fun y i => y (keep i)) (fun x hx => (excludes_embed hex x).2 hx) (fun y hy => ((hex y).1 hy).2)
    (fun x => by rw [one_mul]; exact ret_embed keep (fun _ => rfl) x)
    (fun y hy => by
      rw [one_mul, ← ret_embed keep (mu' := mu) (fun _ => rfl), embed_restrict ((hex y).1 hy).1])
    (fun x => by rw [one_pow, one_mul]; exact quad_embed keep (fun _ _ => rfl) x)
    (fun y hy => by
      rw [one_pow, one_mul, ← quad_embed keep (C := fun i j => (cov.submatrix keep keep) i j) (C' := fun i j => cov i j) (fun _ _ => rfl), embed_restrict ((hex y).1 hy).1]) target
  rcases h with ⟨r, r', e, e', hr, hw⟩ | h
  · rw [one_mul] at e' hr
    refine .inl ⟨r, r', e, e', hr, ?_, fun hpd => ?_⟩
    · obtain ⟨k1, k2⟩ := C107_min_variance_at_return hs2 hc2 w' mu cov hmu' hcov' hlog' hpsd con' c' hin' hb' none none none none htr' (by simp) target
      by_cases hf : ∃ y : Fin M → ℝ, Satisfies c' y ∧ target ≤ ret mu y
      · obtain ⟨r2, e2, hs, -⟩ := k1 hf
        rw [e'] at e2
        injection e2 with e2
        subst e2
        exact ((hex _).1 hs).1
      · push Not at hf
        rw [k2 hf] at e'
        cases e'
    · obtain ⟨h1, h2⟩ := hw hpd
      rw [one_mul] at h2
      exact ⟨fun i => congrFun h1 i, h2⟩
  · rw [one_mul] at h
    exact .inr h

/-- **C233** (CVaR) The same for `min_cvar_at_return` on scenarios. -/
theorem C233_min_cvar {s1 s2 : Opt.Solver} (hs1 : Sound s1) (hc1 : Complete s1) (hs2 : Sound s2) (hc2 : Complete s2) (a1 a2 : Argsort)
    (ha1 : ∀ T, IsArgsort (a1 T)) (ha2 : ∀ T, IsArgsort (a2 T)) (sim : Sim) (w : Wrapper N) (w' : Wrapper M) (keep : Fin N ↪ Fin M)
    {T : ℕ} (R : Fin T → Fin M → ℝ) (p : Fin T → ℝ) (hp : IsProb p)
    (hsc : w.scen = some ⟨T, fun t i => R t (keep i), p⟩) (hsc' : w'.scen = some ⟨T, R, p⟩) (hlog : w.isLog = false) (hlog' : w'.isLog = false)
    (con con' : Option (PyV.Con.Spec ℝ)) (c c' : PyV.Con.Spec ℝ) (hin : InForce w con c) (hin' : InForce w' con' c') (hex : Excludes keep c c')
    (hb : ∃ B, ∀ x : Fin N → ℝ, Satisfies c x → ∀ i, |x i| ≤ B)
    (htr : Trading w none none none none) (htr' : Trading w' none none none none)
    (target alpha : ℝ) (h0 : 0 < alpha) (h1 : alpha < 1) (seed seed' : Option ℤ) :
    (∃ r r', w.minCvarAtReturn s1 a1 sim target alpha seed con none = .ok r ∧
      w'.minCvarAtReturn s2 a2 sim target alpha seed' con' none = .ok r' ∧ r'.risk = r.risk) ∨
    (w.minCvarAtReturn s1 a1 sim target alpha seed con none = .error .infeasible ∧
      w'.minCvarAtReturn s2 a2 sim target alpha seed' con' none = .error .infeasible) := by
  have h := transfer_cvar hs1 hc1 hs2 hc2 a1 a2 ha1 ha2 sim w w' _ R p hp hsc hsc' hlog hlog' con con' c c' hin hin' hb (bounded_excluding hex hb) htr htr'
    (k := 1) one_pos (embed keep) (fun y i => y (keep i)) (fun x hx => (excludes_embed hex x).2 hx) (fun y hy => ((hex y).1 hy).2)
    (fun x t => by rw [one_mul]; exact ret_embed keep (mu := fun i => R t (keep i)) (mu' := R t) (fun _ => rfl) x)
    (fun y hy t => by
      rw [one_mul]
      have := ret_embed keep (mu := fun i => R t (keep i)) (mu' := R t) (fun _ => rfl) (fun i => y (keep i))
      rw [embed_restrict ((hex y).1 hy).1] at this
      exact this) target alpha h0 h1 seed seed'
  simpa using h

/-- **C233** (frontier) The variance frontier with excluded assets is the frontier without them, the excluded assets not being held. -/
theorem C233_frontier {s1 s2 : Opt.Solver} (hs1 : Sound s1) (hc1 : Complete s1) (hs2 : Sound s2) (hc2 : Complete s2) (a1 a2 : Argsort)
    (w : Wrapper N) (w' : Wrapper M) (keep : Fin N ↪ Fin M) (mu : Fin M → ℝ) (cov : Matrix (Fin M) (Fin M) ℝ)
    (hmu : w.mu = some (fun i => mu (keep i))) (hcov : w.cov = some (cov.submatrix keep keep)) (hlog : w.isLog = false)
    (hmu' : w'.mu = some mu) (hcov' : w'.cov = some cov) (hlog' : w'.isLog = false) (hpsd : IsCov (fun i j => cov i j))
    (hpd : ∀ x : Fin N → ℝ, x ≠ 0 → 0 < quad (fun i j => cov (keep i) (keep j)) x)
    (con con' : Option (PyV.Con.Spec ℝ)) (c c' : PyV.Con.Spec ℝ) (hin : InForce w con c) (hin' : InForce w' con' c') (hex : Excludes keep c c')
    (hb : ∃ B, ∀ x : Fin N → ℝ, Satisfies c x → ∀ i, |x i| ≤ B) (hne : ∃ x : Fin N → ℝ, Satisfies c x) (hlim : Limited N c) (hlim' : Limited M c')
    (htr : Trading w none none none none) (htr' : Trading w' none none none none) (num : ℕ) :
    ∃ F F', w.varianceFrontier s1 a1 num con none = .ok F ∧ w'.varianceFrontier s2 a2 num con' none = .ok F' ∧
      listing F' = (listing F).map (fun p => (embed keep p.1, p.2)) := by
  have hb' := bounded_excluding hex hb
  have hne' : ∃ y : Fin M → ℝ, Satisfies c' y := by
    obtain ⟨x, hx⟩ := hne; exact ⟨_, (excludes_embed hex x).2 hx⟩
  obtain ⟨cols, f, h1, h2, h3⟩ := C105_variance_frontier_partial hs1 hc1 a1 w _ _ hmu hcov hlog (isCov_keep keep hpsd) con c hin hb hne hlim none none none none
    htr (by simp) num
  obtain ⟨cols', f', h1', h2', h3'⟩ := C105_variance_frontier_partial hs2 hc2 a2 w' _ _ hmu' hcov' hlog' hpsd con' c' hin' hb' hne' hlim' none none none none
    htr' (by simp) num
  have hret : ∀ x, ret mu (embed keep x) = ret (fun i => mu (keep i)) x := fun x => ret_embed keep (fun _ => rfl) x
  have hquad : ∀ x, quad (fun i j => cov i j) (embed keep x) = quad (fun i j => (cov.submatrix keep keep) i j) x := fun x => quad_embed keep (fun _ _ => rfl) x
  have hcost : ∀ {n : ℕ} (C : Fin n → Fin n → ℝ) x, varianceCost C none none x = quad C x := by
    intro n C x; simp [varianceCost]
  have hmap : IsFrontier {y | Satisfies c' y} (ret mu) (varianceCost (fun i j => cov i j) none none) num (cols.map (embed keep)) :=
    frontier_image (embed keep) (excludes_embed hex) (fun y hy => ⟨_, embed_restrict ((hex y).1 hy).1⟩) hret (fun x => by rw [hcost, hcost, hquad]) h2
  obtain ⟨u, -, hall⟩ := user_spec hin
  have hset : {x | Allowed u x} = {x : Fin N → ℝ | Satisfies c x} := Set.ext hall
  have huq := unique_min (C := fun i j => (cov.submatrix keep keep) i j) hpd none none (by simp) u (fun i => mu (keep i))
  rw [hset] at huq
  have huq' : UniqueMin {y | Satisfies c' y} (ret mu) (varianceCost (fun i j => cov i j) none none) := by
    intro t y hy z hz ty tz my mz
    have ey := embed_restrict ((hex y).1 hy).1
    have ez := embed_restrict ((hex z).1 hz).1
    have key := huq t _ ((hex y).1 hy).2 _ ((hex z).1 hz).2 (by rw [← hret, ey]; exact ty) (by rw [← hret, ez]; exact tz)
      (fun x hx tx => by
        rw [hcost, hcost, ← hquad, ← hquad, ey]
        have := my (embed keep x) ((excludes_embed hex x).2 hx) (by rw [hret]; exact tx)
        rwa [hcost, hcost] at this)
      (fun x hx tx => by
        rw [hcost, hcost, ← hquad, ← hquad, ez]
        have := mz (embed keep x) ((excludes_embed hex x).2 hx) (by rw [hret]; exact tx)
        rwa [hcost, hcost] at this)
    rw [← ey, ← ez, key]
  obtain ⟨u', -, hall'⟩ := user_spec hin'
  have hset' : {x | Allowed u' x} = {x : Fin M → ℝ | Satisfies c' x} := Set.ext hall'
  obtain ⟨r, hr⟩ := greatest_return (u := u') (by obtain ⟨B, hB⟩ := hb'; exact ⟨B, fun x hx => hB x ((hall' x).1 hx)⟩)
    (by obtain ⟨x, hx⟩ := hne'; exact ⟨x, (hall' x).2 hx⟩) mu
  rw [hset'] at hr
  have heq := frontier_unique h2' hmap hr huq'
  refine ⟨_, _, h1, h1', ?_⟩
  rw [listing_eq h3, listing_eq h3', heq, List.map_map, List.map_map]
  refine List.map_congr_left fun x _ => ?_
  show (embed keep x, ret mu (embed keep x), Real.sqrt (quad _ (embed keep x))) = _
  rw [hret, hquad]
  rfl

/-- Bounds that allow nothing but zero. -/
abbrev zeroPair : Option (PyFloat ℝ) × Option (PyFloat ℝ) := (some (.fin 0), some (.fin 0))

/-- The bounds for `n` assets, extended by the bounds (0, 0) for `k` more. -/
def zeroBounds (n k : ℕ) : Option (PyV.Con.Bounds ℝ) → PyV.Con.Bounds ℝ
  | none => .dict ((List.range k).map fun j => (((n + j : ℕ) : ℤ), zeroPair))
  | some (.pair lo hi) => .seq (List.replicate n (lo, hi) ++ List.replicate k zeroPair)
  | some (.dict l) => .dict (l ++ (List.range k).map fun j => (((n + j : ℕ) : ℤ), zeroPair))
  | some (.seq l) => .seq (l ++ List.replicate k zeroPair)

/-- The constraints for `n` assets written for `n + k` assets, the last `k` being excluded by the bounds (0, 0): limits and groups keep their positions, rows
are filled up with zeros. -/
def excluding (n k : ℕ) (c : PyV.Con.Spec ℝ) : PyV.Con.Spec ℝ :=
  { c with
    bounds := some (zeroBounds n k c.bounds)
    ineqRows := c.ineqRows.map fun e => (e.1 ++ List.replicate k 0, e.2)
    eqRows := c.eqRows.map fun e => (e.1 ++ List.replicate k 0, e.2) }

private theorem off_iff {n k : ℕ} (l : Fin (n + k)) : l ∉ Set.range (Fin.castAddEmb k : Fin n ↪ Fin (n + k)) ↔ n ≤ (l : ℕ) := by
  constructor
  · intro h
    by_contra hl
    exact h ⟨⟨l, by omega⟩, Fin.ext rfl⟩
  · rintro h ⟨i, rfl⟩
    have := i.2
    simp at h
    omega

private theorem zero_iff {x : ℝ} : (AtLeast (some (.fin 0)) x ∧ AtMost (some (.fin 0)) x) ↔ x = 0 := by
  constructor
  · rintro ⟨h1, h2⟩
    exact le_antisymm (h2 0 rfl) (h1 0 rfl)
  · rintro rfl
    exact ⟨fun a ha => by injection ha with ha; injection ha with ha; rw [ha], fun a ha => by injection ha with ha; injection ha with ha; rw [ha]⟩

private theorem bounds_iff {n k : ℕ} {b : Option (PyV.Con.Bounds ℝ)} (hb : BoundsOK n b) (y : Fin (n + k) → ℝ) :
    InBounds y (some (zeroBounds n k b)) ↔ (∀ l : Fin (n + k), n ≤ (l : ℕ) → y l = 0) ∧ InBounds (fun i : Fin n => y (Fin.castAdd k i)) b := by
  have hd : (∀ e ∈ (List.range k).map (fun j => (((n + j : ℕ) : ℤ), zeroPair)), ∀ i : Fin (n + k), (i : ℤ) = e.1 → AtLeast e.2.1 (y i) ∧ AtMost e.2.2 (y i)) ↔
      ∀ l : Fin (n + k), n ≤ (l : ℕ) → y l = 0 := by
    constructor
    · intro h l hl
      have := h _ (List.mem_map.2 ⟨(l : ℕ) - n, List.mem_range.2 (by omega), rfl⟩) l (by dsimp only; congr 1; omega)
      exact zero_iff.1 this
    · intro h e he i hi
      obtain ⟨j, -, rfl⟩ := List.mem_map.1 he
      exact zero_iff.2 (h i (by dsimp only at hi; omega))
  have hs : ∀ l : List (Option (PyFloat ℝ) × Option (PyFloat ℝ)), l.length = n →
      ((∀ i : Fin (n + k), ∀ e, (l ++ List.replicate k zeroPair)[(i : ℕ)]? = some e → AtLeast e.1 (y i) ∧ AtMost e.2 (y i)) ↔
      (∀ i : Fin (n + k), n ≤ (i : ℕ) → y i = 0) ∧
        ∀ i : Fin n, ∀ e, l[(i : ℕ)]? = some e → AtLeast e.1 (y (Fin.castAdd k i)) ∧ AtMost e.2 (y (Fin.castAdd k i))) := by
    intro l hl
    constructor
    · intro h
      refine ⟨fun i hi => zero_iff.1 (h i zeroPair ?_), fun i e he => h (Fin.castAdd k i) e ?_⟩
      · rw [List.getElem?_append_right (by omega), List.getElem?_replicate, if_pos (by omega)]
      · show (l ++ _)[(i : ℕ)]? = _
        rw [List.getElem?_append_left (by omega)]
        exact he
    · rintro ⟨h1, h2⟩ i e he
      by_cases hi : n ≤ (i : ℕ)
      · rw [List.getElem?_append_right (by omega), List.getElem?_replicate, if_pos (by omega)] at he
        injection he with he
        subst he
        exact zero_iff.2 (h1 i hi)
      · rw [List.getElem?_append_left (by omega)] at he
        exact h2 ⟨i, by omega⟩ e he
  cases b with
  | none => exact hd.trans ⟨fun h => ⟨h, trivial⟩, fun h => h.1⟩
  | some b =>
    cases b with
    | pair lo hi =>
      refine (hs (List.replicate n (lo, hi)) (by simp)).trans (and_congr_right fun _ => ?_)
      constructor
      · intro h i
        exact h i (lo, hi) (by rw [List.getElem?_replicate, if_pos i.2])
      · intro h i e he
        rw [List.getElem?_replicate, if_pos i.2] at he
        injection he with he
        subst he
        exact h i
    | dict l =>
      show (∀ e ∈ l ++ _, _) ↔ _
      rw [List.forall_mem_append, and_comm, hd]
      refine and_congr_right fun _ => ?_
      constructor
      · intro h e he i hi
        exact h e he (Fin.castAdd k i) hi
      · intro h e he i hi
        have := (hb e he).1
        exact h e he ⟨i, by omega⟩ hi
    | seq l => exact hs l hb.1

private theorem row_sum {n k : ℕ} {r : List ℝ} (hr : r.length = n) (y : Fin (n + k) → ℝ) :
    ∑ i : Fin (n + k), (r ++ List.replicate k (0 : ℝ)).getD i 0 * y i = ∑ i : Fin n, r.getD i 0 * y (Fin.castAdd k i) := by
  rw [Fin.sum_univ_add]
  have h2 : ∑ i : Fin k, (r ++ List.replicate k (0 : ℝ)).getD (Fin.natAdd n i : Fin (n + k)) 0 * y (Fin.natAdd n i) = 0 := by
    refine Finset.sum_eq_zero fun i _ => ?_
    have : (r ++ List.replicate k (0 : ℝ)).getD ((Fin.natAdd n i : Fin (n + k)) : ℕ) 0 = 0 := by
      rw [List.getD_eq_getElem?_getD, List.getElem?_append_right (by simp [hr]), List.getElem?_replicate]
      split <;> rfl
    rw [this, zero_mul]
  rw [h2, add_zero]
  refine Finset.sum_congr rfl fun i _ => ?_
  have : (r ++ List.replicate k (0 : ℝ)).getD ((Fin.castAdd k i : Fin (n + k)) : ℕ) 0 = r.getD i 0 := by
    show (r ++ List.replicate k (0 : ℝ)).getD (i : ℕ) 0 = _
    rw [List.getD_eq_getElem?_getD, List.getElem?_append_left (by omega), List.getD_eq_getElem?_getD]
  rw [this]

private theorem sum_keep {n k : ℕ} {y : Fin (n + k) → ℝ} (h : ∀ l : Fin (n + k), n ≤ (l : ℕ) → y l = 0) : ∑ i, y i = ∑ i : Fin n, y (Fin.castAdd k i) := by
  rw [Fin.sum_univ_add, Finset.sum_eq_zero (s := Finset.univ) (f := fun i : Fin k => y (Fin.natAdd n i)) (fun i _ => h _ (by simp)), add_zero]

/-- The constraints written with bounds (0, 0) for the last `k` assets are accepted whenever those for the first `n` are, and exclude the last `k` assets: the
hypotheses of C233 hold for every accepted set of constraints. -/
theorem C233_zero_bounds {n : ℕ} (k : ℕ) {c : PyV.Con.Spec ℝ} (hv : Valid (n : ℤ) c) :
    Valid ((n + k : ℕ) : ℤ) (excluding n k c) ∧ Excludes (Fin.castAddEmb k : Fin n ↪ Fin (n + k)) c (excluding n k c) := by
  have hbn : BoundsOK n c.bounds := hv.bounds
  have hz : PairOK (some (.fin 0) : Option (PyFloat ℝ)) (some (.fin 0)) :=
    ⟨fun y hy => ⟨0, by (injection hy with hy; exact hy.symm)⟩, fun y hy => ⟨0, by (injection hy with hy; exact hy.symm)⟩, fun a b ha hb => by
      injection ha with ha; injection ha with ha; injection hb with hb; injection hb with hb; rw [← ha, ← hb]⟩
  constructor
  · have hdict : ∀ e ∈ (List.range k).map (fun j => (((n + j : ℕ) : ℤ), zeroPair)), (0 ≤ e.1 ∧ e.1 < ((n + k : ℕ) : ℤ)) ∧ PairOK e.2.1 e.2.2 := by
      intro e he
      obtain ⟨j, hj, rfl⟩ := List.mem_map.1 he
      rw [List.mem_range] at hj
      exact ⟨⟨by positivity, by exact_mod_cast by omega⟩, hz⟩
    refine ⟨by have := hv.pos; push_cast; omega, hv.total, ?_, fun e he => ?_, fun e he => ?_, fun e he => ?_, fun e he => ?_⟩
    · show BoundsOK (n + k) (some (zeroBounds n k c.bounds))
      revert hbn
      cases c.bounds with
      | none => exact fun _ => hdict
      | some b =>
        cases b with
        | pair lo hi =>
          intro hp
          refine ⟨by simp, fun e he => ?_⟩
          rcases List.mem_append.1 he with h | h
          · rw [List.eq_of_mem_replicate h]; exact hp
          · rw [List.eq_of_mem_replicate h]; exact hz
        | dict l =>
          intro hl e he
          rcases List.mem_append.1 he with h | h
          · have := hl e h
            exact ⟨⟨this.1.1, by push_cast; omega⟩, this.2⟩
          · exact hdict e h
        | seq l =>
          intro hl
          refine ⟨by simp [hl.1], fun e he => ?_⟩
          rcases List.mem_append.1 he with h | h
          · exact hl.2 e h
          · rw [List.eq_of_mem_replicate h]; exact hz
    · have := hv.relative e he
      exact ⟨⟨this.1.1, by push_cast; omega⟩, ⟨this.2.1.1, by push_cast; omega⟩, this.2.2⟩
    · have := hv.groups e he
      exact ⟨fun i hi => ⟨(this.1 i hi).1, by have := (this.1 i hi).2; push_cast; omega⟩, this.2⟩
    · obtain ⟨e', he', rfl⟩ := List.mem_map.1 he
      have := hv.ineq e' he'
      exact ⟨by rw [List.length_append, List.length_replicate]; push_cast; rw [this.1], this.2⟩
    · obtain ⟨e', he', rfl⟩ := List.mem_map.1 he
      have := hv.eq e' he'
      exact ⟨by rw [List.length_append, List.length_replicate]; push_cast; rw [this.1], this.2⟩
  · intro y
    have hoff : (∀ l, l ∉ Set.range (Fin.castAddEmb k : Fin n ↪ Fin (n + k)) → y l = 0) ↔ ∀ l : Fin (n + k), n ≤ (l : ℕ) → y l = 0 :=
      forall_congr' fun l => by rw [off_iff]
    rw [hoff]
    have hgroup : (∀ l : Fin (n + k), n ≤ (l : ℕ) → y l = 0) → ∀ idx : List ℤ, groupWeight idx y = groupWeight idx (fun i : Fin n => y (Fin.castAdd k i)) := by
      intro h idx
      exact sum_keep (y := fun i : Fin (n + k) => if (i : ℤ) ∈ idx then y i else 0) fun l hl => by simp [h l hl]
    constructor
    · intro h
      obtain ⟨h0, hbd⟩ := (bounds_iff hbn y).1 h.bounds
      refine ⟨h0, fun hl i => h.long hl _, fun t ht => ?_, hbd, fun e he q hq i j hi hj => ?_, fun e he lo hi hlo hhi => ?_, fun e he r hr => ?_, fun e he r hr => ?_⟩
      · exact (sum_keep h0).symm.trans (h.total t ht)
      · exact h.relative e he q hq (Fin.castAdd k i) (Fin.castAdd k j) hi hj
      · have := h.groups e he lo hi hlo hhi
        rwa [hgroup h0] at this
      · have := h.ineq (e.1 ++ List.replicate k 0, e.2) (List.mem_map.2 ⟨e, he, rfl⟩) r hr
        rwa [row_sum (by exact_mod_cast (hv.ineq e he).1)] at this
      · have := h.eq (e.1 ++ List.replicate k 0, e.2) (List.mem_map.2 ⟨e, he, rfl⟩) r hr
        rwa [row_sum (by exact_mod_cast (hv.eq e he).1)] at this
    · rintro ⟨h0, h⟩
      refine ⟨fun hl l => ?_, fun t ht => ?_, (bounds_iff hbn y).2 ⟨h0, h.bounds⟩, fun e he q hq i j hi hj => ?_, fun e he lo hi hlo hhi => ?_, fun e he r hr => ?_,
        fun e he r hr => ?_⟩
      · by_cases hl' : n ≤ (l : ℕ)
        · rw [h0 l hl']
        · exact h.long hl ⟨l, by omega⟩
      · rw [sum_keep h0]; exact h.total t ht
      · have := hv.relative e he
        exact h.relative e he q hq ⟨i, by omega⟩ ⟨j, by omega⟩ hi hj
      · rw [hgroup h0]; exact h.groups e he lo hi hlo hhi
      · obtain ⟨e', he', rfl⟩ := List.mem_map.1 he
        rw [row_sum (by exact_mod_cast (hv.ineq e' he').1)]
        exact h.ineq e' he' r hr
      · obtain ⟨e', he', rfl⟩ := List.mem_map.1 he
        rw [row_sum (by exact_mod_cast (hv.eq e' he').1)]
        exact h.eq e' he' r hr

private theorem eye3_cov : IsCov (fun i j => (1 : Matrix (Fin (2 + 1)) (Fin (2 + 1)) ℝ) i j) := by
  refine ⟨fun i j => ?_, fun x => ?_⟩
  · show (1 : Matrix (Fin (2 + 1)) (Fin (2 + 1)) ℝ) i j = (1 : Matrix (Fin (2 + 1)) (Fin (2 + 1)) ℝ) j i
    simp only [Matrix.one_apply, eq_comm]
  · simp only [Matrix.one_apply]
    simp
    exact Finset.sum_nonneg fun i _ => mul_self_nonneg _

/-- The hypotheses hold: three uncorrelated assets, the third excluded by the bounds (0, 0). -/
example : ∃ (w : Wrapper 2) (w' : Wrapper 3) (solver : Opt.Solver), Sound solver ∧ Complete solver ∧
    ∃ r r', w.minVarianceAtReturn solver (1 / 20) none none = .ok r ∧
      w'.minVarianceAtReturn solver (1 / 20) (some (excluding 2 1 PyV.Con.defaultSpec)) none = .ok r' ∧ r'.risk = r.risk ∧ r'.w 2 = 0 := by
  obtain ⟨solver, h1, h2⟩ := exists_solver
  let mu : Fin (2 + 1) → ℝ := ![1 / 10, 1 / 50, 1 / 5]
  obtain ⟨w, hmu, hcov, -, hlog, -, hin, htr⟩ := exists_wrapper (N := 2) (by norm_num) (some fun i => mu (Fin.castAddEmb 1 i))
    (some ((1 : Matrix (Fin (2 + 1)) (Fin (2 + 1)) ℝ).submatrix (Fin.castAddEmb 1) (Fin.castAddEmb 1))) none false
  obtain ⟨w', hmu', hcov', -, hlog', -, -, htr'⟩ := exists_wrapper (N := 2 + 1) (by norm_num) (some mu) (some 1) none false
  have hd : Valid ((2 : ℕ) : ℤ) (PyV.Con.defaultSpec : PyV.Con.Spec ℝ) :=
    ⟨by norm_num, fun y hy => ⟨1, by (cases hy; rfl)⟩, trivial, by simp [PyV.Con.defaultSpec], by simp [PyV.Con.defaultSpec], by simp [PyV.Con.defaultSpec],
      by simp [PyV.Con.defaultSpec]⟩
  obtain ⟨v, hex⟩ := C233_zero_bounds 1 hd
  refine ⟨w, w', solver, h1, h2, ?_⟩
  rcases C233_min_variance h1 h2 h1 h2 w w' (Fin.castAddEmb 1) mu 1 hmu hcov hlog hmu' hcov' hlog' eye3_cov none (some (excluding 2 1 PyV.Con.defaultSpec)) _ _ hin
    (.inl ⟨rfl, v⟩) hex default_bounded htr htr' (1 / 20) with ⟨r, r', e, e', g, g0, -⟩ | ⟨e, -⟩
  · exact ⟨r, r', e, e', g, g0 2 ((off_iff (n := 2) (k := 1) 2).2 le_rfl)⟩
  · obtain ⟨r0, e0, -⟩ := (C107_min_variance_at_return h1 h2 w _ _ hmu hcov hlog (isCov_keep _ eye3_cov) none _ hin default_bounded none none none none htr (by simp) (1 / 20)).1
      ⟨![1, 0], (satisfies_default _).2 ⟨by intro i; fin_cases i <;> simp, by simp⟩, by
        simp only [ret, Fin.sum_univ_two]
        show 1 / 20 ≤ (1 / 10 : ℝ) * 1 + 1 / 50 * 0
        norm_num⟩
    rw [e0] at e; cases e

end PyV.Props
