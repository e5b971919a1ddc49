import Verif.Props.Stability
import Verif.Props.WrapperCvar
import Verif.Props.Wrapper
import Verif.Props.FrontierRelax

/-! # Property C283: an asset that never does better than another does not lower the least CVaR -/

namespace PyV.Props

open PyV PyV.Api PyV.Spec.Api PyV.Opt PyV.Spec.Opt PyV.Spec.Con PyV.Risk PyV.Spec Matrix

variable {N M : ℕ}

/-- The weights of `x` gathered on the assets that stand in for them: `by' l` is the asset that replaces asset `l`. -/
def gathered (by' : Fin M → Fin N) (x : Fin M → ℝ) (i : Fin N) : ℝ := ∑ l, if by' l = i then x l else 0

theorem sum_gathered (by' : Fin M → Fin N) (x : Fin M → ℝ) (r : Fin N → ℝ) : ∑ i, r i * gathered by' x i = ∑ l, r (by' l) * x l := by
  unfold gathered
  simp only [Finset.mul_sum]
  rw [Finset.sum_comm]
  refine Finset.sum_congr rfl fun l _ => ?_
  simp [mul_ite]

theorem gathered_sum (by' : Fin M → Fin N) (x : Fin M → ℝ) : ∑ i, gathered by' x i = ∑ l, x l := by
  have := sum_gathered by' x (fun _ => 1)
  simpa using this

theorem gathered_nonneg (by' : Fin M → Fin N) {x : Fin M → ℝ} (hx : ∀ l, 0 ≤ x l) (i : Fin N) : 0 ≤ gathered by' x i :=
  Finset.sum_nonneg fun l _ => by split_ifs <;> simp [hx l]

private theorem cvar_ex {s : Scen M} (hp : IsProb s.p) {alpha : ℝ} (h0 : 0 < alpha) (h1 : alpha < 1) (x : Fin M → ℝ) :
    ∃ v, IsCvar s.p (pnl s x) (1 - alpha) v := by
  have hs : IsArgsort (fun y : Fin s.T → ℝ => Tuple.sort y) := fun y => Tuple.monotone_sort y
  obtain ⟨r, -, hc⟩ := portfolioCvar_ok hs (w := x) (R := s.R) (p := some s.p) (demean := false) hp (by linarith : 0 < 1 - alpha) (by linarith)
  exact ⟨r, hc⟩

/-- In every scenario every asset `l` of the larger universe returns no more than the listed asset that stands in for it. -/
def Dominates (keep : Fin N ↪ Fin M) (by' : Fin M → Fin N) (s : Scen M) : Prop := ∀ t l, s.R t l ≤ s.R t (keep (by' l))

/-- **C283** if every asset of a universe is matched or beaten, in every scenario, by one of the listed assets, the assets not listed do not
lower the least CVaR: `min_cvar_at_return` reports the same risk for both universes at every target, or finds the target infeasible in both.
The constraints are those that stay met when the weight of an asset is moved to its stand-in. -/
theorem C283_min_cvar {s1 s2 : Opt.Solver} (hs1 : Sound s1) (hc1 : Complete s1) (hs2 : Sound s2) (hc2 : Complete s2) (a1 a2 : Argsort)
    (ha1 : ∀ T, IsArgsort (a1 T)) (ha2 : ∀ T, IsArgsort (a2 T)) (sim : Sim) (w : Wrapper N) (w' : Wrapper M) (keep : Fin N ↪ Fin M)
    (by' : Fin M → Fin N) (s : Scen M) (hp : IsProb s.p) (hdom : Dominates keep by' s)
    (hsc : w.scen = some ⟨s.T, fun t i => s.R t (keep i), s.p⟩) (hsc' : w'.scen = some s) (hlog : w.isLog = false) (hlog' : w'.isLog = false)
    (con con' : Option (PyV.Con.Spec ℝ)) (c c' : PyV.Con.Spec ℝ) (hin : InForce w con c) (hin' : InForce w' con' c')
    (hlong : ∀ y : Fin M → ℝ, Satisfies c' y → ∀ l, 0 ≤ y l)
    (hgather : ∀ y : Fin M → ℝ, Satisfies c' y → Satisfies c (gathered by' y)) (hembed : ∀ x : Fin N → ℝ, Satisfies c x → Satisfies c' (embed keep x))
    (hb : ∃ B, ∀ x : Fin N → ℝ, Satisfies c x → ∀ i, |x i| ≤ B) (hb' : ∃ B, ∀ y : Fin M → ℝ, Satisfies c' y → ∀ i, |y i| ≤ B)
    (htr : Trading w none none none none) (htr' : Trading w' none none none none)
    (target alpha : ℝ) (h0 : 0 < alpha) (h1 : alpha < 1) (seed seed' : Option ℤ) :
    (∃ r r', w.minCvarAtReturn s1 a1 sim target alpha seed con none = .ok r ∧
      w'.minCvarAtReturn s2 a2 sim target alpha seed' con' none = .ok r' ∧ r'.risk = r.risk) ∨
    (w.minCvarAtReturn s1 a1 sim target alpha seed con none = .error .infeasible ∧
      w'.minCvarAtReturn s2 a2 sim target alpha seed' con' none = .error .infeasible) := by
  set sN : Scen N := ⟨s.T, fun t i => s.R t (keep i), s.p⟩ with hsN
  have hpN : IsProb sN.p := hp
  have hpe : ∀ x : Fin N → ℝ, pnl s (embed keep x) = pnl sN x := fun x => funext fun t =>
    ret_embed keep (mu := fun i => s.R t (keep i)) (mu' := s.R t) (fun _ => rfl) x
  have hre : ∀ x : Fin N → ℝ, ret (scenMean s) (embed keep x) = ret (scenMean sN) x := fun x =>
    ret_embed keep (mu := scenMean sN) (mu' := scenMean s) (fun _ => rfl) x
  have hpg : ∀ y : Fin M → ℝ, Satisfies c' y → ∀ t, pnl s y t ≤ pnl sN (gathered by' y) t := by
    intro y hy t
    show ∑ l, s.R t l * y l ≤ ∑ i, s.R t (keep i) * gathered by' y i
    rw [sum_gathered]
    exact Finset.sum_le_sum fun l _ => mul_le_mul_of_nonneg_right (hdom t l) (hlong y hy l)
  have hrg : ∀ y : Fin M → ℝ, Satisfies c' y → ret (scenMean s) y ≤ ret (scenMean sN) (gathered by' y) := by
    intro y hy
    show ∑ l, (∑ t, s.p t * s.R t l) * y l ≤ ∑ i, (∑ t, s.p t * s.R t (keep i)) * gathered by' y i
    rw [sum_gathered]
    exact Finset.sum_le_sum fun l _ => mul_le_mul_of_nonneg_right
      (Finset.sum_le_sum fun t _ => mul_le_mul_of_nonneg_left (hdom t l) (hp.nonneg t)) (hlong y hy l)
  have A := C109_min_cvar_at_return_partial hs1 hc1 a1 ha1 sim w sN hsc hpN hlog con c hin hb none none none none htr (by simp) target alpha h0 h1 seed
  have B := C109_min_cvar_at_return_partial hs2 hc2 a2 ha2 sim w' s hsc' hp hlog' con' c' hin' hb' none none none none htr' (by simp) target alpha h0
    h1 seed'
  by_cases hx : ∃ x : Fin N → ℝ, Satisfies c x ∧ target ≤ ret (scenMean sN) x
  · obtain ⟨r, hr, hsat, hret, -, -, v, hv, hrisk, hmin⟩ := A.1 hx
    obtain ⟨r', hr', hsat', hret', -, -, v', hv', hrisk', hmin'⟩ := B.1 (by
      obtain ⟨x, hx1, hx2⟩ := hx
      exact ⟨_, hembed x hx1, by rw [hre]; exact hx2⟩)
    refine .inl ⟨r, r', hr, hr', ?_⟩
    have i1 : v' ≤ v := by
      have := hmin' (embed keep r.w) v (hembed _ hsat) (by rw [hre]; exact hret) (by rw [hpe]; exact hv)
      simpa [turnoverCost] using this
    obtain ⟨u, hu⟩ := cvar_ex hpN h0 h1 (gathered by' r'.w)
    have i2 : u ≤ v' + 0 := cvar_le_shift hp (by linarith) (fun t => by rw [sub_zero]; exact hpg _ hsat' t) hv' hu
    have i3 : v ≤ u := by
      have := hmin (gathered by' r'.w) u (hgather _ hsat') (hret'.trans (hrg _ hsat')) hu
      simpa [turnoverCost] using this
    rw [hrisk, hrisk', show v' = v by linarith]
  · refine .inr ⟨A.2 fun x h => ?_, B.2 fun y h => ?_⟩
    · by_contra hn
      exact hx ⟨x, h, not_lt.1 hn⟩
    · by_contra hn
      exact hx ⟨_, hgather y h, (not_lt.1 hn).trans (hrg y h)⟩

/-- The default constraints (long only, fully invested) are of this kind. -/
theorem C283_default (keep : Fin N ↪ Fin M) (by' : Fin M → Fin N) :
    (∀ y : Fin M → ℝ, Satisfies (PyV.Con.defaultSpec : PyV.Con.Spec ℝ) y → ∀ l, 0 ≤ y l) ∧
    (∀ y : Fin M → ℝ, Satisfies (PyV.Con.defaultSpec : PyV.Con.Spec ℝ) y → Satisfies (PyV.Con.defaultSpec : PyV.Con.Spec ℝ) (gathered by' y)) ∧
    ∀ x : Fin N → ℝ, Satisfies (PyV.Con.defaultSpec : PyV.Con.Spec ℝ) x → Satisfies (PyV.Con.defaultSpec : PyV.Con.Spec ℝ) (embed keep x) := by
  refine ⟨fun y hy => ((satisfies_default y).1 hy).1, fun y hy => ?_, fun x hx => ?_⟩
  · obtain ⟨h1, h2⟩ := (satisfies_default y).1 hy
    exact (satisfies_default _).2 ⟨gathered_nonneg by' h1, (gathered_sum by' y).trans h2⟩
  · obtain ⟨h1, h2⟩ := (satisfies_default x).1 hx
    refine (satisfies_default _).2 ⟨fun l => ?_, ?_⟩
    · by_cases hl : l ∈ Set.range keep
      · obtain ⟨i, rfl⟩ := hl
        rw [embed_apply]; exact h1 i
      · rw [embed_off keep x hl]
    · rw [← h2]
      have := ret_embed keep (mu := fun _ => 1) (mu' := fun _ => 1) (fun _ => rfl) x
      unfold ret at this
      simpa using this

/-- Three assets of which the third always returns one percent less than the first: with and without it the wrapper reports the same risk. -/
example : ∃ (w : Wrapper 2) (w' : Wrapper 3) (solver : Opt.Solver) (s : Scen 3), w.scen = some ⟨s.T, fun t i => s.R t (Fin.castSucc i), s.p⟩ ∧
    w'.scen = some s ∧ (∀ t, s.R t 2 = s.R t 0 - 1 / 100) ∧
    ∃ r r', w.minCvarAtReturn solver (fun _ x => Tuple.sort x) (fun _ _ _ _ _ _ _ => 0) (1 / 10) (1 / 2) none none none = .ok r ∧
      w'.minCvarAtReturn solver (fun _ x => Tuple.sort x) (fun _ _ _ _ _ _ _ => 0) (1 / 10) (1 / 2) none none none = .ok r' ∧ r'.risk = r.risk := by
  obtain ⟨solver, h1, h2⟩ := exists_solver
  set s : Scen 3 := ⟨2, ![![1 / 10, 1 / 20, 9 / 100], ![1 / 10, 7 / 20, 9 / 100]], fun _ => 1 / 2⟩ with hs
  set s2 : Scen 2 := ⟨s.T, fun t i => s.R t (Fin.castSucc i), s.p⟩ with hs2
  obtain ⟨w, -, -, hsc, hlog, -, hin, htr⟩ := exists_wrapper (N := 2) (by norm_num) none none (some s2) false
  obtain ⟨w', -, -, hsc', hlog', -, hin', htr'⟩ := exists_wrapper (N := 3) (by norm_num) none none (some s) false
  have hp : IsProb s.p := by
    refine ⟨fun t => ?_, ?_⟩
    · show (0 : ℝ) ≤ 1 / 2; norm_num
    · show ∑ t : Fin 2, (1 / 2 : ℝ) = 1; simp
  have hdom : Dominates Fin.castSuccEmb (![0, 1, 0] : Fin 3 → Fin 2) s := by
    intro t l
    change Fin 2 at t
    fin_cases t <;> fin_cases l <;> first | exact le_rfl | (show (9 / 100 : ℝ) ≤ 1 / 10; norm_num)
  obtain ⟨d1, d2, d3⟩ := C283_default Fin.castSuccEmb (![0, 1, 0] : Fin 3 → Fin 2)
  refine ⟨w, w', solver, s, hsc, hsc', fun t => ?_, ?_⟩
  · change Fin 2 at t
    fin_cases t <;> (show (9 / 100 : ℝ) = 1 / 10 - 1 / 100; norm_num)
  rcases C283_min_cvar h1 h2 h1 h2 (fun _ x => Tuple.sort x) (fun _ x => Tuple.sort x) (fun T x => Tuple.monotone_sort x)
    (fun T x => Tuple.monotone_sort x) (fun _ _ _ _ _ _ _ => 0) w w' Fin.castSuccEmb _ s hp hdom hsc hsc' hlog hlog' none none _ _ hin hin' d1 d2 d3
    default_bounded default_bounded htr htr' (1 / 10) (1 / 2) (by norm_num) (by norm_num) none none with h | ⟨h, -⟩
  · exact h
  · exfalso
    obtain ⟨r, hr, -⟩ := (C109_min_cvar_at_return_partial h1 h2 (fun _ x => Tuple.sort x) (fun T x => Tuple.monotone_sort x) (fun _ _ _ _ _ _ _ => 0)
      w s2 hsc hp hlog none _ hin default_bounded none none none none htr (by simp) (1 / 10) (1 / 2) (by norm_num) (by norm_num) none).1
      ⟨![1, 0], (satisfies_default _).2 ⟨by intro i; fin_cases i <;> simp, by simp⟩, by
        show 1 / 10 ≤ ∑ i : Fin 2, (∑ t : Fin 2, (1 / 2 : ℝ) * s.R t (Fin.castSucc i)) * (![1, 0] : Fin 2 → ℝ) i
        rw [Fin.sum_univ_two]
        show 1 / 10 ≤ (∑ t : Fin 2, (1 / 2 : ℝ) * (![![1 / 10, 1 / 20, 9 / 100], ![1 / 10, 7 / 20, 9 / 100]] : Fin 2 → Fin 3 → ℝ) t 0) * 1 +
          (∑ t : Fin 2, (1 / 2 : ℝ) * s.R t (Fin.castSucc 1)) * 0
        rw [Fin.sum_univ_two]
        norm_num⟩
    rw [h] at hr
    cases hr

end PyV.Props
