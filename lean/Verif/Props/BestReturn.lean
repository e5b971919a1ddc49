import Verif.Props.FrontierQueries
import Verif.Props.WrapperRobust
import Mathlib.Tactic

/-! # Property C270: all frontiers end at the same expected return -/

namespace PyV.Props

open PyV PyV.Api PyV.Spec.Api PyV.Opt PyV.Spec.Opt PyV.Spec.Con PyV.Risk PyV.Spec Matrix

variable {N : ℕ}

/-- `best` is the largest expected return of the portfolios that satisfy `c`. -/
def IsBestReturn (c : PyV.Con.Spec ℝ) (mu : Fin N → ℝ) (best : ℝ) : Prop :=
  (∃ x : Fin N → ℝ, Satisfies c x ∧ ret mu x = best) ∧ ∀ x : Fin N → ℝ, Satisfies c x → ret mu x ≤ best

/-- A list of returns ends at `best`: none is larger, one is within the tolerance of `np.isclose`, and is `best` itself unless there is only one. -/
def EndsAt {M : ℕ} (returns : Fin M → ℝ) (best : ℝ) : Prop :=
  (∀ j, returns j ≤ best) ∧ ∃ j, |returns j - best| ≤ 1 / 10 ^ 8 + 1 / 10 ^ 5 * |best| ∧ (1 < M → returns j = best)

private theorem frontier_best {A : Set (Fin N → ℝ)} {r risk : (Fin N → ℝ) → ℝ} {num : ℕ} {cols : List (Fin N → ℝ)} (hF : IsFrontier A r risk num cols)
    (hnum : 2 ≤ num) {best : ℝ} (hb : IsGreatest (r '' A) best) :
    (∀ w ∈ cols, r w ≤ best) ∧ ∃ w ∈ cols, |r w - best| ≤ 1 / 10 ^ 8 + 1 / 10 ^ 5 * |best| ∧ (1 < cols.length → r w = best) := by
  refine ⟨fun w hw => hb.2 ⟨w, hF.inside w hw, rfl⟩, ?_⟩
  by_cases hl : 1 < cols.length
  · have hlast := List.getLast?_eq_some_getLast hF.nonempty
    have hmem := List.getLast_mem hF.nonempty
    have heq : r (cols.getLast hF.nonempty) = best := by
      refine le_antisymm (hb.2 ⟨_, hF.inside _ hmem, rfl⟩) ?_
      obtain ⟨x, hx, hxr⟩ := hb.1
      rw [← hxr]
      exact hF.top _ hlast hl x hx
    exact ⟨_, hmem, by rw [heq, sub_self, abs_zero]; positivity, fun _ => heq⟩
  · obtain ⟨w, l, hc⟩ := List.exists_cons_of_ne_nil hF.nonempty
    refine ⟨w, by rw [hc]; simp, ?_, fun h => absurd h hl⟩
    rcases hF.len with h | ⟨-, h | h⟩
    · omega
    · omega
    · exact h w (by rw [hc]; rfl) best hb

private theorem best_iff {c : PyV.Con.Spec ℝ} {mu : Fin N → ℝ} {best : ℝ} (h : IsBestReturn c mu best) :
    IsGreatest (ret mu '' {x | Satisfies c x}) best := by
  obtain ⟨⟨x, hx, hr⟩, h2⟩ := h
  refine ⟨⟨x, hx, hr⟩, ?_⟩
  rintro _ ⟨y, hy, rfl⟩
  exact h2 y hy

/-- **C270** The largest attainable expected return does not depend on how risk is measured: it exists, the variance frontier and the CVaR frontier of one
wrapper both end at it, and the robust frontier contains a portfolio earning it whenever its penalty grid contains zero. -/
theorem C270_best_return {s1 s2 s3 : Opt.Solver} (hs1 : Sound s1) (hc1 : Complete s1) (hs2 : Sound s2) (hc2 : Complete s2)
    (hs3 : Sound s3) (hc3 : Complete s3) (a1 a2 : Argsort) (ha2 : ∀ T, IsArgsort (a2 T)) (sim : Sim) {factor : Bayes.Factor} (hf : CholOk factor)
    (w : Wrapper N) (s : Scen N) (cov : Matrix (Fin N) (Fin N) ℝ) (hscen : w.scen = some s) (hp : IsProb s.p) (hmu : w.mu = some (scenMean s))
    (hcov : w.cov = some cov) (hlog : w.isLog = false) (hpsd : IsCov (fun i j => cov i j)) (hS : ∃ L, IsChol (w.unc.getD cov) L)
    (con : Option (PyV.Con.Spec ℝ)) (c : PyV.Con.Spec ℝ) (hin : InForce w con c)
    (hb : ∃ M, ∀ x : Fin N → ℝ, Satisfies c x → ∀ i, |x i| ≤ M) (hne : ∃ x : Fin N → ℝ, Satisfies c x) (hlim : Limited N c)
    (costs : Option Costs) (w0 imp : Option (Fin N → ℝ)) (htr : Trading w costs w0 imp none) (himp : ∀ l, imp = some l → ∀ i, 0 ≤ l i)
    (alpha : ℝ) (h0 : 0 < alpha) (h1 : alpha < 1) (seed : Option ℤ) (enforce : Bool) (num num' : ℕ) (hnum : 2 ≤ num) (hnum' : 2 ≤ num')
    (size : ℤ) (maxLam : ℝ) (lambdas : Option (List ℝ)) {grid : List ℝ} (hgrid : PenaltyGrid size maxLam lambdas grid) (hzero : (0:ℝ) ∈ grid) :
    ∃ (best : ℝ) (V C : AnyFrontier N) (R : List (Column N)), IsBestReturn c (scenMean s) best ∧
      w.varianceFrontier s1 a1 num con costs = .ok V ∧ EndsAt V.f.returns best ∧
      w.cvarFrontier s2 a2 sim num' alpha seed con costs enforce = .ok C ∧ EndsAt C.f.returns best ∧
      w.robustFrontier s3 factor size maxLam lambdas con costs = .ok R ∧ (∀ col ∈ R, col.ret ≤ best) ∧ ∃ col ∈ R, col.lam = 0 ∧ col.ret = best := by
  obtain ⟨v, f, hV, hVF, hVr⟩ := C105_variance_frontier_partial hs1 hc1 a1 w _ cov hmu hcov hlog hpsd con c hin hb hne hlim costs w0 imp none htr himp num
  obtain ⟨cvar, k, g, σ, -, hC, hCF, -, hCr, -⟩ := C114_cvar_frontier hs2 hc2 a2 ha2 sim w s hscen hp hlog con c hin hb hne costs w0 imp none htr
    (fun l h => by cases h) alpha h0 h1 seed num' enforce
  obtain ⟨R, hR, hperm, -, -, rho, -, hcol⟩ := (C110_robust_frontier_partial hs3 hc3 hf w _ cov hmu hcov hS con c hin hb hne costs w0 imp htr size maxLam
    lambdas).1 grid hgrid
  have hz : ∃ col ∈ R, col.lam = 0 := by
    have := hperm.mem_iff.mpr hzero
    obtain ⟨col, h, h'⟩ := List.mem_map.mp this
    exact ⟨col, h, h'⟩
  obtain ⟨col, hm, hl⟩ := hz
  obtain ⟨hsat, hret, -, -, hopt⟩ := hcol col hm
  have hrep : ∀ x, ret (reportedMean w.isLog (scenMean s) cov) x = ret (scenMean s) x := by
    intro x
    rw [hlog]
    rfl
  have hbest : IsBestReturn c (scenMean s) (ret (scenMean s) col.w) := by
    refine ⟨⟨col.w, hsat, rfl⟩, fun x hx => ?_⟩
    have := hopt x hx
    rw [hl, zero_mul, zero_mul] at this
    linarith
  have hg := best_iff hbest
  refine ⟨_, _, _, R, hbest, hV, ?_, hC, ?_, hR, ?_, col, hm, hl, by rw [hret, hrep]⟩
  · obtain ⟨h2, x, hx, h3, h4⟩ := frontier_best hVF hnum hg
    refine ⟨fun j => ?_, ?_⟩
    · show f.returns j ≤ _
      rw [(hVr j).2.1]
      exact h2 _ (List.get_mem _ _)
    · obtain ⟨j, rfl⟩ := List.get_of_mem hx
      refine ⟨j, ?_⟩
      show |f.returns j - _| ≤ _ ∧ (_ → f.returns j = _)
      rw [(hVr j).2.1]
      exact ⟨h3, h4⟩
  · have hCr' : ∀ j, g.returns j = ret (scenMean s) (k.get (σ j)) := by
      intro j
      rw [hCr j, hmu]
      rfl
    obtain ⟨h2, x, hx, h3, h4⟩ := frontier_best hCF hnum' hg
    refine ⟨fun j => ?_, ?_⟩
    · show g.returns j ≤ _
      rw [hCr' j]
      exact h2 _ (List.get_mem _ _)
    · obtain ⟨j, rfl⟩ := List.get_of_mem hx
      refine ⟨σ.symm j, ?_⟩
      show |g.returns (σ.symm j) - _| ≤ _ ∧ (_ → g.returns (σ.symm j) = _)
      rw [hCr' _, Equiv.apply_symm_apply]
      exact ⟨h3, h4⟩
  · intro a ha
    rw [(hcol a ha).2.1, hrep]
    exact hbest.2 _ (hcol a ha).1

/-- Two assets over two equally likely scenarios, default constraints, a penalty grid from 0 to 2: the hypotheses hold. -/
example : ∃ (w : Wrapper 2) (solver : Opt.Solver) (factor : Bayes.Factor) (best : ℝ) (V C : AnyFrontier 2) (R : List (Column 2)),
    w.varianceFrontier solver (fun _ x => Tuple.sort x) 5 none none = .ok V ∧ EndsAt V.f.returns best ∧
    w.cvarFrontier solver (fun _ x => Tuple.sort x) (fun _ _ _ _ _ _ _ => 0) 7 (1 / 20) none none none true = .ok C ∧ EndsAt C.f.returns best ∧
    w.robustFrontier solver factor 5 2 (some [0, 1, 2]) none none = .ok R ∧ ∃ col ∈ R, col.lam = 0 ∧ col.ret = best := by
  obtain ⟨solver, h1, h2⟩ := exists_solver
  obtain ⟨factor, hf⟩ := cholOk_exists
  obtain ⟨w, hmu, hcov, hsc, hlog, hunc, hin, htr⟩ := exists_wrapper (N := 2) (by norm_num) (some (scenMean exScen)) (some !![1, 1; 1, 2]) (some exScen)
    false
  have hpsd : IsCov (fun i j => (!![1, 1; 1, 2] : Matrix (Fin 2) (Fin 2) ℝ) i j) := by
    refine ⟨fun i j => by fin_cases i <;> fin_cases j <;> simp, fun x => ?_⟩
    have : (0:ℝ) ≤ (x 0 + x 1) ^ 2 + x 1 ^ 2 := by positivity
    simp [Fin.sum_univ_two]
    nlinarith
  obtain ⟨best, V, C, R, -, a, b, c, d, e, -, g⟩ := C270_best_return h1 h2 h1 h2 h1 h2 (fun _ x => Tuple.sort x) (fun _ x => Tuple.sort x)
    (fun T x => Tuple.monotone_sort x) (fun _ _ _ _ _ _ _ => 0) hf w exScen _ hsc exScen_prob hmu hcov hlog hpsd
    (by rw [hunc]; exact ⟨_, (chol_example _).2 rfl⟩) none _ hin default_bounded
    ⟨![0, 1], (satisfies_default _).2 ⟨by intro i; fin_cases i <;> simp, by simp⟩⟩ (limited_default (by norm_num)) none none none htr (by simp)
    (1 / 20) (by norm_num) (by norm_num) none true 5 7 (by norm_num) (by norm_num) 5 2 (some [0, 1, 2]) (grid := [0, 1, 2])
    ⟨by simp, by intro x hx; simp at hx; rcases hx with rfl | rfl | rfl <;> norm_num, rfl⟩ (by simp)
  exact ⟨w, solver, factor, best, V, C, R, a, b, c, d, e, g⟩

end PyV.Props
