import Verif.Model.EnsembleSpec
import Verif.Props.Wrapper

/-!
# Ensemble specifications made from a wrapper (C72)
-/

namespace PyV.Props

open PyV PyV.Api PyV.Spec.Api PyV.Opt PyV.Spec.Opt PyV.Spec.Con Matrix

variable {N : ℕ}

/-- The documented optimiser names, in upper or lower case. -/
def Names (key : String) : Method → Prop
  | .variance => key.toLower = "mean_variance" ∨ key.toLower = "mv"
  | .cvar => key.toLower = "mean-cvar" ∨ key.toLower = "cvar"
  | .relaxed => key.toLower = "rrp" ∨ key.toLower = "relaxed_risk_parity"
  | .robust => key.toLower = "robust"

/-- **C72** a documented name selects its method; any other raises `ValueError`. -/
theorem C72_optimiser (key : String) :
    (∀ m, resolveOptimiser key = .ok m ↔ Names key m) ∧ ((∀ m, ¬ Names key m) → resolveOptimiser key = .error .valueError) := by
  unfold resolveOptimiser optimiserFor Names
  generalize key.toLower = key
  constructor
  · intro m
    split_ifs with h1 h2 h3 h4
    · cases m <;> simp [h1] <;> rcases h1 with rfl | rfl <;> decide
    · cases m <;> simp [h1, h2] <;> rcases h2 with rfl | rfl <;> decide
    · cases m <;> simp [h1, h2, h3] <;> rcases h3 with rfl | rfl <;> decide
    · cases m <;> simp [h1, h2, h3, h4] <;> subst h4 <;> decide
    · cases m <;> simp_all
  · intro h
    have h1 : ¬ (key = "mean_variance" ∨ key = "mv") := h .variance
    have h2 : ¬ (key = "mean-cvar" ∨ key = "cvar") := h .cvar
    have h3 : ¬ (key = "rrp" ∨ key = "relaxed_risk_parity") := h .relaxed
    have h4 : ¬ (key = "robust") := h .robust
    rw [if_neg h1, if_neg h2, if_neg h3, if_neg h4]

theorem specWrapper_ok (hN : 0 < N) (w : Wrapper N) (con : Option (PyV.Con.Spec ℝ)) (hv : ∀ c, con = some c → Valid (N : ℤ) c) :
    ∃ m, PyV.Con.build (N : ℤ) (con.getD PyV.Con.defaultSpec) = .ok m ∧
      specWrapper w.dist con = .ok ⟨w.mu, w.cov, w.scen, m, ⟨none, none, none⟩, false, none⟩ := by
  obtain ⟨m0, hm0, -⟩ := C10_default_is_simplex (K := ℝ) N hN
  have hmk : mkWrapper w.dist none none true (some (.fin 1)) none =
      .ok ⟨w.mu, w.cov, w.scen, m0, ⟨none, none, none⟩, false, none⟩ := by
    unfold mkWrapper Fr.setupConstraints
    have : PyV.Con.build ((w.dist.N : ℕ) : ℤ) (⟨true, some (.fin 1), none, [], [], [], []⟩ : PyV.Con.Spec ℝ) = .ok m0 := hm0
    simp only [this, applyCosts]
    rfl
  unfold specWrapper
  rw [hmk]
  cases con with
  | none => exact ⟨m0, hm0, rfl⟩
  | some c =>
    obtain ⟨m, hm⟩ := (PyV.Con.build_isOk (nAssets := (N : ℤ)) (c := c) (rn := true)).mpr (hv c rfl)
    refine ⟨m, hm, ?_⟩
    have : PyV.Con.build ((w.dist.N : ℕ) : ℤ) c = .ok m := hm
    simp only [this]

/-- **C72** (partial) the wrapper the specification optimises over has the same moments and scenarios, and the constraints passed in
`optimiser_kwargs` in force, the long-only fully-invested default when none are passed; transaction costs are off, returns count as
simple, and no uncertainty matrix is kept. Missing: the constraints, costs, return type and uncertainty of the wrapper it was made
from, see `C72_counterexample`. -/
theorem C72_spec_partial {α : Type*} (call : Method → (N : ℕ) → Wrapper N → Except PyErr α) (hN : 0 < N) (w : Wrapper N)
    (key : String) (m : Method) (hk : Names key m) (con : Option (PyV.Con.Spec ℝ)) (c : PyV.Con.Spec ℝ)
    (hc : con = some c ∨ con = none ∧ c = PyV.Con.defaultSpec) (hv : Valid (N : ℤ) c) (hex : ∃ x : Fin N → ℝ, ¬ Satisfies c x) :
    ∃ s : Wrapper N, w.specFrontier call key con = call m N s ∧ InForce s none c ∧ s.mu = w.mu ∧ s.cov = w.cov ∧ s.scen = w.scen ∧
      Trading s none none none none ∧ s.isLog = false ∧ s.unc = none := by
  obtain ⟨mat, hm, hs⟩ := specWrapper_ok hN w con (by
    rintro c' rfl
    rcases hc with h | ⟨h, -⟩
    · injection h with h; rw [h]; exact hv
    · cases h)
  have hcc : con.getD PyV.Con.defaultSpec = c := by
    rcases hc with h | ⟨h, h'⟩
    · rw [h]; rfl
    · rw [h, h']; rfl
  rw [hcc] at hm
  refine ⟨⟨w.mu, w.cov, w.scen, mat, ⟨none, none, none⟩, false, none⟩, ?_, Or.inr ⟨rfl, hm, hex⟩, rfl, rfl, rfl, Or.inr ⟨rfl, rfl⟩, rfl, rfl⟩
  unfold Wrapper.specFrontier specFactory
  rw [hs]
  simp only [((C72_optimiser key).1 m).mpr hk]
  rfl

/-- **C72** (partial) for a wrapper with the default constraints, no costs, simple returns and no uncertainty matrix, the specification
gives exactly what the wrapper's own method gives. -/
theorem C72_default_partial {α : Type*} (call : Method → (N : ℕ) → Wrapper N → Except PyErr α) (hN : 0 < N) (w : Wrapper N)
    (hin : InForce w none PyV.Con.defaultSpec) (hcost : w.costs = ⟨none, none, none⟩) (hlog : w.isLog = false)
    (hunc : w.unc = none) (key : String) (m : Method) (hk : Names key m) :
    w.specFrontier call key none = call m N w := by
  obtain ⟨mat, hm, hs⟩ := specWrapper_ok hN w none (by simp)
  rcases hin with ⟨h, -⟩ | ⟨-, hb, -⟩
  · cases h
  have : mat = w.mats := by
    have hm' : PyV.Con.build (N : ℤ) PyV.Con.defaultSpec = .ok mat := hm
    rw [hb] at hm'
    injection hm' with hm'
    exact hm'.symm
  subst this
  unfold Wrapper.specFrontier specFactory
  rw [hs]
  simp only [((C72_optimiser key).1 m).mpr hk]
  have : (⟨w.mu, w.cov, w.scen, w.mats, ⟨none, none, none⟩, false, none⟩ : Wrapper N) = w := by
    rw [← hcost, ← hlog, ← hunc]
  exact congrArg (call m N) this

/-- **C72** an unknown optimiser name raises `ValueError` when the frontier is built. -/
theorem C72_unknown {α : Type*} (call : Method → (N : ℕ) → Wrapper N → Except PyErr α) (hN : 0 < N) (w : Wrapper N)
    (key : String) (hk : ∀ m, ¬ Names key m) (con : Option (PyV.Con.Spec ℝ)) (hv : ∀ c, con = some c → Valid (N : ℤ) c) :
    w.specFrontier call key con = .error .valueError := by
  obtain ⟨mat, hm, hs⟩ := specWrapper_ok hN w con hv
  unfold Wrapper.specFrontier specFactory
  rw [hs]
  simp only [(C72_optimiser key).2 hk]

/-- Long-only, fully invested, at most three quarters in any asset. -/
noncomputable def capped : PyV.Con.Spec ℝ := ⟨true, some (.fin 1), some (.pair none (some (.fin (3 / 4)))), [], [], [], []⟩

/-- **C72** (counterexample) a wrapper that caps every weight at 3/4: whatever sound and complete solver is used, the frontier of the
specification made from it contains a portfolio that breaks the cap. -/
theorem C72_counterexample : ∃ w : Wrapper 2, InForce w none capped ∧
    ∀ (solver : Opt.Solver) (argsort : Argsort), Sound solver → Complete solver →
      ∃ F : AnyFrontier 2, w.specFrontier (fun _ _ s => (s.varianceFrontier solver argsort 5 none none).map (fun F => (⟨_, F⟩ : Σ N, AnyFrontier N)))
          "mean_variance" none = .ok ⟨2, F⟩ ∧
        ∃ j, ¬ Satisfies capped (fun i => F.f.weights i j) := by
  have hvalid : Valid ((2 : ℕ) : ℤ) capped := by
    refine ⟨by norm_num, ?_, ?_, ?_, ?_, ?_, ?_⟩
    · intro y hy; cases hy; exact ⟨1, rfl⟩
    · refine ⟨?_, ?_, ?_⟩
      · intro y hy; cases hy
      · intro y hy; cases hy; exact ⟨_, rfl⟩
      · intro a b ha; cases ha
    · intro e he; cases he
    · intro e he; cases he
    · intro e he; cases he
    · intro e he; cases he
  obtain ⟨m, hm⟩ := (PyV.Con.build_isOk (nAssets := ((2 : ℕ) : ℤ)) (c := capped) (rn := true)).mpr hvalid
  have hcov : IsCov (fun i j => (Matrix.diagonal ![4, 1] : Matrix (Fin 2) (Fin 2) ℝ) i j) := by
    constructor
    · intro i j; fin_cases i <;> fin_cases j <;> simp
    · intro x
      simp [Fin.sum_univ_two]
      nlinarith [sq_nonneg (x 0), sq_nonneg (x 1)]
  refine ⟨⟨some ![1 / 10, 1 / 50], some (Matrix.diagonal ![4, 1]), none, m, ⟨none, none, none⟩, false, none⟩,
    Or.inr ⟨rfl, hm, fun _ => 0, fun h => ?_⟩, fun solver argsort hs hcp => ?_⟩
  · have := h.total 1 rfl
    simp at this
  · obtain ⟨s, hsf, hin, hmu, hco, -, htr, hlog, -⟩ := C72_spec_partial
      (fun _ _ s => (s.varianceFrontier solver argsort 5 none none).map (fun F => (⟨_, F⟩ : Σ N, AnyFrontier N)))
      (by norm_num : 0 < 2)
      ⟨some ![1 / 10, 1 / 50], some (Matrix.diagonal ![4, 1]), none, m, ⟨none, none, none⟩, false, none⟩ "mean_variance" .variance
      (Or.inl (by decide +kernel)) none PyV.Con.defaultSpec (Or.inr ⟨rfl, rfl⟩) ((PyV.Con.build_isOk (nAssets := ((2 : ℕ) : ℤ)) (rn := true)).mp
        (by obtain ⟨m0, hm0, -⟩ := C10_default_is_simplex (K := ℝ) 2 (by norm_num); exact ⟨m0, hm0⟩))
      ⟨fun _ => 0, fun h => by have := ((satisfies_default _).1 h).2; simp at this⟩
    have hfeas : ∀ x0 : ℝ, 0 ≤ x0 → x0 ≤ 1 → Satisfies (PyV.Con.defaultSpec : PyV.Con.Spec ℝ) (![x0, 1 - x0] : Fin 2 → ℝ) := by
      intro x0 h0 h1
      refine (satisfies_default _).2 ⟨?_, by simp [Fin.sum_univ_two]⟩
      intro i
      fin_cases i
      · simpa using h0
      · simpa using h1
    obtain ⟨cols, f, h1, h2, h3⟩ := C105_variance_frontier_partial hs hcp argsort s _ _ hmu hco hlog hcov none _ hin default_bounded
      ⟨_, hfeas 1 (by norm_num) le_rfl⟩ (limited_default (by norm_num)) none none none none htr (by simp) 5
    refine ⟨⟨cols.length, f⟩, ?_, ?_⟩
    · rw [hsf, h1]; rfl
    · have hgreat : IsGreatest (ret (![1 / 10, 1 / 50] : Fin 2 → ℝ) '' {x | Satisfies (PyV.Con.defaultSpec : PyV.Con.Spec ℝ) x}) (1 / 10) := by
        constructor
        · exact ⟨_, hfeas 1 (by norm_num) le_rfl, by simp [ret, Fin.sum_univ_two]⟩
        · rintro y ⟨x, hx, rfl⟩
          obtain ⟨hp, hsum⟩ := (satisfies_default x).1 hx
          rw [Fin.sum_univ_two] at hsum
          simp [ret, Fin.sum_univ_two]
          have := hp 1
          linarith
      have hlen : cols.length = 5 := by
        rcases h2.len with h | ⟨h, h' | h'⟩
        · exact h
        · cases h'
        · exfalso
          obtain ⟨x, hx⟩ := List.length_eq_one_iff.mp h
          have hin' := h2.inside x (by rw [hx]; simp)
          have hmin := h2.first x (by rw [hx]; rfl) _ (hfeas (1 / 5) (by norm_num) (by norm_num))
          obtain ⟨hp, hsum⟩ := (satisfies_default x).1 hin'
          rw [Fin.sum_univ_two] at hsum
          have hx1 : x 1 = 1 - x 0 := by linarith
          simp [varianceCost, quad, Fin.sum_univ_two, hx1] at hmin
          have hx0 : x 0 = 1 / 5 := by nlinarith [sq_nonneg (x 0 - 1 / 5)]
          have := h' x (by rw [hx]; rfl) _ hgreat
          simp [ret, Fin.sum_univ_two, hx1, hx0] at this
          norm_num [abs_le] at this
      have hlast : cols.getLast? = some (cols.get ⟨4, by omega⟩) := by
        rw [List.getLast?_eq_getElem?]
        simp [hlen]
      have htop := h2.top _ hlast (by omega) _ (hfeas 1 (by norm_num) le_rfl)
      have hlt : 4 < cols.length := by omega
      refine ⟨⟨4, hlt⟩, fun hsat => ?_⟩
      have hcap := (hsat.bounds 0).2 (3 / 4) rfl
      have hw := (h3 ⟨4, hlt⟩).1
      simp only [hw] at hcap
      have hin' := h2.inside _ (List.get_mem cols ⟨4, by omega⟩)
      obtain ⟨hp, hsum⟩ := (satisfies_default _).1 hin'
      rw [Fin.sum_univ_two] at hsum
      simp only [ret, Fin.sum_univ_two] at htop
      simp at htop hcap hsum
      linarith

/-- C72: an ordinary two-asset wrapper meets the hypotheses; `"MV"` names the variance frontier and `"markowitz"` nothing. -/
example {α : Type*} (call : Method → (N : ℕ) → Wrapper N → Except PyErr α) : ∃ w : Wrapper 2,
    w.specFrontier call "MV" none = call .variance 2 w ∧ w.specFrontier call "markowitz" none = .error .valueError := by
  obtain ⟨m, hm, -⟩ := C10_default_is_simplex (K := ℝ) 2 (by norm_num)
  refine ⟨⟨some ![1 / 10, 1 / 50], some 1, none, m, ⟨none, none, none⟩, false, none⟩, ?_, ?_⟩
  · refine C72_default_partial call (by norm_num) _ (Or.inr ⟨rfl, hm, fun _ => 0, fun h => ?_⟩) rfl rfl rfl "MV" .variance (Or.inr (by decide +kernel))
    have := ((satisfies_default _).1 h).2
    simp at this
  · have e : "markowitz".toLower = "markowitz" := by decide +kernel
    exact C72_unknown call (by norm_num) _ "markowitz" (by intro mm; cases mm <;> simp [Names, e]) none (by simp)

end PyV.Props
