import Verif.Spec.Optimization
import Verif.Lemmas.Risk
import Mathlib.Tactic.Linarith
import Mathlib.Tactic.Ring

set_option linter.unusedSectionVars false

/-! # Meaning of the assembled programmes -/

namespace PyV.Opt

open PyV PyV.Spec PyV.Spec.Opt

variable {N T : ℕ} {E : Type} [Fintype E]

theorem sum_blocks (w : Fin N → ℝ) (c : ℝ) (xi : Fin T → ℝ) (e : E → ℝ) (x : CV N T E → ℝ) :
    ∑ v, blocks w c xi e v * x v =
      ∑ i, w i * x (Sum.inl i) + (c * x (Sum.inr (Sum.inl ())) + (∑ t, xi t * x (Sum.inr (Sum.inr (Sum.inl t))) +
        ∑ f, e f * x (Sum.inr (Sum.inr (Sum.inr f))))) := by
  simp [Fintype.sum_sum_type, blocks]

/-- The weight block. -/
def wOf (x : CV N T E → ℝ) : Fin N → ℝ := fun i => x (Sum.inl i)
/-- The threshold. -/
def cOf (x : CV N T E → ℝ) : ℝ := x (Sum.inr (Sum.inl ()))
/-- The excess losses. -/
def xiOf (x : CV N T E → ℝ) : Fin T → ℝ := fun t => x (Sum.inr (Sum.inr (Sum.inl t)))
/-- The trade variables. -/
def eOf (x : CV N T E → ℝ) : E → ℝ := fun e => x (Sum.inr (Sum.inr (Sum.inr e)))

theorem feasible_cvBase [DecidableEq E] (a : CvArgs N T) (cost : E → ℝ) (nonneg : List E) (trade : List (Row (CV N T E)))
    (target : Option ℝ) (x : CV N T E → ℝ) :
    Feasible (addTarget (cvMean a) target (cvBase a cost nonneg trade)) x ↔
      (∀ t, -(∑ i, a.R t i * wOf x i) - cOf x ≤ xiOf x t) ∧ (∀ t, 0 ≤ xiOf x t) ∧ (∀ e ∈ nonneg, 0 ≤ eOf x e) ∧
      Reaches a.user (cvMean a) target (wOf x) ∧ ∀ r ∈ trade, slack x r = 0 := by
  have hl : ∀ r, r ∈ (addTarget (cvMean a) target (cvBase a cost nonneg trade)).lin ↔
      r ∈ (cvBase a cost nonneg trade).lin ∨ ∃ t, target = some t ∧
        r = (blocks (fun i => -(cvMean a i)) 0 (fun _ => 0) (fun _ => 0), -t) := by
    intro r; unfold addTarget; cases target <;> simp
  have he : (addTarget (cvMean a) target (cvBase a cost nonneg trade)).eq = (cvBase a cost nonneg trade).eq := by
    unfold addTarget; cases target <;> rfl
  have hs : (addTarget (cvMean a) target (cvBase a cost nonneg trade)).soc = [] := by
    unfold addTarget; cases target <;> rfl
  have h1 : ∀ t, 0 ≤ slack x (blocks (fun i => -(a.R t i)) (-1) (fun s => if s = t then -1 else 0) (fun _ => (0:ℝ)), 0) ↔
      -(∑ i, a.R t i * wOf x i) - cOf x ≤ xiOf x t := by
    intro t
    simp only [slack, sum_blocks]
    simp [wOf, cOf, xiOf]
    constructor <;> intro h <;> linarith
  have h2 : ∀ t, 0 ≤ slack x (blocks (fun _ => 0) 0 (fun s => if s = t then -1 else 0) (fun _ => (0:ℝ)), 0) ↔
      0 ≤ xiOf x t := by
    intro t
    simp only [slack, sum_blocks]
    simp [xiOf]
  have h3 : ∀ e, 0 ≤ slack x (blocks (fun _ => 0) 0 (fun _ => 0) (fun f => if f = e then (-1:ℝ) else 0), 0) ↔
      0 ≤ eOf x e := by
    intro e
    simp only [slack, sum_blocks]
    simp [eOf]
  have h4 : ∀ r : Row (Fin N), slack x (blocks r.1 0 (fun _ => 0) (fun _ => (0:ℝ)), r.2) =
      r.2 - ∑ i, r.1 i * wOf x i := by
    intro r
    simp only [slack, sum_blocks]
    simp [wOf]
  have h5 : ∀ t, slack x (blocks (fun i => -(cvMean a i)) 0 (fun _ => 0) (fun _ => (0:ℝ)), -t) =
      -t + ∑ i, cvMean a i * wOf x i := by
    intro t
    simp only [slack, sum_blocks]
    simp [wOf]
  constructor
  · rintro ⟨hlin, -, heq⟩
    rw [he] at heq
    simp only [hl] at hlin
    refine ⟨fun t => (h1 t).1 (hlin _ (Or.inl ?_)), fun t => (h2 t).1 (hlin _ (Or.inl ?_)),
      fun e hm => (h3 e).1 (hlin _ (Or.inl ?_)), ⟨⟨fun r hr => ?_, fun r hr => ?_⟩, fun t ht => ?_⟩, fun r hr => ?_⟩
    · simp [cvBase]
    · simp [cvBase]
    · simp [cvBase]; right; right; left; exact ⟨e, hm, rfl⟩
    · have := hlin (blocks r.1 0 (fun _ => 0) (fun _ => 0), r.2)
        (Or.inl (by simp only [cvBase, List.mem_append, List.mem_map]; exact Or.inr ⟨r, hr, rfl⟩))
      rw [h4] at this; linarith
    · have := heq (blocks r.1 0 (fun _ => 0) (fun _ => 0), r.2)
        (by simp only [cvBase, List.mem_append, List.mem_map]; exact Or.inl ⟨r, hr, rfl⟩)
      rw [h4] at this; linarith
    · have := hlin _ (Or.inr ⟨t, ht, rfl⟩)
      rw [h5] at this; linarith
    · exact heq r (by simp only [cvBase, List.mem_append]; exact Or.inr hr)
  · rintro ⟨g1, g2, g3, ⟨⟨g4, g5⟩, g6⟩, g7⟩
    refine ⟨fun r hr => ?_, ?_, fun r hr => ?_⟩
    · rcases (hl r).1 hr with hr | ⟨t, ht, rfl⟩
      · simp only [cvBase, List.mem_append, List.mem_map, List.mem_finRange, true_and] at hr
        rcases hr with ((⟨t, rfl⟩ | ⟨t, rfl⟩) | ⟨e, hm, rfl⟩) | ⟨r, hm, rfl⟩
        · exact (h1 t).2 (g1 t)
        · exact (h2 t).2 (g2 t)
        · exact (h3 e).2 (g3 e hm)
        · rw [h4]; have := g4 r hm; linarith
      · rw [h5]; have := g6 t ht; linarith
    · rw [hs]; simp
    · rw [he] at hr
      simp only [cvBase, List.mem_append, List.mem_map] at hr
      rcases hr with ⟨r, hm, rfl⟩ | hr
      · rw [h4]; have := g5 r hm; linarith
      · exact g7 r hr

theorem value_cvBase [DecidableEq E] (a : CvArgs N T) (cost : E → ℝ) (nonneg : List E) (trade : List (Row (CV N T E)))
    (target : Option ℝ) (x : CV N T E → ℝ) :
    value (addTarget (cvMean a) target (cvBase a cost nonneg trade)) x =
      cOf x + (∑ t, a.p t / a.alpha * xiOf x t + ∑ e, cost e * eOf x e) := by
  have h : value (addTarget (cvMean a) target (cvBase a cost nonneg trade)) x = value (cvBase a cost nonneg trade) x := by
    unfold addTarget; cases target <;> rfl
  rw [h]
  simp only [value, cvBase, sum_blocks]
  simp [cOf, xiOf, eOf]

/-- P&L of `w` per scenario. -/
def pnlOf (a : CvArgs N T) (w : Fin N → ℝ) : Fin T → ℝ := fun t => ∑ i, a.R t i * w i

/-- Lower bound of the objective by the Rockafellar–Uryasev objective. -/
theorem ru_le (a : CvArgs N T) (hp : ∀ t, 0 ≤ a.p t) (ha : 0 < a.alpha) (x : CV N T E → ℝ)
    (h1 : ∀ t, -(∑ i, a.R t i * wOf x i) - cOf x ≤ xiOf x t) (h2 : ∀ t, 0 ≤ xiOf x t) :
    ru a.p (pnlOf a (wOf x)) (1 - a.alpha) (cOf x) ≤ cOf x + ∑ t, a.p t / a.alpha * xiOf x t := by
  unfold ru expect
  have : (1 : ℝ) - (1 - a.alpha) = a.alpha := by ring
  rw [this, Finset.sum_div]
  gcongr with t
  rw [div_mul_eq_mul_div]
  gcongr
  · exact hp t
  · exact max_le (h1 t) (h2 t)

/-- The completion of `w` and `c` with the smallest excess variables. -/
def complete (a : CvArgs N T) (w : Fin N → ℝ) (c : ℝ) (e : E → ℝ) : CV N T E → ℝ :=
  blocks w c (fun t => max (-(pnlOf a w t) - c) 0) e

theorem ru_complete (a : CvArgs N T) (w : Fin N → ℝ) (c : ℝ) (e : E → ℝ) :
    cOf (complete a w c e) + ∑ t, a.p t / a.alpha * xiOf (complete a w c e) t = ru a.p (pnlOf a w) (1 - a.alpha) c := by
  unfold ru expect
  have : (1 : ℝ) - (1 - a.alpha) = a.alpha := by ring
  rw [this, Finset.sum_div]
  simp only [complete, cOf, xiOf, blocks, Sum.elim_inr, Sum.elim_inl]
  congr 1
  apply Finset.sum_congr rfl; intro t _
  ring

theorem trade_iff (w0 : Fin N → ℝ) (x : CV N T (Fin N ⊕ Fin N) → ℝ) :
    (∀ r ∈ tradeRows w0, slack x r = 0) ↔ ∀ i, wOf x i - eOf x (.inl i) + eOf x (.inr i) = w0 i := by
  have h : ∀ i, slack x ((blocks (fun j => if j = i then 1 else 0) 0 (fun _ => 0)
      (Sum.elim (fun j => if j = i then -1 else 0) (fun j => if j = i then (1:ℝ) else 0)), w0 i)) =
      w0 i - (wOf x i - eOf x (.inl i) + eOf x (.inr i)) := by
    intro i
    simp only [slack]
    rw [sum_blocks, Fintype.sum_sum_type]
    simp [wOf, eOf]; ring
  simp only [tradeRows, List.mem_map, List.mem_finRange, true_and, forall_exists_index, forall_apply_eq_imp_iff, h]
  exact forall_congr' fun i => by constructor <;> intro h <;> linarith

end PyV.Opt
