import Verif.Spec.Optimization
import Mathlib.Topology.MetricSpace.Bounded
import Mathlib.Topology.MetricSpace.ProperSpace.Real
import Mathlib.Topology.Algebra.Order.LiminfLimsup
import Mathlib.Topology.Order.Compact
import Mathlib.Topology.Instances.RealVectorSpace
import Mathlib.Analysis.Normed.Group.Constructions
import Mathlib.Analysis.Normed.Group.Bounded
import Mathlib.Analysis.Normed.Module.FiniteDimension

/-! # Existence of minimisers over bounded user sets -/

namespace PyV.Opt

open PyV PyV.Spec PyV.Spec.Opt

variable {N : ℕ}

theorem continuous_row (g : Fin N → ℝ) : Continuous (fun w : Fin N → ℝ => ∑ i, g i * w i) := by fun_prop

theorem isClosed_reaches (u : User N) (mean : Fin N → ℝ) (target : Option ℝ) : IsClosed {w | Reaches u mean target w} := by
  have : {w | Reaches u mean target w} =
      (⋂ r ∈ u.G.getD [], {w : Fin N → ℝ | ∑ i, r.1 i * w i ≤ r.2}) ∩
      (⋂ r ∈ u.A.getD [], {w : Fin N → ℝ | ∑ i, r.1 i * w i = r.2}) ∩
      (⋂ t, ⋂ (_ : target = some t), {w : Fin N → ℝ | t ≤ ∑ i, mean i * w i}) := by
    ext w; simp only [Reaches, Allowed, Set.mem_ofPred_eq, Set.mem_inter_iff, Set.mem_iInter]
  rw [this]
  refine ((isClosed_biInter fun r _ => isClosed_le (continuous_row _) continuous_const).inter
    (isClosed_biInter fun r _ => isClosed_eq (continuous_row _) continuous_const)).inter
    (isClosed_iInter fun t => isClosed_iInter fun _ => isClosed_le continuous_const (continuous_row _))

theorem isCompact_reaches (u : User N) (mean : Fin N → ℝ) (target : Option ℝ)
    (hb : ∃ M, ∀ w, Allowed u w → ∀ i, |w i| ≤ M) : IsCompact {w | Reaches u mean target w} := by
  obtain ⟨M, hM⟩ := hb
  refine Metric.isCompact_of_isClosed_isBounded (isClosed_reaches u mean target) ?_
  refine (isBounded_iff_forall_norm_le).2 ⟨max M 0, fun w hw => ?_⟩
  refine (pi_norm_le_iff_of_nonneg (le_max_right _ _)).2 fun i => ?_
  exact le_trans (hM w hw.1 i) (le_max_left _ _)

theorem exists_min (u : User N) (mean : Fin N → ℝ) (target : Option ℝ) (hb : ∃ M, ∀ w, Allowed u w → ∀ i, |w i| ≤ M)
    (hn : ∃ w, Reaches u mean target w) (f : (Fin N → ℝ) → ℝ) (hf : Continuous f) :
    ∃ w, Reaches u mean target w ∧ ∀ v, Reaches u mean target v → f w ≤ f v := by
  obtain ⟨w, hw, hm⟩ := (isCompact_reaches u mean target hb).exists_isMinOn hn hf.continuousOn
  exact ⟨w, hw, fun v hv => hm hv⟩

/-- Joint minimum over the user set and a bounded interval. -/
theorem exists_min₂ (u : User N) (mean : Fin N → ℝ) (target : Option ℝ) (hb : ∃ M, ∀ w, Allowed u w → ∀ i, |w i| ≤ M)
    (hn : ∃ w, Reaches u mean target w) (K : ℝ) (hK : 0 ≤ K) (f : (Fin N → ℝ) × ℝ → ℝ) (hf : Continuous f) :
    ∃ w c, Reaches u mean target w ∧ |c| ≤ K ∧ ∀ v d, Reaches u mean target v → |d| ≤ K → f (w, c) ≤ f (v, d) := by
  have hc : IsCompact ({w | Reaches u mean target w} ×ˢ Set.Icc (-K) K) :=
    (isCompact_reaches u mean target hb).prod isCompact_Icc
  obtain ⟨w, hw⟩ := hn
  obtain ⟨⟨w, c⟩, hw, hm⟩ := hc.exists_isMinOn ⟨(w, 0), hw, by simp [hK]⟩ hf.continuousOn
  refine ⟨w, c, hw.1, abs_le.2 hw.2, fun v d hv hd => hm ⟨hv, abs_le.1 hd⟩⟩

end PyV.Opt
