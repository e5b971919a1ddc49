import Verif.Props.ViewsSource
import Verif.Props.ViewsInvariance
import Verif.Props.ViewsLaw
import Verif.Props.StressInvariants

/-! # C28: the ranking theorem on a concrete processor -/

namespace PyV.Props

open PyV PyV.FV PyV.Spec

/-- Asset "b" earns 1 in both scenarios, asset "a" 0 and 1.  Ranking "b" above "a" under the prior (1/2, 1/2) is accepted, and `C28_processor` applies
to the processor built. -/
example (argsort : (S : ℕ) → (Fin S → ℝ) → Equiv.Perm (Fin S)) (round : ℝ → ℤ) :
    ∃ (ep : (S : ℕ) → Ep S) (P : Processor), (∀ S, EpSound (ep S)) ∧
      process ep argsort round ⟨2, 2, twoScen, cexAssets, true, some fun _ => .fin (1 / 2)⟩ { rankMean := some [.str "b", .str "a"] } = .ok P ∧
      ∃ q : Fin 2 → ℝ, P = ⟨2, 2, twoScen, cexAssets, true, q, meanAt q twoScen, npCovW twoScen q⟩ ∧ meanAt q twoScen 0 ≤ meanAt q twoScen 1 := by
  refine ⟨fun S => optimalEp, ?_⟩
  have hep : ∀ S, EpExact (optimalEp : Ep S) := fun S => optimalEp_exact
  have h1 : ∑ _s : Fin 2, (1 / 2 : ℝ) = 1 := by norm_num
  have hp : priorOf (some fun _ : Fin 2 => (.fin (1 / 2) : PyFloat ℝ)) = .ok fun _ => 1 / 2 :=
    priorOf_self (q := fun _ : Fin 2 => (1 / 2 : ℝ)) (by norm_num) (by norm_num) h1
  have hb : Names cexAssets (.str "b") 1 := .inl rfl
  have ha : Names cexAssets (.str "a") 0 := .inl rfl
  have hm : (0 : ℝ) ≤ meanAt (fun _ : Fin 2 => (1 / 2 : ℝ)) twoScen 1 - meanAt (fun _ : Fin 2 => (1 / 2 : ℝ)) twoScen 0 := by
    simp [meanAt, expect, twoScen, Fin.sum_univ_two]
    try norm_num
  have hsat := C188_satisfied_views_partial hep argsort round (src := ⟨2, 2, twoScen, cexAssets, true, some fun _ => .fin (1 / 2)⟩)
    (p0 := fun _ => 1 / 2) (by norm_num)
    (by norm_num) cexAssets_injective (by
      intro p hpp v hv
      injection hpp with hpp
      subst hpp
      left
      have : v = fun _ => 1 / 2 := by
        funext s
        have := hv s
        injection this with this
        exact this.symm
      rw [this]; exact h1) hp (a := { rankMean := some [.str "b", .str "a"] })
    (v := ⟨[(.pair (.str "b") (.str "a"), .spec .ge (.fin 0))], [], [], [], [], [], []⟩) rfl
    ⟨by
      intro kv hkv
      rw [List.mem_singleton] at hkv
      subst hkv
      exact ⟨⟨⟨1, hb⟩, ⟨0, ha⟩⟩, _, hm⟩, by simp, by simp, by simp, by simp, by simp, by simp⟩
    ⟨by
      intro kv hkv
      rw [List.mem_singleton] at hkv
      subst hkv
      exact ⟨1, 0, hb, ha, hm⟩, by simp, by simp, by simp, by simp, by simp, by simp, by simp⟩ rfl
  refine ⟨_, fun S => epExact_sound (hep S), hsat.1, ?_⟩
  obtain ⟨q, hq, hrank⟩ := C28_processor (fun S => epExact_sound (hep S)) cexAssets_injective
    (src := ⟨2, 2, twoScen, cexAssets, true, some fun _ => .fin (1 / 2)⟩) (p := fun _ => 1 / 2) (by norm_num)
    ⟨by norm_num, h1⟩ rfl rfl rfl rfl rfl (.inl rfl) hsat.1
  exact ⟨q, hq, hrank 0 1 (by norm_num) (by norm_num) 1 0 hb ha⟩

end PyV.Props
