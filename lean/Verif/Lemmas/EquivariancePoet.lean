import Verif.Lemmas.Equivariance
import Mathlib.LinearAlgebra.Matrix.Charpoly.Basic
import Mathlib.Data.Fin.Tuple.Sort

namespace PyV.Equi

open PyV PyV.Valid PyV.Mom Matrix

variable {T N : ℕ} (σ : Equiv.Perm (Fin N))

/-- Sorted eigenvalues are determined by the matrix. -/
theorem eigenvalues_unique {V W : Matrix (Fin N) (Fin N) ℝ} {d e : Fin N → ℝ} (hV : V * Vᵀ = 1) (hW : W * Wᵀ = 1)
    (h : V * diagonal d * Vᵀ = W * diagonal e * Wᵀ) (hd : Antitone d) (he : Antitone e) : d = e := by
  have hc : ∀ (V : Matrix (Fin N) (Fin N) ℝ) (d : Fin N → ℝ), V * Vᵀ = 1 →
      (V * diagonal d * Vᵀ).charpoly = ∏ i, (Polynomial.X - Polynomial.C (d i)) := by
    intro V d hV
    rw [charpoly_mul_comm, ← Matrix.mul_assoc, mul_eq_one_comm.1 hV, Matrix.one_mul, charpoly_diagonal]
  have h1 : (∏ i, (Polynomial.X - Polynomial.C (d i))) = ∏ i, (Polynomial.X - Polynomial.C (e i)) := by
    rw [← hc V d hV, ← hc W e hW, h]
  have hr : ∀ d : Fin N → ℝ, (∏ i, (Polynomial.X - Polynomial.C (d i))).roots = Multiset.map d Finset.univ.val := by
    intro d
    have := Polynomial.roots_multiset_prod_X_sub_C (Multiset.map d Finset.univ.val)
    rw [Multiset.map_map] at this
    exact this
  have h2 : Multiset.map d Finset.univ.val = Multiset.map e Finset.univ.val := by rw [← hr, ← hr, h1]
  have h3 : (List.ofFn d).Perm (List.ofFn e) := by
    have hof : ∀ d : Fin N → ℝ, Multiset.map d Finset.univ.val = (List.ofFn d : Multiset ℝ) := by
      intro d
      rw [List.ofFn_eq_map]
      rfl
    rw [hof, hof] at h2
    exact Multiset.coe_eq_coe.1 h2
  have h4 := h3.eq_of_sortedGE (hd.sortedGE_ofFn) (he.sortedGE_ofFn)
  exact List.ofFn_injective h4

theorem median_perm {l l' : List ℝ} (h : l.Perm l') : median l = median l' := by
  unfold median
  have : l.insertionSort (· ≤ ·) = l'.insertionSort (· ≤ ·) := by
    refine List.Perm.eq_of_pairwise' (r := (· ≤ ·)) (List.pairwise_insertionSort _ _) (List.pairwise_insertionSort _ _) ?_
    exact (List.perm_insertionSort _ _).trans (h.trans (List.perm_insertionSort _ _).symm)
  rw [this]

theorem finRange_perm : ((List.finRange N).map σ).Perm (List.finRange N) := by
  rw [List.perm_ext_iff_of_nodup ((List.nodup_finRange N).map σ.injective) (List.nodup_finRange N)]
  intro a
  simp only [List.mem_map, List.mem_finRange, true_and, iff_true]
  exact ⟨σ.symm a, by simp⟩

theorem offList_perm (A : Matrix (Fin N) (Fin N) ℝ) :
    ((List.finRange N).flatMap (fun i => ((List.finRange N).filter (fun j => decide (i ≠ j))).map (fun j => |pm σ A i j|))).Perm
      ((List.finRange N).flatMap (fun i => ((List.finRange N).filter (fun j => decide (i ≠ j))).map (fun j => |A i j|))) := by
  have h1 : ∀ i, (((List.finRange N).filter (fun j => decide (i ≠ j))).map (fun j => |pm σ A i j|)).Perm
      (((List.finRange N).filter (fun j => decide (σ i ≠ j))).map (fun j => |A (σ i) j|)) := by
    intro i
    have e1 : ((List.finRange N).filter (fun j => decide (i ≠ j))).map (fun j => |pm σ A i j|)
        = ((((List.finRange N).map σ).filter (fun j => decide (σ i ≠ j)))).map (fun j => |A (σ i) j|) := by
      rw [List.filter_map, List.map_map]
      have : (fun j => decide (σ i ≠ j)) ∘ σ = fun j => decide (i ≠ j) := by
        funext j
        simp [σ.injective.eq_iff]
      rw [this]
      rfl
    rw [e1]
    exact (((finRange_perm σ).filter _).map _)
  refine (List.Perm.flatMap_left _ fun i _ => h1 i).trans ?_
  have e2 : (List.finRange N).flatMap (fun i => ((List.finRange N).filter (fun j => decide (σ i ≠ j))).map (fun j => |A (σ i) j|))
      = ((List.finRange N).map σ).flatMap (fun i => ((List.finRange N).filter (fun j => decide (i ≠ j))).map (fun j => |A i j|)) := by
    rw [List.flatMap_map]
  rw [e2]
  exact (finRange_perm σ).flatMap_right _

theorem poetTau_perm (n : ℕ) (A : Matrix (Fin N) (Fin N) ℝ) (t : PoetThresh) : poetTau n (pm σ A) t = poetTau n A t := by
  cases t with
  | num t => rfl
  | auto =>
    unfold poetTau
    simp only
    rw [median_perm (offList_perm σ A)]

theorem poetScale_perm (b : Bool) (X : Fin T → Fin N → ℝ) : poetScale b (px σ X) = poetScale b X ∘ σ := rfl

theorem poetFactor_eq (k : ℕ) (vals : Fin N → ℝ) (V : Matrix (Fin N) (Fin N) ℝ) :
    poetFactor k vals V = V * diagonal (fun l : Fin N => if (l : ℕ) < k then max (vals l) 0 else 0) * Vᵀ := by
  ext i j
  rw [Matrix.mul_assoc, Matrix.mul_apply]
  simp only [poetFactor, of_apply, diagonal_mul, transpose_apply]
  refine Finset.sum_congr rfl fun l _ => ?_
  split
  · have := Real.mul_self_sqrt (le_max_right (vals l) 0)
    calc _ = V i l * V j l * (Real.sqrt (max (vals l) 0) * Real.sqrt (max (vals l) 0)) := by ring
      _ = _ := by rw [this]; ring
  · ring

/-- The number of factors does not split a repeated eigenvalue. -/
def NoTie (vals : Fin N → ℝ) (k : ℕ) : Prop := ∀ a b : Fin N, (a : ℕ) < k → k ≤ (b : ℕ) → vals a ≠ vals b

theorem poetFactor_perm {eigh eigh' : Eigh N} (he : IsEigh eigh) (he' : IsEigh eigh') {A : Matrix (Fin N) (Fin N) ℝ} (hA : Aᵀ = A)
    (hv : (eigh' (pm σ A)).1 = (eigh A).1) {k : ℕ} (hk : NoTie (eigh A).1 k) :
    poetFactor k (eigh' (pm σ A)).1 (eigh' (pm σ A)).2 = pm σ (poetFactor k (eigh A).1 (eigh A).2) := by
  rw [poetFactor_eq, poetFactor_eq]
  refine eigh_func_perm σ he he' hA _ _ fun i j hij => ?_
  rw [hv] at hij ⊢
  by_cases h1 : (j : ℕ) < k <;> by_cases h2 : (i : ℕ) < k
  · rw [if_pos h1, if_pos h2, hij]
  · exact absurd hij (hk j i h1 (not_lt.1 h2))
  · exact absurd hij.symm (hk i j h2 (not_lt.1 h1))
  · rw [if_neg h1, if_neg h2]

theorem poetCombine_perm (s : Fin N → ℝ) (tau : ℝ) (A B : Matrix (Fin N) (Fin N) ℝ) :
    poetCombine (s ∘ σ) tau (pm σ A) (pm σ B) = pm σ (poetCombine s tau A B) := by
  unfold poetCombine
  simp only
  have hd : diagonal (s ∘ σ) = pm σ (diagonal s) := by
    ext i j
    simp [diagonal_apply, σ.injective.eq_iff]
  rw [hd, softOff_perm, ← pm_add, pm_half, ← pm_mul, ← pm_mul, pm_half]

theorem npCov1_symm (X : Fin T → Fin N → ℝ) : (npCov1 X)ᵀ = npCov1 X := by
  ext i j
  simp only [npCov1, transpose_apply, of_apply]
  congr 1
  exact Finset.sum_congr rfl fun t _ => by ring

theorem poet_perm {eigh eigh' : Eigh N} (he : IsEigh eigh) (he' : IsEigh eigh')
    (hd : ∀ A, Aᵀ = A → Antitone (eigh A).1) (hd' : ∀ A, Aᵀ = A → Antitone (eigh' A).1) (X : Fin T → Fin N → ℝ) (k : PoetK) (t : PoetThresh)
    (b : Bool)
    (ht : ∀ ks, poetSelect (eigh (npCov1 fun t i => centred X t i / poetScale b (centred X) i)).1 k = .ok ks →
      NoTie (eigh (npCov1 fun t i => centred X t i / poetScale b (centred X) i)).1 ks) :
    poet eigh' (px σ X) k t b = (poet eigh X k t b).map (pm σ) := by
  unfold poet
  have hraw : poetRaw eigh' (px σ X) k t b = (poetRaw eigh X k t b).map (pm σ) := by
    unfold poetRaw
    split
    · rfl
    · simp only
      rw [centred_perm, poetScale_perm]
      have hS : npCov1 (fun t i => px σ (centred X) t i / (poetScale b (centred X) ∘ σ) i)
          = pm σ (npCov1 fun t i => centred X t i / poetScale b (centred X) i) := rfl
      rw [hS]
      have hsym := npCov1_symm (fun t i => centred X t i / poetScale b (centred X) i)
      generalize npCov1 (fun t i => centred X t i / poetScale b (centred X) i) = S at hsym ht ⊢
      have hsym' : (pm σ S)ᵀ = pm σ S := by rw [← pm_transpose, hsym]
      have hv : (eigh' (pm σ S)).1 = (eigh S).1 := by
        obtain ⟨h1, h2⟩ := he S hsym
        obtain ⟨h1', h2'⟩ := he' (pm σ S) hsym'
        refine eigenvalues_unique h1' (rows_orth σ h1) ?_ (hd' _ hsym') (hd _ hsym)
        rw [← h2', ← pm_decomp, ← h2]
      rw [show poetSelect (eigh' (pm σ S)).1 k = poetSelect (eigh S).1 k by rw [hv]]
      cases hk : poetSelect (eigh S).1 k with
      | error e => rfl
      | ok ks =>
        simp only
        rw [poetFactor_perm σ he he' hsym hv (ht ks hk), ← pm_sub, pm_half, poetTau_perm]
        cases poetTau T ((1 / 2 : ℝ) • ((S - poetFactor ks (eigh S).1 (eigh S).2) + (S - poetFactor ks (eigh S).1 (eigh S).2)ᵀ)) t with
        | error e => rfl
        | ok tau =>
          simp only
          rw [poetCombine_perm]
          rfl
  rw [hraw]
  cases poetRaw eigh X k t b with
  | error e => rfl
  | ok C =>
    simp only [Except.map]
    rw [guard_perm]
    rfl

end PyV.Equi
