import Verif.Props.OptCvar
import Verif.Props.Bayesian

set_option linter.unusedSectionVars false

/-! # C67, C92–C94: the robust optimiser -/

namespace PyV.Props

open PyV PyV.Opt PyV.Spec.Opt Matrix

variable {N : ℕ}

/-- `L` is the Cholesky factor of `A`: lower triangular, positive diagonal, `L L' = A`. -/
def IsChol {n : ℕ} (A L : Matrix (Fin n) (Fin n) ℝ) : Prop :=
  L * Lᵀ = A ∧ (∀ i j, i < j → L i j = 0) ∧ ∀ i, 0 < L i i

/-- A correct Cholesky routine: it returns the Cholesky factor exactly when there is one. -/
def CholOk (factor : Bayes.Factor) : Prop :=
  ∀ n (A : Matrix (Fin n) (Fin n) ℝ), (∀ L, factor n A = some L → IsChol A L) ∧ ((∃ L, IsChol A L) → ∃ L, factor n A = some L)

theorem cholOk_exists : ∃ factor, CholOk factor := by
  classical
  refine ⟨fun n A => if h : ∃ L, IsChol A L then some h.choose else none, fun n A => ⟨fun L hL => ?_, fun h => ⟨_, dif_pos h⟩⟩⟩
  dsimp only at hL
  by_cases h : ∃ L, IsChol A L
  · rw [dif_pos h] at hL; injection hL with hL; subst hL; exact h.choose_spec
  · rw [dif_neg h] at hL; cases hL

/-- `|| L w ||_2`, the quantity bounded by the cone. -/
noncomputable def coneNorm (L : Matrix (Fin N) (Fin N) ℝ) (w : Fin N → ℝ) : ℝ := Real.sqrt (∑ k, (∑ i, L k i * w i) ^ 2)

theorem feasible_rob (a : RobArgs N) (L : Matrix (Fin N) (Fin N) ℝ) (pen : ℝ) (cap : Option ℝ) (x : Fin N ⊕ Unit → ℝ) :
    Feasible (robProg a L pen cap) x ↔ Allowed a.user (fun i => x (.inl i)) ∧
      coneNorm L (fun i => x (.inl i)) ≤ x (.inr ()) ∧ ∀ s, cap = some s → x (.inr ()) ≤ Real.sqrt s := by
  have hrow : ∀ (g : Fin N → ℝ) (c h : ℝ), slack x (Sum.elim g (fun _ => c), h) = h - (∑ i, g i * x (.inl i) + c * x (.inr ())) := by
    intro g c h; simp [slack, Fintype.sum_sum_type]
  have hcone : ∀ b ∈ (robProg a L pen cap).soc, InCone (b.map (slack x)) ↔ coneNorm L (fun i => x (.inl i)) ≤ x (.inr ()) := by
    intro b hb
    simp only [robProg, List.mem_singleton] at hb
    subst hb
    simp only [List.map_cons, InCone, List.map_map, hrow]
    have : ((List.finRange N).map ((fun y => y ^ 2) ∘ slack x ∘ fun k => (Sum.elim (fun i => -(L k i)) (fun _ => (0:ℝ)), 0))).sum =
        ∑ k, (∑ i, L k i * x (.inl i)) ^ 2 := by
      rw [Fin.sum_univ_def]
      congr 1
      apply List.map_congr_left
      intro k _
      simp only [Function.comp, hrow]
      simp
    rw [this]
    simp [coneNorm]
  constructor
  · rintro ⟨h1, h2, h3⟩
    refine ⟨⟨fun r hr => ?_, fun r hr => ?_⟩, ?_, fun s hs => ?_⟩
    · have := h1 (Sum.elim r.1 (fun _ => 0), r.2) (by simp only [robProg, List.mem_append, List.mem_map]; exact Or.inl ⟨r, hr, rfl⟩)
      rw [hrow] at this; linarith
    · have := h3 (Sum.elim r.1 (fun _ => 0), r.2) (by simp only [robProg, List.mem_map]; exact ⟨r, hr, rfl⟩)
      rw [hrow] at this; linarith
    · obtain ⟨b, hb⟩ : ∃ b, b ∈ (robProg a L pen cap).soc := ⟨_, List.mem_singleton.2 rfl⟩
      exact (hcone b hb).1 (h2 b hb)
    · have := h1 (Sum.elim (fun _ => 0) (fun _ => 1), Real.sqrt s) (by
        simp only [robProg, List.mem_append, hs, List.mem_singleton, or_true])
      rw [hrow] at this; simp at this; linarith
  · rintro ⟨⟨h1, h2⟩, h3, h4⟩
    refine ⟨fun r hr => ?_, fun b hb => (hcone b hb).2 h3, fun r hr => ?_⟩
    · simp only [robProg, List.mem_append, List.mem_map] at hr
      rcases hr with ⟨r, hr, rfl⟩ | hr
      · rw [hrow]; have := h1 r hr; linarith
      · cases hc : cap with
        | none => rw [hc] at hr; simp at hr
        | some s =>
          rw [hc] at hr
          simp only [List.mem_singleton] at hr
          subst hr
          rw [hrow]
          have := h4 s hc
          simp; exact this
    · simp only [robProg, List.mem_map] at hr
      obtain ⟨r, hr, rfl⟩ := hr
      rw [hrow]; have := h2 r hr; linarith

theorem value_rob (a : RobArgs N) (L : Matrix (Fin N) (Fin N) ℝ) (pen : ℝ) (cap : Option ℝ) (x : Fin N ⊕ Unit → ℝ) :
    value (robProg a L pen cap) x = pen * x (.inr ()) - Spec.Opt.ret a.mean (fun i => x (.inl i)) := by
  simp [value, robProg, Fintype.sum_sum_type, Spec.Opt.ret]; ring

/-- What a successful call returns. -/
theorem robSolve_spec {solver : Opt.Solver} (hsnd : Sound solver) (a : RobArgs N) (L : Matrix (Fin N) (Fin N) ℝ) (pen : ℝ)
    (cap : Option ℝ) (res : Result N) (h : robSolve solver a L pen cap = .ok res) :
    Allowed a.user res.w ∧ res.ret = Spec.Opt.ret a.mean res.w ∧ coneNorm L res.w ≤ res.risk ∧
    (∀ s, cap = some s → res.risk ≤ Real.sqrt s) ∧
    (∀ v t, Allowed a.user v → coneNorm L v ≤ t → (∀ s, cap = some s → t ≤ Real.sqrt s) →
      pen * res.risk - res.ret ≤ pen * t - Spec.Opt.ret a.mean v) := by
  have e : ∃ x, solver _ inferInstance (robProg a L pen cap) = some x ∧
      res = ⟨fun i => x (Sum.inl i), dot a.mean (fun i => x (Sum.inl i)), x (Sum.inr ())⟩ := by
    unfold robSolve at h
    split at h
    · cases h
    · split at h
      · cases h
      · rename_i x hx
        injection h with h
        exact ⟨x, hx, h.symm⟩
  obtain ⟨x, hx, rfl⟩ := e
  obtain ⟨hf, ho⟩ := hsnd _ _ _ _ (convex_zero _ rfl) hx
  rw [feasible_rob] at hf
  refine ⟨hf.1, rfl, hf.2.1, hf.2.2, fun v t hv ht hc => ?_⟩
  have := ho (Sum.elim v (fun _ => t)) ((feasible_rob _ _ _ _ _).2 ⟨hv, ht, hc⟩)
  rw [value_rob, value_rob] at this
  exact this

theorem chol_entry {S L : Matrix (Fin N) (Fin N) ℝ} (hS : L * Lᵀ = S) (i j : Fin N) : S i j = ∑ k, L i k * L j k := by
  rw [← hS]; simp [Matrix.mul_apply, Matrix.transpose_apply]

theorem quad_gram {S L : Matrix (Fin N) (Fin N) ℝ} (hS : L * Lᵀ = S) (w : Fin N → ℝ) :
    quad S w = ∑ k, (∑ i, w i * L i k) ^ 2 := by
  unfold quad
  simp only [chol_entry hS, sq, Finset.sum_mul, Finset.mul_sum]
  rw [Finset.sum_comm]
  calc ∑ j, ∑ i, ∑ k, w i * (L i k * L j k) * w j = ∑ j, ∑ k, ∑ i, w i * (L i k * L j k) * w j :=
        Finset.sum_congr rfl fun j _ => Finset.sum_comm
    _ = ∑ k, ∑ j, ∑ i, w i * (L i k * L j k) * w j := Finset.sum_comm
    _ = _ := by
        apply Finset.sum_congr rfl; intro k _
        apply Finset.sum_congr rfl; intro j _
        apply Finset.sum_congr rfl; intro i _
        ring

theorem norm_diag {S L : Matrix (Fin N) (Fin N) ℝ} (hS : L * Lᵀ = S) (h : ∀ i j, i ≠ j → L i j = 0) (w : Fin N → ℝ) :
    ∑ k, (∑ i, L k i * w i) ^ 2 = quad S w := by
  rw [quad_gram hS]
  apply Finset.sum_congr rfl; intro k _
  rw [Finset.sum_eq_single k (fun i _ hi => by rw [h k i (Ne.symm hi), zero_mul]) (by simp),
    Finset.sum_eq_single k (fun i _ hi => by rw [h i k hi, mul_zero]) (by simp), mul_comm]

theorem chol_diag {S L : Matrix (Fin N) (Fin N) ℝ} (hL : IsChol S L) (h : ∀ i j, i ≠ j → S i j = 0) :
    ∀ i j, i ≠ j → L i j = 0 := by
  obtain ⟨hS, htri, hpos⟩ := hL
  have key : ∀ n : ℕ, ∀ j : Fin N, (j : ℕ) = n → ∀ i, j < i → L i j = 0 := by
    intro n
    induction n using Nat.strong_induction_on with
    | _ n ih =>
      intro j hj i hij
      have h0 := h i j (ne_of_gt hij)
      rw [chol_entry hS, Finset.sum_eq_single j ?_ (by simp)] at h0
      · rcases mul_eq_zero.1 h0 with h0 | h0
        · exact h0
        · exact absurd h0 (hpos j).ne'
      · intro k _ hk
        rcases lt_or_gt_of_ne hk with hk | hk
        · rw [ih k (by rw [← hj]; exact hk) k rfl i (lt_trans hk hij), zero_mul]
        · rw [htri j k hk, mul_zero]
  intro i j hij
  rcases lt_or_gt_of_ne hij with h1 | h1
  · exact htri i j h1
  · exact key j j rfl i h1

/-- **C67 is false.** The cone of the robust optimiser bounds `sqrt(w' S w)` for all weights exactly when `S` is diagonal: the
lower Cholesky factor is applied to `w` where its transpose is needed. -/
theorem C67_right_iff_diagonal {S L : Matrix (Fin N) (Fin N) ℝ} (hL : IsChol S L) :
    (∀ w, coneNorm L w = Real.sqrt (quad S w)) ↔ ∀ i j, i ≠ j → S i j = 0 := by
  constructor
  · intro h
    obtain ⟨hS, htri, hpos⟩ := hL
    have hq : ∀ w : Fin N → ℝ, ∑ k, (∑ i, L k i * w i) ^ 2 = quad S w := by
      intro w
      have h1 : 0 ≤ quad S w := by rw [quad_gram hS]; exact Finset.sum_nonneg fun k _ => sq_nonneg _
      have := congrArg (fun z => z ^ 2) (h w)
      simp only [coneNorm] at this
      rwa [Real.sq_sqrt (Finset.sum_nonneg fun k _ => sq_nonneg _), Real.sq_sqrt h1] at this
    have hd : ∀ j, ∑ k, L k j ^ 2 = ∑ k, L j k ^ 2 := by
      intro j
      have := hq (Pi.single j 1)
      rw [quad_gram hS] at this
      simpa [Pi.single_apply] using this
    have key : ∀ n : ℕ, ∀ j : Fin N, (j : ℕ) = n → ∀ i, i ≠ j → L i j = 0 := by
      intro n
      induction n using Nat.strong_induction_on with
      | _ n ih =>
        intro j hj i hij
        have h1 := hd j
        have hr : ∑ k, L j k ^ 2 = L j j ^ 2 := Finset.sum_eq_single j (fun k _ hk => by
          rcases lt_or_gt_of_ne hk with hk' | hk'
          · rw [ih k (by rw [← hj]; exact hk') k rfl j (ne_of_gt hk')]; ring
          · rw [htri j k hk']; ring) (by simp)
        rw [hr, ← Finset.add_sum_erase _ (fun k => L k j ^ 2) (Finset.mem_univ j)] at h1
        have h2 : ∑ k ∈ Finset.univ.erase j, L k j ^ 2 = 0 := by linarith
        rw [Finset.sum_eq_zero_iff_of_nonneg (fun k _ => sq_nonneg _)] at h2
        exact pow_eq_zero_iff (two_ne_zero) |>.1 (h2 i (Finset.mem_erase.2 ⟨hij, Finset.mem_univ i⟩))
    intro i j hij
    rw [chol_entry hS]; apply Finset.sum_eq_zero; intro l _
    by_cases hil : i = l
    · subst hil; rw [key _ i rfl j (Ne.symm hij), mul_zero]
    · rw [key _ l rfl i hil, zero_mul]
  · intro h w
    unfold coneNorm
    rw [norm_diag hL.1 (chol_diag hL h)]

/-- `_cholesky_pd` on a symmetric matrix that has a Cholesky factor returns that factor. -/
theorem cholSquare_ok {factor : Bayes.Factor} (hf : CholOk factor) (S : Matrix (Fin N) (Fin N) ℝ)
    (hS : ∃ L, IsChol S L) : ∃ L, (Bayes.cholSquare factor S).result = .ok L ∧ IsChol S L := by
  obtain ⟨L0, hL0⟩ := hS
  have hsym : Sᵀ = S := by rw [← hL0.1, transpose_mul, transpose_transpose]
  have hs : Bayes.symPart S = S := by
    unfold Bayes.symPart; rw [hsym, ← two_smul ℝ, smul_smul]; norm_num
  obtain ⟨L, hL⟩ := (hf N S).2 ⟨L0, hL0⟩
  refine ⟨L, ?_, (hf N S).1 L hL⟩
  unfold Bayes.cholSquare Bayes.cholLoop
  rw [hs, zero_smul, add_zero, hL]

/-- **C67** What the `lambda` variant does minimise: `lambda ||L w|| - mu'w` over the allowed weights, with `L` the lower
Cholesky factor; for `lambda > 0` the reported risk is `||L w||`. -/
theorem C67_actual_objective {solver : Opt.Solver} (hsnd : Sound solver) {factor : Bayes.Factor} (hf : CholOk factor)
    (a : RobArgs N) (hS : ∃ L, IsChol a.S L) (lam : ℝ) (res : Result N) (h : robLambda solver factor a lam = .ok res) :
    ∃ L, IsChol a.S L ∧ Allowed a.user res.w ∧ res.ret = Spec.Opt.ret a.mean res.w ∧ 0 ≤ lam ∧ coneNorm L res.w ≤ res.risk ∧
      (0 < lam → res.risk = coneNorm L res.w) ∧
      ∀ v, Allowed a.user v → lam * coneNorm L res.w - res.ret ≤ lam * coneNorm L v - Spec.Opt.ret a.mean v := by
  obtain ⟨L, hL, hc⟩ := cholSquare_ok hf a.S hS
  unfold robLambda at h
  rw [hL] at h
  dsimp only at h
  split at h
  · cases h
  · rename_i hlam
    push Not at hlam
    obtain ⟨h1, h2, h3, -, h5⟩ := robSolve_spec hsnd a L lam none res h
    refine ⟨L, hc, h1, h2, hlam, h3, fun hp => ?_, fun v hv => ?_⟩
    · have := h5 res.w (coneNorm L res.w) h1 le_rfl (by simp)
      rw [← h2] at this
      have h6 : lam * res.risk ≤ lam * coneNorm L res.w := by linarith
      exact le_antisymm (le_of_mul_le_mul_left h6 hp) h3
    · have := h5 v (coneNorm L v) hv le_rfl (by simp)
      have h6 := mul_le_mul_of_nonneg_left h3 hlam
      linarith

/-- **C67** (partial) For a diagonal uncertainty matrix the `lambda` variant minimises `lambda sqrt(w'Sw) - mu'w` over the
allowed weights and, for `lambda > 0`, reports `sqrt(w'Sw)`.  Missing: matrices that are not diagonal, for which it fails. -/
theorem C67_diagonal_partial {solver : Opt.Solver} (hsnd : Sound solver) {factor : Bayes.Factor} (hf : CholOk factor)
    (a : RobArgs N) (hS : ∃ L, IsChol a.S L) (hd : ∀ i j, i ≠ j → a.S i j = 0) (lam : ℝ) (res : Result N)
    (h : robLambda solver factor a lam = .ok res) :
    Allowed a.user res.w ∧ res.ret = Spec.Opt.ret a.mean res.w ∧ Real.sqrt (quad a.S res.w) ≤ res.risk ∧
      (0 < lam → res.risk = Real.sqrt (quad a.S res.w)) ∧
      ∀ v, Allowed a.user v →
        lam * Real.sqrt (quad a.S res.w) - res.ret ≤ lam * Real.sqrt (quad a.S v) - Spec.Opt.ret a.mean v := by
  obtain ⟨L, hL, h1, h2, -, h3, h4, h5⟩ := C67_actual_objective hsnd hf a hS lam res h
  have := (C67_right_iff_diagonal hL).2 hd
  simp only [this] at h3 h4 h5
  exact ⟨h1, h2, h3, h4, h5⟩

/-- The matrix `[[1, 1], [1, 2]]` and its Cholesky factor. -/
theorem chol_example (L : Matrix (Fin 2) (Fin 2) ℝ) : IsChol !![1, 1; 1, 2] L ↔ L = !![1, 0; 1, 1] := by
  constructor
  · rintro ⟨h1, h2, h3⟩
    have e := chol_entry h1
    have h01 := h2 0 1 (by decide)
    have a := e 0 0
    have b := e 1 0
    have c := e 1 1
    have p0 := h3 0
    have p1 := h3 1
    simp [Fin.sum_univ_two, h01] at a b c
    have l00 : L 0 0 = 1 := by nlinarith
    rw [l00] at b
    have l10 : L 1 0 = 1 := by linarith
    rw [l10] at c
    have l11 : L 1 1 = 1 := by nlinarith
    ext i j; fin_cases i <;> fin_cases j <;> simp [h01, l00, l10, l11]
  · rintro rfl
    refine ⟨?_, ?_, ?_⟩
    · ext i j; fin_cases i <;> fin_cases j <;> simp [Matrix.mul_apply, Fin.sum_univ_two]; norm_num
    · intro i j h; fin_cases i <;> fin_cases j <;> simp_all
    · intro i; fin_cases i <;> simp

/-- **C67 is false: end to end.** With `S = [[1, 1], [1, 2]]`, zero expected returns, long-only fully invested weights and
`lambda = 1`, every correct solver and Cholesky routine make the optimiser return `(0, 1)` and report risk 1, although
`sqrt(w'Sw)` is `sqrt 2` there and 1 at `(1, 0)`. -/
theorem C67_counterexample {solver : Opt.Solver} (hsnd : Sound solver) (hcmp : Complete solver) {factor : Bayes.Factor}
    (hf : CholOk factor) :
    ∃ res, robLambda solver factor ⟨![0, 0], !![1, 1; 1, 2], exUser, none, none⟩ 1 = .ok res ∧
      res.w = ![0, 1] ∧ res.risk = 1 ∧ Real.sqrt (quad !![1, 1; 1, 2] res.w) = Real.sqrt 2 ∧
      Allowed exUser ![1, 0] ∧ Real.sqrt (quad !![1, 1; 1, 2] ![1, 0]) = 1 := by
  set a : RobArgs 2 := ⟨![0, 0], !![1, 1; 1, 2], exUser, none, none⟩ with ha
  have hex : ∃ L, IsChol a.S L := ⟨_, (chol_example _).2 rfl⟩
  obtain ⟨L, hL, hc⟩ := cholSquare_ok hf a.S hex
  have hLe : L = !![1, 0; 1, 1] := (chol_example L).1 hc
  have hn : ∀ w, Allowed exUser w → coneNorm L w = Real.sqrt (w 0 ^ 2 + 1) := by
    intro w hw
    obtain ⟨-, -, h3⟩ := (exUser_iff w).1 hw
    subst hLe
    unfold coneNorm
    simp [Fin.sum_univ_two, h3]
  have hopt : Optimal (robProg a L 1 none) (Sum.elim ![0, 1] (fun _ => 1)) := by
    have hal : Allowed exUser ![0, 1] := (exUser_iff _).2 (by simp)
    refine ⟨(feasible_rob _ _ _ _ _).2 ⟨hal, ?_, by simp⟩, fun y hy => ?_⟩
    · show coneNorm L ![0, 1] ≤ 1
      rw [hn _ hal]; simp
    · rw [feasible_rob] at hy
      obtain ⟨g1, g2, -⟩ := hy
      rw [hn _ g1] at g2
      rw [value_rob, value_rob]
      simp [ha, Spec.Opt.ret, Fin.sum_univ_two]
      refine le_trans ?_ g2
      rw [Real.one_le_sqrt]
      nlinarith [sq_nonneg (y (Sum.inl 0))]
  obtain ⟨x, hx⟩ := hcmp _ inferInstance (robProg a L 1 none) (convex_zero _ rfl) ⟨_, hopt⟩
  have hok : ∃ res, robLambda solver factor a 1 = .ok res := by
    unfold robLambda
    rw [hL]
    dsimp only
    rw [if_neg (by norm_num)]
    unfold robSolve
    rw [show a.w0 = none from rfl]
    dsimp only
    rw [hx]
    exact ⟨_, rfl⟩
  obtain ⟨res, hres⟩ := hok
  obtain ⟨L', hL', h1, h2, -, h3, h4, h5⟩ := C67_actual_objective hsnd hf a hex 1 res hres
  have hLe' : L' = L := by rw [hLe]; exact (chol_example L').1 hL'
  subst hLe'
  have h6 := h5 ![0, 1] ((exUser_iff _).2 (by simp))
  rw [hn _ h1, hn _ ((exUser_iff _).2 (by simp)), h2] at h6
  simp [ha, Spec.Opt.ret, Fin.sum_univ_two] at h6
  have hw0 : res.w 0 = 0 := h6
  obtain ⟨-, -, h8⟩ := (exUser_iff _).1 h1
  have hw1 : res.w 1 = 1 := by linarith
  have hw : res.w = ![0, 1] := by funext i; fin_cases i <;> simp [hw0, hw1]
  refine ⟨res, hres, hw, ?_, ?_, (exUser_iff _).2 (by simp), ?_⟩
  · rw [h4 (by norm_num), hn _ h1, hw0]; simp
  · rw [hw]; simp [quad, Fin.sum_univ_two]
  · simp [quad, Fin.sum_univ_two]

theorem frontier_forall {α β : Type*} {f : α → Except PyErr β} {l : List α} {r : List β} (h : mapE f l = .ok r) :
    List.Forall₂ (fun a b => f a = .ok b) l r := by
  induction l generalizing r with
  | nil => simp only [mapE] at h; cases h; exact List.Forall₂.nil
  | cons x l ih =>
    rw [mapE] at h
    split at h
    · cases h
    rename_i b hb
    split at h
    · cases h
    rename_i bs hbs
    injection h with h
    subst h
    exact List.Forall₂.cons hb (ih hbs)

/-- **C92** A larger penalty never gives a portfolio with more reported risk or more expected return. -/
theorem C92_lambda_monotone {solver : Opt.Solver} (hsnd : Sound solver) {factor : Bayes.Factor} (a : RobArgs N)
    (l1 l2 : ℝ) (hlt : l1 < l2) (r1 r2 : Result N) (h1 : robLambda solver factor a l1 = .ok r1)
    (h2 : robLambda solver factor a l2 = .ok r2) : r2.risk ≤ r1.risk ∧ r2.ret ≤ r1.ret := by
  unfold robLambda at h1 h2
  cases hL : (Bayes.cholSquare factor a.S).result with
  | error e => rw [hL] at h1; cases h1
  | ok L =>
    rw [hL] at h1 h2
    dsimp only at h1 h2
    split at h1
    · cases h1
    rename_i hl1
    split at h2
    · cases h2
    push Not at hl1
    obtain ⟨a1, a2, a3, -, a5⟩ := robSolve_spec hsnd a L l1 none r1 h1
    obtain ⟨b1, b2, b3, -, b5⟩ := robSolve_spec hsnd a L l2 none r2 h2
    have e1 := a5 r2.w r2.risk b1 b3 (by simp)
    have e2 := b5 r1.w r1.risk a1 a3 (by simp)
    rw [← b2] at e1
    rw [← a2] at e2
    have hr : r2.risk ≤ r1.risk := by
      by_contra hc
      push Not at hc
      nlinarith
    exact ⟨hr, by nlinarith⟩

/-- **C92** `efficient_frontier(lambdas)` answers with exactly one portfolio per penalty, in the given order, and for every two
positions whose penalties increase the later portfolio has no more reported risk and no more expected return.  An empty list of
penalties, and a list with a negative penalty, are refused. -/
theorem C92_frontier {solver : Opt.Solver} (hsnd : Sound solver) {factor : Bayes.Factor} (a : RobArgs N) (lams : List ℝ) :
    ((lams = [] ∨ ∃ l ∈ lams, l < 0) → ∀ res, robFrontier solver factor a lams ≠ .ok res) ∧
    ∀ res, robFrontier solver factor a lams = .ok res →
      res.length = lams.length ∧
      (∀ (k : ℕ) (l : ℝ), lams[k]? = some l → ∃ r, res[k]? = some r ∧ robLambda solver factor a l = .ok r) ∧
      ∀ (j k : ℕ) (l m : ℝ) (r q : Result N), lams[j]? = some l → lams[k]? = some m → l < m →
        res[j]? = some r → res[k]? = some q → q.risk ≤ r.risk ∧ q.ret ≤ r.ret := by
  have key : ∀ res, robFrontier solver factor a lams = .ok res →
      List.Forall₂ (fun l r => robLambda solver factor a l = .ok r) lams res ∧ res ≠ [] := by
    intro res h
    unfold robFrontier at h
    split at h
    · cases h
    split at h
    · cases h
    rename_i r hr
    split at h
    · cases h
    rename_i hne
    injection h with h
    subst h
    exact ⟨frontier_forall hr, by simpa using hne⟩
  constructor
  · intro hbad res h
    obtain ⟨hf, hne⟩ := key res h
    rcases hbad with rfl | ⟨l, hl, hneg⟩
    · cases hf; exact hne rfl
    · obtain ⟨k, hk⟩ := List.mem_iff_getElem?.mp hl
      obtain ⟨hk1, hk2⟩ := List.getElem?_eq_some_iff.mp hk
      have := List.forall₂_iff_get.mp hf
      have hk3 : k < res.length := this.1 ▸ hk1
      have h2 := this.2 k hk1 hk3
      clear this
      simp only [List.get_eq_getElem, hk2] at h2
      unfold robLambda at h2
      cases hL : (Bayes.cholSquare factor a.S).result with
      | error e => rw [hL] at h2; cases h2
      | ok L =>
        rw [hL] at h2
        dsimp only at h2
        rw [if_pos hneg] at h2
        cases h2
  · intro res h
    obtain ⟨hf, -⟩ := key res h
    have hg := List.forall₂_iff_get.mp hf
    have hat : ∀ (k : ℕ) (l : ℝ) (r : Result N), lams[k]? = some l → res[k]? = some r → robLambda solver factor a l = .ok r := by
      intro k l r hk hr
      obtain ⟨hk1, hk2⟩ := List.getElem?_eq_some_iff.mp hk
      obtain ⟨hr1, hr2⟩ := List.getElem?_eq_some_iff.mp hr
      have h2 := hg.2 k hk1 hr1
      simp only [List.get_eq_getElem, hk2, hr2] at h2
      exact h2
    refine ⟨hg.1.symm, ?_, ?_⟩
    · intro k l hk
      obtain ⟨hk1, -⟩ := List.getElem?_eq_some_iff.mp hk
      have hr1 : k < res.length := hg.1 ▸ hk1
      exact ⟨res[k], List.getElem?_eq_getElem hr1, hat k l _ hk (List.getElem?_eq_getElem hr1)⟩
    · intro j k l m r q hj hk hlt hr hq
      exact C92_lambda_monotone hsnd a l m hlt r q (hat j l r hj hr) (hat k m q hk hq)

/-- **C93** The `gamma` variant: the reported risk respects the cap, the weights are allowed, and among the allowed weights
whose norm respects the cap none has a better penalised return.  Negative parameters are rejected. -/
theorem C93_gamma_cap {solver : Opt.Solver} (hsnd : Sound solver) {factor : Bayes.Factor} (a : RobArgs N) (gm gs : ℝ) :
    (gm < 0 ∨ gs < 0 → ∀ res, robGamma solver factor a gm gs ≠ .ok res) ∧
    ∀ res, robGamma solver factor a gm gs = .ok res →
      ∃ L, (Bayes.cholSquare factor a.S).result = .ok L ∧ Allowed a.user res.w ∧
        res.ret = Spec.Opt.ret a.mean res.w ∧ coneNorm L res.w ≤ res.risk ∧ res.risk ≤ Real.sqrt gs ∧
        ∀ v, Allowed a.user v → coneNorm L v ≤ Real.sqrt gs →
          gm * coneNorm L res.w - res.ret ≤ gm * coneNorm L v - Spec.Opt.ret a.mean v := by
  unfold robGamma
  cases hL : (Bayes.cholSquare factor a.S).result with
  | error e => simp
  | ok L =>
    dsimp only
    by_cases hneg : gm < 0 ∨ gs < 0
    · simp only [if_pos hneg]
      exact ⟨fun _ res h => (by cases h), fun res h => (by cases h)⟩
    · simp only [if_neg hneg]
      refine ⟨fun h => absurd h hneg, fun res h => ?_⟩
      push Not at hneg
      obtain ⟨h1, h2, h3, h4, h5⟩ := robSolve_spec hsnd a L gm (some gs) res h
      refine ⟨L, rfl, h1, h2, h3, h4 gs rfl, fun v hv hc => ?_⟩
      have := h5 v (coneNorm L v) hv le_rfl (fun s hs => by injection hs with hs; subst hs; exact hc)
      have h6 := mul_le_mul_of_nonneg_left h3 hneg.1
      linarith

/-- **C94 is false.** Proportional costs are advertised, but every call of the robust optimiser with initial weights and costs
raises `ValueError` (or fails earlier on the matrix). -/
theorem C94_costs_always_fail (solver : Opt.Solver) (factor : Bayes.Factor) (a : RobArgs N) (w0 c : Fin N → ℝ)
    (hw : a.w0 = some w0) (hc : a.costs = some c) (lam gm gs : ℝ) :
    (∀ res, robLambda solver factor a lam ≠ .ok res) ∧ (∀ res, robGamma solver factor a gm gs ≠ .ok res) ∧
    (∀ L, (Bayes.cholSquare factor a.S).result = .ok L → robLambda solver factor a lam = .error .valueError) := by
  have h : ∀ L pen cap, robSolve solver a L pen cap = .error .valueError := by
    intro L pen cap; unfold robSolve; rw [hw, hc]
  refine ⟨fun res hr => ?_, fun res hr => ?_, fun L hL => ?_⟩
  · unfold robLambda at hr
    split at hr
    · cases hr
    · split at hr
      · cases hr
      · rw [h] at hr; cases hr
  · unfold robGamma at hr
    split at hr
    · cases hr
    · split at hr
      · cases hr
      · rw [h] at hr; cases hr
  · unfold robLambda
    rw [hL]; dsimp only
    split
    · rfl
    · exact h _ _ _

/-- **C94 (counterexample).** Two assets, zero trade from `(1/2, 1/2)` allowed, costs 1%: the call raises. -/
theorem C94_counterexample (solver : Opt.Solver) (factor : Bayes.Factor) (hf : CholOk factor) :
    robLambda solver factor ⟨![1/10, 1/20], !![1, 1; 1, 2], exUser, some ![1/2, 1/2], some ![1/100, 1/100]⟩ 1 =
      .error .valueError := by
  obtain ⟨L, hL, -⟩ := cholSquare_ok hf (!![1, 1; 1, 2] : Matrix (Fin 2) (Fin 2) ℝ) ⟨_, (chol_example _).2 rfl⟩
  exact (C94_costs_always_fail solver factor ⟨![1/10, 1/20], !![1, 1; 1, 2], exUser, some ![1/2, 1/2], some ![1/100, 1/100]⟩
    _ _ rfl rfl 1 0 0).2.2 L hL

/-- **C95 is false.** With `lambda = 0` (the first point of the default grid) the reported risk is not determined: if some
value is optimal, so is every larger one, so a correct solver may report any of them. -/
theorem C95_zero_lambda_risk_undetermined (a : RobArgs N) (L : Matrix (Fin N) (Fin N) ℝ) (x : Fin N ⊕ Unit → ℝ)
    (hx : Optimal (robProg a L 0 none) x) (t : ℝ) (ht : x (.inr ()) ≤ t) :
    Optimal (robProg a L 0 none) (Sum.elim (fun i => x (.inl i)) (fun _ => t)) := by
  obtain ⟨hf, ho⟩ := hx
  rw [feasible_rob] at hf
  refine ⟨(feasible_rob _ _ _ _ _).2 ⟨hf.1, le_trans hf.2.1 ht, by simp⟩, fun y hy => ?_⟩
  have := ho y hy
  rw [value_rob, value_rob] at this ⊢
  simpa using this

/-- **C95** For positive penalties the reported risk is determined by the weights: it is `||L w||`. -/
theorem C95_positive_lambda_partial {solver : Opt.Solver} (hsnd : Sound solver) {factor : Bayes.Factor} (a : RobArgs N)
    (lam : ℝ) (hlam : 0 < lam) (res : Result N) (h : robLambda solver factor a lam = .ok res) :
    ∃ L, (Bayes.cholSquare factor a.S).result = .ok L ∧ res.risk = coneNorm L res.w := by
  unfold robLambda at h
  cases hL : (Bayes.cholSquare factor a.S).result with
  | error e => rw [hL] at h; cases h
  | ok L =>
    rw [hL] at h
    dsimp only at h
    split at h
    · cases h
    · obtain ⟨h1, h2, h3, -, h5⟩ := robSolve_spec hsnd a L lam none res h
      refine ⟨L, rfl, ?_⟩
      have := h5 res.w (coneNorm L res.w) h1 le_rfl (by simp)
      rw [← h2] at this
      have h6 : lam * res.risk ≤ lam * coneNorm L res.w := by linarith
      exact le_antisymm (le_of_mul_le_mul_left h6 hlam) h3

end PyV.Props
