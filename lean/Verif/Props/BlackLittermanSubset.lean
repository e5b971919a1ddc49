import Verif.Props.BlackLittermanInvariance

/-! # Property C228: assets without views do not influence the Black–Litterman posterior of the others -/

namespace PyV.Props

open PyV PyV.BL PyV.FV Matrix

variable {N M : ℕ}

/-- The call for some of the assets only: covariance, labels, prior mean and market weights are restricted to them. -/
abbrev onlyAssets (ι : Fin M → Fin N) (a : Args N) : Args M :=
  { sigma := a.sigma.submatrix ι ι, assets := a.assets ∘ ι, priorMean := a.priorMean.map (· ∘ ι), marketWeights := a.marketWeights.map (· ∘ ι)
    riskAversion := a.riskAversion, tau := a.tau, idzorekUseTau := a.idzorekUseTau, pi := a.pi.map (· ∘ ι), views := a.views, conf := a.conf
    omega := a.omega }

/-- The matrix that keeps the chosen assets. -/
private noncomputable def keep (ι : Fin M → Fin N) : Matrix (Fin M) (Fin N) ℝ := Matrix.of fun i j => if j = ι i then 1 else 0

private theorem keep_vec (ι : Fin M → Fin N) (x : Fin N → ℝ) : keep ι *ᵥ x = x ∘ ι := by
  funext i; simp [keep, mulVec, dotProduct]

private theorem keep_mat (ι : Fin M → Fin N) (S : Matrix (Fin N) (Fin N) ℝ) : keep ι * S * (keep ι)ᵀ = S.submatrix ι ι := by
  ext i j; simp [keep, mul_apply]

/-- A row of the small pick matrix, seen among all assets. -/
private noncomputable def spread (ι : Fin M → Fin N) (r : Fin M → ℝ) : Fin N → ℝ := r ᵥ* keep ι

private theorem spread_apply {ι : Fin M → Fin N} (hι : Function.Injective ι) (r : Fin M → ℝ) (i : Fin M) : spread ι r (ι i) = r i := by
  simp [spread, keep, vecMul, dotProduct, hι.eq_iff]

private theorem spread_off {ι : Fin M → Fin N} (r : Fin M → ℝ) {j : Fin N} (hj : ∀ i, ι i ≠ j) : spread ι r j = 0 := by
  simp only [spread, keep, vecMul, dotProduct, of_apply]
  exact Finset.sum_eq_zero fun i _ => by rw [if_neg (fun h => hj i h.symm), mul_zero]

private theorem spread_update {ι : Fin M → Fin N} (hι : Function.Injective ι) (r : Fin M → ℝ) (i : Fin M) (x : ℝ) :
    spread ι (Function.update r i x) = Function.update (spread ι r) (ι i) x := by
  funext j
  by_cases hj : ∃ k, ι k = j
  · obtain ⟨k, rfl⟩ := hj
    rw [spread_apply hι]
    by_cases hk : k = i
    · subst hk; simp
    · rw [Function.update_of_ne hk, Function.update_of_ne (fun h => hk (hι h)), spread_apply hι]
  · push Not at hj
    rw [spread_off _ hj, Function.update_of_ne (fun h => hj i h.symm), spread_off _ hj]

private theorem spread_zero (ι : Fin M → Fin N) : spread ι (fun _ => 0) = fun _ => 0 := by
  funext j; simp [spread, vecMul, dotProduct]

private theorem pickRow_only {assets : Fin N → Label} (ha : Function.Injective assets) {ι : Fin M → Fin N} (hι : Function.Injective ι) {key : MKey}
    (hk : NamesAssets (assets ∘ ι) key) : ∃ row, pickRow (assets ∘ ι) key = .ok row ∧ pickRow assets key = .ok (spread ι row) := by
  have ha' := ha.comp hι
  cases key with
  | single a =>
    obtain ⟨i, rfl⟩ := hk
    refine ⟨Function.update (fun _ => 0) i 1, ?_, ?_⟩
    · simp only [pickRow, assetIndex_name ha', bind, Except.bind]
    · simp only [pickRow, Function.comp, assetIndex_name ha, bind, Except.bind]
      rw [spread_update hι, spread_zero]
  | pair a b =>
    obtain ⟨⟨i, rfl⟩, j, rfl⟩ := hk
    refine ⟨Function.update (Function.update (fun _ => 0) i 1) j (-1), ?_, ?_⟩
    · simp only [pickRow, assetIndex_name ha', bind, Except.bind]
    · simp only [pickRow, Function.comp, assetIndex_name ha, bind, Except.bind]
      rw [spread_update hι, spread_update hι, spread_zero]

private theorem views_only {assets : Fin N → Label} (ha : Function.Injective assets) {ι : Fin M → Fin N} (hι : Function.Injective ι)
    {views : List (MKey × Val)} (hk : ∀ kv ∈ views, NamesAssets (assets ∘ ι) kv.1) :
    buildViews assets views = (buildViews (assets ∘ ι) views).map (List.map fun rt => (spread ι rt.1, rt.2)) := by
  have e : ∀ {n : ℕ} (as : Fin n → Label) l, buildViews as l = mapE (viewRow as) l := fun _ l => rfl
  simp only [e]
  induction views with
  | nil => rfl
  | cons kv l ih =>
    have ih := ih fun kv h => hk kv (List.mem_cons_of_mem _ h)
    obtain ⟨row, h1, h2⟩ := pickRow_only ha hι (hk kv List.mem_cons_self)
    have hr : viewRow assets kv = (viewRow (assets ∘ ι) kv).map fun rt => (spread ι rt.1, rt.2) := by
      unfold viewRow
      rw [h1, h2]
      cases target kv.2 <;> rfl
    simp only [mapE, hr, ih]
    cases viewRow (assets ∘ ι) kv with
    | error _ => rfl
    | ok _ => cases mapE (viewRow (assets ∘ ι)) l <;> rfl

private theorem symm_fixed {S : Matrix (Fin N) (Fin N) ℝ} (hS : Sᵀ = S) : symmetrise S = S := by
  unfold symmetrise
  rw [if_pos]
  intro i j
  have : S j i = S i j := congrFun (congrFun hS i) j
  rw [this, sub_self, abs_zero]
  positivity

private theorem omega_only {K : ℕ} (ι : Fin M → Fin N) (o : OmegaArg) (c : Option (List ℝ)) (useTau : Bool) (tau : ℝ) (S : Matrix (Fin N) (Fin N) ℝ)
    (P : Matrix (Fin K) (Fin M) ℝ) :
    buildOmega o c useTau tau S (P * keep ι) = buildOmega o c useTau tau (S.submatrix ι ι) P := by
  have hm : ∀ V : Matrix (Fin N) (Fin N) ℝ, P * keep ι * V * (P * keep ι)ᵀ = P * V.submatrix ι ι * Pᵀ := by
    intro V
    rw [← keep_mat, transpose_mul]
    simp only [Matrix.mul_assoc]
  have hq : ∀ (V : Matrix (Fin N) (Fin N) ℝ) k, (P * keep ι) k ⬝ᵥ (V *ᵥ (P * keep ι) k) = P k ⬝ᵥ (V.submatrix ι ι *ᵥ P k) := by
    intro V k
    have := congrFun (congrFun (hm V) k) k
    have e : ∀ {n : ℕ} (Q : Matrix (Fin K) (Fin n) ℝ) (W : Matrix (Fin n) (Fin n) ℝ), (Q * W * Qᵀ) k k = Q k ⬝ᵥ (W *ᵥ Q k) := by
      intro n Q W
      rw [Matrix.mul_assoc, mul_apply]
      rfl
    rwa [e, e] at this
  cases o with
  | none =>
    refine congrArg (fun z => Except.ok (Matrix.diagonal z)) (funext fun k => ?_)
    rw [show tau • S.submatrix ι ι = (tau • S).submatrix ι ι from rfl, hm]
  | idzorek =>
    cases c with
    | none => rfl
    | some c =>
      refine congrArg (fun z => Except.ok (Matrix.diagonal z)) (funext fun k => ?_)
      congr 1
      cases useTau with
      | false => exact hq S k
      | true => exact hq (tau • S) k
  | vec l => rfl
  | mat m f => rfl

private theorem posterior_only {K : ℕ} (ι : Fin M → Fin N) (tau : ℝ) (S : Matrix (Fin N) (Fin N) ℝ) (pi : Fin N → ℝ) (P : Matrix (Fin K) (Fin M) ℝ)
    (Q : Fin K → ℝ) (om : Matrix (Fin K) (Fin K) ℝ) :
    posterior tau (S.submatrix ι ι) (pi ∘ ι) P Q om =
      (posterior tau S pi (P * keep ι) Q om).map fun r => (r.1 ∘ ι, r.2.submatrix ι ι) := by
  have hm : P * keep ι * (tau • S) * (P * keep ι)ᵀ = P * (tau • S.submatrix ι ι) * Pᵀ := by
    rw [show tau • S.submatrix ι ι = (tau • S).submatrix ι ι from rfl, ← keep_mat, transpose_mul]
    simp only [Matrix.mul_assoc]
  have hp : (P * keep ι) *ᵥ pi = P *ᵥ (pi ∘ ι) := by rw [← keep_vec, mulVec_mulVec]
  have h1 : keep ι * (tau • S * (P * keep ι)ᵀ) = tau • S.submatrix ι ι * Pᵀ := by
    rw [show tau • S.submatrix ι ι = (tau • S).submatrix ι ι from rfl, ← keep_mat, transpose_mul]
    simp only [Matrix.mul_assoc]
  have h2 : P * keep ι * (tau • S) * (keep ι)ᵀ = P * (tau • S.submatrix ι ι) := by
    rw [show tau • S.submatrix ι ι = (tau • S).submatrix ι ι from rfl, ← keep_mat]
    simp only [Matrix.mul_assoc]
  unfold posterior
  dsimp only
  rw [hm, hp]
  cases linSolve (P * (tau • S.submatrix ι ι) * Pᵀ + om) (Q - P *ᵥ (pi ∘ ι)) with
  | error e => rfl
  | ok shift =>
    refine congrArg Except.ok (Prod.ext ?_ ?_)
    · dsimp only
      rw [← keep_vec, ← keep_vec, mulVec_add, mulVec_mulVec, h1]
    · dsimp only
      generalize hB : (P * (tau • S.submatrix ι ι) * Pᵀ + om)⁻¹ = B
      have hc : (S + tau • S - tau • S * (P * keep ι)ᵀ * (B * (P * keep ι * (tau • S)))).submatrix ι ι =
          S.submatrix ι ι + tau • S.submatrix ι ι - tau • S.submatrix ι ι * Pᵀ * (B * (P * (tau • S.submatrix ι ι))) := by
        rw [← keep_mat, Matrix.mul_sub, Matrix.sub_mul, Matrix.mul_add, Matrix.add_mul, keep_mat, keep_mat, ← h1, ← h2]
        simp only [Matrix.mul_assoc]
        rfl
      rw [← hc]
      rfl

private theorem prior_only {ι : Fin M → Fin N} (hι : Function.Injective ι) (S : Matrix (Fin N) (Fin N) ℝ) (ra : ℝ) (pi mw pm : Option (Fin N → ℝ))
    (hw : pi = none → ∀ w, mw = some w → ∀ j, (∀ i, ι i ≠ j) → w j = 0) :
    priorPi (S.submatrix ι ι) ra (pi.map (· ∘ ι)) (mw.map (· ∘ ι)) (pm.map (· ∘ ι)) = (priorPi S ra pi mw pm).map (· ∘ ι) := by
  unfold priorPi
  cases pi with
  | some p => rfl
  | none =>
    cases mw with
    | some w =>
      have hz := hw rfl w rfl
      have hs : ∀ f : Fin N → ℝ, ∑ i, f (ι i) * w (ι i) = ∑ j, f j * w j := fun f =>
        Fintype.sum_of_injective ι hι _ _ (fun j hj => by
          rw [hz j (fun i h => hj ⟨i, h⟩), mul_zero]) (fun _ => rfl)
      have hs1 : ∑ i, (w ∘ ι) i = ∑ i, w i := by simpa using hs fun _ => 1
      simp only [Option.map_none, Option.map_some, hs1]
      split
      · rfl
      · refine congrArg Except.ok ?_
        funext i
        simp only [Pi.smul_apply, smul_eq_mul, mulVec, dotProduct, submatrix_apply, Function.comp]
        congr 1
        have := hs fun j => S (ι i) j / ∑ j, w j
        calc ∑ x, S (ι i) (ι x) * (w (ι x) / ∑ j, w j) = ∑ x, S (ι i) (ι x) / (∑ j, w j) * w (ι x) :=
              Finset.sum_congr rfl fun x _ => by ring
          _ = ∑ j, S (ι i) j / (∑ j, w j) * w j := this
          _ = _ := Finset.sum_congr rfl fun x _ => by ring
    | none => cases pm <;> rfl

/-- **C228.** Keep some of the assets, among them all those the views are about (by label); with a prior implied by market weights, only assets without
weight are left out.  Then the Black–Litterman posterior of the kept assets is the restriction of the posterior of all assets — mean and covariance —
and fails with the same error. -/
theorem C228_other_assets (a : Args N) (ha : Function.Injective a.assets) (hS : a.sigmaᵀ = a.sigma) (ι : Fin M → Fin N) (hι : Function.Injective ι)
    (hk : ∀ kv ∈ a.views, NamesAssets (a.assets ∘ ι) kv.1)
    (hw : a.pi = none → ∀ w, a.marketWeights = some w → ∀ j, (∀ i, ι i ≠ j) → w j = 0) :
    BL.construct (onlyAssets ι a) = (BL.construct a).map fun r => (r.1 ∘ ι, r.2.submatrix ι ι) := by
  rw [construct_eq, construct_eq]
  by_cases hra : a.riskAversion ≤ 0
  · rw [if_pos hra, if_pos hra]; rfl
  rw [if_neg hra, if_neg hra]
  have hS' : (a.sigma.submatrix ι ι)ᵀ = a.sigma.submatrix ι ι := by rw [transpose_submatrix, hS]
  rw [symm_fixed hS, symm_fixed hS', prior_only hι _ _ _ _ _ hw, views_only ha hι hk]
  cases priorPi a.sigma a.riskAversion a.pi a.marketWeights a.priorMean with
  | error e => rfl
  | ok pi =>
    cases buildViews (a.assets ∘ ι) a.views with
    | error e => rfl
    | ok rows =>
      cases parseConf a.conf (a.views.map Prod.fst) with
      | error e => rfl
      | ok conf =>
        simp only [Except.bind, Except.map]
        by_cases hn : rows.length = 0
        · rw [List.length_eq_zero_iff] at hn
          subst hn
          rfl
        · rw [tail_eq (K := rows.length) _ _ _ _ _ _ _ rfl hn rows.get (by rw [List.ofFn_get]),
            tail_eq (K := rows.length) _ _ _ _ _ _ _ (by simp) hn (fun k => (spread ι (rows.get k).1, (rows.get k).2))
              (by rw [← List.ofFn_get rows, List.map_ofFn, List.ofFn_get]; rfl)]
          have e1 : (Matrix.of fun k : Fin rows.length => spread ι (rows.get k).1) = (Matrix.of fun k => (rows.get k).1) * keep ι := rfl
          simp only [e1, omega_only]
          cases buildOmega a.omega conf a.idzorekUseTau a.tau (a.sigma.submatrix ι ι) (Matrix.of fun k : Fin rows.length => (rows.get k).1) with
          | error e => rfl
          | ok om => exact posterior_only ι _ _ _ _ _ _

/-- Three assets and a view on the first only. -/
noncomputable def exThree : Args 3 where
  sigma := 1
  assets := ![.str "A", .str "B", .str "C"]
  priorMean := none
  marketWeights := none
  riskAversion := 1
  tau := 1 / 20
  idzorekUseTau := true
  pi := some ![1 / 10, 1 / 20, 1 / 50]
  views := [(.single (.str "A"), .scalar (1 / 5))]
  conf := .none
  omega := .none

/-- The hypotheses of C228 hold when `B` is left out, and the call for `A` and `C` succeeds. -/
example : ∃ r, BL.construct (onlyAssets ![0, 2] exThree) = .ok r ∧ ∃ r', BL.construct exThree = .ok r' ∧ r.1 1 = r'.1 2 := by
  have ha : Function.Injective exThree.assets := by
    intro i j h
    fin_cases i <;> fin_cases j <;> simp [exThree] at h ⊢
  have hι : Function.Injective (![0, 2] : Fin 2 → Fin 3) := by decide
  have h := C228_other_assets exThree ha (by simp [exThree]) ![0, 2] hι (by
    intro kv hkv
    simp only [exThree, List.mem_singleton] at hkv
    subst hkv
    exact ⟨0, rfl⟩) (by simp [exThree])
  have hA : indexOf exThree.assets (.str "A") = some 0 := by decide
  have hrows : ∃ rows, buildViews exThree.assets exThree.views = .ok rows := by
    refine ⟨[(Function.update (fun _ => 0) 0 1, 1 / 5)], ?_⟩
    simp [exThree, buildViews, mapE, target, pickRow, assetIndex, bind, Except.bind, show indexOf ![Label.str "A", .str "B", .str "C"] (.str "A") = some 0 from hA]
  obtain ⟨rows, hrows⟩ := hrows
  obtain ⟨m, cov, hc, -⟩ := C31_processor (a := exThree) (by exact PosDef.one) (by norm_num [exThree]) (by norm_num [exThree]) (Or.inl ⟨rfl, rfl⟩)
    (pi := ![1 / 10, 1 / 20, 1 / 50]) rfl hrows (by simp [exThree])
  rw [hc] at h
  exact ⟨_, h, _, hc, rfl⟩

end PyV.Props
