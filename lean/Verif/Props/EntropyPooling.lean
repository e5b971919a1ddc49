import Verif.Lemmas.EntropyPooling
import Mathlib.Data.Fin.VecNotation
import Mathlib.Tactic.FinCases

/-! # Properties C20–C22: entropy pooling -/

namespace PyV.Props

open PyV PyV.EP PyV.Spec

variable {S Ke Ki : ℕ}

theorem solve_ok {minimize : Minimizer} {κ : Type} [Fintype κ] {p : Fin S → ℝ} {lhs : κ → Fin S → ℝ} {rhs : κ → ℝ}
    {lb : κ → Bool} {q : Fin S → ℝ} (h : solve minimize p lhs rhs lb = .ok q) :
    ∃ l, minimize (dualObjective (fun s => Real.log (p s)) lhs rhs) lb = some l ∧
      0 < ∑ s, primal (fun s => Real.log (p s)) lhs l s ∧
      q = fun s => primal (fun s => Real.log (p s)) lhs l s / ∑ t, primal (fun s => Real.log (p s)) lhs l t := by
  unfold solve at h
  simp only at h
  split at h
  · cases h
  · rename_i l hl
    split at h
    · cases h
    · rename_i ht
      injection h with h
      exact ⟨l, hl, not_le.mp ht, h.symm⟩

/-- **C20** Whenever `entropy_pooling` returns, the posterior is strictly positive and sums to one, whatever the
optimiser did (any prior, any views, any multipliers it stopped at). -/
theorem C20_posterior_is_distribution (minimize : Minimizer) (p : Fin S → PyFloat ℝ) (A : Fin Ke → Fin S → ℝ)
    (b : Fin Ke → ℝ) (G : Option (Fin Ki → Fin S → ℝ)) (h : Option (Fin Ki → ℝ)) (method : Option String)
    (q : Fin S → ℝ) (hq : entropyPooling minimize p A b G h method = .ok q) :
    (∀ s, 0 < q s) ∧ ∑ s, q s = 1 := by
  have main : ∀ {κ : Type} [Fintype κ] (prior : Fin S → ℝ) (lhs : κ → Fin S → ℝ) (rhs : κ → ℝ) (lb : κ → Bool),
      solve minimize prior lhs rhs lb = .ok q → (∀ s, 0 < q s) ∧ ∑ s, q s = 1 := by
    intro κ _ prior lhs rhs lb hs
    obtain ⟨l, -, hpos, rfl⟩ := solve_ok hs
    refine ⟨fun s => div_pos (primal_pos _ _ _ _) hpos, ?_⟩
    rw [← Finset.sum_div]; exact div_self hpos.ne'
  unfold entropyPooling at hq
  simp only at hq
  split at hq
  · cases hq
  · split at hq
    · cases hq
    · split at hq
      · exact main _ _ _ _ hq
      · exact main _ _ _ _ hq

/-- **C20** With the default method, a non-empty strictly positive finite prior and an optimiser that reports success,
the call returns: the numerical guards after the solve never fire. -/
theorem C20_failure_modes (minimize : Minimizer) (p : Fin S → PyFloat ℝ) (A : Fin Ke → Fin S → ℝ)
    (b : Fin Ke → ℝ) (G : Fin Ki → Fin S → ℝ) (h : Fin Ki → ℝ) (v : Fin S → ℝ) (hv : ∀ s, p s = .fin (v s))
    (hpos : ∀ s, 0 < v s) (hS : 0 < S) (hmin : ∀ {κ : Type} [Fintype κ] f lb, (minimize (κ := κ) f lb).isSome) :
    ∃ q, entropyPooling minimize p A b (some G) (some h) none = .ok q := by
  have hgood : ∃ prior, normalizeVec p true = .ok prior := by
    unfold normalizeVec
    have hsum : 0 < ∑ s, v s := Finset.sum_pos (fun s _ => hpos s) ⟨⟨0, hS⟩, Finset.mem_univ _⟩
    have hlist : (List.ofFn p).map PyFloat.val = List.ofFn v := by
      rw [List.map_ofFn]; congr 1; funext s; simp [hv, PyFloat.val]
    have hacc : Probs.Acceptable (List.ofFn p) true := by
      refine ⟨?_, ?_, ?_, ?_⟩
      · intro hc; have := congrArg List.length hc; simp at this; omega
      · intro x hx; obtain ⟨s, rfl⟩ := List.mem_ofFn.mp hx; exact ⟨_, hv s⟩
      · intro w hw
        obtain ⟨s, hs⟩ := List.mem_ofFn.mp hw
        rw [hv s] at hs; injection hs with hs; subst hs
        exact ⟨fun _ => hpos s, (hpos s).le⟩
      · rw [hlist, List.sum_ofFn]; exact hsum
    rw [Probs.normalize_ok_iff.mpr ⟨hacc, rfl⟩]
    exact ⟨_, rfl⟩
  obtain ⟨prior, hprior⟩ := hgood
  unfold entropyPooling
  rw [if_neg (by decide)]
  simp only [hprior]
  unfold solve
  simp only
  have := hmin (dualObjective (fun s => Real.log (prior s)) (Sum.elim A G) (Sum.elim b h))
    (Sum.elim (fun _ : Fin Ke => false) (fun _ : Fin Ki => true))
  obtain ⟨l, hl⟩ := Option.isSome_iff_exists.mp this
  rw [hl]
  simp only
  have hpos : 0 < ∑ s, primal (fun s => Real.log (prior s)) (Sum.elim A G) l s :=
    Finset.sum_pos (fun s _ => primal_pos _ _ _ _) ⟨⟨0, hS⟩, Finset.mem_univ _⟩
  rw [if_neg (not_le.mpr hpos)]
  exact ⟨_, rfl⟩

/-- **C20** Every prior that contains NaN, an infinity, a zero or a negative entry is rejected with `ValueError`, as is
every method name other than TNC / L-BFGS-B (and the empty string), before the optimiser is called. -/
theorem C20_bad_input_rejected (minimize : Minimizer) (p : Fin S → PyFloat ℝ) (A : Fin Ke → Fin S → ℝ)
    (b : Fin Ke → ℝ) (G : Option (Fin Ki → Fin S → ℝ)) (h : Option (Fin Ki → ℝ)) (method : Option String)
    (hbad : (∃ s, ∀ v : ℝ, p s = .fin v → v ≤ 0) ∨
      (∃ m, method = some m ∧ m ≠ "" ∧ m ≠ "TNC" ∧ m ≠ "L-BFGS-B")) :
    entropyPooling minimize p A b G h method = .error .valueError := by
  have class_ : ∀ e, normalizeVec p true = .error e → e = .valueError := by
    intro e he
    unfold normalizeVec Probs.normalize at he
    dsimp only at he
    split_ifs at he <;> first | (injection he with he; exact he.symm) | cases he
  unfold entropyPooling
  by_cases hm : methodOk method = true
  · rw [if_neg (by simpa using hm)]
    cases hn : normalizeVec p true with
    | error e => rw [class_ e hn]
    | ok prior =>
      exfalso
      rcases hbad with ⟨s, hs⟩ | ⟨m, rfl, h0, h1, h2⟩
      · obtain ⟨v, hpv, -, hv, -, -⟩ := normalizeVec_ok hn
        exact absurd (hs _ (hpv s)) (not_le.mpr (hv rfl s))
      · simp [methodOk, h0, h1, h2] at hm
  · rw [if_pos hm]

/-- **C21** If the optimiser stops at a local minimiser `l` of the dual objective over the multiplier box, away from the
±700 clip, and the views contain the sum-to-one row, then the posterior meets every view and is the unique distribution
of smallest KL divergence from the (normalised) prior among all distributions meeting the views. -/
theorem C21_kl_optimal (minimize : Minimizer) (p : Fin S → PyFloat ℝ) (A : Fin Ke → Fin S → ℝ)
    (b : Fin Ke → ℝ) (G : Fin Ki → Fin S → ℝ) (h : Fin Ki → ℝ) (method : Option String) (prior q : Fin S → ℝ)
    (l : Fin Ke ⊕ Fin Ki → ℝ)
    (hprior : normalizeVec p true = .ok prior)
    (hone : ∃ k, (∀ s, A k s = 1) ∧ b k = 1)
    (hl : minimize (dualObjective (fun s => Real.log (prior s)) (Sum.elim A G) (Sum.elim b h))
      (Sum.elim (fun _ => false) (fun _ => true)) = some l)
    (hbox : l ∈ box (Sum.elim (fun _ : Fin Ke => false) (fun _ : Fin Ki => true)))
    (hmin : IsLocalMinOn (fun l => (dualObjective (fun s => Real.log (prior s)) (Sum.elim A G) (Sum.elim b h) l).1)
      (box (Sum.elim (fun _ : Fin Ke => false) (fun _ : Fin Ki => true))) l)
    (hclip : Unclipped (fun s => Real.log (prior s)) (Sum.elim A G) l)
    (hq : entropyPooling minimize p A b (some G) (some h) method = .ok q) :
    MeetsViews A b G h q ∧
    ∀ q', IsProb q' → MeetsViews A b G h q' → kl q prior ≤ kl q' prior ∧ (kl q' prior ≤ kl q prior → q' = q) := by
  unfold entropyPooling at hq
  simp only [hprior] at hq
  split at hq
  · cases hq
  obtain ⟨l', hl', hpos, hqe⟩ := solve_ok hq
  rw [hl] at hl'; injection hl' with hl'; subst hl'
  obtain ⟨hA, hG, hnn, hcs⟩ := kkt hclip hbox hmin
  obtain ⟨k, hk1, hkb⟩ := hone
  have htot : ∑ s, primal (fun s => Real.log (prior s)) (Sum.elim A G) l s = 1 := by
    have := hA k; simpa [hk1, hkb] using this
  have hqx : q = primal (fun s => Real.log (prior s)) (Sum.elim A G) l := by
    rw [hqe, htot]; funext s; rw [div_one]
  obtain ⟨v, -, -, hv, hvs, hpv⟩ := normalizeVec_ok hprior
  have hppos : ∀ s, 0 < prior s := by
    intro s
    rcases hpv with rfl | rfl
    · exact hv rfl s
    · exact div_pos (hv rfl s) hvs
  rw [hqx]
  refine ⟨⟨hA, hG⟩, fun q' hq' hm => ?_⟩
  refine kl_optimal hppos (primal_pos _ _ _) ?_ hA hnn hcs hq'.nonneg hm (hq'.sum.trans htot.symm)
  intro s
  unfold primal
  rw [clip_eq (hclip s), Real.log_exp]
  rfl

/-- **C21** (equality views only, the branch without `G`/`h`). -/
theorem C21_kl_optimal_eq (minimize : Minimizer) (p : Fin S → PyFloat ℝ) (A : Fin Ke → Fin S → ℝ)
    (b : Fin Ke → ℝ) (h : Option (Fin Ki → ℝ)) (method : Option String) (prior q : Fin S → ℝ) (l : Fin Ke → ℝ)
    (hprior : normalizeVec p true = .ok prior)
    (hone : ∃ k, (∀ s, A k s = 1) ∧ b k = 1)
    (hl : minimize (dualObjective (fun s => Real.log (prior s)) A b) (fun _ => false) = some l)
    (hmin : IsLocalMin (fun l => (dualObjective (fun s => Real.log (prior s)) A b l).1) l)
    (hclip : Unclipped (fun s => Real.log (prior s)) A l)
    (hq : entropyPooling minimize p A b (none : Option (Fin Ki → Fin S → ℝ)) h method = .ok q) :
    (∀ k, ∑ s, A k s * q s = b k) ∧
    ∀ q', IsProb q' → (∀ k, ∑ s, A k s * q' s = b k) →
      kl q prior ≤ kl q' prior ∧ (kl q' prior ≤ kl q prior → q' = q) := by
  classical
  unfold entropyPooling at hq
  simp only [hprior] at hq
  split at hq
  · cases hq
  obtain ⟨l', hl', hpos, hqe⟩ := solve_ok hq
  rw [hl] at hl'; injection hl' with hl'; subst hl'
  have hgrad : ∀ k, ∑ s, A k s * primal (fun s => Real.log (prior s)) A l s = b k := by
    intro k
    have vi := vi_of_localMin (lb := fun _ => false) hclip (fun k hk => by cases hk) (hmin.on _)
    have hupd : ∀ v : ℝ, ∑ j, (dualObjective (fun s => Real.log (prior s)) A b l).2 j *
        (Function.update l k v j - l j) = (dualObjective (fun s => Real.log (prior s)) A b l).2 k * (v - l k) := by
      intro v
      rw [Finset.sum_eq_single k]
      · simp
      · intro j _ hj; simp [Function.update_of_ne hj]
      · simp
    have h1 := vi (Function.update l k (l k + 1)) (fun k hk => by cases hk)
    have h2 := vi (Function.update l k (l k - 1)) (fun k hk => by cases hk)
    rw [hupd] at h1 h2
    have hg : (dualObjective (fun s => Real.log (prior s)) A b l).2 k =
        1000 * (b k - ∑ s, A k s * primal (fun s => Real.log (prior s)) A l s) := rfl
    rw [hg] at h1 h2
    linarith
  obtain ⟨k, hk1, hkb⟩ := hone
  have htot : ∑ s, primal (fun s => Real.log (prior s)) A l s = 1 := by
    have := hgrad k; simpa [hk1, hkb] using this
  have hqx : q = primal (fun s => Real.log (prior s)) A l := by
    rw [hqe, htot]; funext s; rw [div_one]
  obtain ⟨v, -, -, hv, hvs, hpv⟩ := normalizeVec_ok hprior
  have hppos : ∀ s, 0 < prior s := by
    intro s
    rcases hpv with rfl | rfl
    · exact hv rfl s
    · exact div_pos (hv rfl s) hvs
  rw [hqx]
  refine ⟨hgrad, fun q' hq' hm => ?_⟩
  refine kl_optimal (Ki := 0) (G := fun k => k.elim0) (h := fun k => k.elim0) (l := Sum.elim l (fun k => k.elim0))
    hppos (primal_pos _ _ _) ?_ hgrad (fun k => k.elim0) (fun k => k.elim0) hq'.nonneg
    ⟨hm, fun k => k.elim0⟩ (hq'.sum.trans htot.symm)
  intro s
  unfold primal
  rw [clip_eq (hclip s), Real.log_exp, Fintype.sum_sum_type]
  simp [exponent]

/-- **C21** (converse, so the hypotheses are exactly the KKT conditions) An unclipped point of the box whose primal vector
meets the views with complementary slackness is a local minimiser of the dual objective. -/
theorem C21_localMin_of_kkt {logp : Fin S → ℝ} {A : Fin Ke → Fin S → ℝ} {b : Fin Ke → ℝ} {G : Fin Ki → Fin S → ℝ}
    {h : Fin Ki → ℝ} {l : Fin Ke ⊕ Fin Ki → ℝ} (hu : Unclipped logp (Sum.elim A G) l)
    (hm : MeetsViews A b G h (primal logp (Sum.elim A G) l))
    (hcs : ∀ k, l (.inr k) * (h k - ∑ s, G k s * primal logp (Sum.elim A G) l s) = 0) :
    IsLocalMinOn (fun l => (dualObjective logp (Sum.elim A G) (Sum.elim b h) l).1)
      (box (Sum.elim (fun _ : Fin Ke => false) (fun _ : Fin Ki => true))) l := by
  unfold IsLocalMinOn IsMinFilter
  have hev : ∀ᶠ l' in nhdsWithin l (box (Sum.elim (fun _ : Fin Ke => false) (fun _ : Fin Ki => true))),
      Unclipped logp (Sum.elim A G) l' :=
    (unclipped_eventually hu).filter_mono nhdsWithin_le_nhds
  filter_upwards [hev, self_mem_nhdsWithin] with l' hu' hbox'
  have hx : ∀ s, primal logp (Sum.elim A G) l s *
      (1 - ∑ k, Sum.elim A G k s * (l' k - l k)) ≤ primal logp (Sum.elim A G) l' s := by
    intro s
    have e : primal logp (Sum.elim A G) l' s = primal logp (Sum.elim A G) l s *
        Real.exp (-(∑ k, Sum.elim A G k s * (l' k - l k))) := by
      unfold primal
      rw [clip_eq (hu s), clip_eq (hu' s), ← Real.exp_add]
      congr 1
      unfold exponent
      simp only [mul_sub, Finset.sum_sub_distrib]
      ring
    rw [e]
    apply mul_le_mul_of_nonneg_left _ (primal_pos _ _ _ _).le
    have := Real.add_one_le_exp (-(∑ k, Sum.elim A G k s * (l' k - l k)))
    linarith
  have hsum := Finset.sum_le_sum (fun s (_ : s ∈ Finset.univ) => hx s)
  have hlin : ∑ s, primal logp (Sum.elim A G) l s * (1 - ∑ k, Sum.elim A G k s * (l' k - l k)) =
      ∑ s, primal logp (Sum.elim A G) l s -
      ∑ k, (l' k - l k) * ∑ s, Sum.elim A G k s * primal logp (Sum.elim A G) l s := by
    simp only [mul_sub, mul_one, Finset.sum_sub_distrib]
    congr 1
    have : ∀ s, primal logp (Sum.elim A G) l s * ∑ k, Sum.elim A G k s * (l' k - l k) =
        ∑ k, (l' k - l k) * (Sum.elim A G k s * primal logp (Sum.elim A G) l s) := by
      intro s; rw [Finset.mul_sum]; apply Finset.sum_congr rfl; intro k _; ring
    rw [← Finset.sum_sub_distrib] 
    simp only [← mul_sub, ← Finset.sum_sub_distrib]
    rw [Finset.sum_congr rfl (fun s _ => this s), Finset.sum_comm]
    simp only [← Finset.mul_sum]
  have hvi : 0 ≤ ∑ k, (l' k - l k) * (Sum.elim b h k - ∑ s, Sum.elim A G k s * primal logp (Sum.elim A G) l s) := by
    rw [Fintype.sum_sum_type]
    simp only [Sum.elim_inl, Sum.elim_inr]
    apply add_nonneg
    · apply Finset.sum_nonneg; intro k _; rw [hm.1 k]; simp
    · apply Finset.sum_nonneg; intro k _
      have h1 := hbox' (.inr k) rfl
      have h2 := hm.2 k
      have h3 := hcs k
      rw [sub_mul, h3, sub_zero]
      exact mul_nonneg h1 (by linarith)
  unfold dualObjective
  simp only
  have e2 : ∑ k, (l' k - l k) * (Sum.elim b h k - ∑ s, Sum.elim A G k s * primal logp (Sum.elim A G) l s) =
      ∑ k, l' k * Sum.elim b h k - ∑ k, l k * Sum.elim b h k -
      ∑ k, (l' k - l k) * ∑ s, Sum.elim A G k s * primal logp (Sum.elim A G) l s := by
    rw [← Finset.sum_sub_distrib, ← Finset.sum_sub_distrib]
    apply Finset.sum_congr rfl; intro k _; ring
  linarith

/-- **C22** The gradient handed to the optimiser is the (Fréchet) derivative of the objective handed to it, at every
point where no exponent is on the clip: for every direction `d` the rate of change is `Σ gradₖ dₖ`. -/
theorem C22_gradient_exact {κ : Type} [Fintype κ] (logp : Fin S → ℝ) (lhs : κ → Fin S → ℝ) (rhs l : κ → ℝ)
    (h : Unclipped logp lhs l) :
    ∃ D : (κ → ℝ) →L[ℝ] ℝ, HasFDerivAt (fun l => (dualObjective logp lhs rhs l).1) D l ∧
      (∀ d, D d = ∑ k, (dualObjective logp lhs rhs l).2 k * d k) ∧
      (dualObjective logp lhs rhs l).1 =
        1000 * (∑ s, Real.exp (logp s - 1 - ∑ k, lhs k s * l k) + ∑ k, l k * rhs k) := by
  refine ⟨_, dual_hasFDerivAt rhs h, fun d => by simp, ?_⟩
  unfold dualObjective
  simp only
  have : ∀ s, primal logp lhs l s = Real.exp (logp s - 1 - ∑ k, lhs k s * l k) := fun s => by
    unfold primal; rw [clip_eq (h s)]; rfl
  rw [Finset.sum_congr rfl (fun s _ => this s)]
  ring

/-- **C22** (caveat found while modelling) Because exponents are clipped at 700, the function handed to the optimiser is
unbounded below as soon as one equality row has a non-zero target (the sum-to-one row does): only local minimisers are
meaningful. -/
theorem C22_clipped_unbounded_below {κ : Type} [Fintype κ] [DecidableEq κ] (logp : Fin S → ℝ)
    (lhs : κ → Fin S → ℝ) (rhs : κ → ℝ) (k : κ) (hk : 0 < rhs k) (M : ℝ) :
    ∃ l, (∀ j, j ≠ k → l j = 0) ∧ (dualObjective logp lhs rhs l).1 < M := by
  have hb : ∀ l : κ → ℝ, ∑ s, primal logp lhs l s ≤ S * Real.exp 700 := by
    intro l
    have : ∀ s ∈ (Finset.univ : Finset (Fin S)), primal logp lhs l s ≤ Real.exp 700 := fun s _ =>
      Real.exp_le_exp.mpr (min_le_right _ _)
    calc ∑ s, primal logp lhs l s ≤ ∑ _s : Fin S, Real.exp 700 := Finset.sum_le_sum this
      _ = S * Real.exp 700 := by simp
  refine ⟨Pi.single k ((M / 1000 - S * Real.exp 700 - 1) / rhs k), fun j hj => by simp [hj], ?_⟩
  unfold dualObjective
  simp only
  have e : ∑ j, (Pi.single k ((M / 1000 - S * Real.exp 700 - 1) / rhs k) : κ → ℝ) j * rhs j =
      M / 1000 - S * Real.exp 700 - 1 := by
    rw [Finset.sum_eq_single k]
    · simp [hk.ne']
    · intro j _ hj; simp [hj]
    · simp
  rw [e]
  have := hb (Pi.single k ((M / 1000 - S * Real.exp 700 - 1) / rhs k))
  linarith

/-! Non-vacuity: prior (1/2, 1/2), the sum-to-one row and the binding view `P(first scenario) ≤ 1/4`.  The multipliers
below satisfy every hypothesis of `C21_kl_optimal`. -/

noncomputable def exL : Fin 1 ⊕ Fin 1 → ℝ :=
  Sum.elim (fun _ => -1 + Real.log (1/2) - Real.log (3/4)) (fun _ => Real.log 3)
def exA : Fin 1 → Fin 2 → ℝ := fun _ _ => 1
def exG : Fin 1 → Fin 2 → ℝ := fun _ => ![1, 0]
noncomputable def exLogp : Fin 2 → ℝ := fun _ => Real.log (1/2)

theorem exL_exponent : exponent exLogp (Sum.elim exA exG) exL = ![Real.log (1/4), Real.log (3/4)] := by
  have h3 : Real.log (3/4) - Real.log 3 = Real.log (1/4) := by
    rw [← Real.log_div (by norm_num) (by norm_num)]; norm_num
  funext s
  unfold exponent
  fin_cases s
  · simp [Fintype.sum_sum_type, exL, exA, exG, exLogp]
    have := h3; simp at this; linarith
  · simp [Fintype.sum_sum_type, exL, exA, exG, exLogp]
    ring

theorem exL_unclipped : Unclipped exLogp (Sum.elim exA exG) exL := by
  intro s
  have a1 := Real.one_sub_inv_le_log_of_pos (by norm_num : (0:ℝ) < 1/4)
  have a2 := Real.one_sub_inv_le_log_of_pos (by norm_num : (0:ℝ) < 3/4)
  have a3 := Real.log_nonpos (by norm_num : (0:ℝ) ≤ 1/4) (by norm_num)
  have a4 := Real.log_nonpos (by norm_num : (0:ℝ) ≤ 3/4) (by norm_num)
  rw [exL_exponent]
  fin_cases s
  · constructor
    · show -700 < Real.log (1/4); norm_num at a1 ⊢; linarith
    · show Real.log (1/4) < 700; linarith
  · constructor
    · show -700 < Real.log (3/4); norm_num at a2 ⊢; linarith
    · show Real.log (3/4) < 700; linarith

theorem exL_primal : primal exLogp (Sum.elim exA exG) exL = ![1/4, 3/4] := by
  funext s
  unfold primal
  rw [clip_eq (exL_unclipped s), exL_exponent]
  fin_cases s
  · show Real.exp (Real.log (1/4)) = 1/4
    rw [Real.exp_log (by norm_num)]
  · show Real.exp (Real.log (3/4)) = 3/4
    rw [Real.exp_log (by norm_num)]

example : Unclipped exLogp (Sum.elim exA exG) exL ∧
    exL ∈ box (Sum.elim (fun _ : Fin 1 => false) (fun _ : Fin 1 => true)) ∧
    IsLocalMinOn (fun l => (dualObjective exLogp (Sum.elim exA exG) (Sum.elim (fun _ => 1) (fun _ => 1/4)) l).1)
      (box (Sum.elim (fun _ : Fin 1 => false) (fun _ : Fin 1 => true))) exL := by
  refine ⟨exL_unclipped, ?_, ?_⟩
  · intro k hk
    rcases k with k | k
    · simp at hk
    · simp [exL]; exact Real.log_nonneg (by norm_num)
  · apply C21_localMin_of_kkt exL_unclipped
    · rw [exL_primal]
      constructor
      · intro k; simp [exA, Fin.sum_univ_two]; norm_num
      · intro k; simp [exG, Fin.sum_univ_two]
    · intro k
      rw [exL_primal]
      simp [exG, Fin.sum_univ_two]

end PyV.Props
