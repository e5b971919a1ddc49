import Verif.Props.ErrorClassesMore
import Verif.Props.EntropyPooling
import Verif.Props.StressInvariants

/-! # Property C299: the exceptions of entropy pooling, of simulated priors, and of stressed portfolios given as a dictionary -/

namespace PyV.Props

open PyV PyV.EP

section
variable {S Ke Ki : ℕ}

/-- What `entropy_pooling` asks of its caller: one of the two methods (or the default), and a prior that is a non-empty list of finite, strictly
positive numbers. -/
def GoodCall (p : Fin S → PyFloat ℝ) (method : Option String) : Prop :=
  (∀ m, method = some m → m = "" ∨ m = "TNC" ∨ m = "L-BFGS-B") ∧ 0 < S ∧ ∀ s, ∃ v : ℝ, p s = .fin v ∧ 0 < v

theorem normalizeVec_class (p : Fin S → PyFloat ℝ) (strict : Bool) : ValueOnly (normalizeVec p strict) := by
  intro e h
  unfold normalizeVec at h
  cases hn : Probs.normalize (List.ofFn p) strict with
  | ok l => rw [hn] at h; cases h
  | error e' =>
    rw [hn] at h
    injection h with h
    subst h
    exact (C295_probabilities (List.ofFn p) none 0 strict).2.1 _ hn

theorem methodOk_iff (method : Option String) : methodOk method = true ↔ ∀ m, method = some m → m = "" ∨ m = "TNC" ∨ m = "L-BFGS-B" := by
  cases method with
  | none => simp [methodOk]
  | some m =>
    by_cases h0 : m = ""
    · subst h0; simp [methodOk]
    · simp [methodOk, h0]

theorem normalizeVec_strict (p : Fin S → PyFloat ℝ) :
    (∃ prior, normalizeVec p true = .ok prior) ↔ 0 < S ∧ ∀ s, ∃ v : ℝ, p s = .fin v ∧ 0 < v := by
  constructor
  · rintro ⟨prior, h⟩
    obtain ⟨v, hv, -, hpos, hsum, -⟩ := normalizeVec_ok h
    refine ⟨?_, fun s => ⟨v s, hv s, hpos rfl s⟩⟩
    rcases Nat.eq_zero_or_pos S with h0 | h0
    · subst h0; simp at hsum
    · exact h0
  · rintro ⟨hS, hp⟩
    choose v hv hpos using hp
    unfold normalizeVec
    have hsum : 0 < ∑ s, v s := Finset.sum_pos (fun s _ => hpos s) ⟨⟨0, hS⟩, Finset.mem_univ _⟩
    have hlist : (List.ofFn p).map PyFloat.val = List.ofFn v := by
      rw [List.map_ofFn]; congr 1; funext s; simp [hv, PyFloat.val]
    have hacc : Probs.Acceptable (List.ofFn p) true := by
      refine ⟨?_, ?_, ?_, ?_⟩
      · intro hc; have := congrArg List.length hc; simp at this; omega
      · intro x hx; obtain ⟨s, rfl⟩ := List.mem_ofFn.mp hx; exact ⟨_, hv s⟩
      · intro w hw
        obtain ⟨s, hs⟩ := List.mem_ofFn.mp hw
        rw [hv s] at hs; injection hs with hs; subst hs
        exact ⟨fun _ => hpos s, (hpos s).le⟩
      · rw [hlist, List.sum_ofFn]; exact hsum
    rw [Probs.normalize_ok_iff.mpr ⟨hacc, rfl⟩]
    exact ⟨_, rfl⟩

theorem solve_total (minimize : Minimizer) {κ : Type} [Fintype κ] (hS : 0 < S) (p : Fin S → ℝ) (lhs : κ → Fin S → ℝ) (rhs : κ → ℝ) (lb : κ → Bool) :
    ((∃ q, EP.solve minimize p lhs rhs lb = .ok q) ∧ ∃ l, minimize (dualObjective (fun s => Real.log (p s)) lhs rhs) lb = some l) ∨
      EP.solve minimize p lhs rhs lb = .error .runtimeError ∧ minimize (dualObjective (fun s => Real.log (p s)) lhs rhs) lb = none := by
  unfold EP.solve
  dsimp only
  cases hm : minimize (dualObjective (fun s => Real.log (p s)) lhs rhs) lb with
  | none => exact .inr ⟨rfl, rfl⟩
  | some l =>
    refine .inl ⟨?_, l, rfl⟩
    dsimp only
    have hpos : 0 < ∑ s, primal (fun s => Real.log (p s)) lhs l s :=
      Finset.sum_pos (fun s _ => primal_pos _ _ _ _) ⟨⟨0, hS⟩, Finset.mem_univ _⟩
    rw [if_neg (not_le.mpr hpos)]
    exact ⟨_, rfl⟩

/-- **C299** `entropy_pooling` raises `ValueError` exactly when the call is not a good one, with equality views only or with inequality views as
well; on a good call it raises nothing but `RuntimeError`, whether or not there are inequality views; it never raises when the optimiser never
reports failure, and always `RuntimeError` when the optimiser always does. -/
theorem C299_entropy_pooling (minimize : Minimizer) (p : Fin S → PyFloat ℝ) (A : Fin Ke → Fin S → ℝ) (b : Fin Ke → ℝ)
    (G : Option (Fin Ki → Fin S → ℝ)) (h : Option (Fin Ki → ℝ)) (method : Option String) :
    (entropyPooling minimize p A b G h method = .error .valueError ↔ ¬ GoodCall p method) ∧
    (GoodCall p method → (∃ q, entropyPooling minimize p A b G h method = .ok q) ∨
      entropyPooling minimize p A b G h method = .error .runtimeError) ∧
    (GoodCall p method → (∀ {κ : Type} [Fintype κ] f lb, (minimize (κ := κ) f lb).isSome) →
      ∃ q, entropyPooling minimize p A b G h method = .ok q) ∧
    (GoodCall p method → (∀ {κ : Type} [Fintype κ] f lb, minimize (κ := κ) f lb = none) →
      entropyPooling minimize p A b G h method = .error .runtimeError) := by
  have good : GoodCall p method →
      ((∃ q, entropyPooling minimize p A b G h method = .ok q) ∧ ∃ (κ : Type) (_ : Fintype κ) (f : (κ → ℝ) → ℝ × (κ → ℝ)) (lb : κ → Bool), (minimize (κ := κ) f lb).isSome) ∨
      entropyPooling minimize p A b G h method = .error .runtimeError ∧
        ∃ (κ : Type) (_ : Fintype κ) (f : (κ → ℝ) → ℝ × (κ → ℝ)) (lb : κ → Bool), minimize (κ := κ) f lb = none := by
    rintro ⟨hm, hS, hp⟩
    obtain ⟨prior, hprior⟩ := (normalizeVec_strict p).2 ⟨hS, hp⟩
    unfold entropyPooling
    rw [if_neg (by simpa using (methodOk_iff method).2 hm)]
    rw [hprior]
    dsimp only
    have fin : ∀ {κ : Type} [Fintype κ] (lhs : κ → Fin S → ℝ) (rhs : κ → ℝ) (lb : κ → Bool),
        ((∃ q, EP.solve minimize prior lhs rhs lb = .ok q) ∧
          ∃ (κ : Type) (_ : Fintype κ) (f : (κ → ℝ) → ℝ × (κ → ℝ)) (lb : κ → Bool), (minimize (κ := κ) f lb).isSome) ∨
        EP.solve minimize prior lhs rhs lb = .error .runtimeError ∧
          ∃ (κ : Type) (_ : Fintype κ) (f : (κ → ℝ) → ℝ × (κ → ℝ)) (lb : κ → Bool), minimize (κ := κ) f lb = none := by
      intro κ _ lhs rhs lb
      rcases solve_total minimize hS prior lhs rhs lb with ⟨hq, l, hl⟩ | ⟨he, hl⟩
      · exact .inl ⟨hq, κ, inferInstance, _, lb, by rw [hl]; rfl⟩
      · exact .inr ⟨he, κ, inferInstance, _, lb, hl⟩
    rcases G with _ | G <;> rcases h with _ | h <;> exact fin _ _ _
  have bad : ¬ GoodCall p method → entropyPooling minimize p A b G h method = .error .valueError := by
    intro hbad
    unfold entropyPooling
    by_cases hm : methodOk method = true
    · rw [if_neg (by simpa using hm)]
      cases hn : normalizeVec p true with
      | error e => rw [normalizeVec_class p true e hn]
      | ok prior => exact absurd ⟨(methodOk_iff method).1 hm, (normalizeVec_strict p).1 ⟨prior, hn⟩⟩ hbad
    · rw [if_pos hm]
  refine ⟨⟨fun he hg => ?_, bad⟩, fun hg => ?_, fun hg hmin => ?_, fun hg hmin => ?_⟩
  · rcases good hg with ⟨⟨q, hq⟩, -⟩ | ⟨he', -⟩
    · rw [hq] at he; cases he
    · rw [he'] at he; cases he
  · rcases good hg with ⟨hq, -⟩ | ⟨he', -⟩
    · exact .inl hq
    · exact .inr he'
  · rcases good hg with ⟨hq, -⟩ | ⟨-, κ, i, f, lb, hn⟩
    · exact hq
    · have := hmin (κ := κ) f lb; rw [hn] at this; cases this
  · rcases good hg with ⟨-, κ, i, f, lb, hn⟩ | ⟨he, -⟩
    · rw [hmin (κ := κ) f lb] at hn; cases hn
    · exact he

/-- Good and bad calls both exist. -/
example : GoodCall (fun _ : Fin 2 => (.fin (1 / 2) : PyFloat ℝ)) none ∧ ¬ GoodCall (fun _ : Fin 2 => (.fin (1 / 2) : PyFloat ℝ)) (some "BFGS") ∧
    ¬ GoodCall (fun _ : Fin 0 => (.fin 1 : PyFloat ℝ)) none ∧ ¬ GoodCall ![(.fin 0 : PyFloat ℝ), .fin 1] none := by
  refine ⟨⟨by simp, by norm_num, fun s => ⟨1 / 2, rfl, by norm_num⟩⟩, fun h => ?_, fun h => by exact absurd h.2.1 (by norm_num), fun h => ?_⟩
  · have := h.1 "BFGS" rfl
    revert this; decide
  · obtain ⟨v, hv, hpos⟩ := h.2.2 0
    simp at hv
    rw [← hv] at hpos
    exact lt_irrefl _ hpos

end

section
open PyV.FV PyV.Api PyV.Proj

/-- **C299** Scenarios simulated from prior moments, without a generator of the caller's: nothing but `ValueError` and `RuntimeError`; the latter
only when the moments are complete, the sizes agree and the number of scenarios is positive. -/
theorem C299_simulated_prior (factor : Bayes.Factor) (normals : (S n : ℕ) → Fin S → Fin n → ℝ) (mean : Option PriorMean) (cov : Option PriorCov)
    (num : Option ℤ) (e : PyErr) (he : FV.fromMoments factor normals none mean cov num = .error e) :
    e = .valueError ∨ e = .runtimeError ∧ ∃ m c k, mean = some m ∧ cov = some c ∧ num = some k ∧ 0 < k ∧ c.rows = m.n ∧ c.cols = m.n := by
  unfold FV.fromMoments at he
  cases mean with
  | none => dsimp only at he; injection he with he; exact .inl he.symm
  | some m =>
    cases cov with
    | none => dsimp only at he; injection he with he; exact .inl he.symm
    | some c =>
      dsimp only at he
      cases num with
      | none => simp only [countOf] at he; injection he with he; exact .inl he.symm
      | some k =>
        by_cases hk : k ≤ 0
        · simp only [countOf, if_pos hk] at he; injection he with he; exact .inl he.symm
        simp only [countOf, if_neg hk] at he
        by_cases hd : c.rows = m.n ∧ c.cols = m.n
        · rw [dif_pos hd] at he
          unfold simulated at he
          split at he
          · rename_i e' hs
            injection he with he
            subst he
            split at hs
            · rename_i e'' hc
              injection hs with hs
              subst hs
              exact .inr ⟨chol_runtime hc, m, c, k, rfl, rfl, rfl, by omega, hd.1, hd.2⟩
            · cases hs
          · split at he
            · rename_i e' hs
              injection he with he
              subst he
              unfold sized at hs
              split at hs
              · cases hs
              · injection hs with hs; exact .inl hs.symm
            · cases he
        · rw [dif_neg hd] at he; injection he with he; exact .inl he.symm

/-- **C299** `stress_invariants` with views: wherever it reports on weights given as a vector, it raises `TypeError` on weights given as a
dictionary. -/
theorem C299_stressed_dictionary {M : ℕ} {horizon n : ℤ} {ep : (S : ℕ) → Ep S} {sort : (S : ℕ) → (Fin S → ℝ) → Equiv.Perm (Fin S)} {round : ℝ → ℤ}
    {rng : Perf.Rng n.toNat horizon.toNat} {v : InvArg} {w : Perf.Weights M ℝ} {reprice : Reprice n.toNat v.drivers}
    {views : List (MKey × ViewVal)} (hv : views ≠ []) {seed : Option ℕ} {conf : ℝ} {demean : Bool} {rep : Perf.StressReport}
    (h : Perf.stressInvariants ep sort round rng v w false reprice views seed conf demean = .ok rep) :
    Perf.stressInvariants ep sort round rng v w true reprice views seed conf demean = .error .typeError := by
  have hv' : ¬ views.isEmpty = true := by simpa using hv
  unfold Perf.stressInvariants at h ⊢
  cases hc : Perf.combine v reprice with
  | error e => rw [hc] at h; cases h
  | ok c =>
    rw [hc] at h
    dsimp only at h ⊢
    cases hm : projectScenarios v.values horizon none n (rng.draws seed 0) with
    | error e => rw [hm] at h; cases h
    | ok moves =>
      rw [hm] at h
      dsimp only at h ⊢
      rw [if_neg hv'] at h ⊢
      cases hP : Perf.stressProcessor ep sort round v views with
      | error e => rw [hP] at h; cases h
      | ok P =>
        rw [hP] at h
        dsimp only at h ⊢
        cases hs : projectScenarios v.values horizon (some P.probabilities) n (rng.draws seed 1) with
        | error e => rw [hs] at h; cases h
        | ok stressed =>
          rw [hs] at h
          dsimp only at h ⊢
          cases hn : Perf.pnlNames v c with
          | error e => rw [hn] at h; cases h
          | ok nm => rfl

/-- Concretely: two rows of two drivers, one satisfied view, an exact optimiser: a report for a vector of weights, `TypeError` for a dictionary. -/
example (rng : Perf.Rng 1 1) (hu : ∀ k, UnitDraws (rng.seeded k) ∧ UnitDraws (rng.fresh k)) (sort : (S : ℕ) → (Fin S → ℝ) → Equiv.Perm (Fin S))
    (hs : ∀ S, Risk.IsArgsort (sort S)) (seed : Option ℕ) :
    ∃ rep, Perf.stressInvariants (horizon := 1) (n := 1) (fun _ => Spec.optimalEp) sort (fun _ => 0) rng (exHistory 2 fun s _ => (s : ℝ))
        (.plain [fun (_ : Fin 1) => 1, fun _ => 0]) false (.fn 2 (fun (s : Fin 1 → Fin 2 → ℝ) => s)) [(.single (.str "A"), .scalar (.fin (1 / 2)))] seed
        (95 / 100) false = .ok rep ∧
      Perf.stressInvariants (horizon := 1) (n := 1) (fun _ => Spec.optimalEp) sort (fun _ => 0) rng (exHistory 2 fun s _ => (s : ℝ))
        (.plain [fun (_ : Fin 1) => 1, fun _ => 0]) true (.fn 2 (fun (s : Fin 1 → Fin 2 → ℝ) => s)) [(.single (.str "A"), .scalar (.fin (1 / 2)))] seed
        (95 / 100) false = .error .typeError := by
  obtain ⟨-, rep, -, h, -⟩ := one_draw (fun _ => optimalEp_exact) hs (fun _ => 0) hu (by norm_num : 0 < 2) (fun (s : Fin 2) (_ : Fin 2) => ((s : ℕ) : ℝ))
    (t := 1 / 2) (by simp [Spec.meanAt, Spec.expect, equally, Fin.sum_univ_two]) (y := ![1, 0]) (w := .plain [fun (_ : Fin 1) => (1 : ℝ), fun _ => 0])
    (by simp [Perf.ravel, Perf.positional]) seed
  exact ⟨rep, h, C299_stressed_dictionary (by simp) h⟩

end

end PyV.Props
