import Verif.Props.Performance

/-! # C115, C116: the stress helpers and the input checks of stress tests -/

namespace PyV.Props

open PyV PyV.Perf PyV.Spec

variable {T N M : ℕ}

theorem toVec_ofFn (q : Fin T → ℝ) : toVec T (List.ofFn q) = q := by
  funext t
  simp [toVec]

theorem resolve_prob {q : Fin T → ℝ} (hq : IsProb q) :
    Probs.resolve (some (List.ofFn (fun t => PyFloat.fin (q t)))) T false = .ok (List.ofFn q) := by
  have hT : 0 < T := by
    rcases Nat.eq_zero_or_pos T with rfl | h
    · have := hq.sum; simp at this
    · exact h
  have hsum : (List.ofFn q).sum = 1 := by rw [List.sum_ofFn]; exact hq.sum
  obtain ⟨-, -, h⟩ := C16_normalize_contract (List.ofFn (fun t => PyFloat.fin (q t))) false
  obtain ⟨ps, h1, -, -, -, -, -, h2⟩ := h (List.ofFn q) (by
    refine ⟨?_, ?_, ?_, by simp, ?_⟩
    · rw [List.map_ofFn]; rfl
    · intro h0
      have := congrArg List.length h0
      simp at this; omega
    · intro v hv
      obtain ⟨t, rfl⟩ := List.mem_ofFn.mp hv
      exact hq.nonneg t
    · rw [hsum]; norm_num)
  have := h2 (by rw [hsum]; norm_num)
  subst this
  unfold Probs.resolve
  simp only [h1]
  rw [if_neg (by simp)]

/-- A stress report for the portfolios `W` on scenarios `R`: nominal rows under `p`, stressed rows under `q`, and their divergence. -/
structure StressOf (p q : Fin T → ℝ) (R : Fin T → Fin N → ℝ) (W : Fin M → Fin N → ℝ) (conf : ℝ) (demean : Bool) (rep : StressReport) :
    Prop where
  nominal : List.Forall₂ (fun m r => Describes p (pnlOf R (W m)) conf demean r) (List.finRange M) rep.nominal
  stressed : ∃ ms, rep.stressed = some ms ∧ List.Forall₂ (fun m r => Describes q (pnlOf R (W m)) conf demean r) (List.finRange M) ms
  kl : rep.kl = some (klDivergence q p)

theorem stressTest_prob {argsort : (Fin T → ℝ) → Equiv.Perm (Fin T)} (hs : Risk.IsArgsort argsort) {w : Weights M ℝ}
    {R : Fin T → Fin N → ℝ} {assets : Option (List String)} {probabilities : Option (List (PyFloat ℝ))} {posterior : List (PyFloat ℝ)}
    {conf : ℝ} {demean : Bool} {rep : StressReport} {p q : List ℝ}
    (hr : Probs.resolve probabilities T false = .ok p) (hp : IsProb (toVec T p))
    (hq : Probs.resolve (some posterior) T false = .ok q) (hq' : IsProb (toVec T q))
    (h : stressTest argsort w R assets probabilities (some posterior) none conf demean = .ok rep) :
    ∃ W : Fin M → Fin N → ℝ, WeightsAre w assets W ∧ StressOf (toVec T p) (toVec T q) R W conf demean rep := by
  have hl : p.length = T := by exact_mod_cast (C16_resolve _ _ _ _ hr).1
  have hql : q.length = T := by exact_mod_cast (C16_resolve _ _ _ _ hq).1
  unfold stressTest at h
  split at h
  · cases h
  rename_i hc
  push Not at hc
  rw [hr] at h
  simp only at h
  split at h
  · cases h
  rename_i rows hrows
  split at h
  · cases h
  rename_i hlen
  push Not at hlen
  split at h
  · cases h
  rename_i nominal hnom
  split at h
  · cases h
  rename_i s hspart
  injection h with h
  subst h
  refine ⟨_, align_weightsAre hrows hlen, ?_⟩
  obtain ⟨g, hg1, hg2⟩ := metrics_spec hs R hl hp hc.1 hc.2 demean (fun m (i : Fin N) => ((rows[(i : ℕ)]?).getD 0) m)
  obtain ⟨k, hk1, hk2⟩ := metrics_spec hs R hql hq' hc.1 hc.2 demean (fun m (i : Fin N) => ((rows[(i : ℕ)]?).getD 0) m)
  rw [hg1] at hnom
  injection hnom with hnom
  subst hnom
  unfold stressPart applyTransform stressedProbs at hspart
  simp only [Option.isNone_some, Bool.false_and, Bool.false_eq_true, if_false, hq, hk1, Option.isSome_some, if_true] at hspart
  injection hspart with hspart
  subst hspart
  refine ⟨?_, ⟨_, rfl, ?_⟩, rfl⟩
  · show List.Forall₂ _ _ ((List.finRange M).map g)
    rw [List.forall₂_map_right_iff]
    exact List.forall₂_same.mpr (fun m _ => hg2 m)
  · rw [List.forall₂_map_right_iff]
    exact List.forall₂_same.mpr (fun m _ => hk2 m)

/-- **C115** `exp_decay_stress`: a non-positive half-life is rejected; otherwise the report compares the portfolios under the given
probabilities with the same portfolios under probabilities that halve every `half_life` scenarios into the past. -/
theorem C115_exp_decay {argsort : (Fin T → ℝ) → Equiv.Perm (Fin T)} (hs : Risk.IsArgsort argsort) (w : Weights M ℝ)
    (R : Fin T → Fin N → ℝ) (assets : Option (List String)) (probabilities : Option (List (PyFloat ℝ))) (halfLife conf : ℝ)
    (demean : Bool) :
    (halfLife ≤ 0 → expDecayStress argsort w R assets probabilities halfLife conf demean = .error .valueError) ∧
    ∀ rep p, Probs.resolve probabilities T false = .ok p → IsProb (toVec T p) →
      expDecayStress argsort w R assets probabilities halfLife conf demean = .ok rep →
      ∃ W : Fin M → Fin N → ℝ, ∃ q : Fin T → ℝ, WeightsAre w assets W ∧ IsProb q ∧
        (∀ s t : Fin T, q t = q s * (2 : ℝ) ^ ((((t : ℕ) : ℝ) - (s : ℕ)) / halfLife)) ∧
        StressOf (toVec T p) q R W conf demean rep := by
  obtain ⟨h1, h2⟩ := C17_exp_decay T halfLife
  refine ⟨fun h => by unfold expDecayStress; rw [h1 h], fun rep p hr hp h => ?_⟩
  have hT : 0 < T := by
    rcases Nat.eq_zero_or_pos T with rfl | h
    · have := hp.sum; simp at this
    · exact h
  by_cases hh : halfLife ≤ 0
  · unfold expDecayStress at h; rw [h1 hh] at h; cases h
  obtain ⟨q, hq, hpos, hsum, -, hratio, -⟩ := h2 (not_le.mp hh)
  have hqp : IsProb q := ⟨fun t => (hpos t).le, hsum hT⟩
  unfold expDecayStress at h
  rw [hq] at h
  obtain ⟨W, hW, hst⟩ := stressTest_prob hs hr hp (resolve_prob hqp) (by rw [toVec_ofFn]; exact hqp) h
  rw [toVec_ofFn] at hst
  exact ⟨W, q, hW, hqp, hratio, hst⟩

/-- **C115** `kernel_focus_stress`: a focus series without exactly one entry per scenario is rejected; otherwise the stressed
probabilities are positive and larger the closer the focus series is to the target (by default its last value). -/
theorem C115_kernel_focus {argsort : (Fin T → ℝ) → Equiv.Perm (Fin T)} (hs : Risk.IsArgsort argsort) (w : Weights M ℝ)
    (R : Fin T → Fin N → ℝ) (assets : Option (List String)) (focus : List ℝ) (probabilities : Option (List (PyFloat ℝ)))
    (bandwidth : Option (PyFloat ℝ)) (target : Option ℝ) (conf : ℝ) (demean : Bool) :
    (focus.length ≠ T → kernelFocusStress argsort w R assets focus probabilities bandwidth target conf demean = .error .valueError) ∧
    ∀ rep p, Probs.resolve probabilities T false = .ok p → IsProb (toVec T p) →
      kernelFocusStress argsort w R assets focus probabilities bandwidth target conf demean = .ok rep →
      ∃ W : Fin M → Fin N → ℝ, ∃ q f : Fin T → ℝ, ∃ c : ℝ, WeightsAre w assets W ∧ IsProb q ∧ focus = List.ofFn f ∧
        (∀ c', target = some c' → c = c') ∧ (target = none → focus.getLast? = some c) ∧
        (∀ t, 0 < q t) ∧ (∀ s t, |f s - c| ≤ |f t - c| → q t ≤ q s) ∧
        (∀ b, bandwidth = some (.fin b) → ∀ s t, q s = q t * Real.exp (((f t - c) ^ 2 - (f s - c) ^ 2) / (2 * b ^ 2))) ∧
        StressOf (toVec T p) q R W conf demean rep := by
  refine ⟨fun h => by unfold kernelFocusStress; rw [if_pos h], fun rep p hr hp h => ?_⟩
  unfold kernelFocusStress at h
  split at h
  · cases h
  rename_i hlen
  push Not at hlen
  subst hlen
  split at h
  · cases h
  rename_i q hq
  have hT : 0 < focus.length := by
    rcases Nat.eq_zero_or_pos focus.length with h0 | h0
    · have := hp.sum
      have : IsEmpty (Fin focus.length) := by rw [h0]; infer_instance
      simp at *
    · exact h0
  obtain ⟨c, hc, hc1, hc2⟩ : ∃ c, Probs.gaussianKernel (fun i : Fin focus.length => focus[i]) (fun i : Fin focus.length => focus[i]) bandwidth (some c) = .ok q ∧
      (∀ c', target = some c' → c = c') ∧ (target = none → focus.getLast? = some c) := by
    cases target with
    | some c => exact ⟨c, hq, fun c' h => by injection h, by simp⟩
    | none =>
      obtain ⟨a, hla⟩ : ∃ a, focus.getLast? = some a := by
        cases hg : focus.getLast? with
        | none => rw [List.getLast?_eq_none_iff] at hg; subst hg; simp at hT
        | some a => exact ⟨a, rfl⟩
      refine ⟨a, ?_, by simp, fun _ => hla⟩
      rw [← hq]
      unfold Probs.gaussianKernel
      have e1 : ¬ (bandwidth = none ∧ focus.length = 0) := by omega
      simp only [if_neg e1, hT, dif_pos]
      have : focus[focus.length - 1]'(by omega) = a := by
        rw [List.getLast?_eq_getElem?, List.getElem?_eq_getElem (by omega)] at hla
        exact Option.some.inj hla
      simp [this]
  obtain ⟨k1, -, -⟩ := C18_gaussian_kernel (fun i : Fin focus.length => focus[i]) (fun i : Fin focus.length => focus[i]) bandwidth c
  obtain ⟨hpos, hsum, hmono⟩ := k1 q hc
  have hqp : IsProb q := ⟨fun t => (hpos t).le, hsum⟩
  obtain ⟨W, hW, hst⟩ := stressTest_prob hs hr hp (resolve_prob hqp) (by rw [toVec_ofFn]; exact hqp) h
  rw [toVec_ofFn] at hst
  refine ⟨W, q, fun i => focus[i], c, hW, hqp, by simp, hc1, hc2, hpos, hmono, ?_, hst⟩
  rintro b rfl s t
  exact C18_normal_ratio _ _ b c q hc s t

/-- **C115** `entropy_pooling_stress`: the stressed rows use the posterior that was given. -/
theorem C115_entropy_pooling {argsort : (Fin T → ℝ) → Equiv.Perm (Fin T)} (hs : Risk.IsArgsort argsort) (w : Weights M ℝ)
    (R : Fin T → Fin N → ℝ) (assets : Option (List String)) (q : Fin T → ℝ) (hq : IsProb q) (probabilities : Option (List (PyFloat ℝ)))
    (conf : ℝ) (demean : Bool) (rep : StressReport) (p : List ℝ) (hr : Probs.resolve probabilities T false = .ok p) (hp : IsProb (toVec T p))
    (h : entropyPoolingStress argsort w R assets (List.ofFn (fun t => PyFloat.fin (q t))) probabilities conf demean = .ok rep) :
    ∃ W : Fin M → Fin N → ℝ, WeightsAre w assets W ∧ StressOf (toVec T p) q R W conf demean rep := by
  obtain ⟨W, hW, hst⟩ := stressTest_prob hs hr hp (resolve_prob hq) (by rw [toVec_ofFn]; exact hq) h
  rw [toVec_ofFn] at hst
  exact ⟨W, hW, hst⟩

theorem stressTest_total (argsort : (Fin T → ℝ) → Equiv.Perm (Fin T)) (rows : List (Fin M → ℝ)) (hrows : rows.length = N)
    (R : Fin T → Fin N → ℝ) (probabilities : Option (List (PyFloat ℝ))) (p : List ℝ) (hr : Probs.resolve probabilities T false = .ok p)
    (conf : ℝ) (hc : 0 < conf ∧ conf < 1) (demean : Bool) (q : Fin T → ℝ) (hq : IsProb q) :
    ∃ rep, stressTest argsort (.plain rows) R none probabilities (some (List.ofFn (fun t => PyFloat.fin (q t)))) none conf demean = .ok rep := by
  have hT : 0 < T := by
    rcases Nat.eq_zero_or_pos T with rfl | h
    · have := hq.sum; simp at this
    · exact h
  have hl : p.length = T := by exact_mod_cast (C16_resolve _ _ _ _ hr).1
  have hrq := resolve_prob hq
  obtain ⟨-, c2, c3, -⟩ := C16_resolve _ _ _ _ hr
  obtain ⟨-, d2, d3, -⟩ := C16_resolve _ _ _ _ hrq
  obtain ⟨l, h1, h2⟩ := metrics_total hT argsort R hl c2 c3 hc demean (fun m (i : Fin N) => ((rows[(i : ℕ)]?).getD 0) m)
  obtain ⟨l', h1', h2'⟩ := metrics_total hT argsort R (by simp) d2 d3 hc demean (fun m (i : Fin N) => ((rows[(i : ℕ)]?).getD 0) m)
  unfold stressTest
  rw [if_neg (by simpa using hc), hr]
  simp only [alignWeights]
  rw [if_neg (by simp [hrows]), h1]
  simp only [stressPart, applyTransform, Option.isNone_some, Bool.false_and, Bool.false_eq_true, if_false, stressedProbs, hrq, h1']
  exact ⟨_, rfl⟩

/-- **C115** `exp_decay_stress` returns a report for one weight per asset, a confidence in (0, 1), a positive half-life and any
weighting `resolve_probabilities` accepts. -/
theorem C115_exp_decay_total (argsort : (Fin T → ℝ) → Equiv.Perm (Fin T)) (rows : List (Fin M → ℝ)) (hrows : rows.length = N)
    (R : Fin T → Fin N → ℝ) (hT : 0 < T) (probabilities : Option (List (PyFloat ℝ))) (p : List ℝ)
    (hr : Probs.resolve probabilities T false = .ok p) (conf : ℝ) (hc : 0 < conf ∧ conf < 1) (demean : Bool) (halfLife : ℝ) (hh : 0 < halfLife) :
    ∃ rep, expDecayStress argsort (.plain rows) R none probabilities halfLife conf demean = .ok rep := by
  obtain ⟨q, hq, hpos, hsum, -⟩ := (C17_exp_decay T halfLife).2 hh
  obtain ⟨rep, h⟩ := stressTest_total argsort rows hrows R probabilities p hr conf hc demean q ⟨fun t => (hpos t).le, hsum hT⟩
  refine ⟨rep, ?_⟩
  unfold expDecayStress
  rw [hq]; exact h

/-- **C115** `kernel_focus_stress` returns a report for every focus series with one entry per scenario and every positive bandwidth. -/
theorem C115_kernel_focus_total (focus : List ℝ) (argsort : (Fin focus.length → ℝ) → Equiv.Perm (Fin focus.length)) (rows : List (Fin M → ℝ))
    (hrows : rows.length = N) (R : Fin focus.length → Fin N → ℝ) (hT : focus ≠ []) (probabilities : Option (List (PyFloat ℝ))) (p : List ℝ)
    (hr : Probs.resolve probabilities focus.length false = .ok p) (conf : ℝ) (hc : 0 < conf ∧ conf < 1) (demean : Bool)
    (b : ℝ) (hb : 0 < b) (target : Option ℝ) :
    ∃ rep, kernelFocusStress argsort (.plain rows) R none focus probabilities (some (.fin b)) target conf demean = .ok rep := by
  have hT : 0 < focus.length := List.length_pos_iff.mpr hT
  obtain ⟨q, c, hq, hq'⟩ : ∃ q c, Probs.gaussianKernel (fun i : Fin focus.length => focus[i])
      (fun i : Fin focus.length => focus[i]) (some (.fin b)) target = .ok q ∧ Probs.gaussianKernel (fun i : Fin focus.length => focus[i])
      (fun i : Fin focus.length => focus[i]) (some (.fin b)) (some c) = .ok q := by
    cases target with
    | some c =>
      obtain ⟨q, hq⟩ := (C18_gaussian_kernel _ _ _ c).2.1 b rfl hb hT
      exact ⟨q, c, hq, hq⟩
    | none =>
      obtain ⟨q, hq⟩ := (C18_gaussian_kernel (fun i : Fin focus.length => focus[i]) (fun i : Fin focus.length => focus[i]) (some (.fin b))
        (focus[focus.length - 1])).2.1 b rfl hb hT
      refine ⟨q, _, ?_, hq⟩
      rw [← hq]
      unfold Probs.gaussianKernel
      simp [hT]
  obtain ⟨hpos, hsum, -⟩ := (C18_gaussian_kernel _ _ _ c).1 q hq'
  obtain ⟨rep, h⟩ := stressTest_total argsort rows hrows R probabilities p hr conf hc demean q ⟨fun t => (hpos t).le, hsum⟩
  refine ⟨rep, ?_⟩
  unfold kernelFocusStress
  rw [if_neg (by simp), hq]
  exact h

/-- Three scenarios, half-life two, a focus series `1, 5, 2` with bandwidth one: both helpers deliver a report. -/
example (argsort : (Fin 3 → ℝ) → Equiv.Perm (Fin 3)) (R : Fin 3 → Fin 2 → ℝ) :
    (∃ rep, expDecayStress argsort (.plain [fun _ : Fin 1 => (1/2 : ℝ), fun _ => 1/2]) R none none 2 (9/10) false = .ok rep) ∧
    ∃ rep, kernelFocusStress argsort (.plain [fun _ : Fin 1 => (1/2 : ℝ), fun _ => 1/2]) R none [1, 5, 2] none (some (.fin 1)) none (9/10) false = .ok rep := by
  have hr : Probs.resolve (none : Option (List (PyFloat ℝ))) ((3 : ℕ) : ℤ) false = .ok (List.replicate 3 (1 / ((3 : ℕ) : ℤ))) := by
    simp [Probs.resolve, Probs.uniform]
  exact ⟨C115_exp_decay_total (N := 2) argsort [fun _ => 1/2, fun _ => 1/2] rfl R (by norm_num) none _ hr (9/10) (by norm_num) false 2 (by norm_num),
    C115_kernel_focus_total (N := 2) [1, 5, 2] argsort [fun _ => 1/2, fun _ => 1/2] rfl R (by simp) none _ hr (9/10) (by norm_num) false 1
      (by norm_num) none⟩

/-! ## C116: misshapen inputs -/

/-- An array of finite numbers with `T` rows and `N` columns. -/
def IsArray (X : List (List (PyFloat ℝ))) (Y : Fin T → Fin N → ℝ) : Prop :=
  X = List.ofFn (fun t => List.ofFn (fun i => PyFloat.fin (Y t i)))

theorem isArray_of {X : List (List (PyFloat ℝ))} (h1 : X.length = T) (h2 : ∀ r ∈ X, r.length = N) (h3 : ∀ r ∈ X, ∀ x ∈ r, PyFloat.isFinite x = true) :
    IsArray X (fun (t : Fin T) (i : Fin N) => PyFloat.val (((X[(t : ℕ)]?).getD [])[(i : ℕ)]?.getD (.fin 0))) := by
  subst h1
  unfold IsArray
  apply List.ext_getElem
  · simp
  intro k hk hk'
  have hm : X[k] ∈ X := List.getElem_mem hk
  simp only [List.getElem_ofFn]
  rw [List.getElem?_eq_getElem hk, Option.getD_some]
  apply List.ext_getElem
  · simp [h2 _ hm]
  intro j hj hj'
  simp only [List.getElem_ofFn]
  rw [List.getElem?_eq_getElem hj, Option.getD_some]
  have := h3 _ hm _ (List.getElem_mem hj)
  cases hx : X[k][j] with
  | fin v => rfl
  | _ => rw [hx] at this; simp [PyFloat.isFinite] at this

theorem applyTransform_iff (f : Transform T N) (R Y : Fin T → Fin N → ℝ) :
    applyTransform (some f) R = .ok Y ↔ IsArray (f R) Y := by
  constructor
  · intro h
    unfold applyTransform at h
    simp only at h
    split at h
    · cases h
    rename_i h1
    push Not at h1
    split at h
    · cases h
    rename_i h2
    push Not at h2
    injection h with h
    subst h
    exact isArray_of h1.1 (by simpa using h1.2) (by simpa using h2)
  · intro h
    have := toArray_transform (X := fun _ => Y) R
    unfold applyTransform toArray at this
    unfold applyTransform
    simp only at this ⊢
    rw [show f R = _ from h]
    exact this

/-- **C116** A transform that does not return a finite array with one row per scenario and one column per asset makes `stress_test`
raise ValueError, once the nominal part is valid; a transform that does is used as returned. -/
theorem C116_transform (argsort : (Fin T → ℝ) → Equiv.Perm (Fin T)) (rows : List (Fin M → ℝ)) (hrows : rows.length = N)
    (R : Fin T → Fin N → ℝ) (probabilities : Option (List (PyFloat ℝ))) (p : List ℝ) (hr : Probs.resolve probabilities T false = .ok p)
    (conf : ℝ) (hc : 0 < conf ∧ conf < 1) (demean : Bool) (f : Transform T N) :
    ((¬∃ Y : Fin T → Fin N → ℝ, IsArray (f R) Y) →
      stressTest argsort (.plain rows) R none probabilities none (some f) conf demean = .error .valueError) ∧
    ∀ Y : Fin T → Fin N → ℝ, IsArray (f R) Y →
      ∃ rep rep', stressTest argsort (.plain rows) R none probabilities none (some f) conf demean = .ok rep ∧
        stressTest argsort (.plain rows) Y none probabilities none none conf demean = .ok rep' ∧ rep.stressed = some rep'.nominal := by
  have hl : p.length = T := by exact_mod_cast (C16_resolve _ _ _ _ hr).1
  obtain ⟨-, c2, c3, -⟩ := C16_resolve _ _ _ _ hr
  have hT : 0 < T := by
    rcases Nat.eq_zero_or_pos T with rfl | h
    · have : p = [] := List.length_eq_zero_iff.mp hl
      subst this
      norm_num at c3
    · exact h
  obtain ⟨l, h1, -⟩ := metrics_total hT argsort R hl c2 c3 hc demean (fun m (i : Fin N) => ((rows[(i : ℕ)]?).getD 0) m)
  constructor
  · intro hno
    have he : applyTransform (some f) R = .error .valueError := by
      cases h : applyTransform (some f) R with
      | ok Y => exact absurd ⟨Y, (applyTransform_iff f R Y).1 h⟩ hno
      | error e =>
        unfold applyTransform at h
        simp only at h
        split at h
        · injection h with h; rw [h]
        split at h
        · injection h with h; rw [h]
        · cases h
    unfold stressTest
    rw [if_neg (by simpa using hc), hr]
    simp only [alignWeights]
    rw [if_neg (by simp [hrows]), h1]
    simp only [stressPart, he]
  · intro Y hY
    obtain ⟨l', h1', -⟩ := metrics_total hT argsort Y hl c2 c3 hc demean (fun m (i : Fin N) => ((rows[(i : ℕ)]?).getD 0) m)
    have he := (applyTransform_iff f R Y).2 hY
    have e1 : stressTest argsort (.plain rows) R none probabilities none (some f) conf demean =
        .ok { nominal := l, stressed := some l', kl := none } := by
      unfold stressTest
      rw [if_neg (by simpa using hc), hr]
      simp only [alignWeights]
      rw [if_neg (by simp [hrows]), h1]
      simp only [stressPart, he, stressedProbs, h1', Option.isNone_some, Bool.and_false, Bool.false_eq_true, if_false, Option.isSome_none]
    have e2 : stressTest argsort (.plain rows) Y none probabilities none none conf demean =
        .ok { nominal := l', stressed := none, kl := none } := by
      unfold stressTest
      rw [if_neg (by simpa using hc), hr]
      simp only [alignWeights]
      rw [if_neg (by simp [hrows]), h1']
      simp only [stressPart, applyTransform, Option.isNone_none, Bool.and_self, if_true]
    exact ⟨_, _, e1, e2, rfl⟩

/-- A transform that drops a column is rejected; one that doubles every scenario is an array. -/
example (R : Fin 2 → Fin 2 → ℝ) : (¬∃ Y : Fin 2 → Fin 2 → ℝ, IsArray [[PyFloat.fin (R 0 0)], [.fin (R 1 0)]] Y) ∧
    IsArray [[PyFloat.fin (2 * R 0 0), .fin (2 * R 0 1)], [.fin (2 * R 1 0), .fin (2 * R 1 1)]] (fun t i => 2 * R t i) := by
  constructor
  · rintro ⟨Y, h⟩
    simp [IsArray] at h
  · simp [IsArray]

/-- **C116** `scenario_pnl`: unlabelled weights must have one row per asset; the P&L is then the product of scenarios and weights. -/
theorem C116_pnl {K : Type*} [Field K] (rows : List (Fin M → K)) (R : Fin T → Fin N → K) (cols : Option (List String)) :
    (rows.length ≠ N → scenarioPnl (.plain rows) R cols = .error .valueError) ∧
    ∀ W : Fin N → Fin M → K, rows = List.ofFn W → scenarioPnl (.plain rows) R cols = .ok (fun t m => some (∑ i, R t i * W i m)) := by
  have ht : toRows (.plain rows) cols = .ok (rows.map some) := by cases cols <;> rfl
  constructor
  · intro h
    unfold scenarioPnl
    rw [ht]
    simp only
    rw [if_pos (by simpa using h)]
  · rintro W rfl
    unfold scenarioPnl
    rw [ht]
    simp only
    rw [if_neg (by simp)]
    congr 1
    funext t m
    simp [nanDot]

end PyV.Props
