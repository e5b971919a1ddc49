import Verif.Spec.Distribution
import Verif.Lemmas.Probabilities

namespace PyV.Api

open PyV Matrix

/-! ### Labels -/

def Agree {α : Type*} (l : List α) : Prop := ∀ x ∈ l, ∀ y ∈ l, x = y

theorem agree_head {α : Type*} {A L : List α} (h : Agree A) :
    (Agree (A.head?.toList ++ L) ↔ Agree (A ++ L)) ∧ (A.head?.toList ++ L).head? = (A ++ L).head? := by
  cases A with
  | nil => simp
  | cons a A =>
    have hA : ∀ x ∈ A, x = a := fun x hx => h x (by simp [hx]) a (by simp)
    refine ⟨⟨fun hs => ?_, fun hs => ?_⟩, by simp⟩
    · have key : ∀ x ∈ a :: A ++ L, x = a := by
        intro x hx
        simp only [List.cons_append, List.mem_cons, List.mem_append] at hx
        rcases hx with rfl | hx | hx
        · rfl
        · exact hA x hx
        · exact hs x (by simp [hx]) a (by simp)
      intro x hx y hy
      rw [key x hx, key y hy]
    · intro x hx y hy
      refine hs x ?_ y ?_
      · simp only [List.head?_cons, Option.toList_some, List.mem_append, List.mem_singleton] at hx
        rcases hx with rfl | hx <;> simp [*]
      · simp only [List.head?_cons, Option.toList_some, List.mem_append, List.mem_singleton] at hy
        rcases hy with rfl | hy <;> simp [*]

theorem mergeNames_ok {ex : Option (List String)} {c : List String} (hc : c ≠ []) {r : Option (List String)} :
    mergeNames ex c = .ok r ↔ Agree (ex.toList ++ [c]) ∧ r = (ex.toList ++ [c]).head? := by
  unfold mergeNames
  rw [if_neg hc]
  cases ex with
  | none => simp [Agree, eq_comm]
  | some l =>
    simp only
    by_cases h : c = l
    · subst h; simp [Agree, eq_comm]
    · rw [if_neg h]
      simp only [reduceCtorEq, false_iff, not_and]
      intro ha
      exact absurd (ha c (by simp) l (by simp)) h

theorem mergeNames_err {ex : Option (List String)} {c : List String} {e : PyErr} (h : mergeNames ex c = .error e) :
    e = .valueError := by
  unfold mergeNames at h
  split at h
  · cases h
  · split at h
    · cases h
    · split at h
      · cases h
      · injection h with h; exact h.symm

theorem checkColumns_ok {c : List String} {n r : Option (List String)} (hn : n ≠ none) :
    checkColumns c n = .ok r ↔ Agree (n.toList ++ [c]) ∧ r = (n.toList ++ [c]).head? := by
  cases n with
  | none => exact absurd rfl hn
  | some l =>
    unfold checkColumns
    simp only
    by_cases h : c = l
    · subst h; simp [Agree, eq_comm]
    · rw [if_neg h]
      simp only [reduceCtorEq, false_iff, not_and]
      intro ha
      exact absurd (ha c (by simp) l (by simp)) h

theorem checkColumns_err {c : List String} {n : Option (List String)} {e : PyErr} (h : checkColumns c n = .error e) :
    e = .valueError := by
  unfold checkColumns at h
  split at h
  · cases h
  · split at h
    · cases h
    · injection h with h; exact h.symm

def muLabels : Option VecArg → List (List String)
  | some (.series l) => [l.map Prod.fst]
  | _ => []

def covLabels : Option GridArg → List (List String)
  | some (.frame _ i c) => [List.ofFn i, List.ofFn c]
  | _ => []

def scenLabels : Option GridArg → List (List String)
  | some (.frame _ _ c) => [List.ofFn c]
  | _ => []

theorem labelLists_eq (a : DistArgs) :
    labelLists a = a.assetNames.toList ++ muLabels a.mu ++ covLabels a.cov ++ scenLabels a.scenarios := by
  unfold labelLists muLabels covLabels scenLabels
  cases a.assetNames <;> rcases a.mu with _ | _ | _ <;> rcases a.cov with _ | _ | _ | _ <;>
    rcases a.scenarios with _ | _ | _ | _ <;> rfl

theorem agree_single {α : Type*} (ex : Option α) : Agree (ex.toList ++ []) ∧ ex = (ex.toList ++ []).head? := by
  cases ex <;> simp [Agree]

theorem namesMu_ok {ex r : Option (List String)} {mu : Option VecArg} (hne : ∀ l ∈ muLabels mu, l ≠ []) :
    namesMu ex mu = .ok r ↔ Agree (ex.toList ++ muLabels mu) ∧ r = (ex.toList ++ muLabels mu).head? := by
  rcases mu with _ | l | l
  · unfold namesMu muLabels
    simp only [Except.ok.injEq]
    constructor
    · rintro rfl; exact agree_single _
    · intro h; rw [h.2]; exact (agree_single ex).2
  · exact mergeNames_ok (hne _ (by simp [muLabels]))
  · unfold namesMu muLabels
    simp only [Except.ok.injEq]
    constructor
    · rintro rfl; exact agree_single _
    · intro h; rw [h.2]; exact (agree_single ex).2

theorem namesScen_ok {ex r : Option (List String)} {s : Option GridArg} (hne : ∀ l ∈ scenLabels s, l ≠ []) :
    namesScen ex s = .ok r ↔ Agree (ex.toList ++ scenLabels s) ∧ r = (ex.toList ++ scenLabels s).head? := by
  have triv : ∀ {r}, (Except.ok ex : Except PyErr _) = .ok r ↔ Agree (ex.toList ++ []) ∧ r = (ex.toList ++ []).head? := by
    intro r
    simp only [Except.ok.injEq]
    constructor
    · rintro rfl; exact agree_single _
    · intro h; rw [h.2]; exact (agree_single ex).2
  rcases s with _ | ⟨g, i, c⟩ | g | _
  · exact triv
  · unfold namesScen scenLabels
    simp only
    rw [← List.ofFn_eq_map]
    exact mergeNames_ok (hne _ (by simp [scenLabels]))
  · exact triv
  · exact triv

theorem namesCov_ok {ex r : Option (List String)} {s : Option GridArg} (hne : ∀ l ∈ covLabels s, l ≠ []) :
    namesCov ex s = .ok r ↔ Agree (ex.toList ++ covLabels s) ∧ r = (ex.toList ++ covLabels s).head? := by
  have triv : ∀ {r}, (Except.ok ex : Except PyErr _) = .ok r ↔ Agree (ex.toList ++ []) ∧ r = (ex.toList ++ []).head? := by
    intro r
    simp only [Except.ok.injEq]
    constructor
    · rintro rfl; exact agree_single _
    · intro h; rw [h.2]; exact (agree_single ex).2
  rcases s with _ | ⟨g, i, c⟩ | g | _
  · exact triv
  · unfold namesCov covLabels
    simp only
    rw [← List.ofFn_eq_map, ← List.ofFn_eq_map]
    have hi : List.ofFn i ≠ [] := hne _ (by simp [covLabels])
    have hsplit : ex.toList ++ [List.ofFn i, List.ofFn c] = (ex.toList ++ [List.ofFn i]) ++ [List.ofFn c] := by simp
    cases hm : mergeNames ex (List.ofFn i) with
    | error e =>
      simp only [reduceCtorEq, false_iff, not_and]
      intro ha
      exfalso
      have : mergeNames ex (List.ofFn i) = .ok (ex.toList ++ [List.ofFn i]).head? :=
        (mergeNames_ok hi).2 ⟨fun x hx y hy => ha x (by rw [hsplit]; exact List.mem_append_left _ hx) y
          (by rw [hsplit]; exact List.mem_append_left _ hy), rfl⟩
      rw [hm] at this
      cases this
    | ok n =>
      obtain ⟨ha, rfl⟩ := (mergeNames_ok hi).1 hm
      simp only
      rw [checkColumns_ok (by cases ex <;> simp), hsplit, (agree_head ha).1, (agree_head ha).2]
  · exact triv
  · exact triv

theorem namesOf_ok {a : DistArgs} {r : Option (List String)} (hm : ∀ l ∈ muLabels a.mu, l ≠ [])
    (hc : ∀ l ∈ covLabels a.cov, l ≠ []) (hs : ∀ l ∈ scenLabels a.scenarios, l ≠ []) :
    namesOf a = .ok r ↔ Agree (labelLists a) ∧ r = (labelLists a).head? := by
  rw [labelLists_eq]
  unfold namesOf
  have mono : ∀ {A B : List (List String)}, Agree (A ++ B) → Agree A :=
    fun h x hx y hy => h x (List.mem_append_left _ hx) y (List.mem_append_left _ hy)
  cases h1 : namesMu a.assetNames a.mu with
  | error e =>
    simp only [reduceCtorEq, false_iff, not_and]
    intro ha
    exfalso
    have := (namesMu_ok hm).2 ⟨mono (mono ha), rfl⟩
    rw [h1] at this; cases this
  | ok n =>
    obtain ⟨a1, rfl⟩ := (namesMu_ok hm).1 h1
    simp only
    cases h2 : namesCov (a.assetNames.toList ++ muLabels a.mu).head? a.cov with
    | error e =>
      simp only [reduceCtorEq, false_iff, not_and]
      intro ha
      exfalso
      have := (namesCov_ok (ex := (a.assetNames.toList ++ muLabels a.mu).head?) hc).2
        ⟨(agree_head a1).1.2 (mono ha), rfl⟩
      rw [h2] at this; cases this
    | ok n2 =>
      obtain ⟨a2, rfl⟩ := (namesCov_ok hc).1 h2
      have a2' := (agree_head a1).1.1 a2
      simp only
      rw [(agree_head a1).2, namesScen_ok hs, (agree_head a2').1, (agree_head a2').2]

theorem namesOf_err {a : DistArgs} {e : PyErr} (h : namesOf a = .error e) : e = .valueError := by
  have hmu : ∀ {n m e}, namesMu n m = .error e → e = .valueError := by
    intro n m e h
    rcases m with _ | l | l
    · cases h
    · exact mergeNames_err h
    · cases h
  have hcov : ∀ {n m e}, namesCov n m = .error e → e = .valueError := by
    intro n m e h
    rcases m with _ | ⟨g, i, c⟩ | g | _
    · cases h
    · unfold namesCov at h
      simp only at h
      split at h
      · rename_i he; injection h with h; subst h; exact mergeNames_err he
      · exact checkColumns_err h
    · cases h
    · cases h
  have hsc : ∀ {n m e}, namesScen n m = .error e → e = .valueError := by
    intro n m e h
    rcases m with _ | ⟨g, i, c⟩ | g | _
    · cases h
    · exact mergeNames_err h
    · cases h
    · cases h
  unfold namesOf at h
  split at h
  · rename_i he; injection h with h; subst h; exact hmu he
  · split at h
    · rename_i he; injection h with h; subst h; exact hcov he
    · exact hsc h

/-! ### Numbers -/

theorem all_finite_iff {l : List (PyFloat ℝ)} {n : ℕ} (hl : l.length = n) :
    l.all PyFloat.isFinite = true ↔ l = List.ofFn (fun i : Fin n => PyFloat.fin (l.getD i .nan).val) := by
  subst hl
  constructor
  · intro h
    rw [List.all_eq_true] at h
    refine List.ext_getElem (by simp) fun k h1 h2 => ?_
    obtain ⟨v, hv⟩ := Probs.isFinite_iff.1 (h _ (List.getElem_mem h1))
    simp only [List.getElem_ofFn, List.getD_eq_getElem?_getD, List.getElem?_eq_getElem h1, Option.getD_some]
    rw [hv]; rfl
  · intro h
    rw [h, List.all_eq_true]
    intro x hx
    rw [List.mem_ofFn] at hx
    obtain ⟨i, rfl⟩ := hx
    rfl

theorem getD_ofFn {n : ℕ} (v : Fin n → ℝ) (i : Fin n) :
    ((List.ofFn (fun i => PyFloat.fin (v i))).getD i .nan).val = v i := by
  simp [PyFloat.val]

theorem finVec_ok {N : ℕ} {l : List (PyFloat ℝ)} {v : Fin N → ℝ} :
    finVec N l = .ok v ↔ l = List.ofFn (fun i => PyFloat.fin (v i)) := by
  unfold finVec
  constructor
  · intro h
    split at h
    · cases h
    rename_i hl
    split at h
    · cases h
    rename_i hf
    injection h with h
    subst h
    exact (all_finite_iff (not_not.1 hl)).1 (by simpa using hf)
  · intro h
    subst h
    rw [if_neg (by simp), if_neg]
    · exact congrArg Except.ok (funext fun i => getD_ofFn v i)
    · rw [Bool.not_eq_false]
      rw [List.all_eq_true]
      intro x hx
      rw [List.mem_ofFn] at hx
      obtain ⟨i, rfl⟩ := hx
      rfl

theorem finVec_err {N : ℕ} {l : List (PyFloat ℝ)} {e : PyErr} (h : finVec N l = .error e) : e = .valueError := by
  unfold finVec at h
  split at h
  · injection h with h; exact h.symm
  · split at h
    · injection h with h; exact h.symm
    · cases h

theorem finGrid_ok {r c : ℕ} {g : Grid} {v : Fin r → Fin c → ℝ} :
    finGrid r c g = .ok v ↔ ∃ (hr : g.rows = r) (hc : g.cols = c), ∀ i j, g.e i j = .fin (v (i.cast hr) (j.cast hc)) := by
  obtain ⟨gr, gc, ge⟩ := g
  unfold finGrid
  constructor
  · intro h
    split at h
    · rename_i hs
      obtain ⟨rfl, rfl⟩ := hs
      split at h
      · rename_i hf
        injection h with h
        subst h
        refine ⟨rfl, rfl, fun i j => ?_⟩
        obtain ⟨w, hw⟩ := Probs.isFinite_iff.1 (hf i j)
        simp only at hw
        simp [hw, PyFloat.val]
      · cases h
    · cases h
  · rintro ⟨hr, hc, he⟩
    simp only at hr hc
    subst hr hc
    rw [dif_pos ⟨rfl, rfl⟩, if_pos (fun i j => by rw [he]; rfl)]
    congr 1
    funext i j
    simp only [Fin.cast_eq_self] at he ⊢
    simp [he, PyFloat.val]

theorem finGrid_err {r c : ℕ} {g : Grid} {e : PyErr} (h : finGrid r c g = .error e) : e = .valueError := by
  unfold finGrid at h
  split at h
  · split at h
    · cases h
    · injection h with h; exact h.symm
  · injection h with h; exact h.symm

theorem gridOf_ok {arg : GridArg} {g : Grid} : gridOf arg = .ok g ↔ (arg = .array g ∨ ∃ i k, arg = .frame g i k) := by
  cases arg with
  | frame g' i k =>
    simp only [gridOf, Except.ok.injEq, reduceCtorEq, false_or]
    constructor
    · rintro rfl; exact ⟨i, k, rfl⟩
    · rintro ⟨i', k', h⟩
      injection h
  | array g' => simp [gridOf]
  | notMatrix => simp [gridOf]

theorem gridOf_err {arg : GridArg} {e : PyErr} (h : gridOf arg = .error e) : e = .valueError := by
  cases arg with
  | frame g' i k => cases h
  | array g' => cases h
  | notMatrix => injection h with h; exact h.symm

theorem lt_zero_ofFn {n : ℕ} (w : Fin n → ℝ) :
    (List.ofFn (fun t => PyFloat.fin (w t))).any (fun x => x.lt (.fin 0)) = false ↔ ∀ t, 0 ≤ w t := by
  rw [List.any_eq_false]
  constructor
  · intro h t
    have := h (PyFloat.fin (w t)) (by rw [List.mem_ofFn]; exact ⟨t, rfl⟩)
    simpa [PyFloat.lt] using this
  · intro h x hx
    rw [List.mem_ofFn] at hx
    obtain ⟨t, rfl⟩ := hx
    simpa [PyFloat.lt] using h t

theorem scenProbs_some {T : ℕ} {l : List (PyFloat ℝ)} {q : Fin T → ℝ} :
    scenProbs T (some l) = .ok q ↔ ∃ w : Fin T → ℝ, l = List.ofFn (fun t => PyFloat.fin (w t)) ∧ (∀ t, 0 ≤ w t) ∧
      0 < ∑ t, w t ∧ ∀ t, q t = w t / ∑ s, w s := by
  unfold scenProbs
  simp only
  constructor
  · intro h
    split at h
    · cases h
    rename_i hl
    split at h
    · cases h
    rename_i hneg
    split at h
    · cases h
    rename_i hf
    split at h
    · cases h
    rename_i hs
    injection h with h
    subst h
    have hl' := (all_finite_iff (not_not.1 hl)).1 (by simpa using hf)
    refine ⟨_, hl', ?_, lt_of_not_ge hs, fun t => rfl⟩
    rw [← lt_zero_ofFn, ← hl']
    simpa using hneg
  · rintro ⟨w, rfl, hn, hs, hq⟩
    rw [if_neg (by simp), if_neg (by rw [(lt_zero_ofFn w).2 hn]; simp), if_neg, if_neg]
    · congr 1
      funext t
      rw [hq]
      simp only [getD_ofFn]
    · simp only [getD_ofFn]
      exact not_le.2 hs
    · rw [Bool.not_eq_false, List.all_eq_true]
      intro x hx
      rw [List.mem_ofFn] at hx
      obtain ⟨i, rfl⟩ := hx
      rfl

theorem scenProbs_none {T : ℕ} {q : Fin T → ℝ} : scenProbs T none = .ok q ↔ 0 < T ∧ ∀ t, q t = 1 / (T : ℝ) := by
  unfold scenProbs
  simp only
  constructor
  · intro h
    split at h
    · cases h
    rename_i hT
    injection h with h
    subst h
    refine ⟨Nat.pos_of_ne_zero hT, fun t => ?_⟩
    have : (T : ℝ) ≠ 0 := by exact_mod_cast hT
    rw [Finset.sum_const, Finset.card_univ, Fintype.card_fin, nsmul_eq_mul]
    field_simp
  · rintro ⟨hT, hq⟩
    rw [if_neg hT.ne']
    congr 1
    funext t
    have : (T : ℝ) ≠ 0 := by exact_mod_cast hT.ne'
    rw [hq, Finset.sum_const, Finset.card_univ, Fintype.card_fin, nsmul_eq_mul]
    field_simp

theorem scenProbs_err {T : ℕ} {p : Option (List (PyFloat ℝ))} {e : PyErr} (h : scenProbs T p = .error e) : e = .valueError := by
  unfold scenProbs at h
  cases p with
  | none =>
    simp only at h
    split at h
    · injection h with h; exact h.symm
    · cases h
  | some l =>
    simp only at h
    split at h
    · injection h with h; exact h.symm
    split at h
    · injection h with h; exact h.symm
    split at h
    · injection h with h; exact h.symm
    split at h
    · injection h with h; exact h.symm
    · cases h

theorem scenProbs_pos {T : ℕ} {p : Option (List (PyFloat ℝ))} {q : Fin T → ℝ} (h : scenProbs T p = .ok q) : 0 < T := by
  cases p with
  | none => exact (scenProbs_none.1 h).1
  | some l =>
    obtain ⟨w, -, -, hs, -⟩ := scenProbs_some.1 h
    rcases Nat.eq_zero_or_pos T with h0 | h0
    · subst h0; simp at hs
    · exact h0

theorem scenProbs_dist {T : ℕ} {p : Option (List (PyFloat ℝ))} {q : Fin T → ℝ} (h : scenProbs T p = .ok q) :
    (∀ t, 0 ≤ q t) ∧ ∑ t, q t = 1 := by
  cases p with
  | none =>
    obtain ⟨hT, hq⟩ := scenProbs_none.1 h
    refine ⟨fun t => by rw [hq]; positivity, ?_⟩
    have : (T : ℝ) ≠ 0 := by exact_mod_cast hT.ne'
    simp only [hq, Finset.sum_const, Finset.card_univ, Fintype.card_fin, nsmul_eq_mul]
    field_simp
  | some l =>
    obtain ⟨w, -, hn, hs, hq⟩ := scenProbs_some.1 h
    refine ⟨fun t => by rw [hq]; exact div_nonneg (hn t) hs.le, ?_⟩
    simp only [hq]
    rw [← Finset.sum_div, div_self hs.ne']

theorem scenProbs_total {T : ℕ} {p : Option (List (PyFloat ℝ))} (hT : 0 < T) (hp : ProbsOk T p) : ∃ q, scenProbs T p = .ok q := by
  cases p with
  | none => exact ⟨_, scenProbs_none.2 ⟨hT, fun _ => rfl⟩⟩
  | some l =>
    obtain ⟨w, hl, hn, hs⟩ := hp l rfl
    exact ⟨_, scenProbs_some.2 ⟨w, hl, hn, hs, fun _ => rfl⟩⟩

theorem scenProbs_ok_probs {T : ℕ} {p : Option (List (PyFloat ℝ))} {q : Fin T → ℝ} (h : scenProbs T p = .ok q) : ProbsOk T p := by
  rintro l rfl
  obtain ⟨w, hl, hn, hs, -⟩ := scenProbs_some.1 h
  exact ⟨w, hl, hn, hs⟩

theorem estimate_ok {T N : ℕ} {R : Fin T → Fin N → ℝ} {p : Fin T → ℝ} (hp : (∀ t, 0 ≤ p t) ∧ ∑ t, p t = 1) :
    Mom.estimateSampleMoments R p = .ok (Mom.wMean R p, Mom.wCov R p) := by
  unfold Mom.estimateSampleMoments
  rw [dif_pos rfl]
  simp only [Fin.cast_eq_self]
  rw [if_pos]
  refine ⟨fun t => by linarith [hp.1 t], ?_⟩
  unfold Valid.sumToOne
  rw [hp.2]
  norm_num

theorem holds_iff {r c : ℕ} {arg : GridArg} {v : Fin r → Fin c → ℝ} :
    arg.Holds v ↔ ∃ g, gridOf arg = .ok g ∧ finGrid r c g = .ok v := by
  unfold GridArg.Holds
  simp only [gridOf_ok, finGrid_ok]

end PyV.Api
