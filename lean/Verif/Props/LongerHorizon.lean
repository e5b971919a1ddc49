import Verif.Props.Drawdown

/-! # Property C282: a longer horizon and a higher level never lower the reported drawdowns -/

set_option linter.unusedSectionVars false

namespace PyV.Props

open PyV PyV.Perf PyV.Proj

variable {K : Type*} [Field K] [LinearOrder K] [IsStrictOrderedRing K] {T N : ℕ}

/-! ## Quantiles of larger numbers -/

private theorem insert_head {x : K} {xs : List K} (h : (x :: xs).Pairwise (· ≤ ·)) : xs.orderedInsert (· ≤ ·) x = x :: xs := by
  cases xs with
  | nil => rfl
  | cons y ys => exact if_pos ((List.pairwise_cons.1 h).1 y (by simp))

private theorem insert_mono {l l' : List K} (h : List.Forall₂ (· ≤ ·) l l') (hl : l.Pairwise (· ≤ ·)) (hl' : l'.Pairwise (· ≤ ·)) :
    ∀ {a b : K}, a ≤ b → List.Forall₂ (· ≤ ·) (l.orderedInsert (· ≤ ·) a) (l'.orderedInsert (· ≤ ·) b) := by
  induction h with
  | nil => intro a b hab; exact .cons hab .nil
  | @cons x y xs ys hxy hr ih =>
    intro a b hab
    have ihs := @ih (List.pairwise_cons.1 hl).2 (List.pairwise_cons.1 hl').2
    simp only [List.orderedInsert_cons]
    split_ifs with h1 h2 h2
    · exact .cons hab (.cons hxy hr)
    · refine .cons (h1.trans hxy) ?_
      rw [← insert_head hl]
      exact ihs (hxy.trans (not_le.1 h2).le)
    · refine .cons ((not_le.1 h1).le.trans hab) ?_
      rw [← insert_head hl']
      exact ihs (hab.trans h2)
    · exact .cons hxy (ihs hab)

private theorem sort_mono {l l' : List K} (h : List.Forall₂ (· ≤ ·) l l') :
    List.Forall₂ (· ≤ ·) (l.insertionSort (· ≤ ·)) (l'.insertionSort (· ≤ ·)) := by
  induction h with
  | nil => exact .nil
  | cons hxy hr ih => exact insert_mono ih (sorted_sort _) (sorted_sort _) hxy

private theorem getD_le {l l' : List K} (h : List.Forall₂ (· ≤ ·) l l') (k : ℕ) : (l[k]?).getD 0 ≤ (l'[k]?).getD 0 := by
  rw [List.forall₂_iff_get] at h
  by_cases hk : k < l.length
  · rw [List.getElem?_eq_getElem hk, List.getElem?_eq_getElem (by rw [← h.1]; exact hk)]
    exact h.2 k hk (by rw [← h.1]; exact hk)
  · rw [List.getElem?_eq_none (by omega), List.getElem?_eq_none (by rw [← h.1]; omega)]

theorem quantile_larger [FloorRing K] {l l' : List K} (h : List.Forall₂ (· ≤ ·) l l') {q y y' : K} (hy : quantile l q = .ok y)
    (hy' : quantile l' q = .ok y') : y ≤ y' := by
  obtain ⟨hx, h0, h1⟩ := quantile_error hy
  obtain ⟨hx', -, -⟩ := quantile_error hy'
  obtain ⟨_, e, rfl⟩ := quantile_ok hx h0 h1
  obtain ⟨_, e', rfl⟩ := quantile_ok hx' h0 h1
  rw [e] at hy
  rw [e'] at hy'
  injection hy with hy
  injection hy' with hy'
  rw [← hy, ← hy', ← h.length_eq]
  set v : K := q * ((l.length - 1 : ℕ) : K) with hv
  have hv0 : 0 ≤ v := mul_nonneg h0 (Nat.cast_nonneg _)
  obtain ⟨f1, f2⟩ := floor_facts hv0
  unfold interp
  have g1 := getD_le (sort_mono h) ⌊v⌋.toNat
  have g2 := getD_le (sort_mono h) (min (⌊v⌋.toNat + 1) ((l.insertionSort (· ≤ ·)).length - 1))
  simp only [← (sort_mono h).length_eq]
  set f := v - ((⌊v⌋.toNat : ℕ) : K) with hf
  have hf0 : 0 ≤ f := by rw [hf]; linarith
  have hf1 : f ≤ 1 := by rw [hf]; linarith
  nlinarith [mul_le_mul_of_nonneg_left g2 hf0, mul_le_mul_of_nonneg_left g1 (sub_nonneg.2 hf1)]

/-! ## Paths -/

private theorem drawdown_prefix {H H' : ℕ} (hH : H ≤ H') {w : Fin H → K} {w' : Fin H' → K} (h : ∀ t, w t = w' (Fin.castLE hH t)) (t : Fin H) :
    drawdown w t = drawdown w' (Fin.castLE hH t) := by
  have hm : runningMax w t = runningMax w' (Fin.castLE hH t) := by
    refine (runningMax_greatest w t).unique ?_
    have e : w '' {s | s ≤ t} = w' '' {s | s ≤ Fin.castLE hH t} := by
      ext y
      constructor
      · rintro ⟨s, hs, rfl⟩
        exact ⟨Fin.castLE hH s, hs, (h s).symm⟩
      · rintro ⟨s, hs, rfl⟩
        have hlt : (s : ℕ) < H := lt_of_le_of_lt hs t.2
        exact ⟨⟨s, hlt⟩, hs, h _⟩
    rw [e]
    exact runningMax_greatest w' _
  unfold drawdown
  simp only [hm, h t]

private theorem maxDrawdown_prefix {H H' : ℕ} (hH : H ≤ H') {w : Fin H → K} {w' : Fin H' → K} (h : ∀ t, w t = w' (Fin.castLE hH t)) {d d' : K}
    (hd : maxDrawdown w = .ok d) (hd' : maxDrawdown w' = .ok d') : d ≤ d' := by
  obtain ⟨t, -, rfl⟩ := List.mem_map.1 (listMax_greatest hd).1
  rw [drawdown_prefix hH h t]
  exact (listMax_greatest hd').2 (List.mem_map.2 ⟨_, List.mem_finRange _, rfl⟩)

private theorem paths_prefix {horizon horizon' n : ℤ} (hH : horizon.toNat ≤ horizon'.toNat) {R : Fin T → Fin N → K} {p : Option (List (PyFloat K))}
    {u : Fin n.toNat → Fin horizon.toNat → K} {u' : Fin n.toNat → Fin horizon'.toNat → K} (hu : ∀ a b, u a b = u' a (Fin.castLE hH b))
    {cum : Fin n.toNat → Fin horizon.toNat → Fin N → K} {cum' : Fin n.toNat → Fin horizon'.toNat → Fin N → K}
    (h : simulatePaths R horizon n p u = .ok cum) (h' : simulatePaths R horizon' n p u' = .ok cum') (a : Fin n.toNat) (t : Fin horizon.toNat)
    (i : Fin N) : cum a t i = cum' a (Fin.castLE hH t) i := by
  unfold simulatePaths at h h'
  cases hw : pathWeights T p with
  | error e => rw [hw] at h; cases h
  | ok w =>
    rw [hw] at h h'
    dsimp only at h h'
    split at h
    · cases h
    split at h'
    · cases h'
    unfold choice at h h'
    split_ifs at h h' with h1 h2 h3
    dsimp only at h h'
    unfold gather at h h'
    split_ifs at h h' with h4 h5
    · injection h with h
      injection h' with h'
      rw [← h, ← h']
      refine Finset.sum_of_injOn (Fin.castLE hH) (Fin.castLE_injective hH).injOn (fun _ _ => Finset.mem_coe.2 (Finset.mem_univ _)) ?_ ?_
      · intro b _ hb
        refine if_neg fun hbt => hb ⟨⟨b, lt_of_le_of_lt hbt t.2⟩, Finset.mem_coe.2 (Finset.mem_univ _), rfl⟩
      · intro b _
        dsimp only
        rw [hu a b]
        exact if_congr Iff.rfl rfl rfl

private theorem mapE_both {α : Type*} {f g : α → Except PyErr K} {l : List α} {r r' : List K} (h : mapE f l = .ok r) (h' : mapE g l = .ok r')
    (hp : ∀ a b b', f a = .ok b → g a = .ok b' → b ≤ b') : List.Forall₂ (· ≤ ·) r r' := by
  rw [Ens.mapE_iff] at h h'
  induction h generalizing r' with
  | nil => cases h'; exact .nil
  | cons h1 _ ih =>
    cases h' with
    | cons h2 h3 => exact .cons (hp _ _ _ h1 h2) (ih h3)

/-- **C282** more steps on the same draws: for every portfolio, repricing and level, none of the reported drawdown statistics is lower for the
longer horizon. -/
theorem C282_longer [FloorRing K] {N' : ℕ} {w : Weights 1 K} {R : Fin T → Fin N → K} {horizon horizon' n : ℤ} {p : Option (List (PyFloat K))}
    {reprice : (Fin n.toNat → Fin N → K) → Fin n.toNat → Fin N' → K}
    (hH : horizon.toNat ≤ horizon'.toNat) {u : Fin n.toNat → Fin horizon.toNat → K} {u' : Fin n.toNat → Fin horizon'.toNat → K}
    (hu : ∀ a b, u a b = u' a (Fin.castLE hH b)) {confidence : K} {r r' : DdReport K}
    (h : drawdownQuantile w R horizon n p reprice u confidence = .ok r)
    (h' : drawdownQuantile w R horizon' n p reprice u' confidence = .ok r') :
    r.mean ≤ r'.mean ∧ r.median ≤ r'.median ∧ r.level ≤ r'.level ∧ r.worst ≤ r'.worst := by
  unfold drawdownQuantile at h h'
  split at h
  · cases h
  rename_i cum hcum
  split at h'
  · cases h'
  rename_i cum' hcum'
  have hpre := paths_prefix hH hu hcum hcum'
  split at h
  · cases h
  rename_i P hP
  split at h'
  · cases h'
  rename_i P' hP'
  dsimp only at h h'
  split at h
  · cases h
  rename_i hlen
  rw [if_neg hlen] at h'
  split at h
  · cases h
  rename_i l hl
  split at h'
  · cases h'
  rename_i l' hl'
  have hPP : ∀ a t i, P a t i = P' a (Fin.castLE hH t) i := by
    intro a t i
    have hc : ∀ t, (fun a i => cum a t i) = fun a i => cum' a (Fin.castLE hH t) i := fun t => funext fun a => funext fun i => hpre a t i
    unfold repriceSteps at hP hP'
    split at hP
    · rename_i hN
      rw [dif_pos hN] at hP'
      injection hP with hP; injection hP' with hP'
      rw [← hP, ← hP']
      simp only [hc]
    · rename_i hN
      rw [dif_neg hN] at hP'
      split at hP
      · rename_i hN1
        rw [dif_pos hN1] at hP'
        injection hP with hP; injection hP' with hP'
        rw [← hP, ← hP']
        simp only [hc]
      · split at hP
        · rename_i h0
          exact absurd t.2 (by omega)
        · cases hP
  have hle : List.Forall₂ (· ≤ ·) l l' := mapE_both hl hl' fun a b b' hb hb' =>
    maxDrawdown_prefix hH (fun t => by simp only [hPP]) hb hb'
  unfold ddSummary at h h'
  split at h
  · cases h
  rename_i m hm
  split at h'
  · cases h'
  rename_i m' hm'
  split at h
  · cases h
  rename_i q hq
  split at h'
  · cases h'
  rename_i q' hq'
  split at h
  · cases h
  rename_i x hx
  split at h'
  · cases h'
  rename_i x' hx'
  injection h with h; injection h' with h'
  subst h; subst h'
  refine ⟨?_, quantile_larger hle hm hm', quantile_larger hle hq hq', ?_⟩
  · show l.sum / (l.length : K) ≤ l'.sum / (l'.length : K)
    rw [hle.length_eq]
    exact div_le_div_of_nonneg_right (List.Forall₂.sum_le_sum hle) (Nat.cast_nonneg _)
  · show x ≤ x'
    have g := (listMax_greatest hx).1
    obtain ⟨k, hk, rfl⟩ := List.getElem_of_mem g
    rw [List.forall₂_iff_get] at hle
    exact (hle.2 k hk (by rw [← hle.1]; exact hk)).trans ((listMax_greatest hx').2 (List.getElem_mem _))

/-- **C282** on the same paths a higher confidence never lowers the drawdown at that level, and changes none of the other statistics. -/
theorem C282_level [FloorRing K] {N' : ℕ} {w : Weights 1 K} {R : Fin T → Fin N → K} {horizon n : ℤ} {p : Option (List (PyFloat K))}
    {reprice : (Fin n.toNat → Fin N → K) → Fin n.toNat → Fin N' → K} {u : Fin n.toNat → Fin horizon.toNat → K} {c c' : K} (hc : c ≤ c')
    {r r' : DdReport K} (h : drawdownQuantile w R horizon n p reprice u c = .ok r)
    (h' : drawdownQuantile w R horizon n p reprice u c' = .ok r') :
    r.level ≤ r'.level ∧ r'.mean = r.mean ∧ r'.median = r.median ∧ r'.worst = r.worst := by
  unfold drawdownQuantile at h h'
  split at h
  · cases h
  rename_i cum hcum
  rw [hcum] at h'
  dsimp only at h'
  split at h
  · cases h
  rename_i P hP
  rw [hP] at h'
  dsimp only at h h'
  split at h
  · cases h
  rename_i hlen
  rw [if_neg hlen] at h'
  split at h
  · cases h
  rename_i l hl
  rw [hl] at h'
  dsimp only at h'
  unfold ddSummary at h h'
  split at h
  · cases h
  rename_i m hm
  rw [hm] at h'
  dsimp only at h'
  split at h
  · cases h
  rename_i q hq
  split at h'
  · cases h'
  rename_i q' hq'
  split at h
  · cases h
  rename_i x hx
  rw [hx] at h'
  injection h with h; injection h' with h'
  subst h; subst h'
  exact ⟨quantile_mono hq hq' hc, rfl, rfl, rfl⟩

/-- One path of three steps on two scenarios (gain, loss): after two steps the drawdown is 1/11, after a second loss it is 2/11. -/
example : drawdownQuantile (.plain [fun _ => (1 : ℚ)]) ![![1 / 10], ![-1 / 10]] 2 1 (some [.fin (1 / 2), .fin (1 / 2)]) (fun c => c)
      ![![0, 1 / 2]] (1 / 2) = .ok ⟨1 / 11, 1 / 11, 1 / 11, 1 / 11⟩ ∧
    drawdownQuantile (.plain [fun _ => (1 : ℚ)]) ![![1 / 10], ![-1 / 10]] 3 1 (some [.fin (1 / 2), .fin (1 / 2)]) (fun c => c)
      ![![0, 1 / 2, 1 / 2]] (3 / 4) = .ok ⟨2 / 11, 2 / 11, 2 / 11, 2 / 11⟩ := by
  constructor <;> decide +kernel

end PyV.Props
