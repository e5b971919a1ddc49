import Verif.Props.Performance

/-! # C82: the horizon report -/

namespace PyV.Props

open PyV PyV.Perf PyV.Spec

variable {T N M : ℕ}

theorem natRepr_inj {a b : ℕ} (h : a.repr = b.repr) : a = b := by
  rw [Nat.repr_eq_ofList_toDigits, Nat.repr_eq_ofList_toDigits] at h
  have h' := congrArg String.toList h
  simp only [String.toList_ofList] at h'
  have ha := Nat.ofDigitChars_toDigits (b := 10) (n := a) (by norm_num) (by norm_num)
  have hb := Nat.ofDigitChars_toDigits (b := 10) (n := b) (by norm_num) (by norm_num)
  rw [← ha, ← hb, h']

theorem weeks_ne (n : ℕ) (s : String) (hs : s.toList.getLast? ≠ some 'w') : toString ((n : ℤ)) ++ "w" ≠ s := by
  rintro rfl
  apply hs
  simp [String.toList_append]

/-- Different positive horizons have different labels. -/
theorem horizonLabel_inj {a b : ℤ} (ha : 0 < a) (hb : 0 < b) (h : horizonLabel a = horizonLabel b) : a = b := by
  obtain ⟨m, rfl⟩ := Int.eq_ofNat_of_zero_le ha.le
  obtain ⟨n, rfl⟩ := Int.eq_ofNat_of_zero_le hb.le
  have hw : ∀ k : ℕ, toString ((k : ℤ)) ++ "w" ≠ "1m" ∧ toString ((k : ℤ)) ++ "w" ≠ "3m" ∧ toString ((k : ℤ)) ++ "w" ≠ "6m" ∧
      toString ((k : ℤ)) ++ "w" ≠ "1y" := fun k =>
    ⟨weeks_ne k _ (by decide +kernel), weeks_ne k _ (by decide +kernel), weeks_ne k _ (by decide +kernel), weeks_ne k _ (by decide +kernel)⟩
  unfold horizonLabel at h
  have hm := hw m
  have hn := hw n
  by_cases c1 : (m : ℤ) = 4 <;> by_cases c2 : (m : ℤ) = 13 <;> by_cases c3 : (m : ℤ) = 26 <;> by_cases c4 : (m : ℤ) = 52 <;>
  by_cases d1 : (n : ℤ) = 4 <;> by_cases d2 : (n : ℤ) = 13 <;> by_cases d3 : (n : ℤ) = 26 <;> by_cases d4 : (n : ℤ) = 52 <;>
  first
    | omega
    | (simp only [c1, c2, c3, c4, d1, d2, d3, d4, if_true, if_false] at h; first | (exact absurd h (by decide)) | (exact absurd h hm.1) | (exact absurd h hm.2.1) | (exact absurd h hm.2.2.1) | (exact absurd h hm.2.2.2) | (exact absurd h.symm hn.1) | (exact absurd h.symm hn.2.1) | (exact absurd h.symm hn.2.2.1) | (exact absurd h.symm hn.2.2.2) | skip)
  have h2 : toString ((m : ℤ)) = toString ((n : ℤ)) := by
    have := congrArg String.toList h
    simp only [String.toList_append] at this
    exact String.toList_inj.mp (List.append_cancel_right this)
  have h3 : m.repr = n.repr := h2
  rw [natRepr_inj h3]

theorem horizonRow_spec {n : ℤ} {argsort : (Fin n.toNat → ℝ) → Equiv.Perm (Fin n.toNat)} {w : Weights M ℝ} {R : Fin T → Fin N → ℝ}
    {cols : Option (List String)} {p : Option (List (PyFloat ℝ))} {reprice : (Fin n.toNat → Fin N → ℝ) → Fin n.toNat → Fin N → ℝ}
    {conf : ℝ} {draw : ℕ → (h : ℤ) → Fin n.toNat → Fin h.toNat → ℝ} {i : ℕ} {h : ℤ} {row : String × Metrics}
    (hr : horizonRow argsort w R cols p reprice conf draw i h = .ok row) :
    0 < h ∧ row.1 = horizonLabel h ∧ ∃ scen, Proj.projectScenarios R h p n (draw i h) = .ok scen ∧
      performanceReport argsort w (reprice scen) cols none conf false = .ok row.2 := by
  unfold horizonRow at hr
  split at hr
  · cases hr
  rename_i scen hscen
  split at hr
  · cases hr
  rename_i r hrep
  injection hr with hr
  subst hr
  refine ⟨?_, rfl, scen, hscen, hrep⟩
  by_contra hc
  unfold Proj.projectScenarios at hscen
  rw [if_pos (by omega)] at hscen
  cases hscen

/-- **C82** the horizon report has one row per requested horizon, in order, each carrying that horizon's label and holding exactly
the performance report of the scenarios projected to that horizon. -/
theorem C82_rows {n : ℤ} (argsort : (Fin n.toNat → ℝ) → Equiv.Perm (Fin n.toNat)) (w : Weights M ℝ) (R : Fin T → Fin N → ℝ)
    (cols : Option (List String)) (p : Option (List (PyFloat ℝ))) (reprice : (Fin n.toNat → Fin N → ℝ) → Fin n.toNat → Fin N → ℝ)
    (conf : ℝ) (draw : ℕ → (h : ℤ) → Fin n.toNat → Fin h.toNat → ℝ) (horizons : List ℤ) (hd : horizons.Nodup)
    (rows : List (String × Metrics)) (h : horizonReport argsort w R cols p reprice conf draw horizons = .ok rows) :
    rows.map Prod.fst = horizons.map horizonLabel ∧ (rows.map Prod.fst).Nodup ∧
      ∀ (k : ℕ) (hk : k < horizons.length) (hk' : k < rows.length), ∃ scen,
        Proj.projectScenarios R horizons[k] p n (draw k horizons[k]) = .ok scen ∧
        performanceReport argsort w (reprice scen) cols none conf false = .ok rows[k].2 := by
  unfold horizonReport at h
  split at h
  · cases h
  rename_i rs hrs
  injection h with h
  rw [Ens.mapE_iff, List.forall₂_iff_get] at hrs
  obtain ⟨hlen, hall⟩ := hrs
  have hlen' : rs.length = horizons.length := by rw [← hlen]; simp
  have hk : ∀ (k : ℕ) (hk : k < horizons.length) (hk' : k < rs.length), 0 < horizons[k] ∧ rs[k].1 = horizonLabel horizons[k] ∧ ∃ scen,
      Proj.projectScenarios R horizons[k] p n (draw k horizons[k]) = .ok scen ∧
      performanceReport argsort w (reprice scen) cols none conf false = .ok rs[k].2 := by
    intro k hk hk'
    have := hall k (by rw [hlen]; exact hk') hk'
    simp only [List.get_eq_getElem, List.getElem_zip, List.getElem_range] at this
    exact horizonRow_spec this
  have hmap : rs.map Prod.fst = horizons.map horizonLabel := by
    apply List.ext_getElem
    · simp [hlen']
    · intro k h1 h2
      rw [List.length_map] at h1 h2
      simp only [List.getElem_map]
      exact (hk k h2 h1).2.1
  have hnd : (rs.map Prod.fst).Nodup := by
    rw [hmap]
    refine List.Nodup.map_on ?_ hd
    intro a ha b hb hab
    obtain ⟨i, hi, rfl⟩ := List.getElem_of_mem ha
    obtain ⟨j, hj, rfl⟩ := List.getElem_of_mem hb
    exact horizonLabel_inj (hk i hi (by omega)).1 (hk j hj (by omega)).1 hab
  have he : rows = rs := by
    rw [← h, Ens.dictUpdate_append (by simpa using hnd)]
    rfl
  subst he
  exact ⟨hmap, hnd, fun k h1 h2 => (hk k h1 h2).2.2⟩

/-- **C82** whatever the horizons, repetitions included, no label appears twice. -/
theorem C82_no_duplicate_rows {n : ℤ} (argsort : (Fin n.toNat → ℝ) → Equiv.Perm (Fin n.toNat)) (w : Weights M ℝ) (R : Fin T → Fin N → ℝ)
    (cols : Option (List String)) (p : Option (List (PyFloat ℝ))) (reprice : (Fin n.toNat → Fin N → ℝ) → Fin n.toNat → Fin N → ℝ)
    (conf : ℝ) (draw : ℕ → (h : ℤ) → Fin n.toNat → Fin h.toNat → ℝ) (horizons : List ℤ)
    (rows : List (String × Metrics)) (h : horizonReport argsort w R cols p reprice conf draw horizons = .ok rows) :
    (rows.map Prod.fst).Nodup := by
  unfold horizonReport at h
  split at h
  · cases h
  injection h with h
  rw [← h]
  exact Ens.nodup_dictUpdate (by simp)

/-- The default horizons have the documented labels. -/
example : [4, 13, 26, 52, 8].map horizonLabel = ["1m", "3m", "6m", "1y", "8w"] := by decide +kernel

end PyV.Props
