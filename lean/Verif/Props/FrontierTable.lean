import Verif.Model.FrontierTable
import Verif.Props.FrontierEnsembles
import Verif.Props.Discrete
import Std.Data.String.ToNat

/-!
# Tables and whole-share allocations of frontier portfolios (C140, C141)
-/

namespace PyV.Props

open PyV PyV.Fr PyV.Ens

variable {K : Type*} [Field K] [LinearOrder K] [IsStrictOrderedRing K] {A : Type*} [DecidableEq A] {L : Type*} [DecidableEq L]
  {C : Type*}

/-! ## C140 -/

/-- The labelled portfolio that position `p` of the request `req` must show. -/
def Shows (h : Held A L K) (req : List ℤ) (labels : Option (List C)) (tab : List (ColLabel C × List K)) : Prop :=
  ∀ (p : ℕ) (i : ℤ), req[p]? = some i → ∃ (k : Fin h.m) (lab : ColLabel C), (i = (k : ℤ) ∨ i = (k : ℤ) - h.m) ∧
    ((∃ l c, labels = some l ∧ l[p]? = some c ∧ lab = .named c) ∨ (labels = none ∧ lab = .pos i)) ∧
    tab[p]? = some (lab, List.ofFn (fun a => h.f.weights a k))

omit [Field K] [LinearOrder K] [IsStrictOrderedRing K] [DecidableEq A] [DecidableEq L] in
theorem shows_unique {h : Held A L K} {req : List ℤ} {labels : Option (List C)} {tab tab' : List (ColLabel C × List K)}
    (h1 : Shows h req labels tab) (h2 : Shows h req labels tab') (l1 : tab.length = req.length) (l2 : tab'.length = req.length) :
    tab = tab' := by
  apply List.ext_getElem?
  intro p
  by_cases hp : p < req.length
  · obtain ⟨k, lab, hk, hl, ht⟩ := h1 p _ (List.getElem?_eq_getElem hp)
    obtain ⟨k', lab', hk', hl', ht'⟩ := h2 p _ (List.getElem?_eq_getElem hp)
    have hkk : k = k' := by
      apply Fin.ext
      have := k.isLt
      have := k'.isLt
      omega
    have hll : lab = lab' := by
      rcases hl with ⟨l, c, e1, e2, rfl⟩ | ⟨e1, rfl⟩
      · rcases hl' with ⟨l', c', e1', e2', rfl⟩ | ⟨e1', rfl⟩
        · rw [e1] at e1'; injection e1' with e1'; rw [← e1', e2] at e2'; injection e2' with e2'; rw [e2']
        · rw [e1] at e1'; cases e1'
      · rcases hl' with ⟨l', c', e1', e2', rfl⟩ | ⟨e1', rfl⟩
        · rw [e1] at e1'; cases e1'
        · rfl
    rw [ht, ht', hkk, hll]
  · rw [List.getElem?_eq_none (by omega), List.getElem?_eq_none (by omega)]

/-- The positions meant by a request. -/
def Req (h : Held A L K) (columns : Option (List ℤ)) (req : List ℤ) : Prop :=
  columns = some req ∨ columns = none ∧ req = (List.range h.m).map (fun i : ℕ => (i : ℤ))

omit [Field K] [LinearOrder K] [IsStrictOrderedRing K] [DecidableEq A] [DecidableEq L] in
theorem select_iff {h : Held A L K} {columns : Option (List ℤ)} {req : List ℤ} (hr : Req h columns req) {ks : List (Fin h.m)} :
    selectWeights h columns = .ok ks ↔ List.Forall₂ (fun (i : ℤ) (k : Fin h.m) => i = (k : ℤ) ∨ i = (k : ℤ) - h.m) req ks := by
  unfold selectWeights
  rcases hr with rfl | ⟨rfl, rfl⟩
  · simp only
    rw [Ens.mapE_iff]
    simp only [pyIndex_iff]
  · simp only [Except.ok.injEq]
    rw [List.forall₂_iff_get]
    constructor
    · rintro rfl
      refine ⟨by simp, fun i h1 h2 => ?_⟩
      left
      simp
    · rintro ⟨h1, h2⟩
      simp only [List.length_map, List.length_range] at h1
      apply List.ext_getElem
      · simp [h1]
      · intro i hi1 hi2
        have := h2 i (by simpa using hi1) hi2
        simp only [List.get_eq_getElem, List.getElem_map, List.getElem_range] at this
        apply Fin.ext
        simp only [List.getElem_finRange, Fin.cast_mk]
        have := (ks[i]).isLt
        omega

omit [Field K] [LinearOrder K] [IsStrictOrderedRing K] [DecidableEq A] [DecidableEq L] in
theorem toFrame_of {h : Held A L K} {columns : Option (List ℤ)} {req : List ℤ} (hr : Req h columns req) {ks : List (Fin h.m)}
    (hks : selectWeights h columns = .ok ks) {labels : Option (List C)} (hl : ∀ l, labels = some l → l.length = req.length) :
    ∃ tab, toFrame h columns labels = .ok (h.names, tab) ∧ tab.length = req.length ∧ Shows h req labels tab := by
  have hf := (select_iff hr).mp hks
  have hlen : req.length = ks.length := hf.length_eq
  have hlab : ∃ ls, frameLabels ks.length columns labels = .ok ls ∧ ls.length = req.length ∧
      ∀ (p : ℕ) (i : ℤ), req[p]? = some i → ∃ lab, ls[p]? = some lab ∧
        ((∃ l c, labels = some l ∧ l[p]? = some c ∧ lab = ColLabel.named c) ∨ (labels = none ∧ lab = .pos i)) := by
    unfold frameLabels
    cases labels with
    | some l =>
      simp only
      have h1 := hl l rfl
      rw [if_neg (by omega)]
      refine ⟨_, rfl, by simp [h1], fun p i hi => ?_⟩
      have hp : p < req.length := by by_contra hcon; rw [List.getElem?_eq_none (by omega)] at hi; cases hi
      exact ⟨.named (l[p]'(by omega)), by simp [List.getElem?_map, List.getElem?_eq_getElem (by omega : p < l.length)],
        Or.inl ⟨l, _, rfl, List.getElem?_eq_getElem (by omega), rfl⟩⟩
    | none =>
      simp only
      rcases hr with rfl | ⟨rfl, rfl⟩
      · exact ⟨_, rfl, by simp, fun p i hi => ⟨.pos i, by simp [List.getElem?_map, hi], Or.inr ⟨by trivial, rfl⟩⟩⟩
      · simp only
        refine ⟨_, rfl, by simpa using hlen.symm, fun p i hi => ⟨.pos i, ?_, Or.inr ⟨by trivial, rfl⟩⟩⟩
        rw [← hlen]
        simp only [List.length_map, List.length_range]
        simp only [List.getElem?_map] at hi ⊢
        cases hq : (List.range h.m)[p]? with
        | none => rw [hq] at hi; cases hi
        | some q => rw [hq] at hi; simp only [Option.map_some, Option.some.injEq] at hi ⊢; rw [← hi]
  obtain ⟨ls, hls, hll, hspec⟩ := hlab
  refine ⟨ls.zip (ks.map (fun k => List.ofFn (fun i => h.f.weights i k))), ?_, by simp [hll, hlen], fun p i hi => ?_⟩
  · unfold toFrame
    rw [hks]
    simp only
    rw [hls]
  · have hp : p < req.length := by by_contra hcon; rw [List.getElem?_eq_none (by omega)] at hi; cases hi
    obtain ⟨lab, e1, e2⟩ := hspec p i hi
    rw [List.forall₂_iff_get] at hf
    have h3 := hf.2 p hp (by omega)
    refine ⟨ks[p]'(by omega), lab, ?_, e2, ?_⟩
    · rw [List.getElem?_eq_getElem hp] at hi
      injection hi with hi
      rw [← hi]
      exact h3
    · rw [List.getElem?_zip_eq_some]
      exact ⟨e1, by simp [List.getElem?_map, List.getElem?_eq_getElem (by omega : p < ks.length)]⟩

/-- **C140** `to_frame(columns, column_labels)` succeeds exactly when every requested position exists (negative ones count from the end)
and the caller's labels, if any, are as many as the columns; the frame then holds the requested portfolios, in the requested order,
under the caller's labels or else the requested positions (all positions when no columns are requested), with the asset labels as
index. -/
theorem C140_frame (h : Held A L K) (columns : Option (List ℤ)) (labels : Option (List C)) (ix : Option (List A))
    (tab : List (ColLabel C × List K)) :
    toFrame h columns labels = .ok (ix, tab) ↔
      ix = h.names ∧ ∃ req : List ℤ, Req h columns req ∧
        (∀ l, labels = some l → l.length = req.length) ∧ tab.length = req.length ∧
        Shows h req labels tab := by
  constructor
  · intro ht
    have hr : ∃ req, Req h columns req := by
      cases columns with
      | none => exact ⟨_, Or.inr ⟨rfl, rfl⟩⟩
      | some l => exact ⟨l, Or.inl rfl⟩
    obtain ⟨req, hr⟩ := hr
    cases hks : selectWeights h columns with
    | error e => unfold toFrame at ht; rw [hks] at ht; cases ht
    | ok ks =>
      have hlen : req.length = ks.length := ((select_iff hr).mp hks).length_eq
      have hl : ∀ l, labels = some l → l.length = req.length := by
        rintro l rfl
        by_contra hcon
        unfold toFrame at ht
        rw [hks] at ht
        simp only [frameLabels] at ht
        rw [if_pos (by omega)] at ht
        cases ht
      obtain ⟨tab', h1, h2, h3⟩ := toFrame_of hr hks hl
      rw [h1] at ht
      injection ht with ht
      injection ht with e1 e2
      subst e2
      exact ⟨e1.symm, req, hr, hl, h2, h3⟩
  · rintro ⟨rfl, req, hr, hl, hlen, hsh⟩
    have hex : ∀ p : Fin req.length, ∃ k : Fin h.m, req[p] = (k : ℤ) ∨ req[p] = (k : ℤ) - h.m := by
      intro p
      obtain ⟨k, -, hk, -⟩ := hsh p _ (List.getElem?_eq_getElem p.isLt)
      exact ⟨k, hk⟩
    choose k hk using hex
    have hks : selectWeights h columns = .ok (List.ofFn k) := by
      rw [select_iff hr, List.forall₂_iff_get]
      refine ⟨by simp, fun i h1 h2 => ?_⟩
      simp only [List.get_eq_getElem, List.getElem_ofFn]
      exact hk ⟨i, h1⟩
    obtain ⟨tab', h1, h2, h3⟩ := toFrame_of hr hks hl
    rw [h1, shows_unique hsh h3 hlen h2]

/-- Two of three portfolios, the last first. -/
example : toFrame (C := String) (⟨2, 3, some ["a", "b"], exFam 1⟩ : Held String String ℚ) (some [-1, 0]) none =
    .ok (some ["a", "b"], [(.pos (-1), [1/2, 1/2]), (.pos 0, [0, 1])]) := by decide +kernel

/-! ## C141 -/

variable [FloorRing K]


open PyV.Discrete PyV.Spec.Discrete in
/-- The portfolio in column `k`, by asset label; assets without labels are called `Asset_0`, `Asset_1`, … -/
def labelledColumn (h : Held String L K) (k : Fin h.m) : List (String × K) :=
  List.ofFn (fun i : Fin h.n => ((match h.names with | some l => l.getD i "" | none => "Asset_" ++ (i : ℕ).repr), h.f.weights i k))

omit [DecidableEq L] in
theorem assetLabels_zip (h : Held String L K) (hn : ∀ l, h.names = some l → l.length = h.n) (k : Fin h.m) :
    (assetLabels h.n h.names).length = h.n ∧
      (assetLabels h.n h.names).zip (List.ofFn (fun i => h.f.weights i k)) = labelledColumn h k := by
  have hlen : (assetLabels h.n h.names).length = h.n := by
    unfold assetLabels
    cases hnm : h.names with
    | none => simp
    | some l => exact hn l hnm
  refine ⟨hlen, ?_⟩
  apply List.ext_getElem
  · simp [labelledColumn, hlen]
  · intro i h1 h2
    simp only [List.getElem_zip, labelledColumn, List.getElem_ofFn, Prod.mk.injEq, and_true]
    have hi : i < h.n := by simpa [labelledColumn] using h2
    obtain ⟨n, m, names, f⟩ := h
    cases names with
    | none => simp [assetLabels]
    | some l =>
      have hl : i < l.length := by rw [hn l rfl]; exact hi
      simp [assetLabels, List.getD, hl]

omit [DecidableEq L] in
/-- **C141** a column index outside `0 … M-1`, negative ones included, raises `IndexError`; any other column is discretised exactly as
the labelled portfolio would be by `discretize_weights`. -/
theorem C141_column (h : Held String L K) (hn : ∀ l, h.names = some l → l.length = h.n) (column : ℤ) (prices : List (String × K))
    (total : K) (method : String) (lots : Option (List (String × ℤ))) (maxIter : Option ℤ) (mode : Discrete.Mode)
    (sortBy : (inp : Discrete.Input K) → Equiv.Perm (Fin inp.n)) (solve : (inp : Discrete.Input K) → Option (Discrete.MipPoint K inp.n)) :
    ((column < 0 ∨ (h.m : ℤ) ≤ column) →
      asDiscrete h column prices total method lots maxIter mode sortBy solve = .error .indexError) ∧
    ∀ k : Fin h.m, column = (k : ℤ) → asDiscrete h column prices total method lots maxIter mode sortBy solve =
      Discrete.discretize (labelledColumn h k) prices total lots method maxIter mode sortBy solve := by
  constructor
  · intro hc
    unfold asDiscrete
    rw [dif_pos hc]
  · rintro k rfl
    unfold asDiscrete
    rw [dif_neg (by have := k.isLt; omega)]
    have hk : (⟨((k : ℕ) : ℤ).toNat, by have := k.isLt; omega⟩ : Fin h.m) = k := by apply Fin.ext; simp
    simp only [hk]
    obtain ⟨h1, h2⟩ := assetLabels_zip h hn k
    rw [if_neg (by simpa using h1), h2]

omit [DecidableEq L] in
theorem labelled_nodup (h : Held String L K) (hn : ∀ l, h.names = some l → l.length = h.n ∧ l.Nodup) (k : Fin h.m) :
    ((labelledColumn h k).map Prod.fst).Nodup := by
  unfold labelledColumn
  rw [List.map_ofFn]
  apply List.nodup_ofFn.mpr
  intro i j hij
  simp only [Function.comp] at hij
  cases hnm : h.names with
  | none =>
    rw [hnm] at hij
    simp only at hij
    have : (i : ℕ).repr = (j : ℕ).repr := by
      have h1 := congrArg String.toList hij
      simp only [String.toList_append] at h1
      exact String.toList_injective (List.append_cancel_left h1)
    exact Fin.ext (Nat.repr_injective this)
  | some l =>
    rw [hnm] at hij
    obtain ⟨h1, h2⟩ := hn l hnm
    have hi : (i : ℕ) < l.length := by rw [h1]; exact i.isLt
    have hj : (j : ℕ) < l.length := by rw [h1]; exact j.isLt
    simp only [List.getD, List.getElem?_eq_getElem hi, List.getElem?_eq_getElem hj, Option.getD_some] at hij
    exact Fin.ext ((List.Nodup.getElem_inj_iff h2).mp hij)

open PyV.Discrete PyV.Spec.Discrete in
omit [DecidableEq L] in
/-- **C141** greedy allocation of a long-only frontier portfolio with prices for all its assets succeeds, spends at most the given value,
and holds every asset within one lot of its weight. -/
theorem C141_greedy (h : Held String L K) (hn : ∀ l, h.names = some l → l.length = h.n ∧ l.Nodup) (k : Fin h.m)
    (hlong : ∀ i, 0 ≤ h.f.weights i k) (prices : List (String × K)) (total : K) (lots : Option (List (String × ℤ)))
    (hv : Valid (labelledColumn h k) prices total lots) (maxIter : Option ℤ)
    (sortBy : (inp : Discrete.Input K) → Equiv.Perm (Fin inp.n)) (solve : (inp : Discrete.Input K) → Option (Discrete.MipPoint K inp.n)) :
    ∃ r, asDiscrete h ((k : ℕ) : ℤ) prices total "greedy" lots maxIter .none sortBy solve = .ok r ∧ 0 ≤ r.leftover ∧
      spent prices r.shares ≤ total + 1 / 10 ^ 12 ∧
      ∀ p ∈ kept (labelledColumn h k), |held r.shares p.1 * priceOf prices p.1 -
        p.2 / totalWeight (labelledColumn h k) * total| < lotCost prices lots p.1 := by
  have hl : LongOnly (labelledColumn h k) := by
    intro p hp
    have hp' := (List.mem_filter.mp hp).1
    obtain ⟨i, rfl⟩ := (List.mem_ofFn' _ _).mp hp'
    exact hlong i
  rw [(C141_column h (fun l hl => (hn l hl).1) _ prices total "greedy" lots maxIter .none sortBy solve).2 k rfl]
  obtain ⟨r, h1, h2, h3⟩ := C02_greedy_within_budget (Or.inl PyV.Discrete.lower_greedy) hv hl maxIter sortBy solve
  exact ⟨r, h1, h2, h3, (C05_within_one_lot (Or.inl PyV.Discrete.lower_greedy) hv hl (labelled_nodup h hn k) h1).1⟩

/-- An unlabelled frontier portfolio with prices under the generated labels meets the hypotheses. -/
example : PyV.Spec.Discrete.Valid (labelledColumn (⟨2, 3, none, exFam 1⟩ : Held String String ℚ) 1)
    [("Asset_1", 10), ("Asset_0", 20)] 1000 none := by
  have e : labelledColumn (⟨2, 3, none, exFam 1⟩ : Held String String ℚ) 1 = [("Asset_0", 1/4), ("Asset_1", 3/4)] := by
    decide +kernel
  rw [e]
  constructor
  · intro p hp
    simp only [List.mem_cons, List.not_mem_nil, or_false] at hp
    rcases hp with rfl | rfl
    · exact ⟨20, by decide +kernel⟩
    · exact ⟨10, by decide +kernel⟩
  · exact ⟨("Asset_0", 1/4), by simp, by norm_num⟩
  · decide +kernel
  · norm_num
  · decide +kernel
  · decide +kernel

end PyV.Props
