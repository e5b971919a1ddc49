import Verif.Props.ViewsInvariance

/-! # C229: assets that no view names have no influence on the posterior of the others -/

namespace PyV.Props

open PyV PyV.FV PyV.Spec

variable {S N M : ℕ}

/-! ## Specification -/

/-- The scenario set with only the columns `ι 0, …, ι (M - 1)`. -/
def onlyColumns (src : Source) (ι : Fin M → Fin src.N) : Source :=
  ⟨src.S, M, fun s i => src.R s (ι i), fun i => src.assets (ι i), src.pandas, src.prior⟩

/-- Views of one kind written by label, each label being one of `ok`. -/
def VecOn {κ : Type} (ok : κ → Prop) (v : VecViews κ) : Prop := v = .none ∨ ∃ d, v = .dict d ∧ ∀ kv ∈ d, ok kv.1

/-- All views are written by label (no vectors), and every label in them is one of `ok`. -/
structure ViewsOn (ok : Label → Prop) (a : ViewArgs) : Prop where
  mean : VecOn (fun k : MKey => match k with | .single x => ok x | .pair x y => ok x ∧ ok y) a.mean
  vol : VecOn ok a.vol
  var : VecOn ok a.var
  skew : VecOn ok a.skew
  corr : ∀ kv ∈ a.corr, ok kv.1.1 ∧ ok kv.1.2
  quantile : ∀ kv ∈ a.quantile, ok kv.1
  cvar : a.cvar = .none ∨ ∃ d, a.cvar = .dict d ∧ ∀ kv ∈ d, ok kv.1
  rank : ∀ l, a.rankMean = some l → ∀ x ∈ l, ok x

/-! ## Proof -/

private theorem names_kept {assets : Fin N → Label} {ι : Fin M → Fin N} {key : Label} {i : Fin M} (h : Names assets key (ι i)) :
    Names (fun i => assets (ι i)) key i := by
  rcases h with h | ⟨h1, h2⟩
  · exact .inl h
  · exact .inr ⟨fun j => h1 (ι j), h2⟩

private theorem mapE_same {α β : Type} {f g : α → Except PyErr β} : ∀ {l : List α}, (∀ a ∈ l, f a = g a) → mapE f l = mapE g l
  | [], _ => rfl
  | a :: l, h => by
    simp only [mapE]
    rw [h a (by simp), mapE_same fun b hb => h b (List.mem_cons_of_mem _ hb)]

private theorem build_same {α : Type} {f g : α → Except PyErr (Rows S)} {l : List α} (h : ∀ a ∈ l, f a = g a) :
    (mapE f l >>= fun x => (.ok (Rows.concat x) : Except PyErr (Rows S))) = mapE g l >>= fun x => .ok (Rows.concat x) := by
  rw [mapE_same h]

/-- What the rows of a view need to know about a label. -/
private def Kept (assets : Fin N → Label) (ι : Fin M → Fin N) (k : Label) : Prop :=
  ∃ i, assetIdx assets k = .ok (ι i) ∧ assetIdx (fun i => assets (ι i)) k = .ok i

section
variable {assets : Fin N → Label} {ι : Fin M → Fin N} (R : Fin S → Fin N → ℝ)

private theorem mean_kept {l : List (MKey × ViewVal)}
    (h : ∀ kv ∈ l, match kv.1 with | .single x => Kept assets ι x | .pair x y => Kept assets ι x ∧ Kept assets ι y) :
    buildMean (fun i => assets (ι i)) (fun s i => R s (ι i)) l = buildMean assets R l := by
  unfold buildMean
  refine build_same fun kv hkv => ?_
  obtain ⟨k, v⟩ := kv
  have hk := h _ hkv
  cases k with
  | single x =>
    obtain ⟨i, h1, h2⟩ := hk
    simp only [meanRow, h1, h2, bind, Except.bind]
  | pair x y =>
    obtain ⟨⟨i, h1, h2⟩, j, h3, h4⟩ := hk
    simp only [meanRow, h1, h2, h3, h4, bind, Except.bind]

private theorem vol_kept {l : List (Label × ViewVal)} (h : ∀ kv ∈ l, Kept assets ι kv.1) (mu : Fin N → ℝ) :
    buildVol (fun i => assets (ι i)) (fun s i => R s (ι i)) (fun i => mu (ι i)) l = buildVol assets R mu l := by
  unfold buildVol
  refine build_same fun kv hkv => ?_
  obtain ⟨i, h1, h2⟩ := h _ hkv
  simp only [h1, h2, bind, Except.bind]

private theorem var_kept {l : List (Label × ViewVal)} (h : ∀ kv ∈ l, Kept assets ι kv.1) (mu : Fin N → ℝ) :
    buildVar (fun i => assets (ι i)) (fun s i => R s (ι i)) (fun i => mu (ι i)) l = buildVar assets R mu l := by
  unfold buildVar
  refine build_same fun kv hkv => ?_
  obtain ⟨i, h1, h2⟩ := h _ hkv
  simp only [h1, h2, bind, Except.bind]

private theorem skew_kept {l : List (Label × ViewVal)} (h : ∀ kv ∈ l, Kept assets ι kv.1) (mu var : Fin N → ℝ) :
    buildSkew (fun i => assets (ι i)) (fun s i => R s (ι i)) (fun i => mu (ι i)) (fun i => var (ι i)) l = buildSkew assets R mu var l := by
  unfold buildSkew
  refine build_same fun kv hkv => ?_
  obtain ⟨i, h1, h2⟩ := h _ hkv
  simp only [h1, h2, bind, Except.bind]

private theorem corr_kept {l : List ((Label × Label) × ViewVal)} (h : ∀ kv ∈ l, Kept assets ι kv.1.1 ∧ Kept assets ι kv.1.2)
    (mu var : Fin N → ℝ) :
    buildCorr (fun i => assets (ι i)) (fun s i => R s (ι i)) (fun i => mu (ι i)) (fun i => var (ι i)) l = buildCorr assets R mu var l := by
  unfold buildCorr
  refine build_same fun kv hkv => ?_
  obtain ⟨⟨i, h1, h2⟩, j, h3, h4⟩ := h _ hkv
  simp only [h1, h2, h3, h4, bind, Except.bind]

private theorem quantile_kept {l : List (Label × (ℝ × ViewVal))} (h : ∀ kv ∈ l, Kept assets ι kv.1) :
    buildQuantile (fun i => assets (ι i)) (fun s i => R s (ι i)) l = buildQuantile assets R l := by
  unfold buildQuantile
  refine build_same fun kv hkv => ?_
  obtain ⟨i, h1, h2⟩ := h _ hkv
  simp only [h1, h2, bind, Except.bind]

private theorem cvar_kept (ep : Ep S) (argsort : (Fin S → ℝ) → Equiv.Perm (Fin S)) (round : ℝ → ℤ) : ∀ {l : List (Label × (ℝ × ℝ))}
    (_ : ∀ kv ∈ l, Kept assets ι kv.1) (q : Fin S → ℝ),
    cvarPass ep argsort round (fun i => assets (ι i)) (fun s i => R s (ι i)) l q = cvarPass ep argsort round assets R l q
  | [], _, q => rfl
  | kv :: l, h, q => by
    obtain ⟨i, h1, h2⟩ := h kv (by simp)
    simp only [cvarPass, h1, h2, bind, Except.bind]
    cases solveCvarView ep argsort round (fun s => R s (ι i)) kv.2.2 kv.2.1 q with
    | error e => rfl
    | ok q' => exact cvar_kept ep argsort round (fun b hb => h b (List.mem_cons_of_mem _ hb)) q'

private theorem sequential_kept (ep : Ep S) : ∀ {bs : List (Bool × ((Fin N → ℝ) → (Fin N → ℝ) → Except PyErr (Rows S)))}
    {bs' : List (Bool × ((Fin M → ℝ) → (Fin M → ℝ) → Except PyErr (Rows S)))}
    (_ : List.Forall₂ (fun b b' => b'.1 = b.1 ∧ ∀ mu var, b'.2 (fun i => mu (ι i)) (fun i => var (ι i)) = b.2 mu var) bs bs')
    (p : Fin S → ℝ) (mu var : Fin N → ℝ),
    sequentialPass ep p (fun s i => R s (ι i)) bs' (fun i => mu (ι i)) (fun i => var (ι i)) = sequentialPass ep p R bs mu var
  | _, _, .nil, p, mu, var => rfl
  | (b, f) :: bs, (b', f') :: bs', .cons ⟨h1, h2⟩ hr, p, mu, var => by
    dsimp only at h1 h2
    subst h1
    simp only [sequentialPass]
    rw [h2]
    cases b' with
    | false => exact sequential_kept ep hr p mu var
    | true =>
      simp only [if_true, bind, Except.bind]
      cases f mu var with
      | error e => rfl
      | ok r =>
        dsimp only
        cases doEp ep p r with
        | error e => rfl
        | ok q => exact sequential_kept ep hr q (meanOf R q) (varOf R (meanOf R q) q)

/-- Every label in the views is kept. -/
private structure AllKept (assets : Fin N → Label) (ι : Fin M → Fin N) (v : Views) : Prop where
  mean : ∀ kv ∈ v.mean, match kv.1 with | .single x => Kept assets ι x | .pair x y => Kept assets ι x ∧ Kept assets ι y
  vol : ∀ kv ∈ v.vol, Kept assets ι kv.1
  var : ∀ kv ∈ v.var, Kept assets ι kv.1
  skew : ∀ kv ∈ v.skew, Kept assets ι kv.1
  corr : ∀ kv ∈ v.corr, Kept assets ι kv.1.1 ∧ Kept assets ι kv.1.2
  quantile : ∀ kv ∈ v.quantile, Kept assets ι kv.1
  cvar : ∀ kv ∈ v.cvar, Kept assets ι kv.1

private theorem moment_kept (ep : Ep S) {v : Views} (h : AllKept assets ι v) (p : Fin S → ℝ) (sequential : Bool) (mu var : Fin N → ℝ) :
    momentPass ep p (fun i => assets (ι i)) (fun s i => R s (ι i)) v sequential (fun i => mu (ι i)) (fun i => var (ι i)) =
      momentPass ep p assets R v sequential mu var := by
  unfold momentPass
  cases sequential with
  | true =>
    simp only [if_true]
    refine sequential_kept R ep ?_ p mu var
    refine .cons ⟨rfl, fun _ _ => mean_kept R h.mean⟩ (.cons ⟨rfl, fun mu _ => vol_kept R h.vol mu⟩ (.cons ⟨rfl, fun mu _ => var_kept R h.var mu⟩
      (.cons ⟨rfl, fun mu var => skew_kept R h.skew mu var⟩ (.cons ⟨rfl, fun mu var => corr_kept R h.corr mu var⟩ .nil))))
  | false =>
    simp only [Bool.false_eq_true, if_false]
    have hl : linPoint ep p (fun i => assets (ι i)) (fun s i => R s (ι i)) v (fun i => mu (ι i)) (fun i => var (ι i)) =
        (linPoint ep p assets R v mu var).map fun x => (fun i => x.1 (ι i), fun i => x.2 (ι i)) := by
      unfold linPoint
      rw [mean_kept R h.mean]
      split
      · simp only [bind, Except.bind]
        cases buildMean assets R v.mean with
        | error e => rfl
        | ok r =>
          dsimp only
          cases doEp ep p r <;> rfl
      · rfl
    unfold simultaneousPass
    rw [hl]
    cases linPoint ep p assets R v mu var with
    | error e => rfl
    | ok x =>
      obtain ⟨m', v'⟩ := x
      simp only [Except.map, bind, Except.bind]
      rw [mean_kept R h.mean, vol_kept R h.vol, var_kept R h.var, skew_kept R h.skew, corr_kept R h.corr]

private theorem posterior_kept (ep : Ep S) (argsort : (Fin S → ℝ) → Equiv.Perm (Fin S)) (round : ℝ → ℤ) {v : Views} (h : AllKept assets ι v)
    (p : Fin S → ℝ) (sequential : Bool) :
    computePosterior ep argsort round p (fun i => assets (ι i)) (fun s i => R s (ι i)) v sequential =
      computePosterior ep argsort round p assets R v sequential := by
  unfold computePosterior
  dsimp only
  split
  · rfl
  have h1 := moment_kept R ep h p sequential (meanOf R p) (npVarW R p)
  change momentPass ep p (fun i => assets (ι i)) (fun s i => R s (ι i)) v sequential (meanOf (fun s i => R s (ι i)) p) (npVarW (fun s i => R s (ι i)) p) = _ at h1
  rw [h1]
  simp only [bind, Except.bind]
  cases momentPass ep p assets R v sequential (meanOf R p) (npVarW R p) with
  | error e => rfl
  | ok q1 =>
    dsimp only
    unfold quantilePass
    rw [quantile_kept R h.quantile]
    simp only [bind, Except.bind]
    generalize (if v.quantile.isEmpty = true then (Except.ok q1 : Except PyErr (Fin S → ℝ)) else _) = x
    cases x with
    | error e => rfl
    | ok q2 => exact cvar_kept R ep argsort round h.cvar q2

end

private theorem expand_kept {ok : Label → Prop} : ∀ {l : List Label} (_ : ∀ x ∈ l, ok x) {d : List (MKey × ViewVal)}
    (_ : ∀ kv ∈ d, match kv.1 with | .single x => ok x | .pair x y => ok x ∧ ok y),
    ∀ kv ∈ expandRank d l, match kv.1 with | .single x => ok x | .pair x y => ok x ∧ ok y
  | [], _, d, hd => by simpa [expandRank] using hd
  | [_], _, d, hd => by simpa [expandRank] using hd
  | a :: b :: l, hl, d, hd => by
    unfold expandRank
    refine expand_kept (fun x hx => hl x (List.mem_cons_of_mem _ hx)) ?_
    split
    · exact hd
    · intro kv hkv
      rcases List.mem_append.1 hkv with h | h
      · exact hd kv h
      · simp only [List.mem_singleton] at h
        subst h
        exact ⟨hl a (by simp), hl b (by simp)⟩

private theorem vec_kept {κ : Type} {ok : κ → Prop} {v : VecViews κ} (h : VecOn ok v) (assets : Fin N → Label) (assets' : Fin M → Label) (key : Label → κ) :
    ∃ d, vecToDict assets key v = .ok d ∧ vecToDict assets' key v = .ok d ∧ ∀ kv ∈ d, ok kv.1 := by
  rcases h with rfl | ⟨d, rfl, hd⟩
  · exact ⟨[], rfl, rfl, by simp⟩
  · exact ⟨d, rfl, rfl, hd⟩

/-- The views as the two processors store them. -/
private theorem views_kept {ok : Label → Prop} {a : ViewArgs} (h : ViewsOn ok a) (assets : Fin N → Label) (assets' : Fin M → Label) :
    (∃ e, viewsOf assets a = .error e ∧ viewsOf assets' a = .error e) ∨ ∃ v, viewsOf assets a = .ok v ∧ viewsOf assets' a = .ok v ∧
      (∀ kv ∈ v.mean, match kv.1 with | .single x => ok x | .pair x y => ok x ∧ ok y) ∧ (∀ kv ∈ v.vol, ok kv.1) ∧ (∀ kv ∈ v.var, ok kv.1) ∧
      (∀ kv ∈ v.skew, ok kv.1) ∧ v.corr = a.corr ∧ v.quantile = a.quantile ∧ ∀ kv ∈ v.cvar, ok kv.1 := by
  obtain ⟨m, m1, m2, m3⟩ := vec_kept h.mean assets assets' MKey.single
  obtain ⟨vo, vo1, vo2, vo3⟩ := vec_kept h.vol assets assets' id
  obtain ⟨va, va1, va2, va3⟩ := vec_kept h.var assets assets' id
  obtain ⟨sk, sk1, sk2, sk3⟩ := vec_kept h.skew assets assets' id
  obtain ⟨cv, cv1, cv2, cv3⟩ : ∃ d, cvarToDict assets a.cvar = .ok d ∧ cvarToDict assets' a.cvar = .ok d ∧ ∀ kv ∈ d, ok kv.1 := by
    rcases h.cvar with hc | ⟨d, hc, hd⟩
    · exact ⟨[], by rw [hc]; rfl, by rw [hc]; rfl, by simp⟩
    · exact ⟨d, by rw [hc]; rfl, by rw [hc]; rfl, hd⟩
  unfold viewsOf
  rw [m1, m2, vo1, vo2, va1, va2, sk1, sk2, cv1, cv2]
  simp only [bind, Except.bind]
  cases hr : rankedDict m a.rankMean with
  | error e => exact .inl ⟨e, rfl, rfl⟩
  | ok m' =>
    refine .inr ⟨_, rfl, rfl, ?_, vo3, va3, sk3, rfl, rfl, cv3⟩
    unfold rankedDict at hr
    cases hl : a.rankMean with
    | none => rw [hl] at hr; injection hr with hr; subst hr; exact m3
    | some l =>
      rw [hl] at hr
      dsimp only at hr
      split at hr
      · cases hr
      · injection hr with hr
        subst hr
        exact expand_kept (h.rank l hl) m3

/-- **C229.** When all views are written by label and each label names one of the kept columns `ι` (at least two of them), leaving out the
other columns of the scenario set gives a processor with the same posterior probabilities, and the posterior mean and covariance of the kept
assets are those they had among all assets; if one of the two constructors raises, so does the other, with the same error.  No assumption on
entropy pooling: the programmes handed to it are the same. -/
theorem C229_other_assets (ep : (S : ℕ) → Ep S) (argsort : (S : ℕ) → (Fin S → ℝ) → Equiv.Perm (Fin S)) (round : ℝ → ℤ) (src : Source)
    (hlab : Function.Injective src.assets) (ι : Fin M → Fin src.N) (hι : Function.Injective ι) (hM : 2 ≤ M) (a : ViewArgs)
    (ha : ViewsOn (fun k => ∃ i, Names src.assets k (ι i)) a) :
    (∃ e, process ep argsort round src a = .error e ∧ process ep argsort round (onlyColumns src ι) a = .error e) ∨
    ∃ (q : Fin src.S → ℝ) (m : Fin src.N → ℝ) (C : Matrix (Fin src.N) (Fin src.N) ℝ),
      process ep argsort round src a = .ok ⟨src.S, src.N, src.R, src.assets, src.pandas, q, m, C⟩ ∧
      process ep argsort round (onlyColumns src ι) a =
        .ok ⟨src.S, M, fun s i => src.R s (ι i), fun i => src.assets (ι i), src.pandas, q, fun i => m (ι i), C.submatrix ι ι⟩ := by
  obtain ⟨S, N, R, assets, pandas, prior⟩ := src
  dsimp only at hlab ι ha ⊢
  have hN : ¬ N = 1 := by
    have := Fintype.card_le_of_injective ι hι
    simp only [Fintype.card_fin] at this
    omega
  have hM1 : ¬ M = 1 := by omega
  have hk : ∀ k, (∃ i, Names assets k (ι i)) → Kept assets ι k := fun k ⟨i, hi⟩ =>
    ⟨i, assetIdx_of_names hlab hi, assetIdx_of_names (fun x y h => hι (hlab h)) (names_kept hi)⟩
  unfold process onlyColumns
  simp only [bind, Except.bind]
  cases priorOf prior with
  | error e => exact .inl ⟨e, rfl, rfl⟩
  | ok p =>
    dsimp only
    rw [if_neg hN, if_neg hM1]
    rcases views_kept ha assets (fun i => assets (ι i)) with ⟨e, h1, h2⟩ | ⟨v, h1, h2, v1, v2, v3, v4, v5, v6, v7⟩
    · rw [h1, h2]; exact .inl ⟨e, rfl, rfl⟩
    rw [h1, h2]
    dsimp only
    have hall : AllKept assets ι v := by
      refine ⟨fun kv hkv => ?_, fun kv hkv => hk _ (v2 kv hkv), fun kv hkv => hk _ (v3 kv hkv), fun kv hkv => hk _ (v4 kv hkv), fun kv hkv => ?_,
        fun kv hkv => ?_, fun kv hkv => hk _ (v7 kv hkv)⟩
      · have := v1 kv hkv
        obtain ⟨k, w⟩ := kv
        cases k with
        | single x => exact hk _ this
        | pair x y => exact ⟨hk _ this.1, hk _ this.2⟩
      · rw [v5] at hkv; exact ⟨hk _ (ha.corr kv hkv).1, hk _ (ha.corr kv hkv).2⟩
      · rw [v6] at hkv; exact hk _ (ha.quantile kv hkv)
    rw [posterior_kept R (ep S) (argsort S) round hall p a.sequential]
    cases computePosterior (ep S) (argsort S) round p assets R v a.sequential with
    | error e => exact .inl ⟨e, rfl, rfl⟩
    | ok q => exact .inr ⟨q, _, _, rfl, rfl⟩

/-- Three assets, the third without views. -/
noncomputable def exThreeColumns : Source :=
  ⟨3, 3, fun s => ![cexR s 0, cexR s 1, (s : ℕ) ^ 2], ![.str "a", .str "b", .str "c"], true, none⟩

/-- C229: the views of `metArgs` (mean of `a`, mean of `a` against `b`, volatility of `a`) name two of three columns, and both processors
are constructed. -/
example (argsort : (S : ℕ) → (Fin S → ℝ) → Equiv.Perm (Fin S)) (round : ℝ → ℤ) :
    Function.Injective exThreeColumns.assets ∧
    ViewsOn (fun k => ∃ i : Fin 2, Names exThreeColumns.assets k (Fin.castSucc i)) metArgs ∧
    ∃ (q : Fin 3 → ℝ) (m : Fin 3 → ℝ) (C : Matrix (Fin 3) (Fin 3) ℝ),
      process (fun _ => optimalEp) argsort round exThreeColumns metArgs =
        .ok ⟨3, 3, exThreeColumns.R, exThreeColumns.assets, true, q, m, C⟩ := by
  have hinj : Function.Injective exThreeColumns.assets := by
    have key : Function.Injective (![Label.str "a", .str "b", .str "c"] : Fin 3 → Label) := by decide
    exact key
  have ka : ∃ i : Fin 2, Names exThreeColumns.assets (.str "a") (Fin.castSucc i) := ⟨0, .inl rfl⟩
  have kb : ∃ i : Fin 2, Names exThreeColumns.assets (.str "b") (Fin.castSucc i) := ⟨1, .inl rfl⟩
  have hon : ViewsOn (fun k => ∃ i : Fin 2, Names exThreeColumns.assets k (Fin.castSucc i)) metArgs := by
    refine ⟨.inr ⟨_, rfl, ?_⟩, .inr ⟨_, rfl, ?_⟩, .inl rfl, .inl rfl, by simp [metArgs], by simp [metArgs], .inl rfl, by simp [metArgs]⟩
    · intro kv hkv
      simp only [List.mem_cons, List.not_mem_nil, or_false] at hkv
      rcases hkv with rfl | rfl
      · exact ka
      · exact ⟨ka, kb⟩
    · intro kv hkv
      simp only [List.mem_cons, List.not_mem_nil, or_false] at hkv
      subst hkv
      exact ka
  refine ⟨hinj, hon, ?_⟩
  rcases C229_other_assets (fun _ => optimalEp) argsort round exThreeColumns hinj (fun i : Fin 2 => Fin.castSucc i) (Fin.castSucc_injective 2) le_rfl metArgs hon with
    ⟨e, -, h2⟩ | ⟨q, m, C, h1, -⟩
  · have hsame : onlyColumns exThreeColumns (fun i : Fin 2 => Fin.castSucc i) = ⟨3, 2, cexR, cexAssets, true, none⟩ := by
      have e1 : (fun (s : Fin 3) (i : Fin 2) => exThreeColumns.R s (Fin.castSucc i)) = cexR := by
        funext s i; fin_cases i <;> rfl
      have e2 : (fun i : Fin 2 => exThreeColumns.assets (Fin.castSucc i)) = cexAssets := by
        funext i; fin_cases i <;> rfl
      change (⟨3, 2, fun (s : Fin 3) (i : Fin 2) => exThreeColumns.R s (Fin.castSucc i), fun i : Fin 2 => exThreeColumns.assets (Fin.castSucc i), true, none⟩ : Source) = _
      rw [e1, e2]
    rw [hsame, met_process argsort round] at h2
    cases h2
  · exact ⟨q, m, C, h1⟩

end PyV.Props
