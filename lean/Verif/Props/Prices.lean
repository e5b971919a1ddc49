import Verif.Props.Factories
import Verif.Props.DataHelpers
import Mathlib.Tactic

/-! # Properties C234 and C235: currencies and later prices -/

namespace PyV.Props

open PyV PyV.Api PyV.Data

/-- A price in another currency: `k` units of the new one for one of the old; missing and infinite values stay what they are. -/
noncomputable def quoted (k : ℝ) : PyFloat ℝ → PyFloat ℝ
  | .fin x => .fin (k * x)
  | x => x

/-- The price argument with every column quoted in its own currency. -/
noncomputable def pricesQuoted (k : ℕ → ℝ) (a : PriceArg) : PriceArg :=
  ⟨a.isFrame, ⟨a.g.rows, a.g.cols, fun t i => quoted (k i) (a.g.e t i)⟩, a.columns⟩

/-- The DataFrame with every column quoted in its own currency. -/
noncomputable def frameQuoted {T : ℕ} (k : String → ℝ) (f : PriceFrame T) : PriceFrame T :=
  { f with cols := f.cols.map fun c => (c.1, c.2.1, fun t => quoted (k c.1) (c.2.2 t)) }

private theorem ratio_quoted {k : ℝ} (hk : 0 < k) (x y : PyFloat ℝ) : ratioM1 (quoted k x) (quoted k y) = ratioM1 x y := by
  cases x <;> cases y <;> simp only [quoted, ratioM1]
  rw [mul_div_mul_left _ _ hk.ne']

private theorem ret_quoted {k : ℝ} (hk : 0 < k) (m : Method) (x y : PyFloat ℝ) : Data.ret m (quoted k x) (quoted k y) = Data.ret m x y := by
  have h : fdiv (quoted k y) (quoted k x) = fdiv y x := by
    cases x <;> cases y <;> simp only [quoted, fdiv]
    · rename_i x y
      rw [mul_div_mul_left _ _ hk.ne']
      simp only [ne_eq, mul_eq_zero, hk.ne', false_or, mul_pos_iff_of_pos_left hk]
    · rename_i x
      simp only [mul_nonneg_iff_of_pos_left hk]
    · rename_i x
      simp only [mul_nonneg_iff_of_pos_left hk]
  cases m <;> simp only [Data.ret, h]

/-- **C234** (`from_prices`) Quoting each asset's prices in another currency (or unit) changes nothing: the same distribution, or the same error. -/
theorem C234_from_prices (a : PriceArg) (k : ℕ → ℝ) (hk : ∀ i, 0 < k i) : fromPrices (pricesQuoted k a) = fromPrices a := by
  have hok : pricesOk (pricesQuoted k a).isFrame (pricesQuoted k a).g ↔ pricesOk a.isFrame a.g := by
    unfold pricesOk
    refine forall_congr' fun t => forall_congr' fun i => ?_
    show (if a.isFrame then Api.isNan (quoted (k i) (a.g.e t i)) = false else (quoted (k i) (a.g.e t i)).isFinite = true) ∧
      (quoted (k i) (a.g.e t i)).le (.fin 0) = false ↔ _
    have h1 : ∀ x, Api.isNan (quoted (k i) x) = Api.isNan x := fun x => by cases x <;> rfl
    have h2 : ∀ x, (quoted (k i) x).isFinite = x.isFinite := fun x => by cases x <;> rfl
    have h3 : ∀ x, (quoted (k i) x).le (.fin 0) = x.le (.fin 0) := fun x => by
      cases x
      · rename_i x
        simp only [quoted, PyFloat.le]
        refine decide_eq_decide.2 ⟨fun h => ?_, fun h => mul_nonpos_of_nonneg_of_nonpos (hk i).le h⟩
        by_contra hx
        exact absurd h (not_le.2 (mul_pos (hk i) (not_le.1 hx)))
      all_goals rfl
    rw [h1, h2, h3]
  have he : (priceReturns (pricesQuoted k a).g).e = (priceReturns a.g).e := by
    funext t i
    exact ratio_quoted (hk i) _ _
  have e : (if a.isFrame then GridArg.frame (priceReturns (pricesQuoted k a).g) (fun _ => "") a.columns else .array (priceReturns (pricesQuoted k a).g)) =
      (if a.isFrame then GridArg.frame (priceReturns a.g) (fun _ => "") a.columns else .array (priceReturns a.g)) :=
    congrArg (fun e => if a.isFrame then GridArg.frame ⟨a.g.rows - 1, a.g.cols, e⟩ (fun _ => "") a.columns else .array ⟨a.g.rows - 1, a.g.cols, e⟩) he
  unfold fromPrices
  by_cases h1 : a.g.rows < 2
  · rw [if_pos h1, if_pos (show (pricesQuoted k a).g.rows < 2 from h1)]
  · rw [if_neg h1, if_neg (show ¬ (pricesQuoted k a).g.rows < 2 from h1)]
    by_cases h2 : pricesOk a.isFrame a.g
    · rw [if_neg (not_not.2 h2), if_neg (not_not.2 (hok.2 h2))]
      exact congrArg (fun s => mkDist { scenarios := some s }) e
    · rw [if_pos h2, if_pos (fun h => h2 (hok.1 h))]

private theorem rows_quoted {N : ℕ} (m : Method) (k : Fin N → ℝ) (hk : ∀ i, 0 < k i) :
    ∀ rows : List (Fin N → PyFloat ℝ), returnRows m (rows.map fun r i => quoted (k i) (r i)) = returnRows m rows
  | [] => rfl
  | [_] => rfl
  | p :: q :: rest => by
    have h := rows_quoted m k hk (q :: rest)
    simp only [List.map_cons, returnRows] at h ⊢
    rw [h]
    congr 1
    funext i
    exact ret_quoted (hk i) m _ _

/-- The same column up to a positive factor. -/
private def SameUpTo {T : ℕ} (v v' : Bool × (Fin T → PyFloat ℝ)) : Prop := v'.1 = v.1 ∧ ∃ k, 0 < k ∧ v'.2 = fun t => quoted k (v.2 t)

private theorem sigma_rows {T N N' : ℕ} (m : Method) (g : Fill) (P : Fin T → Fin N → PyFloat ℝ) (P' : Fin T → Fin N' → PyFloat ℝ) (k : Fin N → ℝ)
    (hk : ∀ i, 0 < k i) (hN : N' = N) (h : ∀ t i, P' t i = quoted (k (i.cast hN)) (P t (i.cast hN))) :
    (⟨N', fillRows g (returnRows m (List.ofFn P'))⟩ : Σ N, List (Fin N → PyFloat ℝ)) = ⟨N, fillRows g (returnRows m (List.ofFn P))⟩ := by
  subst hN
  have : List.ofFn P' = (List.ofFn P).map fun r i => quoted (k i) (r i) := by
    rw [List.map_ofFn]
    congr 1
    funext t i
    exact h t i
  rw [this, rows_quoted m k hk]

private theorem sigma_same {T : ℕ} (m : Method) (g : Fill) {l l' : List (Bool × (Fin T → PyFloat ℝ))} (h : List.Forall₂ SameUpTo l l') :
    (⟨(l'.map Prod.snd).length, fillRows g (returnRows m (rowsOf (l'.map Prod.snd)))⟩ : Σ N, List (Fin N → PyFloat ℝ)) =
      ⟨(l.map Prod.snd).length, fillRows g (returnRows m (rowsOf (l.map Prod.snd)))⟩ := by
  have hlen : (l'.map Prod.snd).length = (l.map Prod.snd).length := by rw [List.length_map, List.length_map, h.length_eq]
  have hk : ∀ i : Fin (l.map Prod.snd).length, ∃ k, 0 < k ∧ (l'.map Prod.snd).get (i.cast hlen.symm) = fun t => quoted k ((l.map Prod.snd).get i t) := by
    intro i
    have hi : (i : ℕ) < l.length := lt_of_lt_of_eq i.2 (List.length_map ..)
    obtain ⟨-, k, hk, e⟩ := h.get hi (by rw [← h.length_eq]; exact hi)
    refine ⟨k, hk, ?_⟩
    simp only [List.get_eq_getElem, List.getElem_map, Fin.val_cast] at e ⊢
    exact e
  choose k hk he using hk
  refine sigma_rows m g _ _ k hk hlen fun t i => ?_
  exact congrFun (he (i.cast hlen)) t

/-- **C234** (`pandas_to_numpy_returns`) The same for the returns of a DataFrame of prices, simple or logarithmic, with every way of filling gaps. -/
theorem C234_returns {T : ℕ} (f : PriceFrame T) (k : String → ℝ) (hk : ∀ c, 0 < k c) (names : Option (List String)) (date : Option String) (method fill : String) :
    toReturns (frameQuoted k f) names date method fill = toReturns f names date method fill := by
  set q : String × Bool × (Fin T → PyFloat ℝ) → String × Bool × (Fin T → PyFloat ℝ) := fun c => (c.1, c.2.1, fun t => quoted (k c.1) (c.2.2 t)) with hq
  have hcols : (frameQuoted k f).cols = f.cols.map q := rfl
  have hdate : dropDate (frameQuoted k f) date = (dropDate f date).map (List.map q) := by
    unfold dropDate
    rw [hcols]
    cases date with
    | none => rfl
    | some d =>
      have hn : (f.cols.map q).map Prod.fst = f.cols.map Prod.fst := by rw [List.map_map]; rfl
      have hf : (f.cols.map q).filter (fun c => decide (c.1 ≠ d)) = (f.cols.filter (fun c => decide (c.1 ≠ d))).map q := by
        rw [List.filter_map]; rfl
      simp only [hn, hf]
      show (if d = "" ∨ f.indexName = some d then _ else if d ∈ f.cols.map Prod.fst then (if f.dates d then _ else _) else _) = _
      split_ifs <;> rfl
  have hpick : ∀ cols : List (String × Bool × (Fin T → PyFloat ℝ)), ∀ n,
      (∃ v v', pickCol cols n = .ok v ∧ pickCol (cols.map q) n = .ok v' ∧ SameUpTo v v') ∨
      ∃ e, pickCol cols n = .error e ∧ pickCol (cols.map q) n = .error e := by
    intro cols n
    unfold pickCol
    rw [List.find?_map]
    cases h : cols.find? (fun c => decide (c.1 = n)) with
    | none =>
      right
      have : cols.find? ((fun c => decide (c.1 = n)) ∘ q) = none := h
      rw [this]
      exact ⟨_, rfl, rfl⟩
    | some c =>
      left
      have : cols.find? ((fun c => decide (c.1 = n)) ∘ q) = some c := h
      rw [this]
      exact ⟨_, _, rfl, rfl, rfl, k c.1, hk _, rfl⟩
  have hsel : ∀ cols : List (String × Bool × (Fin T → PyFloat ℝ)),
      (∃ l l', priceCols cols names = .ok l ∧ priceCols (cols.map q) names = .ok l' ∧ List.Forall₂ SameUpTo l l') ∨
      ∃ e, priceCols cols names = .error e ∧ priceCols (cols.map q) names = .error e := by
    intro cols
    have hall : ∀ ns, (∃ l l', mapE (pickCol cols) ns = .ok l ∧ mapE (pickCol (cols.map q)) ns = .ok l' ∧ List.Forall₂ SameUpTo l l') ∨
        ∃ e, mapE (pickCol cols) ns = .error e ∧ mapE (pickCol (cols.map q)) ns = .error e := by
      intro ns
      induction ns with
      | nil => exact .inl ⟨[], [], rfl, rfl, .nil⟩
      | cons n ns ih =>
        rcases hpick cols n with ⟨v, v', e1, e2, hs⟩ | ⟨e, e1, e2⟩
        · rcases ih with ⟨l, l', f1, f2, hl⟩ | ⟨e, f1, f2⟩
          · exact .inl ⟨v :: l, v' :: l', by simp only [mapE, e1, f1], by simp only [mapE, e2, f2], .cons hs hl⟩
          · exact .inr ⟨e, by simp only [mapE, e1, f1], by simp only [mapE, e2, f2]⟩
        · exact .inr ⟨e, by simp only [mapE, e1], by simp only [mapE, e2]⟩
    have hnum : (cols.map q).filter (fun c => c.2.1) = (cols.filter (fun c => c.2.1)).map q := by rw [List.filter_map]; rfl
    have hdef : (∃ l l', (if T = 0 ∨ cols.filter (fun c => c.2.1) = [] then Except.error PyErr.valueError else .ok ((cols.filter (fun c => c.2.1)).map (fun c => c.2))) = Except.ok l ∧
        (if T = 0 ∨ (cols.map q).filter (fun c => c.2.1) = [] then Except.error PyErr.valueError else .ok (((cols.map q).filter (fun c => c.2.1)).map (fun c => c.2))) = Except.ok l' ∧
        List.Forall₂ SameUpTo l l') ∨ ∃ e,
        (if T = 0 ∨ cols.filter (fun c => c.2.1) = [] then Except.error PyErr.valueError else .ok ((cols.filter (fun c => c.2.1)).map (fun c => c.2))) = Except.error e ∧
        (if T = 0 ∨ (cols.map q).filter (fun c => c.2.1) = [] then Except.error PyErr.valueError else .ok (((cols.map q).filter (fun c => c.2.1)).map (fun c => c.2))) = Except.error e := by
      rw [hnum]
      have hnil : (cols.filter (fun c => c.2.1)).map q = [] ↔ cols.filter (fun c => c.2.1) = [] := List.map_eq_nil_iff
      by_cases h : T = 0 ∨ cols.filter (fun c => c.2.1) = []
      · right
        rw [if_pos h, if_pos (h.imp id hnil.2)]
        exact ⟨_, rfl, rfl⟩
      · left
        rw [if_neg h, if_neg (fun h' => h (h'.imp id hnil.1))]
        refine ⟨_, _, rfl, rfl, ?_⟩
        rw [List.map_map, List.forall₂_map_left_iff, List.forall₂_map_right_iff, List.forall₂_same]
        exact fun c _ => ⟨rfl, k c.1, hk _, rfl⟩
    unfold priceCols
    cases names with
    | none => exact hdef
    | some ns =>
      cases ns with
      | nil => exact hdef
      | cons n ns => exact hall (n :: ns)
  unfold toReturns
  rw [hdate]
  cases dropDate f date with
  | error e => rfl
  | ok cols =>
    show (match priceCols (cols.map q) names with | .error e => _ | .ok data => _) = _
    dsimp only
    rcases hsel cols with ⟨l, l', e1, e2, hl⟩ | ⟨e, e1, e2⟩
    · rw [e1, e2]
      dsimp only
      have hb : l'.all (fun c => c.1) = l.all (fun c => c.1) := by
        clear e1 e2
        induction hl with
        | nil => rfl
        | cons h _ ih => simp only [List.all_cons, ih, h.1]
      rw [hb]
      cases method? method with
      | none => rfl
      | some m =>
        cases fill? fill with
        | none => rfl
        | some g =>
          dsimp only
          rw [sigma_same m g hl]
    · rw [e1, e2]

/-- The first `T` rows of a DataFrame. -/
def upTo {T S : ℕ} (f : PriceFrame (T + S)) : PriceFrame T :=
  { f with cols := f.cols.map fun c => (c.1, c.2.1, fun t => c.2.2 (Fin.castAdd S t)) }

private theorem prefix_returns {N : ℕ} (m : Method) : ∀ a b : List (Fin N → PyFloat ℝ), returnRows m a <+: returnRows m (a ++ b)
  | [], _ => List.nil_prefix
  | [_], _ => List.nil_prefix
  | p :: q :: rest, b => by
    have h := prefix_returns m (q :: rest) b
    simp only [List.cons_append, returnRows] at h ⊢
    exact (List.prefix_cons_inj _).2 h

private theorem prefix_ffill {N : ℕ} : ∀ (a b : List (Fin N → PyFloat ℝ)) (last : Fin N → PyFloat ℝ), ffill last a <+: ffill last (a ++ b)
  | [], _, _ => List.nil_prefix
  | r :: a, b, last => by
    simp only [List.cons_append, ffill]
    exact (List.prefix_cons_inj _).2 (prefix_ffill a b _)

private theorem prefix_fill {N : ℕ} {g : Fill} (hg : g ≠ .bfill) {a b : List (Fin N → PyFloat ℝ)} (h : a <+: b) : fillRows g a <+: fillRows g b := by
  obtain ⟨c, rfl⟩ := h
  have hz : ∀ {x y : List (Fin N → PyFloat ℝ)}, x <+: y → fillZero x <+: fillZero y := fun h => h.map _
  cases g with
  | ffill => exact hz (prefix_ffill a c _)
  | bfill => exact absurd rfl hg
  | zero => exact hz (hz (List.prefix_append a c))
  | drop => exact hz ((List.prefix_append a c).filter _)

private theorem sigma_prefix {T S N N' : ℕ} (m : Method) {g : Fill} (hg : g ≠ .bfill) (P : Fin (T + S) → Fin N → PyFloat ℝ) (P' : Fin T → Fin N' → PyFloat ℝ)
    (hN : N' = N) (h : ∀ t i, P' t i = P (Fin.castAdd S t) (i.cast hN)) :
    ∃ rows, (⟨N', fillRows g (returnRows m (List.ofFn P'))⟩ : Σ N, List (Fin N → PyFloat ℝ)) = ⟨N, rows⟩ ∧
      rows <+: fillRows g (returnRows m (List.ofFn P)) := by
  subst hN
  refine ⟨_, rfl, prefix_fill hg ?_⟩
  have : List.ofFn P = List.ofFn P' ++ List.ofFn (fun t : Fin S => P (Fin.natAdd T t)) := by
    rw [← List.ofFn_fin_append]
    congr 1
    funext t
    refine Fin.addCases (fun t => ?_) (fun t => ?_) t
    · rw [Fin.append_left]
      funext i
      exact (h t i).symm
    · rw [Fin.append_right]
  rw [this]
  exact prefix_returns m _ _

/-- **C235** No look-ahead: unless gaps are filled backwards, the returns computed from the first rows of a price history are the first returns computed from the
whole history — prices that arrive later never change them. -/
theorem C235_no_look_ahead {T S : ℕ} (hT : 0 < T) (f : PriceFrame (T + S)) (names : Option (List String)) (date : Option String) (method fill : String)
    (hfill : fill ≠ "bfill") {N : ℕ} {rows : List (Fin N → PyFloat ℝ)} (h : toReturns f names date method fill = .ok ⟨N, rows⟩) :
    ∃ earlier, toReturns (upTo f) names date method fill = .ok ⟨N, earlier⟩ ∧ earlier <+: rows := by
  set q : String × Bool × (Fin (T + S) → PyFloat ℝ) → String × Bool × (Fin T → PyFloat ℝ) := fun c => (c.1, c.2.1, fun t => c.2.2 (Fin.castAdd S t)) with hq
  set q2 : Bool × (Fin (T + S) → PyFloat ℝ) → Bool × (Fin T → PyFloat ℝ) := fun c => (c.1, fun t => c.2 (Fin.castAdd S t)) with hq2
  have hcols : (upTo f).cols = f.cols.map q := rfl
  have hdate : dropDate (upTo f) date = (dropDate f date).map (List.map q) := by
    unfold dropDate
    rw [hcols]
    cases date with
    | none => rfl
    | some d =>
      have hn : (f.cols.map q).map Prod.fst = f.cols.map Prod.fst := by rw [List.map_map]; rfl
      have hf : (f.cols.map q).filter (fun c => decide (c.1 ≠ d)) = (f.cols.filter (fun c => decide (c.1 ≠ d))).map q := by
        rw [List.filter_map]; rfl
      simp only [hn, hf]
      show (if d = "" ∨ f.indexName = some d then _ else if d ∈ f.cols.map Prod.fst then (if f.dates d then _ else _) else _) = _
      split_ifs <;> rfl
  have hpick : ∀ (cols : List (String × Bool × (Fin (T + S) → PyFloat ℝ))) n, pickCol (cols.map q) n = (pickCol cols n).map q2 := by
    intro cols n
    unfold pickCol
    rw [List.find?_map]
    have : cols.find? ((fun c => decide (c.1 = n)) ∘ q) = cols.find? (fun c => decide (c.1 = n)) := rfl
    rw [this]
    cases cols.find? (fun c => decide (c.1 = n)) <;> rfl
  have hsel : ∀ (cols : List (String × Bool × (Fin (T + S) → PyFloat ℝ))) l, priceCols cols names = .ok l → priceCols (cols.map q) names = .ok (l.map q2) := by
    intro cols l
    have hall : ∀ ns l, mapE (pickCol cols) ns = .ok l → mapE (pickCol (cols.map q)) ns = .ok (l.map q2) := by
      intro ns
      induction ns with
      | nil => intro l hl; cases hl; rfl
      | cons n ns ih =>
        intro l hl
        simp only [mapE] at hl ⊢
        rw [hpick]
        cases h1 : pickCol cols n with
        | error e => rw [h1] at hl; cases hl
        | ok v =>
          rw [h1] at hl
          cases h2 : mapE (pickCol cols) ns with
          | error e => rw [h2] at hl; cases hl
          | ok vs =>
            rw [h2] at hl
            cases hl
            have := ih vs h2
            simp only [Except.map, this, List.map_cons]
    have hdef : (if T + S = 0 ∨ cols.filter (fun c => c.2.1) = [] then Except.error PyErr.valueError else .ok ((cols.filter (fun c => c.2.1)).map (fun c => c.2))) = Except.ok l →
        (if T = 0 ∨ (cols.map q).filter (fun c => c.2.1) = [] then Except.error PyErr.valueError else .ok (((cols.map q).filter (fun c => c.2.1)).map (fun c => c.2))) =
          Except.ok (l.map q2) := by
      intro hl
      have hnum : (cols.map q).filter (fun c => c.2.1) = (cols.filter (fun c => c.2.1)).map q := by rw [List.filter_map]; rfl
      by_cases h' : T + S = 0 ∨ cols.filter (fun c => c.2.1) = []
      · rw [if_pos h'] at hl; cases hl
      · rw [if_neg h'] at hl
        cases hl
        rw [hnum, if_neg]
        · rw [List.map_map, List.map_map]; rfl
        · rintro (h'' | h'')
          · omega
          · exact h' (.inr (List.map_eq_nil_iff.1 h''))
    unfold priceCols
    cases names with
    | none => exact hdef
    | some ns =>
      cases ns with
      | nil => exact hdef
      | cons n ns => exact hall (n :: ns) l
  unfold toReturns at h ⊢
  rw [hdate]
  cases hd : dropDate f date with
  | error e => rw [hd] at h; cases h
  | ok cols =>
    rw [hd] at h
    dsimp only at h
    simp only [Except.map]
    cases hp : priceCols cols names with
    | error e => rw [hp] at h; cases h
    | ok data =>
      rw [hp] at h
      rw [hsel cols data hp]
      dsimp only at h ⊢
      cases hm : method? method with
      | none => rw [hm] at h; cases h
      | some m =>
        rw [hm] at h
        dsimp only at h ⊢
        have hb : (data.map q2).all (fun c => c.1) = data.all (fun c => c.1) := by rw [List.all_map]; rfl
        rw [hb]
        by_cases hall : data.all (fun c => c.1) = true
        · rw [if_pos hall] at h ⊢
          cases hf : fill? fill with
          | none => rw [hf] at h; cases h
          | some g =>
            rw [hf] at h
            dsimp only at h ⊢
            have hg : g ≠ .bfill := by
              rintro rfl
              unfold fill? at hf
              split_ifs at hf <;> first | exact hfill (by assumption) | cases hf
            have hlen : ((data.map q2).map Prod.snd).length = (data.map Prod.snd).length := by simp
            obtain ⟨r, e, hpre⟩ := sigma_prefix m hg (fun t i => (data.map Prod.snd).get i t) (fun t i => ((data.map q2).map Prod.snd).get i t) hlen (by
              intro t i
              simp only [List.get_eq_getElem, List.getElem_map, Fin.val_cast, hq2])
            injection h with h
            injection h with h1 h2
            subst h1
            have h2 := eq_of_heq h2
            refine ⟨r, congrArg Except.ok e, ?_⟩
            rw [← h2]
            exact hpre
        · rw [if_neg hall] at h; cases h

/-- A history with a gap, two assets in two currencies; its first two rows. -/
noncomputable def exQuotes : PriceFrame (2 + 1) :=
  ⟨[("A", true, ![.fin 100, .fin 110, .nan]), ("B", true, ![.fin 5, .fin 4, .fin 6])], none, fun _ => false⟩

example : (∃ N rows, toReturns (frameQuoted (fun c => if c = "A" then 2 else 3) exQuotes) none none "simple" "ffill" = .ok ⟨N, rows⟩) ∧
    ∃ N rows earlier, toReturns exQuotes none none "simple" "ffill" = .ok ⟨N, rows⟩ ∧
      toReturns (upTo exQuotes) none none "simple" "ffill" = .ok ⟨N, earlier⟩ ∧ earlier <+: rows := by
  have h : ∃ N rows, toReturns exQuotes none none "simple" "ffill" = .ok ⟨N, rows⟩ := ⟨_, _, rfl⟩
  refine ⟨?_, ?_⟩
  · rw [C234_returns _ _ (fun c => by split <;> norm_num)]
    exact h
  · obtain ⟨N, rows, h⟩ := h
    obtain ⟨r, e, hp⟩ := C235_no_look_ahead (by norm_num) exQuotes none none "simple" "ffill" (by decide) h
    exact ⟨N, rows, r, h, e, hp⟩

example : ∃ d, fromPrices (pricesQuoted (fun _ => 7) ⟨false, ⟨3, 2, fun t i => .fin (100 + (t : ℝ) * i)⟩, fun _ => ""⟩) = .ok d := by
  rw [C234_from_prices _ _ fun _ => by norm_num]
  have h : PriceHistory ⟨false, ⟨3, 2, fun t i => .fin (100 + (t : ℝ) * i)⟩, fun _ => ""⟩ (fun (t : Fin (2 + 1)) (i : Fin 2) => 100 + (t : ℝ) * i) :=
    ⟨rfl, rfl, fun _ _ => rfl⟩
  obtain ⟨d, -, -, hd, -⟩ := C101_returns h (by norm_num) (by norm_num) (fun t i => by positivity)
  exact ⟨d, hd⟩

end PyV.Props
