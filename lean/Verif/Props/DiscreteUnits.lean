import Verif.Props.DiscreteFallback
import Verif.Lemmas.DiscreteSim
import Mathlib.Data.Fin.Basic

/-! # Properties C183–C185: units of the discrete allocator (lots, weights, currency) -/

set_option linter.unusedSectionVars false

namespace PyV.Props

open PyV PyV.Discrete PyV.Spec.Discrete

variable {K : Type*} [Field K] [LinearOrder K] [IsStrictOrderedRing K] [FloorRing K]
variable {weights prices : List (String × K)} {total : K} {lots : Option (List (String × ℤ))}

/-- The order produced by sorting the weights depends on the weights only. -/
def SortsByWeight (sortBy : (inp : Input K) → Equiv.Perm (Fin inp.n)) : Prop :=
  ∀ (inp inp' : Input K) (h : inp.n = inp'.n), (∀ i, inp'.w (Fin.cast h i) = inp.w i) →
    ∀ i, sortBy inp' (Fin.cast h i) = Fin.cast h (sortBy inp i)

/-- The outcome of the mixed-integer solver depends on the programme only: weights, costs per lot and the amount. -/
def SolvesProgramme (solve : (inp : Input K) → Option (MipPoint K inp.n)) : Prop :=
  ∀ (inp : Input K) (w price : Fin inp.n → K) (lot : Fin inp.n → ℤ) (name : Fin inp.n → String), w = inp.w →
    (∀ i, price i * lot i = inp.price i * inp.lot i) → solve ⟨inp.n, name, w, price, lot, inp.total, inp.hasShorts⟩ = solve inp

/-- Prices of whole lots. -/
def perLot (prices : List (String × K)) (lots : Option (List (String × ℤ))) : List (String × K) :=
  prices.map fun p => (p.1, p.2 * lotSize lots p.1)

/-- A result counted in lots, restated in shares. -/
def inShares (lots : Option (List (String × ℤ))) (r : Result K) : Result K :=
  { r with shares := r.shares.map fun p => (p.1, p.2 * lotSize lots p.1) }

private abbrev asLots (inp : Input K) : Input K :=
  ⟨inp.n, inp.name, inp.w, fun i => inp.price i * inp.lot i, fun _ => 1, inp.total, inp.hasShorts⟩

private theorem lookup_map {β : Type*} (l : List (String × β)) (f : String → β → β) (k : String) :
    (l.map fun p => (p.1, f p.1 p.2)).lookup k = (l.lookup k).map (f k) := by
  induction l with
  | nil => rfl
  | cons a l ih =>
    obtain ⟨b, x⟩ := a
    simp only [List.map_cons, List.lookup_cons]
    by_cases h : k = b
    · subst h; simp
    · have : (k == b) = false := by simpa using h
      rw [this]; exact ih

private theorem lookup_perLot (k : String) : (perLot prices lots).lookup k = (prices.lookup k).map (· * (lotSize lots k : K)) :=
  lookup_map prices (fun k x => x * (lotSize lots k : K)) k

/-- Records with the same rows are equal. -/
private theorem input_ext {a b : Input K} (h : a.n = b.n) (h1 : ∀ i, a.name i = b.name (Fin.cast h i)) (h2 : ∀ i, a.w i = b.w (Fin.cast h i))
    (h3 : ∀ i, a.price i = b.price (Fin.cast h i)) (h4 : ∀ i, a.lot i = b.lot (Fin.cast h i)) (h5 : a.total = b.total) (h6 : a.hasShorts = b.hasShorts) :
    a = b := by
  obtain ⟨n, x1, x2, x3, x4, x5, x6⟩ := a
  obtain ⟨n', y1, y2, y3, y4, y5, y6⟩ := b
  simp only at h
  subst h
  simp only [Fin.cast_refl, id_eq] at *
  rw [funext h1, funext h2, funext h3, funext h4, h5, h6]

private theorem mkInput_lots (hlot : ∀ k, 0 < lotSize lots k) :
    mkInput weights (perLot prices lots) total none = (mkInput weights prices total lots).map asLots := by
  have e1 : (perLot prices lots).isEmpty = prices.isEmpty := by unfold perLot; simp
  have e2 : ∀ k, ((perLot prices lots).lookup k).isNone = (prices.lookup k).isNone := by intro k; rw [lookup_perLot]; simp
  have hK : ∀ k, (0 : K) < lotSize lots k := fun k => by exact_mod_cast hlot k
  have e3 : ∀ kp : List (String × K), (alignRows kp (perLot prices lots) none).any (fun r => decide (r.price ≤ 0)) =
      (alignRows kp prices lots).any (fun r => decide (r.price ≤ 0)) := by
    intro kp
    unfold alignRows
    rw [List.any_map, List.any_map]
    congr 1
    funext p
    simp only [Function.comp, lookup_perLot]
    congr 1
    cases h : prices.lookup p.1 with
    | none => simp
    | some x =>
      simp only [Option.map_some, Option.getD_some, eq_iff_iff]
      rw [← not_lt, ← not_lt, mul_pos_iff_of_pos_right (hK p.1)]
  have e4 : ∀ kp : List (String × K), (alignRows kp (perLot prices lots) none).any (fun r => decide (r.lot ≤ 0)) =
      (alignRows kp prices lots).any (fun r => decide (r.lot ≤ 0)) := by
    intro kp
    unfold alignRows
    rw [List.any_map, List.any_map]
    congr 1
    funext p
    have := hlot p.1
    simp only [Function.comp, lotOf_eq, decide_eq_decide]
    exact ⟨fun h => absurd h (by simp [lotSize]), fun h => absurd h (not_le.2 this)⟩
  unfold mkInput
  simp only [e1, e2, e3, e4, map_w_align]
  repeat (split; rfl)
  show Except.ok _ = Except.ok _
  congr 1
  refine input_ext (by simp [ofRows, alignRows, asLots]) ?_ ?_ ?_ ?_ rfl rfl
  · intro i; simp [ofRows, alignRows, asLots]; rfl
  · intro i; simp [ofRows, alignRows, asLots]; rfl
  · intro i
    have : ∀ k, ((perLot prices lots).lookup k).getD 0 = (prices.lookup k).getD 0 * (lotSize lots k : K) := by
      intro k
      rw [lookup_perLot]
      cases prices.lookup k <;> simp
    simp only [ofRows, alignRows, asLots, List.get_eq_getElem, List.getElem_map, this, lotOf_eq]
    rfl
  · intro i; simp [ofRows, alignRows, asLots, lotOf]

private theorem buildResult_lots {inp : Input K} (hl : ∀ i, inp.lot i = lotSize lots (inp.name i)) (hp : ∀ i, 0 < inp.lot i) {raw raw' : Fin inp.n → ℤ}
    (h : ∀ i, raw i = raw' i * inp.lot i) : buildResult inp raw = (buildResult (asLots inp) raw').map (inShares lots) := by
  have hv : ∀ i, (raw i : K) * inp.price i = raw' i * (inp.price i * inp.lot i) := by
    intro i; rw [h]; push_cast; ring
  have hd : ((List.finRange inp.n).filter (fun i => decide (raw i ≠ 0))).map (fun i => (inp.name i, raw i)) =
      (((List.finRange inp.n).filter (fun i => decide (raw' i ≠ 0))).map (fun i => (inp.name i, raw' i))).map fun p => (p.1, p.2 * lotSize lots p.1) := by
    rw [List.map_map]
    have : (fun i => decide (raw i ≠ 0)) = fun i => decide (raw' i ≠ 0) := by
      funext i
      rw [h]
      simp [(hp i).ne']
    rw [this]
    refine List.map_congr_left fun i _ => ?_
    simp [h, hl]
  unfold buildResult
  simp only [asLots, hv]
  rw [hd]
  generalize inp.total - ∑ i, (raw' i : K) * (inp.price i * inp.lot i) = left
  by_cases h1 : left < 0 ∧ |left| < 1 / 10 ^ 8
  · rw [if_pos h1, if_pos h1]; rfl
  · rw [if_neg h1, if_neg h1]
    by_cases h2 : left < 0
    · rw [if_pos h2, if_pos h2]; rfl
    · rw [if_neg h2, if_neg h2]; rfl

private theorem sorted_lots (inp : Input K) (σ : Equiv.Perm (Fin inp.n)) : Scaled 1 (inp.sorted σ) ((asLots inp).sorted σ) where
  pos := one_pos
  w _ := rfl
  cost i := by simp [Sorted.cost, Input.sorted]
  total := by simp [Input.sorted, asLots]

private theorem accepted_lots {inp : Input K} (ha : Accepted inp) : Accepted (asLots inp) where
  npos := ha.npos
  price i := mul_pos (ha.price i) (by exact_mod_cast ha.lot i)
  lot _ := by simp [asLots]
  total := ha.total
  wsum := ha.wsum
  wne := ha.wne
  shorts := ha.shorts

/-- **C183** A lot is a big share: with positive lot sizes, allocating in lots of the given sizes is the same as allocating single units priced at a
whole lot each — same errors, same leftover cash, achieved weights and tracking error, and the shares are the number of units times the lot size. -/
theorem C183_lots_are_shares (hlot : ∀ k, 0 < lotSize lots k) (method : String) (maxIter : Option ℤ) (mode : Mode)
    (sortBy : (inp : Input K) → Equiv.Perm (Fin inp.n)) (hsort : SortsByWeight sortBy)
    (solve : (inp : Input K) → Option (MipPoint K inp.n)) (hsolve : SolvesProgramme solve) :
    discretize weights prices total lots method maxIter mode sortBy solve =
      (discretize weights (perLot prices lots) total none method maxIter mode sortBy solve).map (inShares lots) := by
  unfold discretize
  rw [mkInput_lots hlot]
  cases hin : mkInput weights prices total lots with
  | error e => rfl
  | ok inp =>
    have ha := accepted_of_mkInput hin
    have ha' := accepted_lots ha
    obtain ⟨-, -, -, -, -, hl⟩ := input_labels hin
    have hsv : solve (asLots inp) = solve inp := hsolve inp inp.w _ _ inp.name rfl (fun i => by simp)
    have hso : sortBy (asLots inp) = sortBy inp := Equiv.ext fun i => hsort inp (asLots inp) rfl (fun _ => rfl) i
    have hmip : allocateMip inp (solve inp) = (allocateMip (asLots inp) (solve inp)).map (inShares lots) := by
      unfold allocateMip
      rw [if_neg ha.npos.ne', if_neg (show (asLots inp).n ≠ 0 from ha.npos.ne')]
      cases solve inp with
      | none => rfl
      | some p => exact buildResult_lots hl ha.lot (fun i => by simp [asLots])
    simp only [Except.map]
    cases parseMethod method with
    | error e => rfl
    | ok m =>
      cases m with
      | milp =>
        simp only
        rw [hsv]
        exact hmip
      | greedy =>
        simp only
        rw [hsv, hso]
        show _ = Except.map (inShares lots) _
        unfold allocateGreedy
        cases hs : inp.hasShorts with
        | true =>
          rw [if_pos rfl, if_pos rfl]
          exact hmip
        | false =>
          rw [if_neg (by simp), if_neg (by simp)]
          simp only
          have hv := ha.svalid hs (sortBy inp)
          have hv' : SValid ((asLots inp).sorted (sortBy inp)) := ha'.svalid hs (sortBy inp)
          have hsc := sorted_lots inp (sortBy inp)
          set s := inp.sorted (sortBy inp)
          have hloop := loop_scaled hv hv' hsc (resolveMaxIter inp.n maxIter) (fun _ => True) (fun c _ => insensitive_one s c) (fun _ _ _ _ => trivial)
            (enoughFuel inp.n (resolveMaxIter inp.n maxIter)) (init_scaled hv hv' hsc) trivial
          rcases hloop with ⟨h1, h2⟩ | ⟨x, x', h1, h2, hr, -⟩
          · rw [h1, h2]
            rfl
          · rw [h1, h2]
            simp only
            have hb : buildResult inp (fun i => x.shares ((sortBy inp).symm i)) =
                (buildResult (asLots inp) (fun i => x'.shares ((sortBy inp).symm i))).map (inShares lots) := by
              refine buildResult_lots hl ha.lot fun i => ?_
              have := hr.shares ((sortBy inp).symm i)
              simpa [s, Input.sorted, asLots] using this
            have hf := fallback_scaled hv hsc (resolveMaxIter inp.n maxIter) hr (insensitive_one s _) (insensitive_one s _) hv.lot hv'.lot
            rw [hf, hb, hmip]
            split
            · cases allocateMip (asLots inp) (solve inp) with
              | ok r => rfl
              | error e =>
                simp only [Except.map]
                split <;> rfl
            · rfl

/-- **C184** Only relative weights matter: multiplying all weights by a positive factor changes nothing, as long as it moves no weight across the
cut-off of 1e-8 below which weights are ignored. -/
theorem C184_relative_weights {k : K} (hk : 0 < k) (hkeep : ∀ p ∈ weights, 1 / 10 ^ 8 < |k * p.2| ↔ 1 / 10 ^ 8 < |p.2|)
    (method : String) (maxIter : Option ℤ) (mode : Mode)
    (sortBy : (inp : Input K) → Equiv.Perm (Fin inp.n)) (solve : (inp : Input K) → Option (MipPoint K inp.n)) :
    discretize (weights.map fun p => (p.1, k * p.2)) prices total lots method maxIter mode sortBy solve =
      discretize weights prices total lots method maxIter mode sortBy solve := by
  have hm : mkInput (weights.map fun p => (p.1, k * p.2)) prices total lots = mkInput weights prices total lots := by
    have e0 : (weights.map fun p => (p.1, k * p.2)).filter (fun p => !isclose0 p.2) =
        (weights.filter (fun p => !isclose0 p.2)).map fun p => (p.1, k * p.2) := by
      rw [List.filter_map]
      congr 1
      refine List.filter_congr fun p hp => ?_
      have := hkeep p hp
      simp only [Function.comp, isclose0, ← not_lt, this]
    have e1 : ((weights.filter (fun p => !isclose0 p.2)).map fun p => (p.1, k * p.2)).any (fun p => decide (p.2 < 0)) =
        (weights.filter (fun p => !isclose0 p.2)).any (fun p => decide (p.2 < 0)) := by
      rw [List.any_map]
      congr 1
      funext p
      simp only [Function.comp, mul_neg_iff, hk, true_and, hk.not_gt, false_and, or_false]
    generalize hkp : weights.filter (fun p => !isclose0 p.2) = kp at e0 e1
    have e2 : ∀ P : Row K → Bool, (∀ n w w' p l, P ⟨n, w, p, l⟩ = P ⟨n, w', p, l⟩) →
        (alignRows (kp.map fun p => (p.1, k * p.2)) prices lots).any P = (alignRows kp prices lots).any P := by
      intro P hP
      unfold alignRows
      rw [List.map_map, List.any_map, List.any_map]
      congr 1
      funext p
      exact hP _ _ _ _ _
    have e3 : ((alignRows (kp.map fun p => (p.1, k * p.2)) prices lots).map Row.w).sum = k * ((alignRows kp prices lots).map Row.w).sum := by
      rw [map_w_align, map_w_align, List.map_map, ← List.sum_map_mul_left]
      rfl
    unfold mkInput
    simp only [e0, e1, hkp, e2 (fun r => decide (r.price ≤ 0)) (fun _ _ _ _ _ => rfl), e2 (fun r => decide (r.lot ≤ 0)) (fun _ _ _ _ _ => rfl), e3,
      List.isEmpty_map, List.any_map]
    have e4 : (k * ((alignRows kp prices lots).map Row.w).sum ≤ 0) ↔ ((alignRows kp prices lots).map Row.w).sum ≤ 0 := by
      rw [← not_lt, ← not_lt, mul_pos_iff_of_pos_left hk]
    simp only [e4]
    congr 3
    congr 6
    refine input_ext (by simp [ofRows, alignRows]) ?_ ?_ ?_ ?_ rfl rfl
    · intro i; simp [ofRows, alignRows]; rfl
    · intro i
      simp only [ofRows, alignRows, List.get_eq_getElem, List.getElem_map]
      rw [mul_div_mul_left _ _ hk.ne']
      rfl
    · intro i; simp [ofRows, alignRows]; rfl
    · intro i; simp [ofRows, alignRows]; rfl
  unfold discretize
  rw [hm]

/-- Prices in another currency. -/
def inCurrency (k : K) (prices : List (String × K)) : List (String × K) := prices.map fun p => (p.1, k * p.2)

private abbrev rescaled (k : K) (inp : Input K) : Input K :=
  ⟨inp.n, inp.name, inp.w, fun i => k * inp.price i, inp.lot, k * inp.total, inp.hasShorts⟩

private theorem lookup_currency (k : K) (x : String) : (inCurrency k prices).lookup x = (prices.lookup x).map (k * ·) :=
  lookup_map prices (fun _ y => k * y) x

private theorem mkInput_currency {k : K} (hk : 0 < k) :
    mkInput weights (inCurrency k prices) (k * total) lots = (mkInput weights prices total lots).map (rescaled k) := by
  have e1 : (inCurrency k prices).isEmpty = prices.isEmpty := by unfold inCurrency; simp
  have e2 : ∀ x, ((inCurrency k prices).lookup x).isNone = (prices.lookup x).isNone := by intro x; rw [lookup_currency]; simp
  have hget : ∀ x, ((inCurrency k prices).lookup x).getD 0 = k * (prices.lookup x).getD 0 := by
    intro x
    rw [lookup_currency]
    cases prices.lookup x <;> simp
  have e3 : ∀ kp : List (String × K), (alignRows kp (inCurrency k prices) lots).any (fun r => decide (r.price ≤ 0)) =
      (alignRows kp prices lots).any (fun r => decide (r.price ≤ 0)) := by
    intro kp
    unfold alignRows
    rw [List.any_map, List.any_map]
    congr 1
    funext p
    simp only [Function.comp, hget, decide_eq_decide]
    rw [← not_lt, ← not_lt, mul_pos_iff_of_pos_left hk]
  have e4 : ∀ kp : List (String × K), (alignRows kp (inCurrency k prices) lots).any (fun r => decide (r.lot ≤ 0)) =
      (alignRows kp prices lots).any (fun r => decide (r.lot ≤ 0)) := by
    intro kp
    unfold alignRows
    rw [List.any_map, List.any_map]
    rfl
  have e5 : (k * total ≤ 0) ↔ total ≤ 0 := by rw [← not_lt, ← not_lt, mul_pos_iff_of_pos_left hk]
  unfold mkInput
  simp only [e1, e2, e3, e4, e5, map_w_align]
  repeat (split; rfl)
  show Except.ok _ = Except.ok _
  congr 1
  refine input_ext (by simp [ofRows, alignRows]) ?_ ?_ ?_ ?_ rfl rfl
  · intro i; simp [ofRows, alignRows]; rfl
  · intro i; simp [ofRows, alignRows]; rfl
  · intro i
    simp only [ofRows, alignRows, List.get_eq_getElem, List.getElem_map, hget]
    rfl
  · intro i; simp [ofRows, alignRows]; rfl

private theorem accepted_currency {k : K} (hk : 0 < k) {inp : Input K} (ha : Accepted inp) : Accepted (rescaled k inp) where
  npos := ha.npos
  price i := mul_pos hk (ha.price i)
  lot i := ha.lot i
  total := mul_pos hk ha.total
  wsum := ha.wsum
  wne := ha.wne
  shorts := ha.shorts

/-- **C185** (partial: for prices and an amount that are whole numbers of some unit — cents, say — larger than 1e-12 in both currencies; without
that the absolute tolerance decides, `C185_counterexample`) The greedy allocation does not depend on the currency: the same shares, achieved weights
and tracking error, and the leftover cash converted. -/
theorem C185_currency_partial {method : String} (hm : method.toLower = "greedy" ∨ method.toLower = "rounddown") (hv : Valid weights prices total lots)
    (hl : LongOnly weights) {k u : K} (hk : 0 < k) (hu : 1 / 10 ^ 12 < u) (hku : 1 / 10 ^ 12 < k * u)
    (hprice : ∀ p ∈ kept weights, ∃ b : ℤ, priceOf prices p.1 = b * u) (htotal : ∃ b : ℤ, total = b * u) (maxIter : Option ℤ)
    (sortBy : (inp : Input K) → Equiv.Perm (Fin inp.n)) (hsort : SortsByWeight sortBy) (solve solve' : (inp : Input K) → Option (MipPoint K inp.n)) :
    ∃ r, discretize weights prices total lots method maxIter .none sortBy solve = .ok r ∧
      discretize weights (inCurrency k prices) (k * total) lots method maxIter .none sortBy solve' = .ok { r with leftover := k * r.leftover } := by
  obtain ⟨inp, raw, r, hin, he, hb, hg⟩ := discretize_greedy_none hm hv hl maxIter sortBy solve
  refine ⟨r, he, ?_⟩
  have hmeth : parseMethod method = .ok .greedy := if_pos hm
  have ha := accepted_of_mkInput hin
  have ha' := accepted_currency hk ha
  have hs := (longOnly_iff hin).mpr hl
  obtain ⟨htot, -, hkept, -, hpr, -⟩ := input_labels hin
  have hso : sortBy (rescaled k inp) = sortBy inp := Equiv.ext fun i => hsort inp (rescaled k inp) rfl (fun _ => rfl) i
  have hV := ha.svalid hs (sortBy inp)
  have hV' : SValid ((rescaled k inp).sorted (sortBy inp)) := ha'.svalid hs (sortBy inp)
  have hsc : Scaled k (inp.sorted (sortBy inp)) ((rescaled k inp).sorted (sortBy inp)) :=
    ⟨hk, fun _ => rfl, fun i => by simp only [Sorted.cost, Input.sorted]; ring, rfl⟩
  have hunit : ∀ i, ∃ b : ℤ, inp.price i = b * u := by
    intro i
    obtain ⟨p, hp, hn, -⟩ := hkept i
    rw [hpr, hn]
    exact hprice p hp
  have hcost : ∀ i, ∃ b : ℤ, (inp.sorted (sortBy inp)).cost i = b * u := by
    intro i
    obtain ⟨b, hb⟩ := hunit (sortBy inp i)
    refine ⟨b * inp.lot (sortBy inp i), ?_⟩
    show inp.price (sortBy inp i) * inp.lot (sortBy inp i) = _
    rw [hb]
    push_cast
    ring
  have hins : ∀ c, (∃ a : ℤ, c = a * u) → Insensitive k (inp.sorted (sortBy inp)) c := fun c hc =>
    insensitive_unit hV (by unfold tol; exact hu) hk (by unfold tol; exact hku) hcost hc
  have hvalue : ∀ sh : Fin inp.n → ℤ, ∃ a : ℤ, inp.total - ∑ i, (sh i : K) * inp.price i = a * u := by
    intro sh
    choose b hb using hunit
    obtain ⟨t, ht⟩ := htotal
    refine ⟨t - ∑ i, sh i * b i, ?_⟩
    rw [htot, ht]
    push_cast
    rw [sub_mul, Finset.sum_mul]
    refine congrArg _ (Finset.sum_congr rfl fun i _ => ?_)
    rw [hb]
    ring
  have hstart : ∃ a : ℤ, (initState (inp.sorted (sortBy inp))).cash = a * u := by
    obtain ⟨e, -⟩ := floorPass_spec hV
    obtain ⟨a, h⟩ := hvalue (fun i => (floorPass (inp.sorted (sortBy inp))).1 ((sortBy inp).symm i))
    refine ⟨a, ?_⟩
    show (floorPass (inp.sorted (sortBy inp))).2 = _
    rw [e, ← h]
    show inp.total - ∑ i, _ = inp.total - ∑ i, _
    rw [← Equiv.sum_comp (sortBy inp) (fun i => (((floorPass (inp.sorted (sortBy inp))).1 ((sortBy inp).symm i) : ℤ) : K) * inp.price i)]
    simp [Input.sorted]
  have hloop := loop_scaled hV hV' hsc (resolveMaxIter inp.n maxIter) (fun c => ∃ a : ℤ, c = a * u) hins (fun st st1 => unit_step hcost _ st st1)
    (enoughFuel inp.n (resolveMaxIter inp.n maxIter)) (init_scaled hV hV' hsc) hstart
  obtain ⟨st0, e0, -⟩ := loop_init_spec hV (resolveMaxIter inp.n maxIter)
  rcases hloop with ⟨h1, -⟩ | ⟨x, x', h1, h2, hr, -⟩
  · rw [e0] at h1; cases h1
  have hsame : x'.shares = x.shares := by
    funext i
    have := hr.shares i
    have hlp : inp.lot (sortBy inp i) ≠ 0 := (ha.lot _).ne'
    exact (mul_right_cancel₀ hlp this).symm
  have hthis : buildResult inp (fun i => x.shares ((sortBy inp).symm i)) = .ok r := by
    unfold discretize at he
    rw [hin] at he
    simp only [hmeth] at he
    unfold allocateGreedy at he
    rw [hs] at he
    simp only [Bool.false_eq_true, if_false, h1, ne_eq, not_true_eq_false, false_and] at he
    exact he
  have hgoal : discretize weights (inCurrency k prices) (k * total) lots method maxIter .none sortBy solve' =
      buildResult (rescaled k inp) (fun i => x.shares ((sortBy inp).symm i)) := by
    unfold discretize
    rw [mkInput_currency hk, hin]
    simp only [Except.map, hmeth]
    rw [hso]
    unfold allocateGreedy
    simp only [hs, Bool.false_eq_true, if_false, ne_eq, not_true_eq_false, false_and]
    rw [h2, ← hsame]
  rw [hgoal]
  obtain ⟨b1, b2, b3, b4, b5⟩ := buildResult_ok hthis
  have hnn : 0 ≤ inp.total - ∑ i, ((x.shares ((sortBy inp).symm i) : ℤ) : K) * inp.price i := by
    obtain ⟨a, h⟩ := hvalue (fun i => x.shares ((sortBy inp).symm i))
    rw [h]
    have hu0 : (0 : K) < u := lt_trans (by positivity) hu
    have hlow := b3
    obtain ⟨y, ey, hp⟩ := loop_init_spec hV (resolveMaxIter inp.n maxIter)
    rw [h1] at ey
    injection ey with ey
    subst ey
    have hg' := (good_of_post hp).low
    rw [h] at hg'
    unfold tol at hg'
    have : (-1 : K) < a := by
      by_contra hcon
      have : (a : K) * u ≤ -1 * u := mul_le_mul_of_nonneg_right (not_lt.1 hcon) hu0.le
      linarith
    have : (-1 : ℤ) < a := by exact_mod_cast this
    have : (0 : K) ≤ a := by exact_mod_cast (by omega : 0 ≤ a)
    positivity
  have hscale : k * inp.total - ∑ i, ((x.shares ((sortBy inp).symm i) : ℤ) : K) * (k * inp.price i) =
      k * (inp.total - ∑ i, ((x.shares ((sortBy inp).symm i) : ℤ) : K) * inp.price i) := by
    rw [mul_sub, Finset.mul_sum]
    refine congrArg _ (Finset.sum_congr rfl fun i _ => ?_)
    ring
  have hach : ∀ i, ((x.shares ((sortBy inp).symm i) : ℤ) : K) * (k * inp.price i) / (k * inp.total) =
      ((x.shares ((sortBy inp).symm i) : ℤ) : K) * inp.price i / inp.total := by
    intro i
    rw [show ((x.shares ((sortBy inp).symm i) : ℤ) : K) * (k * inp.price i) = k * (((x.shares ((sortBy inp).symm i) : ℤ) : K) * inp.price i) by ring,
      mul_div_mul_left _ _ hk.ne']
  unfold buildResult
  simp only [hscale, hach]
  have hge := mul_nonneg hk.le hnn
  rw [if_neg (fun h => absurd h.1 (not_lt.2 hge)), if_neg (not_lt.2 hge)]
  obtain ⟨r1, r2, r3, r4⟩ := r
  simp only at b1 b2 b4 b5
  rw [b1, b2, b4, b5, max_eq_left hnn]
  rfl

/-- **C185** (counterexample) The allocation does depend on the currency: 10 units of money do not buy an asset priced at 11; in a currency where
those are 10e-13 and 11e-13 they do. -/
theorem C185_counterexample : ∃ (r r' : Result ℚ),
    discretize [("A", 1)] [("A", 11)] 10 none "greedy" none .none (fun _ => Equiv.refl _) (fun _ => none) = .ok r ∧
    discretize [("A", 1)] (inCurrency (1 / 10 ^ 13) [("A", 11)]) (1 / 10 ^ 13 * 10) none "greedy" none .none (fun _ => Equiv.refl _) (fun _ => none) = .ok r' ∧
      r.shares = [] ∧ r'.shares = [("A", 1)] := by
  refine ⟨⟨[], 10, [("A", 0)], 1⟩, ⟨[("A", 1)], 0, [("A", 11 / 10)], 1 / 10⟩, ?_, ?_, rfl, rfl⟩ <;> decide +kernel

/-- Lots of 10 of "A" at 7 are units at 70. -/
example : perLot exP exLots = [("A", 70), ("B", 110), ("C", 33), ("D", 5)] ∧ SortsByWeight (K := ℚ) (fun _ => Equiv.refl _) ∧
    SolvesProgramme (K := ℚ) (fun _ => none) := by
  refine ⟨by decide +kernel, fun _ _ _ _ _ => rfl, fun _ _ _ _ _ _ _ => rfl⟩

/-- Weights in percent instead of fractions meet the hypothesis of `C184_relative_weights`. -/
example : ∀ p ∈ ([("A", 3 / 10), ("B", 7 / 10)] : List (String × ℚ)), 1 / 10 ^ 8 < |100 * p.2| ↔ 1 / 10 ^ 8 < |p.2| := by decide +kernel

/-- The example call of C01, prices in whole units, meets the hypotheses of `C185_currency_partial`: one currency unit becomes 3/2 of another. -/
example : ∃ r, discretize exW exP 1000 exLots "greedy" none .none (fun _ => Equiv.refl _) (fun _ => none) = .ok r ∧
    discretize exW (inCurrency (3 / 2) exP) (3 / 2 * 1000) exLots "greedy" none .none (fun _ => Equiv.refl _) (fun _ => none) =
      .ok { r with leftover := 3 / 2 * r.leftover } := by
  refine C185_currency_partial (u := 1) (Or.inl lower_greedy) exValid exLong (by norm_num) (by norm_num) (by norm_num) ?_ ⟨1000, by norm_num⟩ none _
    (fun _ _ _ _ _ => rfl) _ _
  have : ∀ p ∈ kept exW, priceOf exP p.1 = (⌊priceOf exP p.1⌋ : ℤ) * 1 := by decide +kernel
  exact fun p hp => ⟨_, this p hp⟩

end PyV.Props
