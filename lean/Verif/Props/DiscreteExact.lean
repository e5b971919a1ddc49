import Verif.Props.DiscreteUnits
import Mathlib.Data.Fin.Tuple.Sort
import Mathlib.Data.List.FinRange

/-! # Properties C186–C187: order of the assets, attainable targets -/

set_option linter.unusedSectionVars false

namespace PyV.Props

open PyV PyV.Discrete PyV.Spec.Discrete

variable {K : Type*} [Field K] [LinearOrder K] [IsStrictOrderedRing K] [FloorRing K]
variable {weights prices : List (String × K)} {total : K} {lots : Option (List (String × ℤ))}

private theorem whole_eq {k j : ℤ} {c : K} (hc : 0 < c) (h1 : (j : K) * c - c < k * c) (h2 : (k : K) * c < j * c + c) : k = j := by
  have a : (j : K) - 1 < k := by
    have : ((j : K) - 1) * c < k * c := by linarith
    exact lt_of_mul_lt_mul_right this hc.le
  have b : (k : K) < j + 1 := by
    have : (k : K) * c < (j + 1) * c := by linarith
    exact lt_of_mul_lt_mul_right this hc.le
  have a' : j - 1 < k := by exact_mod_cast a
  have b' : k < j + 1 := by exact_mod_cast b
  omega

/-- **C187** (greedy) A target that whole lots attain exactly is attained exactly: if every kept asset's share of the amount is a whole number of lots,
the greedy allocation buys those lots, nothing is left over and the tracking error is zero. -/
theorem C187_greedy {method : String} (hm : method.toLower = "greedy" ∨ method.toLower = "rounddown") (hv : Valid weights prices total lots)
    (hl : LongOnly weights) (hn : (weights.map Prod.fst).Nodup) (j : String → ℤ)
    (hj : ∀ p ∈ kept weights, p.2 / totalWeight weights * total = j p.1 * lotCost prices lots p.1) (maxIter : Option ℤ)
    (sortBy : (inp : Input K) → Equiv.Perm (Fin inp.n)) (solve : (inp : Input K) → Option (MipPoint K inp.n)) :
    ∃ r, discretize weights prices total lots method maxIter .none sortBy solve = .ok r ∧
      (∀ p ∈ kept weights, held r.shares p.1 = j p.1 * lotSize lots p.1) ∧ r.leftover = 0 ∧ r.trackingError = 0 := by
  obtain ⟨inp, raw, r, hin, he, hb, hg⟩ := discretize_greedy_none hm hv hl maxIter sortBy solve
  obtain ⟨b1, b2, b3, b4, b5⟩ := buildResult_ok hb
  obtain ⟨l1, l2, l3, l4, l5, l6⟩ := input_labels hin
  have ha := accepted_of_mkInput hin
  have hraw : ∀ i, raw i = j (inp.name i) * inp.lot i ∧ (raw i : K) * inp.price i = inp.w i * inp.total := by
    intro i
    obtain ⟨k, -, hk⟩ := hg.lots i
    obtain ⟨p, hp, e1, e2⟩ := l3 i
    have hc : (0 : K) < inp.price i * inp.lot i := mul_pos (ha.price i) (by exact_mod_cast ha.lot i)
    have ht : inp.w i * inp.total = j (inp.name i) * (inp.price i * inp.lot i) := by
      have := hj p hp
      unfold lotCost at this
      rw [e2, l1, this, e1, l5, l6, e1]
    have hval : (raw i : K) * inp.price i = k * (inp.price i * inp.lot i) := by rw [hk]; push_cast; ring
    obtain ⟨n1, n2⟩ := hg.near i
    rw [ht, hval] at n1 n2
    have := whole_eq hc n1 n2
    subst this
    exact ⟨hk, by rw [hval, ht]⟩
  refine ⟨r, he, fun p hp => ?_, ?_, ?_⟩
  · obtain ⟨i, e1, -⟩ := l4 p hp
    rw [b1, ← e1, held_dictOf inp (name_injective hin hn), (hraw i).1, l6]
  · rw [b2, Finset.sum_congr rfl (fun i _ => (hraw i).2), ← Finset.sum_mul, ha.wsum, one_mul, sub_self, max_self]
  · rw [b5]
    refine Finset.sum_eq_zero fun i _ => ?_
    rw [(hraw i).2, mul_div_cancel_right₀ _ ha.total.ne', sub_self, abs_zero]

/-- **C187** (mixed-integer) The same for the mixed-integer allocator with a non-negative cash penalty and a correct solver. -/
theorem C187_milp (inp : Input K) (hin : mkInput weights prices total lots = .ok inp) (hl : LongOnly weights) (hn : (weights.map Prod.fst).Nodup)
    (j : String → ℤ) (hj : ∀ p ∈ kept weights, p.2 / totalWeight weights * total = j p.1 * lotCost prices lots p.1) {cp : K} (hcp : 0 ≤ cp)
    {p : MipPoint K inp.n} (ho : MipOptimal inp cp none p) :
    ∃ r, allocateMip inp (some p) = .ok r ∧
      (∀ q ∈ kept weights, held r.shares q.1 = j q.1 * lotSize lots q.1) ∧ r.leftover = 0 ∧ r.trackingError = 0 := by
  obtain ⟨-, hopt⟩ := C08_milp_optimal inp hin hl cp
  obtain ⟨r, hr, hbest⟩ := hopt p ho
  obtain ⟨l1, l2, l3, l4, l5, l6⟩ := input_labels hin
  have ha := accepted_of_mkInput hin
  have hs := (longOnly_iff hin).mpr hl
  have hb : buildResult inp (fun i => p.x i * inp.lot i) = .ok r := by
    unfold allocateMip at hr
    rwa [if_neg ha.npos.ne'] at hr
  obtain ⟨b1, b2, b3, b4, b5⟩ := buildResult_ok hb
  have hc : ∀ i, (0 : K) < inp.price i * inp.lot i := fun i => mul_pos (ha.price i) (by exact_mod_cast ha.lot i)
  have ht : ∀ i, inp.w i * inp.total = j (inp.name i) * (inp.price i * inp.lot i) := by
    intro i
    obtain ⟨q, hq, e1, e2⟩ := l3 i
    have := hj q hq
    unfold lotCost at this
    rw [e2, l1, this, e1, l5, l6, e1]
  have hsum : lotsCost inp (fun i => j (inp.name i)) = inp.total := by
    unfold lotsCost
    rw [Finset.sum_congr rfl (fun i _ => show inp.price i * inp.lot i * ((j (inp.name i) : ℤ) : K) = inp.w i * inp.total by rw [ht]; ring),
      ← Finset.sum_mul, ha.wsum, one_mul]
  have h0 := hbest (fun i => j (inp.name i)) (fun i => by
    have h1 : (0 : K) ≤ j (inp.name i) * (inp.price i * inp.lot i) := by
      rw [← ht]; exact mul_nonneg (ha.nonneg hs i) ha.total.le
    have h2 : (0 : K) ≤ j (inp.name i) := by
      by_contra hcon
      exact absurd h1 (not_le.2 (mul_neg_of_neg_of_pos (not_le.1 hcon) (hc i)))
    exact_mod_cast h2) hsum.le
  have hz : l1Dollar inp (fun i => j (inp.name i)) = 0 := by
    unfold l1Dollar
    refine Finset.sum_eq_zero fun i _ => ?_
    rw [ht, mul_comm, sub_self, abs_zero]
  rw [hz, hsum, sub_self, mul_zero, add_zero] at h0
  have hle : 0 ≤ r.leftover := by rw [b2]; exact le_max_right _ _
  have hte : 0 ≤ r.trackingError := by rw [b5]; exact Finset.sum_nonneg fun i _ => abs_nonneg _
  have hte0 : r.trackingError = 0 := by
    have h1 := mul_nonneg hcp hle
    have h2 : inp.total * r.trackingError ≤ 0 := by linarith
    have h3 := nonpos_of_mul_nonpos_right h2 ha.total
    linarith
  have hw : ∀ i, ((p.x i * inp.lot i : ℤ) : K) * inp.price i = inp.w i * inp.total := by
    intro i
    have := (Finset.sum_eq_zero_iff_of_nonneg (fun i _ => abs_nonneg _)).1 (b5 ▸ hte0) i (Finset.mem_univ i)
    have := sub_eq_zero.1 (abs_eq_zero.1 this)
    rw [this, div_mul_cancel₀ _ ha.total.ne']
  refine ⟨r, hr, fun q hq => ?_, ?_, hte0⟩
  · obtain ⟨i, e1, -⟩ := l4 q hq
    rw [b1, ← e1, held_dictOf inp (name_injective hin hn), ← l6]
    have h1 := hw i
    rw [ht i] at h1
    have h2 : (p.x i : K) * (inp.price i * inp.lot i) = j (inp.name i) * (inp.price i * inp.lot i) := by
      rw [← h1]; push_cast; ring
    have h3 : p.x i = j (inp.name i) := by exact_mod_cast mul_right_cancel₀ (hc i).ne' h2
    rw [h3]
  · rw [b2, Finset.sum_congr rfl (fun i _ => hw i), ← Finset.sum_mul, ha.wsum, one_mul, sub_self, max_self]

/-- Only kept labels are held. -/
theorem held_off {method : String} {maxIter : Option ℤ} {mode : Mode} {sortBy : (inp : Input K) → Equiv.Perm (Fin inp.n)}
    {solve : (inp : Input K) → Option (MipPoint K inp.n)} {r : Result K}
    (h : discretize weights prices total lots method maxIter mode sortBy solve = .ok r) {k : String} (hk : k ∉ (kept weights).map Prod.fst) :
    held r.shares k = 0 := by
  obtain ⟨inp, raw, hin, hb, -⟩ := discretize_ok h
  obtain ⟨b1, -⟩ := buildResult_ok hb
  obtain ⟨-, -, l3, -⟩ := input_labels hin
  unfold held
  rw [b1, List.lookup_eq_none_iff.2]
  · rfl
  · intro p hp
    unfold dictOf at hp
    obtain ⟨i, -, rfl⟩ := List.mem_map.1 hp
    obtain ⟨q, hq, e, -⟩ := l3 i
    simp only [beq_eq_false_iff_ne, ne_eq, bne_iff_ne]
    rintro rfl
    exact hk (List.mem_map.2 ⟨q, hq, e.symm⟩)

private theorem kept_eq_self {l : List (String × K)} (h : ∀ p ∈ l, p.2 = 0 ∨ 1 / 10 ^ 8 < |p.2|) : kept l = l.filter (fun p => decide (p.2 ≠ 0)) := by
  unfold kept
  refine List.filter_congr fun p hp => ?_
  rcases h p hp with h0 | h0
  · simp [h0]
  · have : p.2 ≠ 0 := by
      rintro e
      rw [e, abs_zero] at h0
      exact absurd h0 (not_lt.2 (by positivity))
    simp only [this, ne_eq, not_false_eq_true, decide_true, decide_eq_true_eq]
    exact h0

private theorem sum_nonzero (l : List (String × K)) : ((l.filter (fun p => decide (p.2 ≠ 0))).map Prod.snd).sum = (l.map Prod.snd).sum := by
  induction l with
  | nil => rfl
  | cons a l ih =>
    rw [List.filter_cons]
    by_cases h : a.2 = 0
    · simpa [h] using ih
    · simpa [h] using ih

/-- **C187** (round trip) Discretising the achieved weights of a long-only allocation with the money it spent gives the same shares, nothing left
over and no tracking error, provided every holding is worth more than 1e-8 of the original amount. -/
theorem C187_round_trip {method : String} {maxIter : Option ℤ} {mode : Mode}
    {sortBy : (inp : Input K) → Equiv.Perm (Fin inp.n)} {solve : (inp : Input K) → Option (MipPoint K inp.n)} {r : Result K}
    (hn : (weights.map Prod.fst).Nodup) (hv : Valid weights prices total lots)
    (h : discretize weights prices total lots method maxIter mode sortBy solve = .ok r)
    (hlong : ∀ p ∈ kept weights, ∃ k : ℤ, 0 ≤ k ∧ held r.shares p.1 = k * lotSize lots p.1)
    (hsome : ∃ p ∈ kept weights, held r.shares p.1 ≠ 0)
    (hbig : ∀ p ∈ kept weights, held r.shares p.1 = 0 ∨ total / 10 ^ 8 < held r.shares p.1 * priceOf prices p.1)
    (maxIter' : Option ℤ) (sortBy' : (inp : Input K) → Equiv.Perm (Fin inp.n)) (solve' : (inp : Input K) → Option (MipPoint K inp.n)) :
    ∃ r', discretize r.achieved prices (spent prices r.shares) lots "greedy" maxIter' .none sortBy' solve' = .ok r' ∧
      (∀ k, held r'.shares k = held r.shares k) ∧ r'.leftover = 0 ∧ r'.trackingError = 0 := by
  obtain ⟨-, -, -, hach, -⟩ := C03_cash_conserved hn h
  have htp := hv.total_pos
  obtain ⟨inp, raw, hin, hb, -⟩ := discretize_ok h
  obtain ⟨b1, -⟩ := buildResult_ok hb
  obtain ⟨l1, l2, l3, l4, l5, l6⟩ := input_labels hin
  have hinj := name_injective hin hn
  -- the money spent, as a sum over the kept labels
  have hspent : spent prices r.shares = ((kept weights).map fun p => held r.shares p.1 * priceOf prices p.1).sum := by
    rw [b1, spent_dictOf inp prices (fun i => (l5 i).symm), ← sum_kept hin (fun k _ => (held (dictOf inp raw) k : K) * priceOf prices k)]
    refine Finset.sum_congr rfl fun i _ => ?_
    rw [held_dictOf inp hinj, l5]
  have hpp : ∀ p ∈ kept weights, 0 < priceOf prices p.1 := hv.price_pos
  have hheld : ∀ p ∈ kept weights, 0 ≤ held r.shares p.1 := by
    intro p hp
    obtain ⟨k, hk, e⟩ := hlong p hp
    rw [e]
    exact mul_nonneg hk (hv.lot_pos p hp).le
  have hval : ∀ p ∈ kept weights, (0 : K) ≤ held r.shares p.1 * priceOf prices p.1 := fun p hp =>
    mul_nonneg (by exact_mod_cast hheld p hp) (hpp p hp).le
  have hpos : 0 < spent prices r.shares := by
    obtain ⟨p, hp, hne⟩ := hsome
    rw [hspent]
    have h1 : (0 : K) < held r.shares p.1 * priceOf prices p.1 :=
      mul_pos (by exact_mod_cast lt_of_le_of_ne (hheld p hp) (Ne.symm hne)) (hpp p hp)
    refine lt_of_lt_of_le h1 (List.single_le_sum (fun x hx => ?_) _ (List.mem_map.2 ⟨p, hp, rfl⟩))
    obtain ⟨q, hq, rfl⟩ := List.mem_map.1 hx
    exact hval q hq
  have hmem : ∀ q ∈ r.achieved, ∃ p ∈ kept weights, q = (p.1, held r.shares p.1 * priceOf prices p.1 / total) := by
    intro q hq
    rw [hach] at hq
    obtain ⟨p, hp, e⟩ := List.mem_map.1 hq
    exact ⟨p, hp, e.symm⟩
  have hdich : ∀ q ∈ r.achieved, q.2 = 0 ∨ 1 / 10 ^ 8 < |q.2| := by
    intro q hq
    obtain ⟨p, hp, rfl⟩ := hmem q hq
    rcases hbig p hp with h0 | h0
    · left; simp [h0]
    · right
      rw [abs_of_nonneg (div_nonneg (hval p hp) htp.le), lt_div_iff₀ htp]
      calc _ = total / 10 ^ 8 := by ring
        _ < _ := h0
  have hkept := kept_eq_self hdich
  have hkmem : ∀ q, q ∈ kept r.achieved ↔ q ∈ r.achieved ∧ q.2 ≠ 0 := by intro q; rw [hkept, List.mem_filter]; simp
  have htw : totalWeight r.achieved = spent prices r.shares / total := by
    unfold totalWeight
    rw [hkept, sum_nonzero, hach, List.map_map, hspent]
    rw [show (Prod.snd ∘ fun p : String × K => (p.1, (held r.shares p.1 : K) * priceOf prices p.1 / total)) =
      fun p => (held r.shares p.1 : K) * priceOf prices p.1 * total⁻¹ by funext p; simp [div_eq_mul_inv]]
    rw [List.sum_map_mul_right, div_eq_mul_inv]
  have hv' : Valid r.achieved prices (spent prices r.shares) lots := by
    refine ⟨fun q hq => ?_, ?_, fun q hq => ?_, hpos, fun q hq => ?_, ?_⟩
    · obtain ⟨p, hp, rfl⟩ := hmem q hq
      exact hv.priced p (List.mem_filter.1 hp).1
    · obtain ⟨p, hp, hne⟩ := hsome
      have hq : (p.1, (held r.shares p.1 : K) * priceOf prices p.1 / total) ∈ r.achieved := by
        rw [hach]; exact List.mem_map.2 ⟨p, hp, rfl⟩
      refine ⟨_, hq, (hdich _ hq).resolve_left ?_⟩
      have h1 : (held r.shares p.1 : K) ≠ 0 := by exact_mod_cast hne
      exact div_ne_zero (mul_ne_zero h1 (hpp p hp).ne') htp.ne'
    · obtain ⟨p, hp, rfl⟩ := hmem q ((hkmem q).1 hq).1
      exact hpp p hp
    · obtain ⟨p, hp, rfl⟩ := hmem q ((hkmem q).1 hq).1
      exact hv.lot_pos p hp
    · rw [htw]; exact div_pos hpos htp
  have hl' : LongOnly r.achieved := by
    intro q hq
    obtain ⟨p, hp, rfl⟩ := hmem q ((hkmem q).1 hq).1
    exact div_nonneg (hval p hp) htp.le
  have hn' : (r.achieved.map Prod.fst).Nodup := by
    rw [hach, List.map_map]
    exact hn.sublist (List.Sublist.map _ List.filter_sublist)
  have hchoice : ∃ j : String → ℤ, ∀ p ∈ kept weights, held r.shares p.1 = j p.1 * lotSize lots p.1 := by
    refine ⟨fun k => held r.shares k / lotSize lots k, fun p hp => ?_⟩
    obtain ⟨k, -, e⟩ := hlong p hp
    show _ = held r.shares p.1 / lotSize lots p.1 * lotSize lots p.1
    rw [e, Int.mul_ediv_cancel _ (hv.lot_pos p hp).ne']
  obtain ⟨j, hj⟩ := hchoice
  obtain ⟨r', e1, e2, e3, e4⟩ := C187_greedy (Or.inl lower_greedy) hv' hl' hn' j (fun q hq => by
    obtain ⟨p, hp, rfl⟩ := hmem q ((hkmem q).1 hq).1
    show (held r.shares p.1 : K) * priceOf prices p.1 / total / totalWeight r.achieved * spent prices r.shares = _
    rw [htw, div_div_div_cancel_right₀ htp.ne', div_mul_cancel₀ _ hpos.ne', hj p hp]
    unfold lotCost
    push_cast
    ring) maxIter' sortBy' solve'
  refine ⟨r', e1, fun k => ?_, e3, e4⟩
  by_cases hk : ∃ p ∈ kept weights, k = p.1 ∧ held r.shares p.1 ≠ 0
  · obtain ⟨p, hp, rfl, hne⟩ := hk
    have hq : (p.1, (held r.shares p.1 : K) * priceOf prices p.1 / total) ∈ kept r.achieved := by
      rw [hkmem]
      refine ⟨by rw [hach]; exact List.mem_map.2 ⟨p, hp, rfl⟩, ?_⟩
      have h1 : (held r.shares p.1 : K) ≠ 0 := by exact_mod_cast hne
      exact div_ne_zero (mul_ne_zero h1 (hpp p hp).ne') htp.ne'
    rw [e2 _ hq, hj p hp]
  · have h0 : held r.shares k = 0 := by
      by_contra hne
      by_cases hin : k ∈ (kept weights).map Prod.fst
      · obtain ⟨p, hp, rfl⟩ := List.mem_map.1 hin
        exact hk ⟨p, hp, rfl, hne⟩
      · exact hne (held_off h hin)
    rw [h0]
    refine held_off e1 fun hin => ?_
    obtain ⟨q, hq, rfl⟩ := List.mem_map.1 hin
    obtain ⟨hq1, hq2⟩ := (hkmem q).1 hq
    obtain ⟨p, hp, rfl⟩ := hmem q hq1
    exact hq2 (by show (held r.shares p.1 : K) * _ / _ = 0; rw [h0]; simp)

/-- A sort of the weights in descending order (`sort_values(ascending=False)`), whatever it does with equal weights. -/
def SortsDescending (sortBy : (inp : Input K) → Equiv.Perm (Fin inp.n)) : Prop :=
  ∀ inp : Input K, ∀ i j, i ≤ j → inp.w (sortBy inp j) ≤ inp.w (sortBy inp i)

private theorem run_cast {n n' : ℕ} (h : n = n') (s : Sorted K n) (s' : Sorted K n') (h1 : ∀ i, s'.w (Fin.cast h i) = s.w i)
    (h2 : ∀ i, s'.price (Fin.cast h i) = s.price i) (h3 : ∀ i, s'.lot (Fin.cast h i) = s.lot i) (h4 : s'.total = s.total) (maxIter : Option ℤ)
    {x : GState K n} {x' : GState K n'}
    (e : loop s (resolveMaxIter n maxIter) (enoughFuel n (resolveMaxIter n maxIter)) (initState s) = some x)
    (e' : loop s' (resolveMaxIter n' maxIter) (enoughFuel n' (resolveMaxIter n' maxIter)) (initState s') = some x') :
    ∀ i, x'.shares (Fin.cast h i) = x.shares i := by
  subst h
  have : s' = s := by
    obtain ⟨a, b, c, d⟩ := s
    obtain ⟨a', b', c', d'⟩ := s'
    simp only [Fin.cast_refl, id_eq] at h1 h2 h3 h4
    rw [funext h1, funext h2, funext h3, h4]
  subst this
  rw [e] at e'
  injection e' with e'
  subst e'
  intro i
  rfl

/-- The kept assets in descending order of weight. -/
private theorem sorted_list {inp : Input K} (hin : mkInput weights prices total lots = .ok inp) (σ : Equiv.Perm (Fin inp.n)) :
    (List.ofFn fun i => (inp.name (σ i), inp.w (σ i))).Perm ((kept weights).map fun p => (p.1, p.2 / totalWeight weights)) := by
  rw [← input_zip hin, List.ofFn_eq_map, List.ofFn_eq_map]
  have : ((List.finRange inp.n).map fun i => (inp.name (σ i), inp.w (σ i))) =
      ((List.finRange inp.n).map σ).map fun i => (inp.name i, inp.w i) := by rw [List.map_map]; rfl
  rw [this]
  exact List.Perm.map _ (Equiv.Perm.map_finRange_perm σ)

/-- **C186** The order of the assets does not matter: with distinct kept weights, permuting the weights (and giving prices and lots in any order)
leaves every holding, the leftover cash and the tracking error of the greedy allocation unchanged, for any two descending sorts. -/
theorem C186_order {weights' prices' : List (String × K)} {lots' : Option (List (String × ℤ))} {method : String}
    (hm : method.toLower = "greedy" ∨ method.toLower = "rounddown") (hv : Valid weights prices total lots) (hl : LongOnly weights) (hn : (weights.map Prod.fst).Nodup)
    (hdist : ((kept weights).map Prod.snd).Nodup) (hperm : weights'.Perm weights) (hprice : ∀ k, prices'.lookup k = prices.lookup k)
    (hlots : ∀ k, lotSize lots' k = lotSize lots k) (maxIter : Option ℤ)
    (sortBy sortBy' : (inp : Input K) → Equiv.Perm (Fin inp.n)) (hs : SortsDescending sortBy) (hs' : SortsDescending sortBy')
    (solve solve' : (inp : Input K) → Option (MipPoint K inp.n)) :
    ∃ r r', discretize weights prices total lots method maxIter .none sortBy solve = .ok r ∧
      discretize weights' prices' total lots' method maxIter .none sortBy' solve' = .ok r' ∧
      (∀ k, held r'.shares k = held r.shares k) ∧ r'.leftover = r.leftover ∧ r'.trackingError = r.trackingError := by
  have hkp : (kept weights').Perm (kept weights) := hperm.filter _
  have htw : totalWeight weights' = totalWeight weights := (hkp.map _).sum_eq
  have hpo : ∀ k, priceOf prices' k = priceOf prices k := fun k => by unfold priceOf; rw [hprice]
  have hv' : Valid weights' prices' total lots' := by
    refine ⟨fun p hp => ?_, ?_, fun p hp => ?_, hv.total_pos, fun p hp => ?_, by rw [htw]; exact hv.weight_pos⟩
    · rw [hprice]; exact hv.priced p (hperm.mem_iff.1 hp)
    · obtain ⟨p, hp, h⟩ := hv.some_weight
      exact ⟨p, hperm.mem_iff.2 hp, h⟩
    · rw [hpo]; exact hv.price_pos p (hkp.mem_iff.1 hp)
    · rw [hlots]; exact hv.lot_pos p (hkp.mem_iff.1 hp)
  have hl' : LongOnly weights' := fun p hp => hl p (hkp.mem_iff.1 hp)
  have hn' : (weights'.map Prod.fst).Nodup := (hperm.map _).nodup_iff.2 hn
  have hmeth : parseMethod method = .ok .greedy := if_pos hm
  have run : ∀ {W P : List (String × K)} {L : Option (List (String × ℤ))} (_ : Valid W P total L) (_ : LongOnly W)
      (sb : (inp : Input K) → Equiv.Perm (Fin inp.n)) (sv : (inp : Input K) → Option (MipPoint K inp.n)),
      ∃ inp x r, mkInput W P total L = .ok inp ∧ discretize W P total L method maxIter .none sb sv = .ok r ∧
        loop (inp.sorted (sb inp)) (resolveMaxIter inp.n maxIter) (enoughFuel inp.n (resolveMaxIter inp.n maxIter)) (initState (inp.sorted (sb inp))) = some x ∧
        buildResult inp (fun i => x.shares ((sb inp).symm i)) = .ok r := by
    intro W P L hV hL sb sv
    obtain ⟨inp, raw, r, hin, he, -, -⟩ := discretize_greedy_none hm hV hL maxIter sb sv
    have hsh := (longOnly_iff hin).mpr hL
    obtain ⟨x, ex, -⟩ := loop_init_spec ((accepted_of_mkInput hin).svalid hsh (sb inp)) (resolveMaxIter inp.n maxIter)
    refine ⟨inp, x, r, hin, he, ex, ?_⟩
    unfold discretize at he
    rw [hin] at he
    simp only [hmeth] at he
    unfold allocateGreedy at he
    have ex' : loop (inp.sorted (sb inp)) (resolveMaxIter inp.n maxIter) (enoughFuel inp.n (resolveMaxIter inp.n maxIter))
      (initState (inp.sorted (sb inp))) = some x := ex
    rw [hsh] at he
    simp only [Bool.false_eq_true, if_false, ex', ne_eq, not_true_eq_false, false_and] at he
    exact he
  obtain ⟨inp, x, r, hin, he, ex, hb⟩ := run hv hl sortBy solve
  obtain ⟨inp', x', r', hin', he', ex', hb'⟩ := run hv' hl' sortBy' solve'
  refine ⟨r, r', he, he', ?_⟩
  -- both runs see the same sorted list of assets
  have hlist : (List.ofFn fun i => (inp'.name (sortBy' inp' i), inp'.w (sortBy' inp' i))) =
      List.ofFn fun i => (inp.name (sortBy inp i), inp.w (sortBy inp i)) := by
    have p1 := sorted_list hin (sortBy inp)
    have p2 := sorted_list hin' (sortBy' inp')
    have p3 : ((kept weights').map fun p => (p.1, p.2 / totalWeight weights')).Perm ((kept weights).map fun p => (p.1, p.2 / totalWeight weights)) := by
      rw [htw]; exact hkp.map _
    have hinjw : ∀ a ∈ (kept weights).map (fun p => (p.1, p.2 / totalWeight weights)),
        ∀ b ∈ (kept weights).map (fun p => (p.1, p.2 / totalWeight weights)), a.2 = b.2 → a = b := by
      intro a ha b hb hab
      obtain ⟨p, hp, rfl⟩ := List.mem_map.1 ha
      obtain ⟨q, hq, rfl⟩ := List.mem_map.1 hb
      have h2 : p.2 = q.2 := by
        have := hv.weight_pos.ne'
        simp only at hab
        field_simp at hab
        exact hab
      have : p = q := List.inj_on_of_nodup_map hdist hp hq h2
      rw [this]
    have hsorted : ∀ {i : Input K} {sb : (inp : Input K) → Equiv.Perm (Fin inp.n)}, SortsDescending sb →
        (List.ofFn fun k => (i.name (sb i k), i.w (sb i k))).Pairwise (fun a b => b.2 ≤ a.2) := by
      intro i sb hsb
      rw [List.pairwise_ofFn]
      intro a b hab
      exact hsb i a b hab.le
    refine List.Perm.eq_of_pairwise (le := fun a b : String × K => b.2 ≤ a.2) ?_ (hsorted hs') (hsorted hs) ((p2.trans p3).trans p1.symm)
    intro a b ha hb h1 h2
    exact hinjw a (((p2.trans p3).mem_iff).1 ha) b ((p1.mem_iff).1 hb) (le_antisymm h2 h1)
  have hN : inp.n = inp'.n := by simpa using (congrArg List.length hlist).symm
  have hpt : ∀ i : Fin inp.n, inp'.name (sortBy' inp' (Fin.cast hN i)) = inp.name (sortBy inp i) ∧
      inp'.w (sortBy' inp' (Fin.cast hN i)) = inp.w (sortBy inp i) := by
    intro i
    have h1 := List.getElem_of_eq hlist (i := (i : ℕ)) (by simp; omega)
    simp only [List.getElem_ofFn] at h1
    exact ⟨congrArg Prod.fst h1, congrArg Prod.snd h1⟩
  obtain ⟨t1, -, m3, -, t5, t6⟩ := input_labels hin
  obtain ⟨t1', -, m3', -, t5', t6'⟩ := input_labels hin'
  have hpr : ∀ i : Fin inp.n, inp'.price (sortBy' inp' (Fin.cast hN i)) = inp.price (sortBy inp i) := by
    intro i; rw [t5', (hpt i).1, hpo, t5]
  have hlo : ∀ i : Fin inp.n, inp'.lot (sortBy' inp' (Fin.cast hN i)) = inp.lot (sortBy inp i) := by
    intro i; rw [t6', (hpt i).1, hlots, t6]
  have hshares := run_cast hN (inp.sorted (sortBy inp)) (inp'.sorted (sortBy' inp')) (fun i => (hpt i).2) hpr hlo (t1'.trans t1.symm) maxIter ex ex'
  obtain ⟨b1, b2, -, -, b5⟩ := buildResult_ok hb
  obtain ⟨b1', b2', -, -, b5'⟩ := buildResult_ok hb'
  have hsum : ∀ (f : Fin inp.n → K) (f' : Fin inp'.n → K), (∀ i, f' (sortBy' inp' (Fin.cast hN i)) = f (sortBy inp i)) → ∑ i, f' i = ∑ i, f i := by
    intro f f' hff
    rw [← Equiv.sum_comp (sortBy inp) f, ← Equiv.sum_comp (sortBy' inp') f', ← Equiv.sum_comp (finCongr hN) (fun i => f' (sortBy' inp' i))]
    exact Finset.sum_congr rfl fun i _ => hff i
  refine ⟨fun k => ?_, ?_, ?_⟩
  · by_cases hk : k ∈ (kept weights).map Prod.fst
    · have : ∃ i, inp.name i = k := by
        obtain ⟨p, hp, rfl⟩ := List.mem_map.1 hk
        obtain ⟨-, -, -, m4, -⟩ := input_labels hin
        obtain ⟨i, hi, -⟩ := m4 p hp
        exact ⟨i, hi⟩
      obtain ⟨i, rfl⟩ := this
      obtain ⟨i, rfl⟩ := (sortBy inp).surjective i
      rw [b1, held_dictOf inp (name_injective hin hn), ← (hpt i).1, b1', held_dictOf inp' (name_injective hin' hn')]
      simp only [Equiv.symm_apply_apply]
      exact hshares i
    · rw [held_off he hk, held_off he' (fun h => hk ((hkp.map Prod.fst).mem_iff.1 h))]
  · rw [b2, b2', t1, t1', hsum (fun i => ((x.shares ((sortBy inp).symm i) : ℤ) : K) * inp.price i) _ (fun i => ?_)]
    simp only [Equiv.symm_apply_apply]
    rw [hshares, hpr]
  · rw [b5, b5']
    refine hsum (fun i => |inp.w i - ((x.shares ((sortBy inp).symm i) : ℤ) : K) * inp.price i / inp.total|) _ fun i => ?_
    simp only [Equiv.symm_apply_apply]
    rw [hshares, hpr, (hpt i).2, t1, t1']

/-- A descending sort exists (ties broken by position). -/
theorem sortsDescending_exists : SortsDescending (K := K) (fun inp => Tuple.sort (fun i => -inp.w i)) := by
  intro inp i j hij
  have := Tuple.monotone_sort (fun i => -inp.w i) hij
  simpa using this

/-- The example call of C01 and its reverse. -/
example : ∃ r r', discretize exW exP 1000 exLots "greedy" none .none (fun inp => Tuple.sort (fun i => -inp.w i)) (fun _ => none) = .ok r ∧
    discretize exW.reverse exP 1000 exLots "greedy" none .none (fun inp => Tuple.sort (fun i => -inp.w i)) (fun _ => none) = .ok r' ∧
    ∀ k, held r'.shares k = held r.shares k := by
  obtain ⟨r, r', h1, h2, h3, -⟩ := C186_order (method := "greedy") (Or.inl lower_greedy) exValid exLong (by decide) (by decide +kernel) (List.reverse_perm exW)
    (fun _ => rfl) (fun _ => rfl) none _ _ sortsDescending_exists sortsDescending_exists (fun _ => none) (fun _ => none)
  exact ⟨r, r', h1, h2, h3⟩

/-- An attainable target: 30 % and 70 % of 1000 at prices 30 and 100 are 10 and 7 shares. -/
example : ∃ r, discretize [("A", 3), ("B", 7)] [("A", 30), ("B", 100)] (1000 : ℚ) none "greedy" none .none (fun _ => Equiv.refl _) (fun _ => none) = .ok r ∧
    held r.shares "A" = 10 ∧ held r.shares "B" = 7 ∧ r.leftover = 0 ∧ r.trackingError = 0 := by
  have hv : Valid [("A", (3 : ℚ)), ("B", 7)] [("A", 30), ("B", 100)] 1000 none := by
    refine ⟨?_, ⟨("A", 3), by simp, by decide +kernel⟩, ?_, by norm_num, ?_, by decide +kernel⟩
    · intro p hp
      simp at hp
      rcases hp with rfl | rfl <;> exact ⟨_, rfl⟩
    · have : ∀ p ∈ kept [("A", (3 : ℚ)), ("B", 7)], 0 < priceOf [("A", (30 : ℚ)), ("B", 100)] p.1 := by decide +kernel
      exact this
    · have : ∀ p ∈ kept [("A", (3 : ℚ)), ("B", 7)], 0 < lotSize none p.1 := by decide +kernel
      exact this
  have hl : LongOnly [("A", (3 : ℚ)), ("B", 7)] := by
    have : ∀ p ∈ kept [("A", (3 : ℚ)), ("B", 7)], 0 ≤ p.2 := by decide +kernel
    exact this
  have hj : ∀ p ∈ kept [("A", (3 : ℚ)), ("B", 7)], p.2 / totalWeight [("A", (3 : ℚ)), ("B", 7)] * 1000 =
      ((if p.1 = "A" then 10 else 7 : ℤ) : ℚ) * lotCost [("A", (30 : ℚ)), ("B", 100)] none p.1 := by decide +kernel
  obtain ⟨r, h1, h2, h3, h4⟩ := C187_greedy (method := "greedy") (Or.inl lower_greedy) hv hl (by decide) (fun k => if k = "A" then 10 else 7) hj none
    (fun _ => Equiv.refl _) (fun _ => none)
  have hA : ("A", (3 : ℚ)) ∈ kept [("A", (3 : ℚ)), ("B", 7)] := by decide +kernel
  have hB : ("B", (7 : ℚ)) ∈ kept [("A", (3 : ℚ)), ("B", 7)] := by decide +kernel
  exact ⟨r, h1, by simpa [lotSize] using h2 _ hA, by simpa [lotSize] using h2 _ hB, h3, h4⟩

/-- The round trip on a concrete allocation: 16 and 5 shares for 980 of 1000. -/
example : ∃ r', discretize [("A", 12 / 25), ("B", 1 / 2)] [("A", 30), ("B", 100)] (spent [("A", (30 : ℚ)), ("B", 100)] [("A", 16), ("B", 5)]) none "greedy" none
    .none (fun _ => Equiv.refl _) (fun _ => none) = .ok r' ∧ (∀ k, held r'.shares k = held [("A", 16), ("B", 5)] k) ∧ r'.leftover = 0 := by
  have h : discretize [("A", 1), ("B", 1)] [("A", 30), ("B", 100)] (1000 : ℚ) none "greedy" none .none (fun _ => Equiv.refl _) (fun _ => none) =
      .ok ⟨[("A", 16), ("B", 5)], 20, [("A", 12 / 25), ("B", 1 / 2)], 1 / 50⟩ := by decide +kernel
  have hv : Valid [("A", (1 : ℚ)), ("B", 1)] [("A", 30), ("B", 100)] 1000 none := by
    obtain ⟨inp, -, hin, -⟩ := discretize_ok h
    exact ((mkInput_ok_valid _ _ _ _ _).1 hin).1
  have hk : kept [("A", (1 : ℚ)), ("B", 1)] = [("A", 1), ("B", 1)] := by decide +kernel
  obtain ⟨r', h1, h2, h3, -⟩ := C187_round_trip (by decide) hv h
    (by rw [hk]; intro p hp; simp at hp; rcases hp with rfl | rfl
        · exact ⟨16, by decide +kernel, by decide +kernel⟩
        · exact ⟨5, by decide +kernel, by decide +kernel⟩)
    (by rw [hk]; exact ⟨("A", 1), by simp, by decide +kernel⟩)
    (by rw [hk]; intro p hp; simp at hp; rcases hp with rfl | rfl <;> (right; decide +kernel)) none (fun _ => Equiv.refl _) (fun _ => none)
  exact ⟨r', h1, h2, h3⟩

end PyV.Props
