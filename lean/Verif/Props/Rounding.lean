import Verif.Props.Discrete
import Verif.Props.EnsembleRisk
import Verif.Props.Risk
import Verif.Lemmas.Ensembles

/-! # Property C264: what rounding to whole shares does to return and risk -/

namespace PyV.Props

open PyV PyV.Spec PyV.Risk PyV.Opt PyV.Spec.Opt PyV.Discrete PyV.Spec.Discrete

variable {N : ℕ}

/-- The weights an allocator aims at: those larger than `1e-8` in size, divided by their sum. -/
noncomputable def intended (name : Fin N → String) (w : Fin N → ℝ) : Fin N → ℝ := fun i =>
  if 1 / 10 ^ 8 < |w i| then w i / totalWeight (List.ofFn fun i => (name i, w i)) else 0

/-- The weight a labelled list gives to a name (0 when absent). -/
noncomputable def weightIn (l : List (String × ℝ)) (k : String) : ℝ := (l.lookup k).getD 0

private theorem sum_filter {α : Type*} (l : List α) (P : α → Bool) (f : α → ℝ) :
    ((l.filter P).map f).sum = (l.map fun x => if P x then f x else 0).sum := by
  induction l with
  | nil => rfl
  | cons a l ih =>
    by_cases h : P a
    · rw [List.filter_cons_of_pos h, List.map_cons, List.sum_cons, List.map_cons, List.sum_cons, ih, if_pos h]
    · rw [List.filter_cons_of_neg h, List.map_cons, List.sum_cons, if_neg h, ih, zero_add]

/-! ## Return, volatility and CVaR as functions of the weights -/

private theorem ret_near {mu x y : Fin N → ℝ} {B : ℝ} (hB : ∀ i, |mu i| ≤ B) : |ret mu y - ret mu x| ≤ B * ∑ i, |x i - y i| := by
  unfold ret
  rw [← Finset.sum_sub_distrib, Finset.mul_sum]
  refine (Finset.abs_sum_le_sum_abs _ _).trans (Finset.sum_le_sum fun i _ => ?_)
  rw [← mul_sub, abs_mul, abs_sub_comm (y i)]
  exact mul_le_mul_of_nonneg_right (hB i) (abs_nonneg _)

private theorem entry_le {C : Fin N → Fin N → ℝ} (hC : IsCov C) {s : ℝ} (hs : ∀ i, Real.sqrt (C i i) ≤ s) (i j : Fin N) : |C i j| ≤ s * s := by
  have hs0 : ∀ i, 0 ≤ s := fun i => (Real.sqrt_nonneg _).trans (hs i)
  have hq : ∀ (k : Fin N) (e : ℝ), quad C (Pi.single k e) = e * C k k * e := by
    intro k e
    unfold quad
    rw [Finset.sum_eq_single k (fun b _ hb => Finset.sum_eq_zero fun c _ => by rw [Pi.single_eq_of_ne hb]; ring) (by simp),
      Finset.sum_eq_single k (fun b _ hb => by rw [Pi.single_eq_of_ne hb]; ring) (by simp), Pi.single_eq_same]
  have hc : ∀ e : ℝ, covForm C (Pi.single i e) (Pi.single j 1) = e * C i j := by
    intro e
    unfold covForm
    rw [Finset.sum_eq_single i (fun b _ hb => Finset.sum_eq_zero fun c _ => by rw [Pi.single_eq_of_ne hb]; ring) (by simp),
      Finset.sum_eq_single j (fun b _ hb => by rw [Pi.single_eq_of_ne hb]; ring) (by simp), Pi.single_eq_same, Pi.single_eq_same, mul_one]
  have key : Real.sqrt (C i i) * Real.sqrt (C j j) ≤ s * s := mul_le_mul (hs i) (hs j) (Real.sqrt_nonneg _) (hs0 i)
  rw [abs_le']
  constructor
  · have := covForm_le hC (Pi.single i 1) (Pi.single j 1)
    rw [hc, hq, hq] at this
    simp only [one_mul, mul_one] at this
    exact this.trans key
  · have := covForm_le hC (Pi.single i (-1)) (Pi.single j 1)
    rw [hc, hq, hq] at this
    simp only [one_mul, mul_one, neg_mul, mul_neg, neg_neg] at this
    exact this.trans key

private theorem vol_small {C : Fin N → Fin N → ℝ} (hC : IsCov C) {s : ℝ} (h0 : 0 ≤ s) (hs : ∀ i, Real.sqrt (C i i) ≤ s) (d : Fin N → ℝ) :
    Real.sqrt (quad C d) ≤ s * ∑ i, |d i| := by
  refine Real.sqrt_le_iff.2 ⟨mul_nonneg h0 (Finset.sum_nonneg fun i _ => abs_nonneg _), ?_⟩
  have e : (s * ∑ i, |d i|) ^ 2 = ∑ i, ∑ j, |d i| * (s * s) * |d j| := by
    rw [mul_pow, sq (∑ i, |d i|), Finset.sum_mul_sum, Finset.mul_sum]
    refine Finset.sum_congr rfl fun i _ => ?_
    rw [Finset.mul_sum]
    exact Finset.sum_congr rfl fun j _ => by ring
  rw [e]
  unfold quad
  refine Finset.sum_le_sum fun i _ => Finset.sum_le_sum fun j _ => ?_
  calc d i * C i j * d j ≤ |d i * C i j * d j| := le_abs_self _
    _ = |d i| * |C i j| * |d j| := by rw [abs_mul, abs_mul]
    _ ≤ |d i| * (s * s) * |d j| := mul_le_mul_of_nonneg_right (mul_le_mul_of_nonneg_left (entry_le hC hs i j) (abs_nonneg _)) (abs_nonneg _)

private theorem vol_triangle {C : Fin N → Fin N → ℝ} (hC : IsCov C) (x y : Fin N → ℝ) :
    Real.sqrt (quad C y) ≤ Real.sqrt (quad C x) + Real.sqrt (quad C fun i => y i - x i) := by
  have hx : 0 ≤ quad C x := hC.2 x
  have hd : 0 ≤ quad C fun i => y i - x i := hC.2 _
  refine Real.sqrt_le_iff.2 ⟨add_nonneg (Real.sqrt_nonneg _) (Real.sqrt_nonneg _), ?_⟩
  rw [add_sq, Real.sq_sqrt hx, Real.sq_sqrt hd]
  have h1 := covForm_le hC x fun i => y i - x i
  have hsym : covForm C (fun i => y i - x i) x = covForm C x fun i => y i - x i := by
    unfold covForm
    rw [Finset.sum_comm]
    exact Finset.sum_congr rfl fun i _ => Finset.sum_congr rfl fun j _ => by rw [hC.1 j i]; ring
  have e : quad C y = quad C x + covForm C x (fun i => y i - x i) + covForm C (fun i => y i - x i) x + quad C fun i => y i - x i := by
    unfold quad covForm
    simp only [← Finset.sum_add_distrib]
    exact Finset.sum_congr rfl fun i _ => Finset.sum_congr rfl fun j _ => by ring
  rw [e, hsym]
  linarith

private theorem vol_near {C : Fin N → Fin N → ℝ} (hC : IsCov C) {s : ℝ} (h0 : 0 ≤ s) (hs : ∀ i, Real.sqrt (C i i) ≤ s) (x y : Fin N → ℝ) :
    |Real.sqrt (quad C y) - Real.sqrt (quad C x)| ≤ s * ∑ i, |x i - y i| := by
  have h1 := vol_triangle hC x y
  have h2 := vol_triangle hC y x
  have h3 := vol_small hC h0 hs fun i => y i - x i
  have h4 := vol_small hC h0 hs fun i => x i - y i
  have e : ∑ i, |y i - x i| = ∑ i, |x i - y i| := Finset.sum_congr rfl fun i _ => abs_sub_comm _ _
  rw [e] at h3
  rw [abs_le]
  constructor <;> linarith

private theorem cvar_near {T : ℕ} {p X Y : Fin T → ℝ} (hp : IsProb p) {conf u v k : ℝ} (hc : conf < 1) (hX : IsCvar p X conf u) (hY : IsCvar p Y conf v)
    (h : ∀ t, X t - k ≤ Y t) : v ≤ u + k := by
  obtain ⟨⟨a, ha⟩, -⟩ := hX
  refine (hY.2 ⟨a + k, rfl⟩).trans ?_
  rw [← ha]
  unfold ru expect
  have : (∑ t, p t * max (-(Y t) - (a + k)) 0) / (1 - conf) ≤ (∑ t, p t * max (-(X t) - a) 0) / (1 - conf) := by
    refine div_le_div_of_nonneg_right (Finset.sum_le_sum fun t _ => mul_le_mul_of_nonneg_left (max_le_max ?_ le_rfl) (hp.nonneg t)) (by linarith)
    have := h t
    linarith
  linarith

variable {prices : List (String × ℝ)} {total : ℝ} {lots : Option (List (String × ℤ))} {method : String} {maxIter : Option ℤ} {mode : Mode}
  {sortBy : (inp : Input ℝ) → Equiv.Perm (Fin inp.n)} {solve : (inp : Input ℝ) → Option (MipPoint ℝ inp.n)} {r : Discrete.Result ℝ}

/-- **C264** For every successful call the tracking error is the L1 distance between the weights aimed at and the weights achieved, asset by
asset, and bounds what rounding does to the portfolio: its expected return moves by at most the largest absolute mean times the tracking
error, its volatility by at most the largest volatility of an asset times it, its CVaR by at most the largest absolute scenario return times it. -/
theorem C264_rounding {name : Fin N → String} (hname : Function.Injective name) (w : Fin N → ℝ)
    (h : discretize (List.ofFn fun i => (name i, w i)) prices total lots method maxIter mode sortBy solve = .ok r) :
    r.trackingError = (∑ i, |intended name w i - weightIn r.achieved (name i)|) ∧
    (∀ (mu : Fin N → ℝ) (B : ℝ), (∀ i, |mu i| ≤ B) →
      |ret mu (fun i => weightIn r.achieved (name i)) - ret mu (intended name w)| ≤ B * r.trackingError) ∧
    (∀ (C : Fin N → Fin N → ℝ) (s : ℝ), IsCov C → 0 ≤ s → (∀ i, Real.sqrt (C i i) ≤ s) →
      |Real.sqrt (quad C fun i => weightIn r.achieved (name i)) - Real.sqrt (quad C (intended name w))| ≤ s * r.trackingError) ∧
    ∀ (T : ℕ) (argsort : (Fin T → ℝ) → Equiv.Perm (Fin T)) (R : Fin T → Fin N → ℝ) (p : Fin T → ℝ) (conf B : ℝ), IsArgsort argsort → IsProb p →
      0 < conf → conf < 1 → (∀ t i, |R t i| ≤ B) → ∃ u v, portfolioCvar argsort (intended name w) R (some p) (some conf) false = .ok u ∧
        portfolioCvar argsort (fun i => weightIn r.achieved (name i)) R (some p) (some conf) false = .ok v ∧ |v - u| ≤ B * r.trackingError := by
  set ws := List.ofFn fun i => (name i, w i) with hws
  have hn : (ws.map Prod.fst).Nodup := by
    rw [hws, List.map_ofFn]
    exact List.nodup_ofFn.2 hname
  obtain ⟨-, -, -, hach, hte⟩ := C03_cash_conserved hn h
  set got : String → ℝ := fun k => held r.shares k * priceOf prices k / total with hgot
  have hkn : (r.achieved.map Prod.fst).Nodup := by
    rw [hach, List.map_map]
    have : (Prod.fst ∘ fun p : String × ℝ => (p.1, got p.1)) = Prod.fst := rfl
    rw [this]
    exact hn.sublist (List.filter_sublist.map _)
  have hval : ∀ i, weightIn r.achieved (name i) = if 1 / 10 ^ 8 < |w i| then got (name i) else 0 := by
    intro i
    unfold weightIn
    by_cases hi : 1 / 10 ^ 8 < |w i|
    · have hmem : (name i, got (name i)) ∈ r.achieved := by
        rw [hach]
        refine List.mem_map.2 ⟨(name i, w i), List.mem_filter.2 ⟨(List.mem_ofFn' _ _).2 ⟨i, rfl⟩, by simpa using hi⟩, rfl⟩
      rw [(Ens.lookup_iff hkn).2 hmem, if_pos hi]
      rfl
    · rw [if_neg hi]
      cases hl : r.achieved.lookup (name i) with
      | none => rfl
      | some v =>
        exfalso
        have hmem := (Ens.lookup_iff hkn).1 hl
        rw [hach] at hmem
        obtain ⟨q, hq, e⟩ := List.mem_map.1 hmem
        obtain ⟨hq1, hq2⟩ := List.mem_filter.1 hq
        obtain ⟨j, rfl⟩ := (List.mem_ofFn' _ _).1 hq1
        have : name j = name i := congrArg Prod.fst e
        rw [hname this] at hq2
        exact hi (by simpa using hq2)
  have hsum : r.trackingError = ∑ i, |intended name w i - weightIn r.achieved (name i)| := by
    rw [hte]
    unfold kept
    rw [sum_filter, hws, List.map_ofFn, List.sum_ofFn]
    refine Finset.sum_congr rfl fun i _ => ?_
    rw [hval]
    unfold intended
    simp only [Function.comp, decide_eq_true_eq]
    split_ifs
    · rfl
    · simp
  refine ⟨hsum, fun mu B hB => hsum ▸ ret_near hB, fun C s hC h0 hs => hsum ▸ vol_near hC h0 hs _ _,
    fun T argsort R p conf B ha hp hc0 hc1 hB => ?_⟩
  obtain ⟨u, e1, c1⟩ := (C12_cvar_is_ru_minimum ha (intended name w) R (some p) hp conf false).1 ⟨hc0, hc1⟩
  obtain ⟨v, e2, c2⟩ := (C12_cvar_is_ru_minimum ha (fun i => weightIn r.achieved (name i)) R (some p) hp conf false).1 ⟨hc0, hc1⟩
  refine ⟨u, v, e1, e2, ?_⟩
  have hclose : ∀ t, |effPnl (fun i => weightIn r.achieved (name i)) R (some p) false t - effPnl (intended name w) R (some p) false t| ≤
      B * r.trackingError := by
    intro t
    rw [hsum]
    exact ret_near (mu := R t) (hB t)
  have h1 := cvar_near hp hc1 c1 c2 (k := B * r.trackingError) fun t => by have := (abs_le.1 (hclose t)).1; linarith
  have h2 := cvar_near hp hc1 c2 c1 (k := B * r.trackingError) fun t => by have := (abs_le.1 (hclose t)).2; linarith
  rw [abs_le]
  constructor <;> linarith

/-- Two assets, 40% and 60%, at prices 30 and 70, with 1000 to invest: the call succeeds and C264 bounds the change in expected return. -/
example : ∃ r : Discrete.Result ℝ, discretize (List.ofFn fun i : Fin 2 => ((![("A" : String), "B"] : Fin 2 → String) i, (![2 / 5, 3 / 5] : Fin 2 → ℝ) i))
      [("A", 30), ("B", 70)] 1000 none "greedy" none .none (fun _ => Equiv.refl _) (fun _ => none) = .ok r ∧
    |ret ![1 / 10, 1 / 20] (fun i => weightIn r.achieved ((![("A" : String), "B"] : Fin 2 → String) i)) -
      ret ![1 / 10, 1 / 20] (intended ![("A" : String), "B"] ![2 / 5, 3 / 5])| ≤ 1 / 10 * r.trackingError := by
  have hk : kept ([("A", 2 / 5), ("B", 3 / 5)] : List (String × ℝ)) = [("A", 2 / 5), ("B", 3 / 5)] := by
    unfold kept
    rw [List.filter_eq_self]
    intro p hp
    simp only [List.mem_cons, List.not_mem_nil, or_false] at hp
    rcases hp with rfl | rfl <;> simp <;> rw [abs_of_pos (by norm_num)] <;> norm_num
  have e : (List.ofFn fun i : Fin 2 => ((![("A" : String), "B"] : Fin 2 → String) i, (![2 / 5, 3 / 5] : Fin 2 → ℝ) i)) = [("A", 2 / 5), ("B", 3 / 5)] := by
    simp [List.ofFn_succ]
  have hv : Valid ([("A", 2 / 5), ("B", 3 / 5)] : List (String × ℝ)) [("A", 30), ("B", 70)] 1000 none := by
    refine ⟨?_, ⟨("A", 2 / 5), by simp, by rw [abs_of_pos (by norm_num)]; norm_num⟩, ?_, by norm_num, ?_, ?_⟩
    · intro p hp
      simp only [List.mem_cons, List.not_mem_nil, or_false] at hp
      rcases hp with rfl | rfl
      · exact ⟨30, rfl⟩
      · exact ⟨70, rfl⟩
    · rw [hk]
      intro p hp
      simp only [List.mem_cons, List.not_mem_nil, or_false] at hp
      rcases hp with rfl | rfl
      · show (0 : ℝ) < 30; norm_num
      · show (0 : ℝ) < 70; norm_num
    · intro p _
      show (0 : ℤ) < 1
      norm_num
    · unfold totalWeight
      rw [hk]
      simp
      norm_num
  have hl : LongOnly ([("A", 2 / 5), ("B", 3 / 5)] : List (String × ℝ)) := by
    unfold LongOnly
    rw [hk]
    intro p hp
    simp only [List.mem_cons, List.not_mem_nil, or_false] at hp
    rcases hp with rfl | rfl <;> norm_num
  obtain ⟨r, hr, -⟩ := C02_greedy_within_budget (Or.inl lower_greedy) hv hl none (fun _ => Equiv.refl _) (fun _ => none)
  rw [← e] at hr
  refine ⟨r, hr, (C264_rounding (name := ![("A" : String), "B"]) ?_ _ hr).2.1 _ _ ?_⟩
  · intro i j hij
    fin_cases i <;> fin_cases j <;> simp_all
  · intro i
    fin_cases i
    · simp [abs_of_pos]
    · simp; norm_num

end PyV.Props
