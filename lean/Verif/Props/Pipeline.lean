import Verif.Model.Pipeline
import Verif.Props.FrontierTable
import Verif.Props.Factories
import Verif.Props.ViewsHandoff
import Verif.Props.OptCvar
import Mathlib.Tactic

/-! # Property C165: from a price history to whole shares -/

namespace PyV.Props

open PyV PyV.Api PyV.Spec.Api PyV.Opt PyV.Spec.Opt PyV.Spec.Con PyV.Spec PyV.Spec.Discrete PyV.Ens PyV.Fr

section column

variable {K : Type*} [Field K] [LinearOrder K] [IsStrictOrderedRing K] [FloorRing K] {L : Type*}

private theorem kept_total {n : ℕ} (x : Fin n → K) (nm : Fin n → String) (hx : ∀ i, 0 ≤ x i) (hs : ∑ i, x i = 1) :
    1 - n / 10 ^ 8 ≤ totalWeight (List.ofFn fun i => (nm i, x i)) ∧ totalWeight (List.ofFn fun i => (nm i, x i)) ≤ 1 ∧
      ∀ i, 1 / 10 ^ 8 < x i → x i ≤ totalWeight (List.ofFn fun i => (nm i, x i)) := by
  have e : totalWeight (List.ofFn fun i => (nm i, x i)) = ∑ i, if 1 / 10 ^ 8 < x i then x i else 0 := by
    unfold totalWeight kept
    have key : ∀ l : List (Fin n), (((l.map fun i => (nm i, x i)).filter fun p => decide ((1:K) / 10 ^ 8 < |p.2|)).map Prod.snd).sum =
        (l.map fun i => if 1 / 10 ^ 8 < x i then x i else 0).sum := by
      intro l
      induction l with
      | nil => rfl
      | cons a l ih =>
        simp only [List.map_cons, List.filter_cons, abs_of_nonneg (hx a), List.sum_cons]
        by_cases h : 1 / 10 ^ 8 < x a
        · simp only [h, decide_true, if_true, List.map_cons, List.sum_cons]
          rw [ih]
        · simp only [h, decide_false, if_false, zero_add]
          simpa using ih
    have := key (List.finRange n)
    rw [← List.ofFn_eq_map, ← List.ofFn_eq_map] at this
    rw [this, List.sum_ofFn]
  rw [e]
  have hterm : ∀ i, 0 ≤ (if 1 / 10 ^ 8 < x i then x i else 0) := fun i => by split; exacts [hx i, le_rfl]
  refine ⟨?_, ?_, fun i hi => ?_⟩
  · have h1 : ∑ i, x i ≤ ∑ i, ((if 1 / 10 ^ 8 < x i then x i else 0) + 1 / 10 ^ 8) := by
      apply Finset.sum_le_sum
      intro i _
      have : (0:K) ≤ 1 / 10 ^ 8 := by positivity
      split
      · linarith
      · rename_i h; simpa using not_lt.mp h
    rw [hs, Finset.sum_add_distrib, Finset.sum_const, Finset.card_univ, Fintype.card_fin, nsmul_eq_mul] at h1
    have : (n:K) * (1 / 10 ^ 8) = n / 10 ^ 8 := by ring
    linarith
  · rw [← hs]
    apply Finset.sum_le_sum
    intro i _
    split
    · exact le_rfl
    · exact hx i
  · have := Finset.single_le_sum (fun j _ => hterm j) (Finset.mem_univ i)
    simpa only [hi, if_true] using this

/-- **C165** (shares of a column) A long-only, fully invested frontier portfolio of fewer than 10⁸ distinctly labelled assets, quoted at the
positive prices `q`, is turned into whole lots for any positive amount of money: nothing is overspent, and the money in every asset, as a
fraction of the amount, differs from its weight by less than one lot, plus the `1e-8` cut-off of the weights once per asset. -/
theorem C165_column (h : Held String L K) (nm : Fin h.n → String) (hnm : Function.Injective nm)
    (hnames : h.names = some (List.ofFn nm) ∨ (h.names = none ∧ ∀ i, nm i = "Asset_" ++ (i : ℕ).repr)) (hbig : h.n < 10 ^ 8)
    (k : Fin h.m) (hlong : ∀ i, 0 ≤ h.f.weights i k) (hfull : ∑ i, h.f.weights i k = 1)
    (prices : List (String × K)) (q : Fin h.n → K) (hq : ∀ i, prices.lookup (nm i) = some (q i)) (hq0 : ∀ i, 0 < q i) (total : K) (ht : 0 < total)
    (lots : Option (List (String × ℤ))) (hlots : ∀ i, 0 < lotSize lots (nm i)) (maxIter : Option ℤ)
    (sortBy : (inp : Discrete.Input K) → Equiv.Perm (Fin inp.n)) (solve : (inp : Discrete.Input K) → Option (Discrete.MipPoint K inp.n)) :
    ∃ r, asDiscrete h ((k : ℕ) : ℤ) prices total "greedy" lots maxIter .none sortBy solve = .ok r ∧ 0 ≤ r.leftover ∧
      spent prices r.shares ≤ total + 1 / 10 ^ 12 ∧
      ∀ i, |held r.shares (nm i) * q i / total - h.f.weights i k| < lotSize lots (nm i) * q i / total + h.n / 10 ^ 8 := by
  set x : Fin h.n → K := fun i => h.f.weights i k with hx
  have hcol : labelledColumn h k = List.ofFn fun i => (nm i, x i) := by
    unfold labelledColumn
    congr 1
    funext i
    rcases hnames with hn | ⟨hn, hn'⟩
    · have : (match h.names with | some l => l.getD i "" | none => "Asset_" ++ (i : ℕ).repr) = nm i := by
        rw [hn]; simp
      exact Prod.ext this rfl
    · have : (match h.names with | some l => l.getD i "" | none => "Asset_" ++ (i : ℕ).repr) = nm i := by
        rw [hn, hn']
      exact Prod.ext this rfl
  have hn : ∀ l, h.names = some l → l.length = h.n ∧ l.Nodup := by
    intro l hl
    rcases hnames with hn | ⟨hn, -⟩
    · rw [hn] at hl; injection hl with hl; subst hl
      exact ⟨by simp, List.nodup_ofFn.mpr hnm⟩
    · rw [hn] at hl; cases hl
  obtain ⟨k1, k2, k3⟩ := kept_total x nm hlong hfull
  have hn8 : (h.n : K) < 10 ^ 8 := by exact_mod_cast hbig
  have hpos : 0 < totalWeight (labelledColumn h k) := by
    rw [hcol]
    have : (h.n : K) / 10 ^ 8 < 1 := by rw [div_lt_one (by positivity)]; exact hn8
    linarith
  have hpr : ∀ i, priceOf prices (nm i) = q i := fun i => by unfold priceOf; rw [hq]; rfl
  have hmem : ∀ p ∈ labelledColumn h k, ∃ i, p = (nm i, x i) := by
    intro p hp
    rw [hcol] at hp
    obtain ⟨i, rfl⟩ := (List.mem_ofFn' _ _).mp hp
    exact ⟨i, rfl⟩
  have hkeep : ∀ p ∈ kept (labelledColumn h k), ∃ i, p = (nm i, x i) := fun p hp => hmem p (List.mem_filter.mp hp).1
  have hV : Spec.Discrete.Valid (labelledColumn h k) prices total lots := by
    refine ⟨fun p hp => ?_, ?_, fun p hp => ?_, ht, fun p hp => ?_, hpos⟩
    · obtain ⟨i, rfl⟩ := hmem p hp; exact ⟨q i, hq i⟩
    · by_contra hcon
      push Not at hcon
      have : kept (labelledColumn h k) = [] := by
        unfold kept
        rw [List.filter_eq_nil_iff]
        intro p hp
        simpa using hcon p hp
      unfold totalWeight at hpos
      rw [this] at hpos
      simp at hpos
    · obtain ⟨i, rfl⟩ := hkeep p hp
      show 0 < priceOf prices (nm i)
      rw [hpr]; exact hq0 i
    · obtain ⟨i, rfl⟩ := hkeep p hp; exact hlots i
  obtain ⟨r, h1, h2, h3, h4⟩ := C141_greedy h hn k hlong prices total lots hV maxIter sortBy solve
  refine ⟨r, h1, h2, h3, fun i => ?_⟩
  have hlc : lotCost prices lots (nm i) = q i * lotSize lots (nm i) := by unfold lotCost; rw [hpr]
  have hn0 : (0:K) ≤ h.n / 10 ^ 8 := by positivity
  have hlq : (0:K) < lotSize lots (nm i) * q i / total :=
    div_pos (mul_pos (by exact_mod_cast hlots i) (hq0 i)) ht
  by_cases hi : 1 / 10 ^ 8 < x i
  · have hm : (nm i, x i) ∈ kept (labelledColumn h k) := by
      refine List.mem_filter.mpr ⟨?_, ?_⟩
      · rw [hcol]; exact (List.mem_ofFn' _ _).mpr ⟨i, rfl⟩
      · have := abs_of_nonneg (hlong i)
        simp only [decide_eq_true_eq]
        show _ < |x i|
        rwa [show |x i| = x i from this]
    have h5 := h4 _ hm
    simp only at h5
    rw [hpr, hlc, hcol] at h5
    rw [hcol] at hpos
    set tw := totalWeight (List.ofFn fun i => (nm i, x i)) with htw
    have e1 : (held r.shares (nm i) * q i - x i / tw * total) = (held r.shares (nm i) * q i / total - x i / tw) * total := by
      field_simp
    rw [e1, abs_mul, abs_of_pos ht, ← lt_div_iff₀ ht] at h5
    have h6 : |x i / tw - x i| ≤ h.n / 10 ^ 8 := by
      have h7 : x i / tw ≤ 1 := (div_le_one hpos).mpr (k3 i hi)
      have h8 : x i / tw - x i = x i / tw * (1 - tw) := by field_simp
      have h9 : 0 ≤ x i / tw := div_nonneg (hlong i) hpos.le
      rw [h8, abs_of_nonneg (mul_nonneg h9 (by linarith))]
      calc x i / tw * (1 - tw) ≤ 1 * (1 - tw) := mul_le_mul_of_nonneg_right h7 (by linarith)
        _ ≤ _ := by linarith
    have := abs_sub_le (held r.shares (nm i) * q i / total) (x i / tw) (x i)
    calc _ ≤ _ := this
      _ < q i * lotSize lots (nm i) / total + h.n / 10 ^ 8 := by linarith
      _ = _ := by rw [mul_comm (q i)]
  · have hz : held r.shares (nm i) = 0 := by
      rw [(C141_column h (fun l hl => (hn l hl).1) _ prices total "greedy" lots maxIter .none sortBy solve).2 k rfl] at h1
      obtain ⟨inp, raw, hin, hb, -⟩ := Discrete.discretize_ok h1
      obtain ⟨b1, -⟩ := Discrete.buildResult_ok hb
      obtain ⟨-, -, l3, -⟩ := Discrete.input_labels hin
      have hnot : ∀ p ∈ r.shares, p.1 ≠ nm i := by
        intro p hp hpi
        rw [b1] at hp
        obtain ⟨j, hj, rfl⟩ := List.mem_map.mp hp
        obtain ⟨p, hp, hp1, -⟩ := l3 j
        obtain ⟨j', rfl⟩ := hkeep p hp
        simp only at hp1 hpi
        have : j' = i := hnm (hp1.symm.trans hpi)
        subst this
        have := (List.mem_filter.mp hp).2
        simp only [decide_eq_true_eq] at this
        rw [show |x j'| = x j' from abs_of_nonneg (hlong j')] at this
        exact hi this
      unfold Spec.Discrete.held
      rw [List.lookup_eq_none_iff.mpr]
      · rfl
      · intro p hp
        simpa using fun h => hnot p hp h.symm
    rw [hz]
    simp only [Int.cast_zero, zero_mul, zero_div, zero_sub, abs_neg]
    show |x i| < _
    rw [abs_of_nonneg (hlong i)]
    have : (1:K) / 10 ^ 8 ≤ h.n / 10 ^ 8 := by
      have : (1:K) ≤ h.n := by exact_mod_cast i.pos
      gcongr
    linarith [not_lt.mp hi]

end column

variable {N T : ℕ}

/-- Average of the portfolio's returns over the history. -/
noncomputable def histMean (R : Fin T → Fin N → ℝ) (x : Fin N → ℝ) : ℝ := (∑ t, ∑ i, x i * R t i) / T

/-- Variance of the portfolio's returns over the history. -/
noncomputable def histVar (R : Fin T → Fin N → ℝ) (x : Fin N → ℝ) : ℝ := (∑ t, (∑ i, x i * R t i - histMean R x) ^ 2) / T

private theorem hist_moments {d : Dist} {R : Fin T → Fin N → ℝ} {mu : Fin N → ℝ} {cov : Matrix (Fin N) (Fin N) ℝ} (hT : 0 < T)
    (hu : UniformScenarios d R mu cov) : (∀ x, ret mu x = histMean R x) ∧ (∀ x, quad (fun i j => cov i j) x = histVar R x) := by
  have hT' : (T : ℝ) ≠ 0 := by positivity
  have hm : ∀ x, ret mu x = histMean R x := by
    intro x
    unfold ret histMean
    rw [Finset.sum_comm, Finset.sum_div]
    refine Finset.sum_congr rfl fun i _ => ?_
    rw [hu.mean, ← Finset.mul_sum]
    ring
  refine ⟨hm, fun x => ?_⟩
  have hdev : ∀ t, ∑ i, x i * R t i - histMean R x = ∑ i, x i * (R t i - mu i) := by
    intro t
    rw [← hm]
    unfold ret
    rw [← Finset.sum_sub_distrib]
    exact Finset.sum_congr rfl fun i _ => by ring
  unfold quad histVar
  simp only [hdev, sq, Finset.sum_mul_sum, hu.covariance]
  simp only [Finset.sum_div, Finset.mul_sum, Finset.sum_mul]
  rw [Finset.sum_congr rfl fun i _ => Finset.sum_comm, Finset.sum_comm]
  exact Finset.sum_congr rfl fun t _ => Finset.sum_congr rfl fun i _ => Finset.sum_congr rfl fun j _ => by ring

/-- A long-only, fully invested portfolio. -/
def Invested (x : Fin N → ℝ) : Prop := (∀ i, 0 ≤ x i) ∧ ∑ i, x i = 1

/-- **C165** (pipeline) Take a finite, strictly positive price history as a DataFrame with distinct column labels, the default constraints,
and any convex solver that is right.  `from_prices` and `variance_frontier` succeed; every frontier portfolio is long-only and fully invested,
no such portfolio with at least its average historical return has a smaller historical variance, and the first has the smallest variance of all;
and `as_discrete_allocation` turns any of them, at any positive quotes of the same labels and for any positive amount, into whole shares
without overspending, each within one share of its weight (up to the `1e-8` cut-off). -/
theorem C165_prices_to_shares {a : PriceArg} {P : Fin (T + 1) → Fin N → ℝ} (hP : PriceHistory a P) (hf : a.isFrame = true) (hT : 0 < T) (hN : 0 < N)
    (hbig : N < 10 ^ 8) (hpos : ∀ t i, 0 < P t i) (nm : Fin N → String) (hnm : Function.Injective nm) (hcol : List.ofFn a.columns = List.ofFn nm)
    {solver : Opt.Solver} (hsnd : Sound solver) (hcmp : Complete solver) (sort : Argsort) (num : ℕ) (hnum : 1 ≤ num) :
    ∃ mu cov sc, fromPrices a = .ok ⟨N, mu, cov, sc, some (List.ofFn nm)⟩ ∧
      ∃ w : Wrapper N, mkWrapper ⟨N, mu, cov, sc, some (List.ofFn nm)⟩ none none true (some (.fin 1)) none = .ok w ∧
      ∃ F, w.varianceFrontier solver sort num none none = .ok F ∧ 0 < F.M ∧
        (∀ k : Fin F.M, Invested (fun i => F.f.weights i k) ∧
          F.f.returns k = histMean (fun (t : Fin T) i => P t.succ i / P t.castSucc i - 1) (fun i => F.f.weights i k) ∧
          F.f.risks k = Real.sqrt (histVar (fun (t : Fin T) i => P t.succ i / P t.castSucc i - 1) (fun i => F.f.weights i k)) ∧
          (∀ y, Invested y → (k : ℕ) = 0 ∨ F.f.returns k ≤ histMean (fun (t : Fin T) i => P t.succ i / P t.castSucc i - 1) y →
            F.f.risks k ≤ Real.sqrt (histVar (fun (t : Fin T) i => P t.succ i / P t.castSucc i - 1) y))) ∧
        ∀ (k : Fin F.M) (prices : List (String × ℝ)) (q : Fin N → ℝ), (∀ i, prices.lookup (nm i) = some (q i)) → (∀ i, 0 < q i) → ∀ total, 0 < total →
          ∀ (maxIter : Option ℤ) (sortBy : (inp : Discrete.Input ℝ) → Equiv.Perm (Fin inp.n))
            (solve : (inp : Discrete.Input ℝ) → Option (Discrete.MipPoint ℝ inp.n)),
          ∃ r, asDiscrete (labelled ⟨N, mu, cov, sc, some (List.ofFn nm)⟩ F) ((k : ℕ) : ℤ) prices total "greedy" none maxIter .none sortBy solve = .ok r ∧
            0 ≤ r.leftover ∧ spent prices r.shares ≤ total + 1 / 10 ^ 12 ∧
            ∀ i, |held r.shares (nm i) * q i / total - F.f.weights i k| < q i / total + N / 10 ^ 8 := by
  obtain ⟨d, mu, cov, hd, hu, hnames⟩ := C101_returns hP hT hN hpos
  obtain ⟨hmean, hvar⟩ := hist_moments hT hu
  obtain ⟨names, rfl⟩ := hu.eq
  rw [if_pos hf, hcol] at hnames
  simp only at hnames
  subst hnames
  obtain ⟨m, hm, -⟩ := C10_default_is_simplex (K := ℝ) N hN
  refine ⟨_, _, _, hd, ⟨some mu, some cov, some ⟨T, fun (t : Fin T) i => P t.succ i / P t.castSucc i - 1, fun _ => 1 / (T : ℝ)⟩, m,
    ⟨none, none, none⟩, false, none⟩, ?_, ?_⟩
  · unfold mkWrapper Fr.setupConstraints
    simp only
    rw [show (⟨true, some (.fin 1), none, [], [], [], []⟩ : PyV.Con.Spec ℝ) = PyV.Con.defaultSpec from rfl, hm]
    rfl
  have hpsd : IsCov (fun i j => cov i j) := by
    refine ⟨fun i j => ?_, fun x => ?_⟩
    · show cov i j = cov j i
      rw [hu.covariance, hu.covariance]
      exact congrArg (· / (T:ℝ)) (Finset.sum_congr rfl fun t _ => by ring)
    · show 0 ≤ quad (fun i j => cov i j) x
      rw [hvar]
      exact div_nonneg (Finset.sum_nonneg fun t _ => sq_nonneg _) (by positivity)
  have hin : InForce (⟨some mu, some cov, some ⟨T, fun (t : Fin T) i => P t.succ i / P t.castSucc i - 1, fun _ => 1 / (T : ℝ)⟩, m,
      ⟨none, none, none⟩, false, none⟩ : Wrapper N) none PyV.Con.defaultSpec := by
    refine Or.inr ⟨rfl, hm, fun _ => 0, fun h => ?_⟩
    have := ((satisfies_default _).1 h).2
    simp at this
  obtain ⟨cols, f, h1, h2, h3⟩ := C105_variance_frontier_partial hsnd hcmp sort _ mu cov rfl rfl rfl hpsd none _ hin default_bounded
    ⟨fun i => if i = ⟨0, hN⟩ then 1 else 0, (satisfies_default _).2 ⟨fun i => by split <;> norm_num, by simp⟩⟩ (limited_default hN) none none none none
    (Or.inr ⟨rfl, rfl⟩) (by simp) num
  have hlen : 0 < cols.length := by
    rcases h2.len with h | h
    · omega
    · omega
  have hw : ∀ k, (fun i => f.weights i k) = cols.get k := fun k => funext (h3 k).1
  have hinv : ∀ k, Invested (fun i => f.weights i k) := fun k => by
    rw [hw]; exact (satisfies_default _).1 (h2.inside _ (List.get_mem cols k))
  have hcost : varianceCost (fun i j => cov i j) none none = histVar (fun (t : Fin T) i => P t.succ i / P t.castSucc i - 1) := by
    funext x; rw [← hvar]; simp [varianceCost]
  rw [hcost] at h2
  refine ⟨⟨cols.length, f⟩, h1, hlen, fun k => ⟨hinv k, ?_, ?_, ?_⟩, ?_⟩
  · show f.returns k = _
    rw [hw, (h3 k).2.1, hmean]
  · show f.risks k = _
    rw [hw, (h3 k).2.2, hvar]
  · intro y hy hor
    show f.risks k ≤ _
    rw [(h3 k).2.2, hvar]
    apply Real.sqrt_le_sqrt
    rcases hor with h0 | hr
    · refine h2.first _ ?_ y ((satisfies_default y).2 hy)
      rw [List.head?_eq_getElem?, List.getElem?_eq_getElem hlen]
      simp [← h0]
    · refine h2.efficient _ (List.get_mem cols k) y ((satisfies_default y).2 hy) ?_
      rw [hmean y, ← (h3 k).2.1]
      exact hr
  · intro k prices q hq hq0 total ht maxIter sortBy solve
    obtain ⟨r, r1, r2, r3, r4⟩ := C165_column (labelled ⟨N, some mu, some cov, some ⟨T, fun (t : Fin T) i => P t.succ i / P t.castSucc i - 1,
      fun _ => 1 / (T : ℝ)⟩, some (List.ofFn nm)⟩ ⟨cols.length, f⟩) nm hnm (Or.inl rfl) hbig k (hinv k).1 (hinv k).2 prices q hq hq0 total ht none
      (fun i => by simp [lotSize]) maxIter sortBy solve
    refine ⟨r, r1, r2, r3, fun i => ?_⟩
    have := r4 i
    simpa [lotSize, labelled] using this

/-- Two dates of two labelled assets, some solver, and today's quotes in another order meet the hypotheses. -/
example : ∃ (a : PriceArg) (P : Fin (1 + 1) → Fin 2 → ℝ) (solver : Opt.Solver), PriceHistory a P ∧ a.isFrame = true ∧ (∀ t i, 0 < P t i) ∧
    List.ofFn a.columns = List.ofFn ![("A" : String), "B"] ∧ Function.Injective ![("A" : String), "B"] ∧ Sound solver ∧ Complete solver ∧
    ∀ i : Fin 2, [("B", (20 : ℝ)), ("A", 10)].lookup (![("A" : String), "B"] i) = some ((![10, 20] : Fin 2 → ℝ) i) := by
  obtain ⟨solver, h1, h2⟩ := exists_solver
  refine ⟨⟨true, ⟨2, 2, fun t i => .fin ((![![10, 20], ![11, 19]] : Fin 2 → Fin 2 → ℝ) t i)⟩, ![("A" : String), "B"]⟩, ![![10, 20], ![11, 19]], solver,
    ⟨rfl, rfl, fun t i => rfl⟩, rfl, fun t i => ?_, rfl, ?_, h1, h2, fun i => ?_⟩
  · fin_cases t <;> fin_cases i <;> norm_num
  · intro i j h
    fin_cases i <;> fin_cases j <;> simp_all
  · fin_cases i
    · show List.lookup "A" [("B", (20 : ℝ)), ("A", 10)] = _
      simp [List.lookup]
    · show List.lookup "B" [("B", (20 : ℝ)), ("A", 10)] = _
      simp [List.lookup]

end PyV.Props
