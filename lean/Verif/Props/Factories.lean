import Verif.Props.Distribution
import Mathlib.Algebra.BigOperators.Fin
import Mathlib.Tactic.FieldSimp

/-! # C101, C102: `PortfolioWrapper.from_prices` and `from_scenarios` -/

namespace PyV.Props

open PyV PyV.Api Matrix

/-- The price history is `P`: `T + 1` rows (dates, oldest first) of `N` finite prices. -/
def PriceHistory (a : PriceArg) {T N : ℕ} (P : Fin (T + 1) → Fin N → ℝ) : Prop :=
  ∃ (hr : a.g.rows = T + 1) (hc : a.g.cols = N), ∀ t i, a.g.e t i = .fin (P (t.cast hr) (i.cast hc))

/-- Equally weighted scenarios `R`, their mean and their covariance. -/
structure UniformScenarios (d : Dist) {T N : ℕ} (R : Fin T → Fin N → ℝ) (mu : Fin N → ℝ) (cov : Matrix (Fin N) (Fin N) ℝ) : Prop where
  eq : ∃ names, d = ⟨N, some mu, some cov, some ⟨T, R, fun _ => 1 / (T : ℝ)⟩, names⟩
  mean : ∀ i, mu i = (∑ t, R t i) / T
  covariance : ∀ i j, cov i j = (∑ t, (R t i - mu i) * (R t j - mu j)) / T

theorem holds_unique {s : GridArg} {r c r' c' : ℕ} {v : Fin r → Fin c → ℝ} {v' : Fin r' → Fin c' → ℝ}
    (h : s.Holds v) (h' : s.Holds v') : r = r' ∧ c = c' ∧ HEq v v' := by
  obtain ⟨g, hg, hr, hc, he⟩ := h
  obtain ⟨g', hg', hr', hc', he'⟩ := h'
  have : g = g' := by
    rcases hg with rfl | ⟨i, k, rfl⟩ <;> rcases hg' with h | ⟨i', k', h⟩
    · injection h
    · cases h
    · cases h
    · injection h
  subst this
  subst hr; subst hc
  subst hr'; subst hc'
  refine ⟨rfl, rfl, heq_of_eq ?_⟩
  funext i j
  have := he i j
  rw [he' i j] at this
  injection this with this
  exact this.symm

private theorem scen_valid {s : GridArg} {T N : ℕ} {R : Fin T → Fin N → ℝ} (hT : 0 < T) (hN : 0 < N) (h : s.Holds R)
    {p : Option (List (PyFloat ℝ))} (hp : ProbsOk T p) : ValidInputs { scenarios := some s, probabilities := p } N := by
  refine ⟨hN, by simp, by simp, by simp, ?_, ?_, ?_⟩
  · intro s' hs
    simp only [Option.some.injEq] at hs
    subst hs
    exact ⟨T, R, hT, h, hp⟩
  · intro l hl l' hl'
    cases s <;> simp [labelLists] at hl hl'
    rw [hl, hl']
  · intro l hl
    obtain ⟨g, hg, hr, hc, -⟩ := h
    rcases hg with rfl | ⟨i, k, rfl⟩
    · simp [labelLists] at hl
    · simp only [labelLists, List.nil_append, List.append_nil, List.mem_singleton] at hl
      rw [hl, List.length_ofFn, hc]

theorem uniform_dist {s : GridArg} {T N : ℕ} {R : Fin T → Fin N → ℝ} (hT : 0 < T) (hN : 0 < N) (h : s.Holds R) :
    ∃ d mu cov, mkDist { scenarios := some s } = .ok d ∧ UniformScenarios d R mu cov ∧
      (∀ l ∈ labelLists { scenarios := some s }, d.names = some l) ∧ (labelLists { scenarios := some s } = [] → d.names = none) := by
  obtain ⟨d, hd⟩ := (C74_accepts_iff { scenarios := some s }).2 ⟨N, scen_valid hT hN h (by intro l hl; simp at hl)⟩
  obtain ⟨-, -, -, -, hs, hn1, hn2⟩ := C74_contents hd
  obtain ⟨sc, hsc, hh, -, -, hp, -, hm, hc⟩ := hs s rfl
  obtain ⟨N', mu, cov, scen, names⟩ := d
  obtain ⟨T', R', p'⟩ := sc
  simp only at hsc hh hp hm hc hn1 hn2
  obtain ⟨rfl, rfl, hR⟩ := holds_unique h hh
  have hR := eq_of_heq hR
  subst hR
  have hp := funext (hp trivial)
  subst hp
  obtain ⟨C, hC, hCe⟩ := hc trivial
  replace hm := hm trivial
  clear hs hc
  rw [hm, hC, hsc] at hd
  refine ⟨_, _, _, hd, ⟨⟨names, rfl⟩, fun i => ?_, fun i j => ?_⟩, hn1, hn2⟩
  · rw [Finset.sum_div]
    exact Finset.sum_congr rfl fun t _ => by ring
  · rw [hCe, Finset.sum_div]
    exact Finset.sum_congr rfl fun t _ => by ring

private theorem holds_array {g : Grid} {T N : ℕ} {R : Fin T → Fin N → ℝ} (hr : g.rows = T) (hc : g.cols = N)
    (h : ∀ t i, g.e t i = .fin (R (t.cast hr) (i.cast hc))) (b : Bool) (cols : Fin g.cols → String) :
    (if b then GridArg.frame g (fun _ => "") cols else .array g).Holds R := by
  cases b
  · exact ⟨g, .inl rfl, hr, hc, h⟩
  · exact ⟨g, .inr ⟨_, _, rfl⟩, hr, hc, h⟩

/-- **C101.** A finite, strictly positive price history with at least two rows and one column, as an array or a DataFrame, gives
one equally weighted scenario per consecutive pair of rows: the simple returns, with their sample mean and covariance. -/
theorem C101_returns {a : PriceArg} {T N : ℕ} {P : Fin (T + 1) → Fin N → ℝ} (h : PriceHistory a P) (hT : 0 < T) (hN : 0 < N)
    (hpos : ∀ t i, 0 < P t i) :
    ∃ d mu cov, fromPrices a = .ok d ∧ UniformScenarios d (fun (t : Fin T) i => P t.succ i / P t.castSucc i - 1) mu cov ∧
      d.names = if a.isFrame then some (List.ofFn a.columns) else none := by
  obtain ⟨b, g, cols⟩ := a
  obtain ⟨hr, hc, he⟩ := h
  simp only at hr hc he cols
  have hr' : (priceReturns g).rows = T := by simp [priceReturns, hr]
  have hret : ∀ t i, (priceReturns g).e t i =
      .fin (P (t.cast hr').succ (i.cast hc) / P (t.cast hr').castSucc (i.cast hc) - 1) := by
    intro t i
    have ht : (t : ℕ) < g.rows - 1 := t.2
    exact congrArg₂ ratioM1 (he ⟨t + 1, by omega⟩ i) (he ⟨t, by omega⟩ i)
  obtain ⟨d, mu, cov, hd, hu, hn1, hn2⟩ := uniform_dist hT hN
    (holds_array (R := fun (t : Fin T) i => P t.succ i / P t.castSucc i - 1) hr' hc hret b cols)
  refine ⟨d, mu, cov, ?_, hu, ?_⟩
  · unfold fromPrices
    simp only
    rw [if_neg (by omega), if_neg, hd]
    rw [not_not]
    intro i j
    rw [he]
    refine ⟨by cases b <;> simp [isNan, PyFloat.isFinite], ?_⟩
    simpa [PyFloat.le] using hpos _ _
  · cases b
    · exact hn2 rfl
    · exact hn1 _ (by simp only [labelLists]; simp; rfl)

/-- **C101.** The returns compound to the total price change of every asset. -/
theorem C101_compounding {T N : ℕ} {P : Fin (T + 1) → Fin N → ℝ} (hpos : ∀ t i, 0 < P t i) {a : PriceArg} (h : PriceHistory a P)
    (hT : 0 < T) (hN : 0 < N) :
    ∃ d mu cov R, fromPrices a = .ok d ∧ @UniformScenarios d T N R mu cov ∧ (∀ t i, -1 < R t i) ∧
      ∀ i, ∏ t, (1 + R t i) = P (Fin.last T) i / P 0 i := by
  obtain ⟨d, mu, cov, hd, hu, -⟩ := C101_returns h hT hN hpos
  refine ⟨d, mu, cov, _, hd, hu, fun t i => ?_, fun i => ?_⟩
  · have := div_pos (hpos t.succ i) (hpos t.castSucc i); linarith
  · have e : ∀ t : Fin T, 1 + (P t.succ i / P t.castSucc i - 1) = P t.succ i / P t.castSucc i := fun t => by ring
    simp only [e]
    clear hd hu e h hT
    induction T with
    | zero => simp [div_self (hpos 0 i).ne']
    | succ T ih =>
      rw [Fin.prod_univ_castSucc]
      have := ih (P := fun t => P t.castSucc) (fun t i => hpos _ i)
      simp only [Fin.succ_castSucc] at this ⊢
      rw [this]
      simp only [Fin.castSucc_zero, Fin.succ_last]
      have h1 := (hpos 0 i).ne'
      have h2 := (hpos (Fin.last T).castSucc i).ne'
      field_simp

private theorem finite_iff {x : PyFloat ℝ} : x.isFinite = true ↔ x = .fin x.val := by cases x <;> simp [PyFloat.isFinite, PyFloat.val]

/-- **C101.** An array is accepted exactly when it has at least two rows, at least one column and only finite, strictly positive
entries; every rejection, of an array or a DataFrame, is a `ValueError`. -/
theorem C101_array_accepts_iff {a : PriceArg} (ha : a.isFrame = false) :
    (∃ d, fromPrices a = .ok d) ↔ ∃ (T N : ℕ) (P : Fin (T + 1) → Fin N → ℝ), PriceHistory a P ∧ 0 < T ∧ 0 < N ∧ ∀ t i, 0 < P t i := by
  constructor
  · rintro ⟨d, hd⟩
    unfold fromPrices at hd
    split at hd
    · cases hd
    rename_i h2
    split at hd
    · cases hd
    rename_i hok
    rw [not_not] at hok
    have hN := (C74_contents hd).1
    obtain ⟨b, g, cols⟩ := a
    simp only at ha hok h2
    subst ha
    obtain ⟨r, c, e⟩ := g
    simp only at hok h2 hN
    obtain ⟨T, rfl⟩ : ∃ T, r = T + 1 := ⟨r - 1, by omega⟩
    refine ⟨T, c, fun t i => (e t i).val, ⟨rfl, rfl, fun t i => finite_iff.1 (by simpa using (hok t i).1)⟩, by omega, ?_, fun t i => ?_⟩
    · obtain ⟨T', v, -, hv, -⟩ := hN.scen _ rfl
      obtain ⟨g', hg', -, hc, -⟩ := hv
      simp only [Bool.false_eq_true, if_false] at hg'
      rcases hg' with h | ⟨i, k, h⟩
      · injection h with h
        subst h
        have := hN.pos
        simp only [priceReturns] at hc
        omega
      · cases h
    · have h1 := (hok t i).1
      have h3 := (hok t i).2
      simp only [Bool.false_eq_true, if_false] at h1
      simp only at h3
      rw [finite_iff.1 h1] at h3
      simpa [PyFloat.le] using h3
  · rintro ⟨T, N, P, h, hT, hN, hpos⟩
    obtain ⟨d, -, -, hd, -⟩ := C101_returns h hT hN hpos
    exact ⟨d, hd⟩

/-- **C101.** See `C101_array_accepts_iff`. -/
theorem C101_value_error {a : PriceArg} {e : PyErr} (h : fromPrices a = .error e) : e = .valueError := by
  unfold fromPrices at h
  split at h
  · injection h with h; exact h.symm
  split at h
  · injection h with h; exact h.symm
  · exact C74_value_error h

/-- Three dates, two assets. -/
example : ∃ d, fromPrices ⟨false, ⟨3, 2, fun t i => .fin (100 + (t : ℝ) * i)⟩, fun _ => ""⟩ = .ok d :=
  (C101_array_accepts_iff rfl).2 ⟨2, 2, fun t i => 100 + (t : ℝ) * i, ⟨rfl, rfl, fun _ _ => rfl⟩, by norm_num, by norm_num,
    fun t i => by positivity⟩

/-- **C101 (counterexample).** A DataFrame is tested for NaN and for non-positive entries but not for infinities: an infinite first
price is accepted and becomes a finite scenario, a loss of 100%. -/
theorem C101_counterexample : ∃ (a : PriceArg) (d : Dist), a.isFrame = true ∧ a.g.rows = 2 ∧ a.g.cols = 1 ∧
    (∃ t i, a.g.e t i = .posInf) ∧ fromPrices a = .ok d ∧ ∃ mu cov, @UniformScenarios d 1 1 (fun _ _ => -1) mu cov := by
  obtain ⟨d, mu, cov, hd, hu, -⟩ := uniform_dist (T := 1) (N := 1) (R := fun _ _ => -1) (by norm_num) (by norm_num)
    (s := .frame (priceReturns ⟨2, 1, fun t _ => if t = 0 then .posInf else .fin 1⟩) (fun _ => "") (fun _ => "A"))
    ⟨_, .inr ⟨_, _, rfl⟩, rfl, rfl, fun t i => by
      have ht : t = ⟨0, by simp [priceReturns]⟩ := by
        apply Fin.ext
        have := t.2
        simp [priceReturns] at this
        simpa using this
      subst ht
      rfl⟩
  refine ⟨⟨true, ⟨2, 1, fun t _ => if t = 0 then .posInf else .fin 1⟩, fun _ => "A"⟩, d, rfl, rfl, rfl, ⟨⟨0, by norm_num⟩, 0, by simp⟩, ?_, mu, cov, hu⟩
  unfold fromPrices
  simp only
  rw [if_neg (by norm_num), if_neg]
  · exact hd
  · rw [not_not]
    intro i j
    simp only [if_true]
    split <;> simp [isNan, PyFloat.le]

/-- **C102.** With `return_type = "log"` and finite log scenarios `X`, whatever the probabilities: the scenarios of the distribution are
`exp(X) - 1`, all above -100%, their weights are a probability vector proportional to the given one (uniform when omitted), and the
mean is the weighted mean of the simple returns.  Any other `return_type` keeps the scenarios as they are. -/
theorem C102_conversion {s : GridArg} {T N : ℕ} {X : Fin T → Fin N → ℝ} (hs : s.Holds X) (hT : 0 < T) (hN : 0 < N)
    {p : Option (List (PyFloat ℝ))} (hp : ProbsOk T p) (returnType : String) :
    ∃ mu cov names q, fromScenarios s p returnType = .ok ⟨N, some mu, some cov,
        some ⟨T, fun t i => if returnType = "log" then Real.exp (X t i) - 1 else X t i, q⟩, names⟩ ∧
      (returnType = "log" → ∀ t i, -1 < Real.exp (X t i) - 1) ∧
      (∀ t, 0 ≤ q t) ∧ ∑ t, q t = 1 ∧ (p = none → ∀ t, q t = 1 / (T : ℝ)) ∧
      (∀ l, p = some l → ∃ k : ℝ, 0 < k ∧ l = List.ofFn (fun t => PyFloat.fin (k * q t))) ∧
      ∀ i, mu i = ∑ t, q t * (if returnType = "log" then Real.exp (X t i) - 1 else X t i) := by
  set Y : Fin T → Fin N → ℝ := fun t i => if returnType = "log" then Real.exp (X t i) - 1 else X t i with hY
  set s' := (if returnType = "log" then toSimple s else s) with hs'
  have hh : s'.Holds Y := by
    by_cases hl : returnType = "log"
    · rw [hs', if_pos hl]
      obtain ⟨g, hg, hr, hc, he⟩ := hs
      have : ∀ t i, expM1 (g.e t i) = .fin (Y (t.cast hr) (i.cast hc)) := by
        intro t i
        rw [he]
        simp [expM1, hY, hl]
      rcases hg with rfl | ⟨i, k, rfl⟩
      · exact ⟨_, .inl rfl, hr, hc, this⟩
      · exact ⟨_, .inr ⟨_, _, rfl⟩, hr, hc, this⟩
    · rw [hs', if_neg hl]
      have : Y = X := by funext t i; simp [hY, hl]
      rw [this]
      exact hs
  obtain ⟨d, hd⟩ := (C74_accepts_iff { scenarios := some s', probabilities := p }).2 ⟨N, scen_valid hT hN hh hp⟩
  obtain ⟨-, -, -, -, hsc, -, -⟩ := C74_contents hd
  obtain ⟨sc, h1, h2, h3, h4, h5, h6, h7, h8⟩ := hsc s' rfl
  obtain ⟨N', mu, cov, scen, names⟩ := d
  obtain ⟨T', R', q⟩ := sc
  simp only at h1 h2 h3 h4 h5 h6 h7 h8
  obtain ⟨rfl, rfl, hR⟩ := holds_unique hh h2
  have hR := eq_of_heq hR
  subst hR
  obtain ⟨C, hC, -⟩ := h8 trivial
  rw [h1, h7 trivial, hC] at hd
  refine ⟨_, C, names, q, hd, ?_, h3, h4, h5, h6, fun i => rfl⟩
  intro hl t i
  have := Real.exp_pos (X t i)
  linarith

/-- **C102.** Log scenarios are converted to simple returns: every `return_type = "log"` call equals the call on `exp(x) - 1`, so all
scenario returns exceed -100%; the conversion of log price relatives gives the distribution `from_prices` builds. -/
theorem C102_log_scenarios {a : PriceArg} {T N : ℕ} {P : Fin (T + 1) → Fin N → ℝ} (h : PriceHistory a P) (hT : 0 < T) (hN : 0 < N)
    (hpos : ∀ t i, 0 < P t i) {s : GridArg} (hs : s.Holds (fun (t : Fin T) i => Real.log (P t.succ i / P t.castSucc i)))
    (hlab : labelLists { scenarios := some s } = if a.isFrame then [List.ofFn a.columns] else []) :
    fromScenarios s none "log" = fromPrices a := by
  obtain ⟨d, mu, cov, hd, ⟨⟨names, rfl⟩, hm, hc⟩, hn⟩ := C101_returns h hT hN hpos
  have hs' : (toSimple s).Holds (fun (t : Fin T) i => P t.succ i / P t.castSucc i - 1) := by
    obtain ⟨g, hg, hr, hc, he⟩ := hs
    have : ∀ t i, expM1 (g.e t i) = .fin (P (t.cast hr).succ (i.cast hc) / P (t.cast hr).castSucc (i.cast hc) - 1) := by
      intro t i
      rw [he]
      simp only [expM1, Real.exp_log (div_pos (hpos _ _) (hpos _ _))]
    rcases hg with rfl | ⟨i, k, rfl⟩
    · exact ⟨_, .inl rfl, hr, hc, this⟩
    · exact ⟨_, .inr ⟨_, _, rfl⟩, hr, hc, this⟩
  obtain ⟨d', mu', cov', hd', ⟨⟨names', rfl⟩, hm', hc'⟩, hn1, hn2⟩ := uniform_dist hT hN hs'
  have hl : labelLists { scenarios := some (toSimple s) } = labelLists { scenarios := some s } := by cases s <;> rfl
  rw [hl, hlab] at hn1 hn2
  have e1 : mu' = mu := funext fun i => by rw [hm, hm']
  subst e1
  have e2 : cov' = cov := by ext i j; rw [hc, hc']
  subst e2
  have e3 : names' = names := by
    simp only at hn hn1 hn2
    rw [hn]
    cases hb : a.isFrame with
    | false => rw [hb] at hn2; simpa using hn2 (by simp)
    | true => rw [hb] at hn1; simpa using hn1 _ (by simp)
  subst e3
  rw [hd]
  unfold fromScenarios
  rw [if_pos rfl]
  exact hd'

end PyV.Props
