import Verif.Model.Wrapper
import Verif.Props.Factories
import Verif.Props.Validation
import Verif.Props.Projection

/-! # C103: `PortfolioWrapper.from_moments` -/

namespace PyV.Props

open PyV PyV.Api Matrix

/-- The labels supplied with the two arguments. -/
abbrev momentLabels (mu : VecArg) (cov : GridArg) : List (List String) := labelLists { mu := some mu, cov := some cov }

theorem labels_agree (mu : VecArg) (cov : GridArg) {n : ℕ} {m : Fin n → ℝ} {C : Fin n → Fin n → ℝ} (hm : mu.Holds m) (hC : cov.Holds C) :
    ∀ l ∈ momentLabels mu cov, l.length = n := by
  intro l hl
  simp only [momentLabels, labelLists, List.append_nil, List.nil_append, List.mem_append] at hl
  rcases hl with hl | hl
  · cases mu with
    | array x => simp at hl
    | series x =>
      simp only [List.mem_singleton] at hl
      subst hl
      have := congrArg List.length hm
      simpa [VecArg.vals] using this
  · obtain ⟨g, hg, hr, hc, -⟩ := hC
    rcases hg with rfl | ⟨i, k, rfl⟩
    · simp at hl
    · simp only [List.mem_cons, List.not_mem_nil, or_false] at hl
      rcases hl with rfl | rfl
      · simpa using hr
      · simpa using hc

/-- The constructor on two consistent moments. -/
theorem dist_moments {mu : VecArg} {cov : GridArg} {n : ℕ} (hn : 0 < n) {m : Fin n → ℝ} {C : Matrix (Fin n) (Fin n) ℝ} (hm : mu.Holds m)
    (hC : cov.Holds (fun i j => C i j)) (hl : ∀ l ∈ momentLabels mu cov, ∀ l' ∈ momentLabels mu cov, l = l') :
    ∃ names, mkDist { mu := some mu, cov := some cov } = .ok ⟨n, some m, some C, none, names⟩ ∧
      (∀ l ∈ momentLabels mu cov, names = some l) ∧ (momentLabels mu cov = [] → names = none) := by
  obtain ⟨d, hd⟩ := (C74_accepts_iff { mu := some mu, cov := some cov }).2 ⟨n, hn, by simp,
    fun x hx => by injection hx with hx; subst hx; exact ⟨m, hm⟩,
    fun x hx => by injection hx with hx; subst hx; exact ⟨_, hC⟩, by simp, hl, labels_agree mu cov hm hC⟩
  obtain ⟨-, h1, h2, h3, -, h4, h5⟩ := C74_contents hd
  obtain ⟨v, hv, hvm⟩ := h1 mu rfl
  obtain ⟨V, hV, hVC⟩ := h2 cov rfl
  have h6 := h3 rfl
  obtain ⟨N, dm, dc, ds, nm⟩ := d
  simp only at hv hV h6 h4 h5 v V hvm hVC
  obtain ⟨e1, e2, e3⟩ := holds_unique hVC hC
  subst e1
  have e3 : (fun i j => V i j) = fun i j => C i j := eq_of_heq e3
  have eV : V = C := by ext i j; exact congrFun (congrFun e3 i) j
  have ev : v = m := by
    unfold VecArg.Holds at hvm hm
    rw [hvm] at hm
    have := List.ofFn_injective hm
    funext i
    have := congrFun this i
    injection this
  subst eV ev hv hV h6
  exact ⟨nm, hd, h4, h5⟩

theorem squareOf_ok {cov : GridArg} {n : ℕ} {C : Fin n → Fin n → ℝ} (h : cov.Holds C) :
    ∃ lb, squareOf cov = .ok ⟨n, Matrix.of C, lb⟩ ∧ ∀ e : Fin n → Fin n → ℝ,
      (asGrid lb (fun i j => .fin (e i j))).Holds e ∧
      ∀ mu, momentLabels mu (asGrid lb (fun i j => .fin (e i j))) = momentLabels mu cov := by
  obtain ⟨⟨r, c, E⟩, hg, hr, hc, he⟩ := h
  simp only at hr hc he
  subst hr
  obtain rfl : c = r := hc
  have hE : E = fun i j => .fin (C i j) := by funext i j; exact he i j
  subst hE
  have hfin : ∀ i j : Fin c, (PyFloat.fin (C i j)).isFinite = true := fun i j => rfl
  have hsq : ∀ lb, squareGrid ⟨c, c, fun i j => .fin (C i j)⟩ lb = .ok ⟨c, Matrix.of C, lb⟩ := by
    intro lb
    unfold squareGrid
    rw [dif_pos rfl, if_pos hfin]
    cases lb <;> rfl
  rcases hg with rfl | ⟨i, k, rfl⟩
  · exact ⟨none, hsq _, fun e => ⟨⟨⟨c, c, fun i j => .fin (e i j)⟩, .inl rfl, rfl, rfl, fun i j => rfl⟩, fun mu => rfl⟩⟩
  · exact ⟨some (i, k), hsq _, fun e => ⟨⟨⟨c, c, fun i j => .fin (e i j)⟩, .inr ⟨i, k, rfl⟩, rfl, rfl, fun i j => rfl⟩, fun mu => rfl⟩⟩

/-- The covariance stored for a given one: symmetric, differing from the symmetrised argument by a non-negative multiple of the
identity, and equal to a positive semidefinite argument. -/
def Repaired {n : ℕ} (C : Fin n → Fin n → ℝ) (P : Matrix (Fin n) (Fin n) ℝ) : Prop :=
  Pᵀ = P ∧ (∃ k : ℝ, 0 ≤ k ∧ ∀ i j, P i j = (C i j + C j i) / 2 + (if i = j then k else 0)) ∧
    ((Matrix.of C).PosSemidef → ∀ i j, P i j = C i j)

theorem repaired_ok {n : ℕ} (C : Fin n → Fin n → ℝ) :
    ∃ P, Valid.ensurePsd (Matrix.of C) Valid.defaultJitter = .ok P ∧ Repaired C P := by
  have hj : (0 : ℝ) ≤ Valid.defaultJitter := by norm_num [Valid.defaultJitter]
  obtain ⟨P, hP, h1, -, h2⟩ := C45_guard_result (Matrix.of C) hj
  refine ⟨P, hP, h1, h2, fun hpsd i j => ?_⟩
  rw [C45_guard_identity hpsd hj] at hP
  injection hP with hP
  rw [← hP]; rfl

/-- **C103** Simple moments: consistent finite moments of at least one asset, with agreeing labels, are accepted and stored as they
are with those labels (or without any), the covariance after the PSD guard, which leaves a positive semidefinite matrix unchanged. -/
theorem C103_simple {mu : VecArg} {cov : GridArg} {n : ℕ} (hn : 0 < n) {m : Fin n → ℝ} {C : Fin n → Fin n → ℝ} (hm : mu.Holds m)
    (hC : cov.Holds C) (hl : ∀ l ∈ momentLabels mu cov, ∀ l' ∈ momentLabels mu cov, l = l') (rt : String) (hrt : rt ≠ "log") :
    ∃ P names, fromMoments mu cov rt = .ok ⟨n, some m, some P, none, names⟩ ∧ Repaired C P ∧
      (∀ l ∈ momentLabels mu cov, names = some l) ∧ (momentLabels mu cov = [] → names = none) := by
  obtain ⟨lb, hsq, hlb⟩ := squareOf_ok hC
  obtain ⟨P, hP, hrep⟩ := repaired_ok C
  obtain ⟨h1, h2⟩ := hlb (fun i j => P i j)
  obtain ⟨names, hd, h3, h4⟩ := dist_moments hn hm (C := P) h1 (by rw [h2]; exact hl)
  refine ⟨P, names, ?_, hrep, by rw [← h2 mu]; exact h3, by rw [← h2 mu]; exact h4⟩
  unfold fromMoments
  rw [hsq]
  simp only [hP, if_neg hrt]
  exact hd

theorem bget_eq {n : ℕ} (A : Matrix (Fin n) (Fin n) ℝ) (i j : Fin n) : bget A i j = A i j := by
  have hb : ∀ i : Fin n, bidx n i = i := by
    intro i; unfold bidx
    split
    · have := i.2; omega
    · rfl
  unfold bget
  rw [dif_pos ⟨by rw [hb]; exact i.2, by rw [hb]; exact j.2⟩]
  congr 1 <;> exact Fin.ext (hb _)

theorem logArgs_ok {mu : VecArg} {n : ℕ} {m : Fin n → ℝ} (hm : mu.Holds m) (P : Matrix (Fin n) (Fin n) ℝ)
    (lb : Option ((Fin n → String) × (Fin n → String))) :
    ∃ mu', logArgs mu P lb = .ok { mu := some mu', cov := some (asGrid lb (fun i j => .fin ((Proj.log2simple m (fun i j => P i j)).2 i j))) } ∧
      mu'.Holds (Proj.log2simple m (fun i j => P i j)).1 ∧ ∀ cov, momentLabels mu' cov = momentLabels mu cov := by
  have hlen : mu.vals.length = n := by rw [hm]; simp
  have hget : ∀ i : Fin n, mu.vals.getD (bidx n i) .nan = .fin (m i) := by
    intro i
    have hb : bidx n i = i := by
      unfold bidx
      split
      · have := i.2; omega
      · rfl
    rw [hb, hm]; simp
  have hmean : (List.finRange n).map (fun i : Fin n => logMean (mu.vals.getD (bidx n i) .nan) (bget P i i)) =
      List.ofFn (fun i => PyFloat.fin ((Proj.log2simple m (fun i j => P i j)).1 i)) := by
    rw [List.ofFn_eq_map]
    refine List.map_congr_left fun i _ => ?_
    rw [hget, bget_eq]; rfl
  have hcov : (fun i j : Fin n => logCov (mu.vals.getD (bidx n i) .nan) (mu.vals.getD (bidx n j) .nan) (bget P i i) (bget P j j) (bget P i j)) =
      fun i j => .fin ((Proj.log2simple m (fun i j => P i j)).2 i j) := by
    funext i j
    rw [hget, hget, bget_eq, bget_eq, bget_eq]; rfl
  have hcov' : (fun i j : Fin n => logCov (mu.vals.getD (bidx mu.vals.length i) .nan) (mu.vals.getD (bidx mu.vals.length j) .nan)
      (bget P i i) (bget P j j) (bget P i j)) = fun i j => .fin ((Proj.log2simple m (fun i j => P i j)).2 i j) := by
    rw [hlen]; exact hcov
  have hbr : broadcast n n = some n := by simp [broadcast]
  cases mu with
  | array l =>
    refine ⟨.array (List.ofFn (fun i => PyFloat.fin ((Proj.log2simple m (fun i j => P i j)).1 i))), ?_, rfl, fun cov => rfl⟩
    unfold logArgs
    simp only [hlen, hbr, hmean, hcov]
    cases lb with
    | none => rfl
    | some lb => simp only [dif_pos]; rw [hcov']; rfl
  | series l =>
    have hll : l.length = n := by simpa [VecArg.vals] using hlen
    refine ⟨.series ((l.map Prod.fst).zip (List.ofFn (fun i => PyFloat.fin ((Proj.log2simple m (fun i j => P i j)).1 i)))), ?_, ?_, fun cov => ?_⟩
    · unfold logArgs
      simp only [hlen, hbr, hmean, hcov]
      cases lb with
      | none => simp; rfl
      | some lb => simp only [dif_pos, ne_eq, not_true_eq_false, if_false]; rw [hcov']; rfl
    · unfold VecArg.Holds VecArg.vals
      simp only
      rw [List.map_snd_zip (by simp [hll])]
    · simp only [momentLabels, labelLists]
      rw [List.map_fst_zip (by simp [hll])]

/-- **C103** Log moments: the stored moments are the simple moments of the lognormal distribution,
`exp(mu_i + P_ii/2) - 1` and `exp(mu_i + mu_j + (P_ii + P_jj)/2) (exp(P_ij) - 1)`, where `P` is the guarded covariance. -/
theorem C103_log {mu : VecArg} {cov : GridArg} {n : ℕ} (hn : 0 < n) {m : Fin n → ℝ} {C : Fin n → Fin n → ℝ} (hm : mu.Holds m)
    (hC : cov.Holds C) (hl : ∀ l ∈ momentLabels mu cov, ∀ l' ∈ momentLabels mu cov, l = l') :
    ∃ P v V names, fromMoments mu cov "log" = .ok ⟨n, some v, some V, none, names⟩ ∧ Repaired C P ∧
      (∀ i, v i = Real.exp (m i + P i i / 2) - 1) ∧
      (∀ i j, V i j = Real.exp (m i + m j + (P i i + P j j) / 2) * (Real.exp (P i j) - 1)) ∧
      (∀ l ∈ momentLabels mu cov, names = some l) := by
  obtain ⟨lb, hsq, hlb⟩ := squareOf_ok hC
  obtain ⟨P, hP, hrep⟩ := repaired_ok C
  obtain ⟨mu', ha, hm', hlm⟩ := logArgs_ok hm P lb
  obtain ⟨h1, h2⟩ := hlb (Proj.log2simple m (fun i j => P i j)).2
  obtain ⟨names, hd, h3, -⟩ := dist_moments hn hm' (C := Matrix.of (Proj.log2simple m (fun i j => P i j)).2) h1
    (by rw [h2, hlm]; exact hl)
  refine ⟨P, (Proj.log2simple m (fun i j => P i j)).1, Matrix.of (Proj.log2simple m (fun i j => P i j)).2, names, ?_, hrep, fun i => ?_, fun i j => ?_, by rw [← hlm, ← h2 mu']; exact h3⟩
  · unfold fromMoments
    rw [hsq]
    simp only [hP, if_true, ha]
    exact hd
  · simp only [Proj.log2simple]; congr 2; ring
  · simp only [Proj.log2simple, Matrix.of_apply]
    rw [mul_sub, mul_one, ← Real.exp_add, ← Real.exp_add]
    congr 2 <;> ring

/-- **C103** Log moments obtained from simple moments by `simple2log` are stored as the simple moments they came from, when the log
covariance is positive semidefinite. -/
theorem C103_round_trip {mu : VecArg} {cov : GridArg} {n : ℕ} (hn : 0 < n) {m0 m : Fin n → ℝ} {C0 C : Fin n → Fin n → ℝ}
    (h0 : ∀ i, -1 < m0 i) (hC0 : ∀ i j, 0 < 1 + C0 i j / ((m0 i + 1) * (m0 j + 1)))
    (hs : Proj.simple2log m0 C0 = .ok (m, C)) (hpsd : (Matrix.of C).PosSemidef) (hm : mu.Holds m)
    (hC : cov.Holds C) (hl : ∀ l ∈ momentLabels mu cov, ∀ l' ∈ momentLabels mu cov, l = l') :
    ∃ V names, fromMoments mu cov "log" = .ok ⟨n, some m0, some V, none, names⟩ ∧ ∀ i j, V i j = C0 i j := by
  obtain ⟨l, h1, h2⟩ := (C57_simple_log_simple m0 C0).1 h0 hC0
  rw [hs] at h1
  injection h1 with h1
  subst h1
  obtain ⟨P, v, V, names, hf, hrep, hv, hV, -⟩ := C103_log hn hm hC hl
  have hP : ∀ i j, P i j = C i j := hrep.2.2 hpsd
  have e1 : ∀ i, m0 i = Real.exp (m i + C i i / 2) - 1 := by
    intro i
    have := congrFun (congrArg Prod.fst h2) i
    simp only [Proj.log2simple] at this
    rw [← this]; congr 2; ring
  have e2 : ∀ i j, C0 i j = Real.exp (m i + m j + (C i i + C j j) / 2) * (Real.exp (C i j) - 1) := by
    intro i j
    have := congrFun (congrFun (congrArg Prod.snd h2) i) j
    simp only [Proj.log2simple] at this
    rw [← this, mul_sub, mul_one, ← Real.exp_add, ← Real.exp_add]
    congr 2 <;> ring
  have ev : v = m0 := by funext i; rw [hv, e1, hP]
  subst ev
  exact ⟨V, names, hf, fun i j => by rw [hV, e2, hP, hP, hP]⟩

/-- **C103** Simple moments whose sizes differ are rejected. -/
theorem C103_mismatch (mu : VecArg) {cov : GridArg} {n : ℕ} {C : Fin n → Fin n → ℝ} (hC : cov.Holds C) (hne : mu.vals.length ≠ n)
    (rt : String) (hrt : rt ≠ "log") : fromMoments mu cov rt = .error .valueError := by
  cases h : fromMoments mu cov rt with
  | error e =>
    obtain ⟨lb, hsq, hlb⟩ := squareOf_ok hC
    obtain ⟨P, hP, hrep⟩ := repaired_ok C
    unfold fromMoments at h
    rw [hsq] at h
    simp only [hP, if_neg hrt] at h
    rw [C74_value_error h]
  | ok d =>
    exfalso
    obtain ⟨lb, hsq, hlb⟩ := squareOf_ok hC
    obtain ⟨P, hP, hrep⟩ := repaired_ok C
    obtain ⟨h1, h2⟩ := hlb (fun i j => P i j)
    unfold fromMoments at h
    rw [hsq] at h
    simp only [hP, if_neg hrt] at h
    obtain ⟨-, g1, g2, -⟩ := C74_contents h
    obtain ⟨v, -, hv⟩ := g1 mu rfl
    obtain ⟨V, -, hV⟩ := g2 _ rfl
    obtain ⟨e, -⟩ := holds_unique hV h1
    have := congrArg List.length (show mu.vals = _ from hv)
    simp at this
    omega

theorem log_two {v : List (PyFloat ℝ)} {a b : ℝ}
    (hl : broadcast v.length 2 = some 2)
    (hm : (List.finRange 2).map (fun i : Fin 2 => logMean (v.getD (bidx v.length i) .nan) 0) = [.fin a, .fin b])
    (hc : ∀ i j : Fin 2, logCov (v.getD (bidx v.length i) .nan) (v.getD (bidx v.length j) .nan) 0 0 0 = .fin 0) :
    ∃ d, fromMoments (.array v) (.array ⟨2, 2, fun _ _ => .fin 0⟩) "log" = .ok d ∧ d.N = 2 ∧ HEq d.mu (some ![a, b]) := by
  have hC : (GridArg.array ⟨2, 2, fun _ _ => .fin 0⟩).Holds (fun _ _ : Fin 2 => (0 : ℝ)) := ⟨_, .inl rfl, rfl, rfl, fun _ _ => rfl⟩
  obtain ⟨lb, hsq, hlb⟩ := squareOf_ok hC
  obtain ⟨P, hP, hrep⟩ := repaired_ok (fun _ _ : Fin 2 => (0 : ℝ))
  have hP0 : ∀ i j, P i j = 0 := fun i j => hrep.2.2 (by
    have : (Matrix.of fun _ _ : Fin 2 => (0 : ℝ)) = 0 := by ext; rfl
    rw [this]; exact Matrix.PosSemidef.zero) i j
  have hPz : P = 0 := by ext i j; simpa using hP0 i j
  subst hPz
  have hb : ∀ i j : ℕ, bget (0 : Matrix (Fin 2) (Fin 2) ℝ) i j = 0 := by
    intro i j; unfold bget; split <;> rfl
  have hlb' : lb = none := by
    have h2 := (hlb (fun _ _ => 0)).2 (.array [])
    cases lb with
    | none => rfl
    | some l => simp [momentLabels, labelLists, asGrid] at h2
  subst hlb'
  have ha : logArgs (.array v) (0 : Matrix (Fin 2) (Fin 2) ℝ) none =
      .ok { mu := some (.array [.fin a, .fin b]), cov := some (.array ⟨2, 2, fun _ _ => .fin 0⟩) } := by
    unfold logArgs
    simp only [VecArg.vals, hl, hb, hm, hc]
  obtain ⟨names, hd, -⟩ := dist_moments (mu := .array [.fin a, .fin b]) (cov := .array ⟨2, 2, fun _ _ => .fin 0⟩) (n := 2)
    (m := ![a, b]) (C := 0) (by norm_num) (by simp [VecArg.Holds, VecArg.vals]) ⟨_, .inl rfl, rfl, rfl, fun _ _ => rfl⟩
    (by simp [momentLabels, labelLists])
  refine ⟨⟨2, some ![a, b], some 0, none, names⟩, ?_, rfl, HEq.rfl⟩
  unfold fromMoments
  rw [hsq]
  simp only [hP, if_true, ha]
  exact hd

/-- **C103** (false of the code with `return_type="log"`) a mean vector of length one is broadcast over the two assets of the
covariance matrix instead of being rejected. -/
theorem C103_counterexample_broadcast :
    ∃ d, fromMoments (.array [.fin 0]) (.array ⟨2, 2, fun _ _ => .fin 0⟩) "log" = .ok d ∧ d.N = 2 := by
  obtain ⟨d, h1, h2, -⟩ := log_two (v := [.fin 0]) (a := 0) (b := 0) rfl
    (by simp [List.finRange_succ, bidx, logMean]) (by intro i j; simp [bidx, logCov])
  exact ⟨d, h1, h2⟩

/-- **C103** With `return_type="log"` too, a mean whose length is neither the number of assets nor one (for several assets) is a
`ValueError`. -/
theorem C103_log_lengths (mu : VecArg) {cov : GridArg} {n : ℕ} {C : Fin n → Fin n → ℝ} (hC : cov.Holds C) (hne : mu.vals.length ≠ n)
    (h1 : mu.vals.length ≠ 1) (hn : n ≠ 1) : fromMoments mu cov "log" = .error .valueError := by
  obtain ⟨lb, hsq, -⟩ := squareOf_ok hC
  obtain ⟨P, hP, -⟩ := repaired_ok C
  have hb : broadcast mu.vals.length n = none := by
    unfold broadcast
    rw [if_neg hne, if_neg h1, if_neg hn]
  unfold fromMoments
  rw [hsq]
  simp only [hP, if_true]
  unfold logArgs
  simp only [hb]

/-- Three means for two assets. -/
example : fromMoments (.array [.fin 0, .fin 0, .fin 0]) (.array ⟨2, 2, fun i j => .fin ((fun _ _ => (1 : ℝ)) i j)⟩) "log" = .error .valueError :=
  C103_log_lengths _ (C := fun _ _ => (1 : ℝ)) ⟨_, .inl rfl, rfl, rfl, fun _ _ => rfl⟩ (by simp [VecArg.vals]) (by simp [VecArg.vals])
    (by norm_num)

/-- **C103** A covariance that is not two-dimensional, not square or not finite is a `ValueError`, in both modes. -/
theorem C103_bad_covariance (mu : VecArg) (rt : String) :
    fromMoments mu .notMatrix rt = .error .valueError ∧
    ∀ g : Grid, (g.rows ≠ g.cols ∨ ∃ i j, (g.e i j).isFinite = false) →
      fromMoments mu (.array g) rt = .error .valueError ∧ ∀ r c, fromMoments mu (.frame g r c) rt = .error .valueError := by
  refine ⟨rfl, fun g hg => ?_⟩
  have hsq : ∀ l, squareGrid g l = .error .valueError := by
    intro l
    unfold squareGrid
    by_cases h : g.cols = g.rows
    · rw [dif_pos h, if_neg]
      rcases hg with hg | ⟨i, j, hg⟩
      · exact absurd h.symm hg
      · intro hall
        rw [hall i j] at hg
        cases hg
    · rw [dif_neg h]
  constructor
  · unfold fromMoments squareOf
    simp only [hsq]
  · intro r c
    unfold fromMoments squareOf
    simp only [hsq]

/-- Two rows and three columns. -/
example (mu : VecArg) : fromMoments mu (.array ⟨2, 3, fun _ _ => .fin 1⟩) "simple" = .error .valueError :=
  ((C103_bad_covariance mu "simple").2 ⟨2, 3, fun _ _ => .fin 1⟩ (.inl (by decide))).1

/-- **C103** (false of the code with `return_type="log"`) an infinite mean `-inf` is accepted and stored as a riskless return of -100%. -/
theorem C103_counterexample_infinite :
    ∃ d, fromMoments (.array [.negInf, .fin 0]) (.array ⟨2, 2, fun _ _ => .fin 0⟩) "log" = .ok d ∧ d.N = 2 ∧ HEq d.mu (some ![(-1 : ℝ), 0]) := by
  refine log_two (v := [.negInf, .fin 0]) (a := -1) (b := 0) rfl ?_ ?_
  · simp [List.finRange_succ, bidx, logMean]
  · intro i j
    fin_cases i <;> fin_cases j <;> simp [bidx, logCov]

/-- Labelled moments of two assets, in both modes. -/
example : ∃ P names, fromMoments (.series [("A", .fin (1/10)), ("B", .fin (1/20))])
    (.frame ⟨2, 2, fun i j => .fin (if i = j then 1 else 0)⟩ (fun i => if i = 0 then "A" else "B") (fun i => if i = 0 then "A" else "B")) "simple" =
      .ok ⟨2, some ![1/10, 1/20], some P, none, names⟩ := by
  obtain ⟨P, names, h, -⟩ := C103_simple (mu := .series [("A", .fin (1/10)), ("B", .fin (1/20))])
    (cov := .frame ⟨2, 2, fun i j => .fin (if i = j then 1 else 0)⟩ (fun i => if i = 0 then "A" else "B") (fun i => if i = 0 then "A" else "B"))
    (n := 2) (m := ![1/10, 1/20]) (C := fun i j => if i = j then 1 else 0) (by norm_num) (by simp [VecArg.Holds, VecArg.vals])
    ⟨_, .inr ⟨_, _, rfl⟩, rfl, rfl, fun _ _ => rfl⟩ (by simp [momentLabels, labelLists]) "simple" (by decide)
  exact ⟨P, names, h⟩

end PyV.Props
