import Verif.Model.LowLevel
import Verif.Spec.Optimization
import Mathlib.Tactic.FinCases
import Mathlib.Tactic.NormNum

/-!
# Raw constraint arguments of the optimiser classes (C203, C204)
-/

namespace PyV.Props

open PyV PyV.Opt PyV.Spec.Opt Matrix

/-! ## C203 -/

/-- A matrix and a vector form a system of constraints on `n` assets: both or neither are given, one column per asset, one right-hand
side per row. -/
def System (n : ℕ) (m : Option RawMat) (h : Option (List ℝ)) : Prop :=
  match m, h with
  | none, _ => True
  | some _, none => False
  | some m, some h => m.c = n ∧ h.length = m.r

/-- The extracted rows say: row `i` of the matrix against entry `i` of the vector. -/
def SaysRows {n : ℕ} (m : RawMat) (h : List ℝ) (rows : List ((Fin n → ℝ) × PyFloat ℝ)) : Prop :=
  rows.length = m.r ∧ ∀ (i : Fin m.r), ∃ (g : Fin n → ℝ) (b : ℝ), rows[(i : ℕ)]? = some (g, .fin b) ∧ h[(i : ℕ)]? = some b ∧
    ∀ (j : Fin n) (j' : Fin m.c), (j : ℕ) = j' → g j = m.f i j'

theorem rowsFor_says {n : ℕ} (m : RawMat) (hc : m.c = n) (h : List ℝ) (hl : h.length = m.r) :
    SaysRows m h (rowsFor m hc (h.map PyFloat.fin)) := by
  refine ⟨by simp [rowsFor, zipRows, hl], fun i => ?_⟩
  have hi : (i : ℕ) < h.length := by rw [hl]; exact i.isLt
  refine ⟨fun j => m.f i (Fin.cast hc.symm j), h[(i : ℕ)], ?_, List.getElem?_eq_getElem hi, fun j j' e => ?_⟩
  · rw [List.getElem?_eq_getElem (by simp [rowsFor, zipRows, hi])]
    simp [rowsFor, zipRows]
  · show m.f i _ = m.f i j'
    congr 1
    exact Fin.ext e

/-- **C203** (partial) relaxed risk parity uses a well-formed system row by row, and rejects a matrix whose columns do not match the
assets or whose right-hand side has the wrong length with a `ValueError`. Missing: a one-row matrix without any right-hand side is
accepted, see `C203_counterexample`. -/
theorem C203_rows_partial {n : ℕ} (m : RawMat) (h : List ℝ) :
    (System n (some m) (some h) → ∃ rows, extractRows (n := n) (some m) (some h) = .ok (some rows) ∧ SaysRows m h rows) ∧
      (¬ System n (some m) (some h) → extractRows (n := n) (some m) (some h) = .error .valueError) ∧
      (m.r ≠ 1 → extractRows (n := n) (some m) none = .error .valueError) := by
  refine ⟨fun hs => ?_, fun hs => ?_, fun hr => ?_⟩
  · refine ⟨rowsFor m hs.1 (h.map PyFloat.fin), ?_, rowsFor_says m hs.1 h hs.2⟩
    simp only [extractRows]
    rw [dif_pos hs.1, if_pos (by simpa using hs.2)]
  · simp only [extractRows]
    by_cases hc : m.c = n
    · rw [dif_pos hc, if_neg (fun e => hs ⟨hc, by simpa using e⟩)]
    · rw [dif_neg hc]
  · simp only [extractRows]
    by_cases hc : m.c = n
    · rw [dif_pos hc, if_neg (by simp; omega)]
    · rw [dif_neg hc]

/-- **C203** both halves are checked: one ill-formed pair, inequalities or equalities, rejects the whole problem with a `ValueError`. -/
theorem C203_both {n : ℕ} (u : RawUser) (M : RawMat) (l : List ℝ) (hs : ¬ System n (some M) (some l))
    (hu : (u.G.map cvxMatrix = some M ∧ u.h = some l) ∨ (u.A.map cvxMatrix = some M ∧ u.b = some l)) :
    extractUser (n := n) u = .error .valueError := by
  have hbad : extractRows (n := n) (some M) (some l) = .error .valueError := (C203_rows_partial M l).2.1 hs
  have herr : ∀ (m : Option RawMat) (h : Option (List ℝ)) (e : PyErr), extractRows (n := n) m h = .error e → e = .valueError := by
    intro m h e he
    cases m with
    | none => cases he
    | some m =>
      unfold extractRows at he
      simp only at he
      split_ifs at he <;> first | (injection he with he; exact he.symm) | (cases he)
  unfold extractUser
  rcases hu with ⟨h1, h2⟩ | ⟨h1, h2⟩
  · rw [h1, h2, hbad]
  · cases hg : extractRows (n := n) (u.G.map cvxMatrix) u.h with
    | error e => rw [herr _ _ _ hg]
    | ok g => simp only [h1, h2, hbad]

/-- **C203** the whole argument list: with well-formed inequalities and equalities, the rows of `G` against `h` stay inequalities and
those of `A` against `b` equalities; a pair that is not given adds no rows. -/
theorem C203_roles {n : ℕ} (u : RawUser) (hg : System n (u.G.map cvxMatrix) u.h) (ha : System n (u.A.map cvxMatrix) u.b) :
    ∃ g a, extractUser (n := n) u = .ok (g, a) ∧ (u.G = none → g = none) ∧ (u.A = none → a = none) ∧
      (∀ M l, u.G.map cvxMatrix = some M → u.h = some l → ∃ rows, g = some rows ∧ SaysRows M l rows) ∧
      (∀ M l, u.A.map cvxMatrix = some M → u.b = some l → ∃ rows, a = some rows ∧ SaysRows M l rows) := by
  have key : ∀ (m : Option RawMat) (h : Option (List ℝ)), System n m h → ∃ g, extractRows (n := n) m h = .ok g ∧
      (m = none → g = none) ∧ ∀ M l, m = some M → h = some l → ∃ rows, g = some rows ∧ SaysRows M l rows := by
    intro m h hs
    cases m with
    | none => exact ⟨none, rfl, fun _ => rfl, fun M l h => by cases h⟩
    | some M =>
      cases h with
      | none => exact absurd hs id
      | some l =>
        obtain ⟨rows, h1, h2⟩ := (C203_rows_partial M l).1 hs
        refine ⟨some rows, h1, fun h => by (cases h), fun M' l' e1 e2 => ?_⟩
        injection e1 with e1
        injection e2 with e2
        subst e1 e2
        exact ⟨rows, rfl, h2⟩
  obtain ⟨g, h1, h2, h3⟩ := key _ _ hg
  obtain ⟨a, h4, h5, h6⟩ := key _ _ ha
  refine ⟨g, a, ?_, fun h => h2 (by rw [h]; rfl), fun h => h5 (by rw [h]; rfl), h3, h6⟩
  unfold extractUser
  simp only [h1, h4]

/-- **C203** (counterexample) a single inequality without a right-hand side is accepted: its bound is NaN. -/
theorem C203_counterexample : ¬ System 2 (some ⟨1, 2, fun _ _ => 1⟩) none ∧
    ∃ g, extractRows (n := 2) (some ⟨1, 2, fun _ _ => 1⟩) none = .ok (some [(g, .nan)]) := by
  refine ⟨fun h => h, fun _ => 1, ?_⟩
  unfold extractRows
  simp [rowsFor, zipRows]

/-- **C203** the moments of relaxed risk parity: a covariance that is not square or does not match the mean, and risk budgets of
another length, are rejected. -/
theorem C203_moments (factor : Bayes.Factor) (mean : List ℝ) (cov : RawMat) (u : RawUser) (rb : Option (List ℝ)) :
    (¬ (cov.r = mean.length ∧ cov.c = mean.length) → rrpRaw factor mean cov u rb = .error .valueError) ∧
      ∀ a, rrpRaw factor mean cov u rb = .ok a → cov.r = mean.length ∧ cov.c = mean.length ∧ ∀ l, rb = some l → l.length = mean.length := by
  have h1 : ¬ (cov.r = mean.length ∧ cov.c = mean.length) → rrpRaw factor mean cov u rb = .error .valueError := by
    intro h
    unfold rrpRaw
    by_cases hs : cov.r = cov.c
    · rw [dif_pos hs]
      by_cases hm : cov.r = mean.length
      · exact absurd ⟨hm, hs ▸ hm⟩ h
      · rw [dif_neg hm]
    · rw [dif_neg hs]
  refine ⟨h1, fun a ha => ?_⟩
  by_cases h : cov.r = mean.length ∧ cov.c = mean.length
  · refine ⟨h.1, h.2, fun l hl => ?_⟩
    by_contra hne
    subst hl
    unfold rrpRaw at ha
    rw [dif_pos (h.1.trans h.2.symm), dif_pos h.1] at ha
    revert ha
    cases rrpInit factor (fun i => mean.get i) (fun i j => cov.f (Fin.cast h.1.symm i)
      (Fin.cast (h.1.symm.trans (h.1.trans h.2.symm)) j)) ⟨none, none⟩ none with
    | error e => intro ha; cases ha
    | ok a' =>
      intro ha
      simp only at ha
      rw [dif_neg hne] at ha
      cases ha
  · rw [h1 h] at ha
    cases ha

/-- **C203** what a successful construction of relaxed risk parity holds: the mean as given, the symmetric part of the covariance,
equal budgets unless some are given, and otherwise budgets in the proportions of those given, which must be positive; the constraint
arguments are passed on unchanged. -/
theorem C203_held {factor : Bayes.Factor} {mean : List ℝ} {cov : RawMat} {u u' : RawUser} {rb : Option (List ℝ)} {a : Rrp mean.length}
    (h : rrpRaw factor mean cov u rb = .ok (a, u')) :
    u' = u ∧ (∀ i, a.mean i = mean.get i) ∧
      (∀ (hr : cov.r = mean.length) (hc : cov.c = mean.length) i j, a.cov i j =
        (cov.f (Fin.cast hr.symm i) (Fin.cast hc.symm j) + cov.f (Fin.cast hr.symm j) (Fin.cast hc.symm i)) / 2) ∧
      (rb = none → ∀ i, a.budgets i = 1 / (mean.length : ℝ)) ∧
      ∀ l, rb = some l → ∃ (hl : l.length = mean.length) (k : ℝ), 0 < k ∧
        ∀ i : Fin mean.length, 0 < l.get (Fin.cast hl.symm i) ∧ a.budgets i = k * l.get (Fin.cast hl.symm i) := by
  unfold rrpRaw at h
  by_cases hs : cov.r = cov.c
  · by_cases hm : cov.r = mean.length
    · rw [dif_pos hs, dif_pos hm] at h
      cases hi : rrpInit factor (fun i => mean.get i) (fun i j => cov.f (Fin.cast hm.symm i) (Fin.cast (hm.symm.trans hs) j))
          ⟨none, none⟩ none with
      | error e => rw [hi] at h; cases h
      | ok a' =>
        rw [hi] at h
        have hi' : a'.mean = (fun i => mean.get i) ∧ (∀ i j, a'.cov i j =
            (cov.f (Fin.cast hm.symm i) (Fin.cast (hm.symm.trans hs) j) + cov.f (Fin.cast hm.symm j) (Fin.cast (hm.symm.trans hs) i)) / 2) ∧
            a'.budgets = fun _ => 1 / (mean.length : ℝ) := by
          unfold rrpInit at hi
          cases hf : (Bayes.cholSquare factor (Bayes.symPart
              (fun i j => cov.f (Fin.cast hm.symm i) (Fin.cast (hm.symm.trans hs) j)))).result with
          | error e => rw [hf] at hi; cases hi
          | ok L =>
            rw [hf] at hi
            injection hi with hi
            subst hi
            exact ⟨rfl, fun i j => by
              simp only [Bayes.symPart, Matrix.smul_apply, Matrix.add_apply, Matrix.transpose_apply, smul_eq_mul]
              exact (one_div_mul_eq_div _ _), rfl⟩
        obtain ⟨i1, i2, i3⟩ := hi'
        cases rb with
        | none =>
          injection h with h
          injection h with h h'
          subst h h'
          exact ⟨rfl, fun i => congrFun i1 i, fun _ _ i j => i2 i j, fun _ i => congrFun i3 i, fun l hl => by cases hl⟩
        | some l =>
          simp only at h
          by_cases hl : l.length = mean.length
          · rw [dif_pos hl] at h
            cases hb : rrpBudgets (some (fun i : Fin mean.length => l.get (Fin.cast hl.symm i))) with
            | error e => rw [hb] at h; cases h
            | ok b =>
              rw [hb] at h
              injection h with h
              injection h with h h'
              subst h h'
              refine ⟨rfl, fun i => congrFun i1 i, fun _ _ i j => i2 i j, fun h => by (cases h), fun l' e => ?_⟩
              injection e with e
              subst e
              unfold rrpBudgets at hb
              simp only at hb
              split_ifs at hb with g1 g2
              · injection hb with hb
                subst hb
                push Not at g1
                exact ⟨hl, 1, one_pos, fun i => ⟨g1 i, (one_mul _).symm⟩⟩
              · injection hb with hb
                subst hb
                push Not at g1
                by_cases hn : mean.length = 0
                · exact ⟨hl, 1, one_pos, fun i => absurd i.isLt (by omega)⟩
                · refine ⟨hl, 1 / ∑ j : Fin mean.length, l.get (Fin.cast hl.symm j), ?_, fun i => ⟨g1 i, ?_⟩⟩
                  · haveI : Nonempty (Fin mean.length) := ⟨⟨0, Nat.pos_of_ne_zero hn⟩⟩
                    exact one_div_pos.2 (Finset.sum_pos (fun i _ => g1 i) Finset.univ_nonempty)
                  · rw [one_div, inv_mul_eq_div]
          · rw [dif_neg hl] at h; cases h
    · rw [dif_pos hs, dif_neg hm] at h; cases h
  · rw [dif_neg hs] at h; cases h

/-- The constraints a matrix and a vector state: row `i` times `w` against entry `i`. -/
def Meets {n : ℕ} (cmp : ℝ → ℝ → Prop) (m : Option RawMat) (h : Option (List ℝ)) (w : Fin n → ℝ) : Prop :=
  ∀ M l, m = some M → h = some l → ∀ (hc : M.c = n) (i : Fin M.r) (b : ℝ), l[(i : ℕ)]? = some b →
    cmp (∑ j, M.f i (Fin.cast hc.symm j) * w j) b

theorem mem_rowsFor {n : ℕ} (m : RawMat) (hc : m.c = n) (h : List ℝ) (hl : h.length = m.r) (r : Row (Fin n)) :
    r ∈ rowsFor m hc h ↔ ∃ (i : Fin m.r), (r.1 = fun j => m.f i (Fin.cast hc.symm j)) ∧ h[(i : ℕ)]? = some r.2 := by
  simp only [rowsFor, zipRows, List.mem_map]
  constructor
  · rintro ⟨p, hp, rfl⟩
    obtain ⟨k, hk, hpk⟩ := List.getElem_of_mem hp
    have hk' : k < m.r := by simpa using (lt_of_lt_of_le hk (by simp [hl]) : k < m.r)
    refine ⟨⟨k, hk'⟩, ?_, ?_⟩
    · rw [← hpk]; simp
    · rw [← hpk, List.getElem?_eq_getElem (by omega)]
      simp
  · rintro ⟨i, h1, h2⟩
    obtain ⟨hi, hv⟩ := List.getElem?_eq_some_iff.mp h2
    refine ⟨(m.f i, r.2), ?_, Prod.ext h1.symm rfl⟩
    rw [List.mem_iff_getElem]
    refine ⟨i, by simp [hi], ?_⟩
    simp [hv]

/-- One half of a mean-variance problem is well formed. -/
def Fits (n : ℕ) (m : Option RawMat) (h : Option (List ℝ)) : Prop :=
  match m with
  | none => h = none ∨ h = some []
  | some m => m.c = n ∧ (h.getD []).length = m.r

theorem cvxRows_spec {n : ℕ} (m : Option RawMat) (h : Option (List ℝ)) :
    (¬ Fits n m h → cvxRows (n := n) m h = .error .typeError) ∧
      (Fits n m h → ∃ rows, cvxRows (n := n) m h = .ok rows ∧ ∀ (cmp : ℝ → ℝ → Prop) (w : Fin n → ℝ),
        (∀ r ∈ rows.getD [], cmp (∑ i, r.1 i * w i) r.2) ↔ Meets cmp m h w) := by
  cases m with
  | none =>
    refine ⟨fun hf => ?_, fun hf => ⟨none, ?_, fun cmp w => ?_⟩⟩
    · simp only [cvxRows]
      rw [if_neg]
      intro e
      cases h with
      | none => exact hf (Or.inl rfl)
      | some l => exact hf (Or.inr (congrArg some (List.length_eq_zero_iff.mp e)))
    · simp only [cvxRows]
      rw [if_pos]
      rcases hf with rfl | rfl <;> rfl
    · simp [Meets]
  | some m =>
    refine ⟨fun hf => ?_, fun hf => ⟨some (rowsFor m hf.1 (h.getD [])), ?_, fun cmp w => ?_⟩⟩
    · simp only [cvxRows]
      by_cases hc : m.c = n
      · rw [dif_pos hc, if_neg (fun e => hf ⟨hc, e⟩)]
      · rw [dif_neg hc]
    · simp only [cvxRows]
      rw [dif_pos hf.1, if_pos hf.2]
    · simp only [Option.getD_some]
      constructor
      · intro hr M l hM hl hc i b hb
        injection hM with hM
        subst hM
        refine hr (fun j => m.f i (Fin.cast hc.symm j), b) ((mem_rowsFor m hc _ hf.2 _).mpr ⟨i, rfl, ?_⟩)
        rw [hl]
        exact hb
      · intro hm r hr
        obtain ⟨i, h1, h2⟩ := (mem_rowsFor m hf.1 _ hf.2 r).mp hr
        cases h with
        | none => simp at h2
        | some l =>
          rw [h1]
          exact hm m l rfl rfl hf.1 i r.2 h2

/-- **C203** a mean-variance problem whose shapes do not fit is rejected with a `TypeError`; otherwise the portfolios it allows are the
ones meeting the constraints as CVXOPT loads them. -/
theorem C203_mean_variance (mean : List ℝ) (cov : RawMat) (u : RawUser) :
    (¬ (cov.r = mean.length ∧ cov.c = mean.length ∧ Fits mean.length (u.G.map cvxMatrix) u.h ∧
        Fits mean.length (u.A.map cvxMatrix) u.b) → mvRaw mean cov u = .error .typeError) ∧
      (cov.r = mean.length → cov.c = mean.length → Fits mean.length (u.G.map cvxMatrix) u.h →
        Fits mean.length (u.A.map cvxMatrix) u.b → ∃ m, mvRaw mean cov u = .ok m ∧
          ∀ w, Allowed m.user w ↔ Meets (· ≤ ·) (u.G.map cvxMatrix) u.h w ∧ Meets (· = ·) (u.A.map cvxMatrix) u.b w) := by
  constructor
  · intro h
    unfold mvRaw
    by_cases hr : cov.r = mean.length
    swap
    · rw [dif_neg hr]
    rw [dif_pos hr]
    by_cases hc : cov.c = mean.length
    swap
    · rw [dif_neg hc]
    rw [dif_pos hc]
    by_cases hg : Fits mean.length (u.G.map cvxMatrix) u.h
    · obtain ⟨g, hg', -⟩ := (cvxRows_spec _ _).2 hg
      have ha : ¬ Fits mean.length (u.A.map cvxMatrix) u.b := fun ha => h ⟨hr, hc, hg, ha⟩
      rw [hg']
      simp only [(cvxRows_spec _ _).1 ha]
    · rw [(cvxRows_spec _ _).1 hg]
  · intro hr hc hg ha
    obtain ⟨g, hg', hgs⟩ := (cvxRows_spec _ _).2 hg
    obtain ⟨a, ha', has⟩ := (cvxRows_spec _ _).2 ha
    refine ⟨mvInit (fun i => mean.get i) (fun i j => cov.f (Fin.cast hr.symm i) (Fin.cast hc.symm j)) ⟨g, a⟩ none none,
      by unfold mvRaw; rw [dif_pos hr, dif_pos hc, hg']; simp only [ha'], fun w => ?_⟩
    show (∀ r ∈ g.getD [], _) ∧ (∀ r ∈ a.getD [], _) ↔ _
    rw [← hgs, ← has]

/-! ## C204 -/

/-- The rows of a constraint matrix as the caller wrote them: the rows of an array, the inner lists of a nested list. -/
def written : MatArg → RawMat
  | .array m => m
  | .nested outer inner f => ⟨outer, inner, f⟩

/-- **C204** (partial) a constraint matrix given as an array means what is written. Missing: nested lists, see `C204_counterexample`. -/
theorem C204_array_partial (m : RawMat) : cvxMatrix (.array m) = written (.array m) := rfl

/-- **C204** a nested list is read as the transpose of what is written. -/
theorem C204_transposed (outer inner : ℕ) (f : Fin outer → Fin inner → ℝ) :
    (cvxMatrix (.nested outer inner f)).r = inner ∧ (cvxMatrix (.nested outer inner f)).c = outer ∧
      ∀ (i : Fin inner) (j : Fin outer), (cvxMatrix (.nested outer inner f)).f i j = (written (.nested outer inner f)).f j i :=
  ⟨rfl, rfl, fun _ _ => rfl⟩

/-- Two constraints on two assets, written as nested lists: `w0 + w1 <= 1/2` and `0 <= 1/2`. -/
noncomputable def nestedUser : RawUser where
  G := some (.nested 2 2 ![![1, 1], ![0, 0]])
  h := some [1 / 2, 1 / 2]

/-- **C204** (counterexample) the two written constraints are accepted without any complaint and replaced by `w0 <= 1/2`, twice: the
portfolio holding everything in the second asset is allowed although it breaks the first constraint. -/
theorem C204_counterexample : ∃ m, mvRaw [0, 0] ⟨2, 2, ![![1, 0], ![0, 1]]⟩ nestedUser = .ok m ∧ Allowed m.user ![0, 1] ∧
    ¬ Meets (· ≤ ·) (nestedUser.G.map written) nestedUser.h (![0, 1] : Fin 2 → ℝ) := by
  obtain ⟨m, hm, hall⟩ := (C203_mean_variance [0, 0] ⟨2, 2, ![![1, 0], ![0, 1]]⟩ nestedUser).2 rfl rfl ⟨rfl, rfl⟩ (Or.inl rfl)
  refine ⟨m, hm, (hall _).mpr ⟨?_, ?_⟩, ?_⟩
  · intro M l hM hl hc i b hb
    simp only [nestedUser, Option.map_some, cvxMatrix, Option.some.injEq] at hM hl
    subst hM hl
    have key : ∀ i : Fin 2, ([1 / 2, 1 / 2] : List ℝ)[(i : ℕ)]? = some b →
        ∑ j : Fin 2, (![![1, 1], ![0, 0]] : Fin 2 → Fin 2 → ℝ) j i * (![0, 1] : Fin 2 → ℝ) j ≤ b := by
      intro i hb
      fin_cases i <;> (simp at hb; subst hb; simp [Fin.sum_univ_two])
    exact key i hb
  · intro M l hM
    simp [nestedUser] at hM
  · intro h
    have := h ⟨2, 2, ![![1, 1], ![0, 0]]⟩ [1 / 2, 1 / 2] rfl rfl rfl 0 (1 / 2) rfl
    have h2 : ∑ j : Fin 2, (![![1, 1], ![0, 0]] : Fin 2 → Fin 2 → ℝ) 0 j * (![0, 1] : Fin 2 → ℝ) j ≤ 1 / 2 := this
    rw [Fin.sum_univ_two] at h2
    norm_num at h2

/-- A well-formed pair of constraints. -/
example : System 2 (some ⟨1, 2, fun _ _ => 1⟩) (some [1]) := ⟨rfl, rfl⟩

end PyV.Props
