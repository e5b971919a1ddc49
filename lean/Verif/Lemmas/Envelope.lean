import Verif.Model.Frontier
import Mathlib.Tactic.Linarith
import Mathlib.Tactic.Ring
import Mathlib.Tactic.FieldSimp
import Mathlib.Tactic.Positivity

/-! # Facts about the lower convex envelope and `np.interp` -/

namespace PyV.Fr

variable {K : Type*} [Field K] [LinearOrder K] [IsStrictOrderedRing K] {M : ℕ}

/-- Breakpoints (last first) that increase in both coordinates and turn strictly left at every interior breakpoint. -/
def Hull : List (K × K) → Prop
  | [] => True
  | [_] => True
  | p :: q :: rest => q.1 ≤ p.1 ∧ q.2 ≤ p.2 ∧ Hull (q :: rest) ∧
      ∀ r, rest.head? = some r → 0 < (q.1 - r.1) * (p.2 - r.2) - (q.2 - r.2) * (p.1 - r.1)

/-- `a` is directly to the right of `b`. -/
def IsEdge (a b : K × K) : List (K × K) → Prop
  | p :: q :: rest => (a = p ∧ b = q) ∨ IsEdge a b (q :: rest)
  | _ => False

theorem Hull.tail {p : K × K} {t : List (K × K)} (h : Hull (p :: t)) : Hull t := by
  cases t with
  | nil => trivial
  | cons q rest => exact h.2.2.1

theorem hull_le_top {p : K × K} {t : List (K × K)} (h : Hull (p :: t)) : ∀ c ∈ p :: t, c.1 ≤ p.1 ∧ c.2 ≤ p.2 := by
  induction t generalizing p with
  | nil => intro c hc; simp only [List.mem_singleton] at hc; subst hc; exact ⟨le_rfl, le_rfl⟩
  | cons q rest ih =>
    intro c hc
    rcases List.mem_cons.mp hc with rfl | hc
    · exact ⟨le_rfl, le_rfl⟩
    · obtain ⟨h1, h2⟩ := ih h.tail c hc
      exact ⟨h1.trans h.1, h2.trans h.2.1⟩

theorem edge_mem {a b : K × K} {s : List (K × K)} (h : IsEdge a b s) : a ∈ s ∧ b ∈ s := by
  induction s with
  | nil => exact h.elim
  | cons p t ih =>
    cases t with
    | nil => exact h.elim
    | cons q rest =>
      rcases h with ⟨rfl, rfl⟩ | h
      · exact ⟨List.mem_cons_self, List.mem_cons_of_mem _ List.mem_cons_self⟩
      · exact ⟨List.mem_cons_of_mem _ (ih h).1, List.mem_cons_of_mem _ (ih h).2⟩

theorem edge_le {a b : K × K} {s : List (K × K)} (hs : Hull s) (h : IsEdge a b s) : b.1 ≤ a.1 ∧ b.2 ≤ a.2 := by
  induction s with
  | nil => exact h.elim
  | cons p t ih =>
    cases t with
    | nil => exact h.elim
    | cons q rest =>
      rcases h with ⟨rfl, rfl⟩ | h
      · exact ⟨hs.1, hs.2.1⟩
      · exact ih hs.tail h

/-- A line through the top at least as steep as the top edge stays below all breakpoints. -/
theorem hull_left {p : K × K} {t : List (K × K)} (h : Hull (p :: t)) (m : K)
    (hm : ∀ q, t.head? = some q → p.2 - q.2 ≤ m * (p.1 - q.1)) : ∀ c ∈ p :: t, p.2 + m * (c.1 - p.1) ≤ c.2 := by
  induction t generalizing p with
  | nil => intro c hc; simp only [List.mem_singleton] at hc; subst hc; simp
  | cons q rest ih =>
    intro c hc
    have h1 := hm q rfl
    rcases List.mem_cons.mp hc with rfl | hc
    · simp
    · have := ih h.tail (by
        intro r hr
        have hc := h.2.2.2 r hr
        have hq : r.1 ≤ q.1 ∧ r.2 ≤ q.2 := by
          cases rest with
          | nil => simp at hr
          | cons r' rest' =>
            simp only [List.head?_cons, Option.some.injEq] at hr
            subst hr
            exact ⟨h.tail.1, h.tail.2.1⟩
        have hx := h.1
        by_contra hcon
        push Not at hcon
        nlinarith [mul_nonneg (sub_nonneg.mpr hq.1) (sub_nonneg.mpr h1), mul_nonneg (sub_nonneg.mpr hcon.le) (sub_nonneg.mpr hx)]) c hc
      linarith

/-- Every edge line stays below all breakpoints, and no edge is steeper than the top edge. -/
theorem hull_edge {s : List (K × K)} (h : Hull s) {a b : K × K} (hab : IsEdge a b s) {m : K}
    (hm : a.2 - b.2 = m * (a.1 - b.1)) (hlt : b.1 < a.1) :
    (∀ c ∈ s, b.2 + m * (c.1 - b.1) ≤ c.2) ∧
      (∀ p q rest, s = p :: q :: rest → m * (p.1 - q.1) ≤ p.2 - q.2) := by
  induction s with
  | nil => exact hab.elim
  | cons p t ih =>
    cases t with
    | nil => exact hab.elim
    | cons q rest =>
      rcases hab with ⟨rfl, rfl⟩ | hab'
      · refine ⟨?_, ?_⟩
        · intro c hc
          have := hull_left h m (by
            intro q hq
            simp only [List.head?_cons, Option.some.injEq] at hq
            subst hq
            exact hm.le) c hc
          linarith
        · intro p' q' rest' he
          simp only [List.cons.injEq] at he
          obtain ⟨rfl, rfl, rfl⟩ := he
          exact hm.ge
      · obtain ⟨h1, h2⟩ := ih h.tail hab'
        cases rest with
        | nil => exact hab'.elim
        | cons r rest' =>
          have h3 := h2 q r rest' rfl
          have hc := h.2.2.2 r rfl
          have hqr := h.tail.1
          have key : m * (p.1 - q.1) ≤ p.2 - q.2 := by
            by_contra hcon
            push Not at hcon
            nlinarith [mul_nonneg (sub_nonneg.mpr hqr) (sub_nonneg.mpr hcon.le), mul_nonneg (sub_nonneg.mpr h3) (sub_nonneg.mpr h.1)]
          refine ⟨?_, ?_⟩
          · intro c hc'
            rcases List.mem_cons.mp hc' with rfl | hc'
            · have := h1 q List.mem_cons_self
              linarith
            · exact h1 c hc'
          · intro p' q' rest'' he
            simp only [List.cons.injEq] at he
            obtain ⟨rfl, rfl, rfl⟩ := he
            exact key

/-- Between the first and the last breakpoint, `np.interp` is the line of the edge containing the point. -/
theorem interp_edge {p : K × K} {t : List (K × K)} (h : Hull (p :: t)) {v : K} (hv : v < p.1)
    (hb : ∃ c ∈ p :: t, c.1 ≤ v) : ∃ a b, IsEdge a b (p :: t) ∧ b.1 ≤ v ∧ v < a.1 ∧
      interpDesc (p :: t) v = b.2 + (a.2 - b.2) / (a.1 - b.1) * (v - b.1) := by
  induction t generalizing p with
  | nil =>
    obtain ⟨c, hc, hcv⟩ := hb
    simp only [List.mem_singleton] at hc
    subst hc
    exact absurd hcv (not_le.mpr hv)
  | cons q rest ih =>
    rw [interpDesc]
    rw [if_neg (not_le.mpr hv)]
    by_cases hq : q.1 ≤ v
    · rw [if_pos hq]
      exact ⟨p, q, Or.inl ⟨rfl, rfl⟩, hq, hv, rfl⟩
    · rw [if_neg hq]
      obtain ⟨c, hc, hcv⟩ := hb
      obtain ⟨a, b, hab, h1, h2, h3⟩ := ih h.tail (not_le.mp hq) ⟨c, by
        rcases List.mem_cons.mp hc with rfl | hc
        · exact absurd hcv (not_le.mpr hv)
        · exact hc, hcv⟩
      exact ⟨a, b, Or.inr hab, h1, h2, h3⟩

theorem interp_top {p : K × K} {t : List (K × K)} {v : K} (hv : p.1 ≤ v) : interpDesc (p :: t) v = p.2 := by
  cases t with
  | nil => rfl
  | cons q rest => rw [interpDesc, if_pos hv]

/-- Greatest convex minorant, lower half: an affine function below all breakpoints is below the interpolation. -/
theorem interp_minorant {p : K × K} {t : List (K × K)} (h : Hull (p :: t)) (α β : K)
    (hl : ∀ c ∈ p :: t, α + β * c.1 ≤ c.2) {v : K} (hv : v ≤ p.1) (hb : ∃ c ∈ p :: t, c.1 ≤ v) :
    α + β * v ≤ interpDesc (p :: t) v := by
  rcases hv.lt_or_eq with hv | rfl
  · obtain ⟨a, b, hab, h1, h2, h3⟩ := interp_edge h hv hb
    rw [h3]
    have ha := hl a (edge_mem hab).1
    have hb := hl b (edge_mem hab).2
    have hd : 0 < a.1 - b.1 := by linarith
    rw [← sub_nonneg]
    have : b.2 + (a.2 - b.2) / (a.1 - b.1) * (v - b.1) - (α + β * v) =
        ((a.2 - (α + β * a.1)) * (v - b.1) + (b.2 - (α + β * b.1)) * (a.1 - v)) / (a.1 - b.1) := by
      field_simp
      ring
    rw [this]
    refine div_nonneg (add_nonneg (mul_nonneg ?_ ?_) (mul_nonneg ?_ ?_)) hd.le <;> linarith
  · rw [interp_top le_rfl]
    exact hl p List.mem_cons_self

/-- A non-decreasing supporting line at every point left of the last breakpoint. -/
theorem interp_support {p : K × K} {t : List (K × K)} (h : Hull (p :: t)) {v : K} (hv : v < p.1)
    (hb : ∃ c ∈ p :: t, c.1 ≤ v) : ∃ m, 0 ≤ m ∧ ∀ u, u ≤ p.1 → (∃ c ∈ p :: t, c.1 ≤ u) →
      interpDesc (p :: t) v + m * (u - v) ≤ interpDesc (p :: t) u := by
  obtain ⟨a, b, hab, h1, h2, h3⟩ := interp_edge h hv hb
  have hd : 0 < a.1 - b.1 := by linarith
  refine ⟨(a.2 - b.2) / (a.1 - b.1), div_nonneg (by linarith [(edge_le h hab).2]) hd.le, ?_⟩
  intro u hu hbu
  have he := (hull_edge h hab (m := (a.2 - b.2) / (a.1 - b.1)) (by field_simp) (by linarith)).1
  have := interp_minorant h (b.2 - (a.2 - b.2) / (a.1 - b.1) * b.1) ((a.2 - b.2) / (a.1 - b.1))
    (fun c hc => by linarith [he c hc]) hu hbu
  rw [h3]
  linarith

/-! ## The stack of the envelope loop -/

/-- The points of a stack of indices. -/
def pts (x y : Fin M → K) (st : List (Fin M)) : List (K × K) := st.map (fun k => (x k, y k))

theorem popWhile_mem {x y : Fin M → K} {eps : K} {i : Fin M} (st : List (Fin M)) :
    ∀ c ∈ popWhile x y eps i st, c ∈ st := by
  fun_induction popWhile x y eps i st with
  | case1 i2 i1 rest h ih => intro c hc; exact List.mem_cons_of_mem _ (ih c hc)
  | case2 i2 i1 rest h => exact fun c hc => hc
  | case3 s h => exact fun c hc => hc

theorem popWhile_last {x y : Fin M → K} {eps : K} {i : Fin M} (st : List (Fin M)) :
    (popWhile x y eps i st).getLast? = st.getLast? := by
  fun_induction popWhile x y eps i st with
  | case1 i2 i1 rest h ih => rw [ih, List.getLast?_cons_cons]
  | case2 i2 i1 rest h => rfl
  | case3 s h => rfl

theorem popWhile_hull {x y : Fin M → K} {eps : K} (he : 0 ≤ eps) {i : Fin M} (st : List (Fin M)) (hs : Hull (pts x y st))
    (hx : ∀ c ∈ st, x c ≤ x i) (hy : ∀ c ∈ st, y c ≤ y i) : Hull (pts x y (i :: popWhile x y eps i st)) := by
  fun_induction popWhile x y eps i st with
  | case1 i2 i1 rest h ih =>
    exact ih hs.tail (fun c hc => hx c (List.mem_cons_of_mem _ hc)) (fun c hc => hy c (List.mem_cons_of_mem _ hc))
  | case2 i2 i1 rest h =>
    refine ⟨hx i2 List.mem_cons_self, hy i2 List.mem_cons_self, hs, ?_⟩
    intro r hr
    simp only [pts, List.map_cons, List.head?_cons, Option.some.injEq] at hr
    subst hr
    exact lt_of_le_of_lt he (not_le.mp h)
  | case3 s h =>
    match s, h with
    | [], _ => trivial
    | [a], _ =>
      exact ⟨hx a List.mem_cons_self, hy a List.mem_cons_self, trivial, by intro r hr; simp at hr⟩
    | a :: b :: r, h => exact (h a b r rfl).elim

/-- One pop raises the interpolation by at most `eps / gap`. -/
theorem pop_raise {x y : Fin M → K} {eps g : K} (he : 0 ≤ eps) (hg : 0 < g) {i i1 i2 : Fin M} {rest : List (Fin M)}
    (h12 : x i1 + g ≤ x i2) (h2 : x i2 + g ≤ x i) (hc : cross x y i1 i2 i ≤ eps) (u : K) :
    interpDesc (pts x y (i :: i1 :: rest)) u ≤ interpDesc (pts x y (i :: i2 :: i1 :: rest)) u + eps / g := by
  have hE : 0 ≤ eps / g := div_nonneg he hg.le
  simp only [pts, List.map_cons]
  rw [interpDesc, interpDesc]
  simp only
  by_cases hu : x i ≤ u
  · rw [if_pos hu, if_pos hu]; linarith
  rw [if_neg hu, if_neg hu]
  push Not at hu
  unfold cross at hc
  have hd1 : 0 < x i2 - x i1 := by linarith
  have hd2 : 0 < x i - x i2 := by linarith
  have hd : 0 < x i - x i1 := by linarith
  have hgd : g ≤ x i - x i1 := by linarith
  -- height of the popped point below the chord
  have hheight : ((x i2 - x i1) * (y i - y i1) - (y i2 - y i1) * (x i - x i1)) / (x i - x i1) ≤ eps / g :=
    (div_le_div_of_nonneg_right hc hd.le).trans (div_le_div_of_nonneg_left he hg hgd)
  by_cases h2u : x i2 ≤ u
  · have h1u : x i1 ≤ u := by linarith
    rw [if_pos h2u, if_pos h1u]
    have hid : y i1 + (y i - y i1) / (x i - x i1) * (u - x i1) - (y i2 + (y i - y i2) / (x i - x i2) * (u - x i2)) =
        ((x i2 - x i1) * (y i - y i1) - (y i2 - y i1) * (x i - x i1)) / (x i - x i1) * ((x i - u) / (x i - x i2)) := by
      field_simp
      ring
    have hfrac0 : 0 ≤ (x i - u) / (x i - x i2) := div_nonneg (by linarith) hd2.le
    have hfrac1 : (x i - u) / (x i - x i2) ≤ 1 := by rw [div_le_one hd2]; linarith
    have : ((x i2 - x i1) * (y i - y i1) - (y i2 - y i1) * (x i - x i1)) / (x i - x i1) * ((x i - u) / (x i - x i2)) ≤
        eps / g := by nlinarith
    linarith
  · rw [if_neg h2u]
    push Not at h2u
    rw [interpDesc]
    simp only
    rw [if_neg (not_le.mpr h2u)]
    by_cases h1u : x i1 ≤ u
    · rw [if_pos h1u, if_pos h1u]
      have hid : y i1 + (y i - y i1) / (x i - x i1) * (u - x i1) - (y i1 + (y i2 - y i1) / (x i2 - x i1) * (u - x i1)) =
          ((x i2 - x i1) * (y i - y i1) - (y i2 - y i1) * (x i - x i1)) / (x i - x i1) * ((u - x i1) / (x i2 - x i1)) := by
        field_simp
        ring
      have hfrac0 : 0 ≤ (u - x i1) / (x i2 - x i1) := div_nonneg (by linarith) hd1.le
      have hfrac1 : (u - x i1) / (x i2 - x i1) ≤ 1 := by rw [div_le_one hd1]; linarith
      have : ((x i2 - x i1) * (y i - y i1) - (y i2 - y i1) * (x i - x i1)) / (x i - x i1) * ((u - x i1) / (x i2 - x i1)) ≤
          eps / g := by nlinarith
      linarith
    · rw [if_neg h1u, if_neg h1u]
      linarith

theorem popWhile_raise {x y : Fin M → K} {eps g : K} (he : 0 ≤ eps) (hg : 0 < g)
    (hgap : ∀ a b : Fin M, a < b → x a + g ≤ x b) {i : Fin M} (st : List (Fin M)) (hst : (i :: st).Pairwise (· > ·)) (u : K) :
    ∃ c : ℕ, c + (popWhile x y eps i st).length = st.length ∧
      interpDesc (pts x y (i :: popWhile x y eps i st)) u ≤ interpDesc (pts x y (i :: st)) u + c * (eps / g) := by
  fun_induction popWhile x y eps i st with
  | case1 i2 i1 rest h ih =>
    rw [List.pairwise_cons, List.pairwise_cons] at hst
    obtain ⟨h1, h2, h3⟩ := hst
    obtain ⟨c, hc, hle⟩ := ih (List.pairwise_cons.mpr ⟨fun a ha => h1 a (List.mem_cons_of_mem _ ha), h3⟩)
    refine ⟨c + 1, by simp only [List.length_cons] at hc ⊢; omega, ?_⟩
    have := pop_raise he hg (rest := rest) (hgap i1 i2 (h2 i1 List.mem_cons_self)) (hgap i2 i (h1 i2 List.mem_cons_self)) h u
    push_cast
    linarith
  | case2 i2 i1 rest h => exact ⟨0, by simp, by simp⟩
  | case3 s h => exact ⟨0, by simp, by simp⟩

theorem popWhile_pairwise {x y : Fin M → K} {eps : K} {i : Fin M} (st : List (Fin M)) (hst : (i :: st).Pairwise (· > ·)) :
    (i :: popWhile x y eps i st).Pairwise (· > ·) := by
  fun_induction popWhile x y eps i st with
  | case1 i2 i1 rest h ih =>
    rw [List.pairwise_cons, List.pairwise_cons] at hst
    exact ih (List.pairwise_cons.mpr ⟨fun a ha => hst.1 a (List.mem_cons_of_mem _ ha), hst.2.2⟩)
  | case2 i2 i1 rest h => exact hst
  | case3 s h => exact hst

/-- State of the loop after processing the indices `l`. -/
structure StackInv (x y : Fin M → K) (l st : List (Fin M)) : Prop where
  head : st.head? = l.getLast?
  last : st.getLast? = l.head?
  mem : ∀ c ∈ st, c ∈ l
  desc : st.Pairwise (· > ·)
  hull : Hull (pts x y st)

theorem stack_inv {x y : Fin M → K} (hx : Monotone x) (hy : Monotone y) {eps : K} (he : 0 ≤ eps) (l : List (Fin M))
    (hl : l.Pairwise (· < ·)) : StackInv x y l (l.foldl (fun st i => i :: popWhile x y eps i st) []) := by
  induction l using List.reverseRecOn with
  | nil => exact ⟨rfl, rfl, by simp, by simp, trivial⟩
  | append_singleton l i ih =>
    rw [List.foldl_append]
    simp only [List.foldl_cons, List.foldl_nil]
    rw [List.pairwise_append] at hl
    have hi := ih hl.1
    generalize hst : l.foldl (fun st i => i :: popWhile x y eps i st) [] = st at hi ⊢
    have hlt : ∀ c ∈ st, c < i := fun c hc => hl.2.2 c (hi.mem c hc) i (by simp)
    have hpw : (i :: st).Pairwise (· > ·) := List.pairwise_cons.mpr ⟨hlt, hi.desc⟩
    refine ⟨by simp, ?_, ?_, popWhile_pairwise st hpw, popWhile_hull he st hi.hull (fun c hc => hx (hlt c hc).le)
      (fun c hc => hy (hlt c hc).le)⟩
    · cases l with
      | nil =>
        have : st = [] := by simpa using hst.symm
        subst this
        simp [popWhile]
      | cons a l' =>
        have h1 := popWhile_last (x := x) (y := y) (eps := eps) (i := i) st
        rw [hi.last] at h1
        simp only [List.head?_cons, List.cons_append] at h1 ⊢
        rw [List.getLast?_cons, h1]
        rfl
    · intro c hc
      rcases List.mem_cons.mp hc with rfl | hc
      · simp
      · exact List.mem_append_left _ (hi.mem c (popWhile_mem st c hc))

theorem stack_raise {x y : Fin M → K} (hy : Monotone y) {eps g : K} (he : 0 ≤ eps) (hg : 0 < g)
    (hgap : ∀ a b : Fin M, a < b → x a + g ≤ x b) (l : List (Fin M)) (hl : l.Pairwise (· < ·)) (j : Fin M) (hj : j ∈ l) :
    ∃ c : ℕ, c + (l.foldl (fun st i => i :: popWhile x y eps i st) []).length ≤ l.length ∧
      interpDesc (pts x y (l.foldl (fun st i => i :: popWhile x y eps i st) [])) (x j) ≤ y j + c * (eps / g) := by
  have hx : Monotone x := fun a b hab => by
    rcases hab.lt_or_eq with h | rfl
    · linarith [hgap a b h]
    · exact le_rfl
  induction l using List.reverseRecOn with
  | nil => simp at hj
  | append_singleton l i ih =>
    rw [List.foldl_append]
    simp only [List.foldl_cons, List.foldl_nil]
    rw [List.pairwise_append] at hl
    have hi := stack_inv hx hy he l hl.1
    have hlen : (l.foldl (fun st i => i :: popWhile x y eps i st) []).length ≤ l.length := by
      clear ih hj hi hl
      induction l using List.reverseRecOn with
      | nil => simp
      | append_singleton l k ih =>
        rw [List.foldl_append]
        simp only [List.foldl_cons, List.foldl_nil, List.length_cons, List.length_append, List.length_nil]
        have : ∀ st, (popWhile x y eps k st).length ≤ st.length := by
          intro st
          fun_induction popWhile x y eps k st with
          | case1 i2 i1 rest h ih => simp only [List.length_cons] at ih ⊢; omega
          | case2 => exact le_rfl
          | case3 => exact le_rfl
        have := this (l.foldl (fun st i => i :: popWhile x y eps i st) [])
        omega
    generalize hst : l.foldl (fun st i => i :: popWhile x y eps i st) [] = st at hi ih hlen ⊢
    have hlt : ∀ c ∈ st, c < i := fun c hc => hl.2.2 c (hi.mem c hc) i (by simp)
    have hpw : (i :: st).Pairwise (· > ·) := List.pairwise_cons.mpr ⟨hlt, hi.desc⟩
    obtain ⟨c, hc, hle⟩ := popWhile_raise (y := y) he hg hgap st hpw (x j)
    simp only [List.mem_append, List.mem_singleton] at hj
    rcases hj with hj | rfl
    · obtain ⟨c', hc', hle'⟩ := ih hl.1 hj
      have hji : j < i := hl.2.2 j hj i (by simp)
      -- pushing `i` does not change the value at an earlier point
      have hpush : interpDesc (pts x y (i :: st)) (x j) = interpDesc (pts x y st) (x j) := by
        cases st with
        | nil =>
          have h0 := hi.head
          cases l with
          | nil => simp at hj
          | cons a l' => rw [List.getLast?_cons] at h0; simp at h0
        | cons k st' =>
          have hjk : j ≤ k := by
            have h0 := hi.head
            simp only [List.head?_cons] at h0
            have hkl := h0.symm
            obtain ⟨l', rfl⟩ : ∃ l', l = l' ++ [k] := by
              rw [List.getLast?_eq_some_iff] at hkl
              exact hkl
            rcases List.mem_append.mp hj with h | h
            · have := hl.1
              rw [List.pairwise_append] at this
              exact (this.2.2 j h k (by simp)).le
            · simp only [List.mem_singleton] at h; exact h.le
          simp only [pts, List.map_cons]
          rw [interpDesc]
          simp only
          rw [if_neg (by linarith [hgap j i hji] : ¬ x i ≤ x j)]
          rcases hjk.lt_or_eq with h | rfl
          · rw [if_neg (by linarith [hgap j k h] : ¬ x k ≤ x j)]
          · rw [if_pos le_rfl, interp_top le_rfl]
            simp
      refine ⟨c + c', ?_, ?_⟩
      · simp only [List.length_cons, List.length_append, List.length_nil]
        omega
      · rw [hpush] at hle
        push_cast
        linarith
    · refine ⟨c, ?_, ?_⟩
      · simp only [List.length_cons, List.length_append, List.length_nil]
        omega
      · refine hle.trans ?_
        simp only [pts, List.map_cons]
        rw [interp_top le_rfl]

/-- At a breakpoint left of the last one the interpolation is the breakpoint. -/
theorem interp_vertex {p : K × K} {t : List (K × K)} (h : Hull (p :: t)) {c : K × K} (hc : c ∈ p :: t) (hlt : c.1 < p.1) :
    interpDesc (p :: t) c.1 = c.2 := by
  induction t generalizing p with
  | nil =>
    simp only [List.mem_singleton] at hc
    subst hc
    exact absurd hlt (lt_irrefl _)
  | cons q rest ih =>
    rw [interpDesc, if_neg (not_le.mpr hlt)]
    have hc' : c ∈ q :: rest := by
      rcases List.mem_cons.mp hc with rfl | hc
      · exact absurd hlt (lt_irrefl _)
      · exact hc
    by_cases hq : q.1 ≤ c.1
    · rw [if_pos hq]
      rcases List.mem_cons.mp hc' with rfl | hc2
      · simp
      · exfalso
        cases rest with
        | nil => simp at hc2
        | cons r rest' =>
          have hcr := (hull_le_top h.tail.tail c hc2).1
          have hx := h.2.2.2 r rfl
          have h1 := h.tail.2.1
          have h2 := h.2.1
          have h3 := h.1
          have h4 := h.tail.1
          have hrq : r.1 = q.1 := le_antisymm h4 (hq.trans hcr)
          rw [hrq] at hx
          nlinarith [mul_nonneg (sub_nonneg.mpr h1) (sub_nonneg.mpr h3)]
    · rw [if_neg hq]
      exact ih h.tail hc' (not_le.mp hq)

theorem hull_convex {p : K × K} {t : List (K × K)} (h : Hull (p :: t)) {a b c : K × K} (ha : a ∈ p :: t) (hb : b ∈ p :: t)
    (hc : c ∈ p :: t) (hab : a.1 ≤ b.1) (hbc : b.1 < c.1) : (b.2 - a.2) * (c.1 - a.1) ≤ (b.1 - a.1) * (c.2 - a.2) := by
  have hlt : b.1 < p.1 := lt_of_lt_of_le hbc (hull_le_top h c hc).1
  obtain ⟨e1, e2, hE, h1, h2, h3⟩ := interp_edge h hlt ⟨b, hb, le_rfl⟩
  rw [interp_vertex h hb hlt] at h3
  have hd : 0 < e1.1 - e2.1 := by linarith
  have he := (hull_edge h hE (m := (e1.2 - e2.2) / (e1.1 - e2.1)) (by field_simp) (by linarith)).1
  have hA := he a ha
  have hC := he c hc
  set m := (e1.2 - e2.2) / (e1.1 - e2.1)
  have hA' : b.2 + m * (a.1 - b.1) ≤ a.2 := by linarith
  have hC' : b.2 + m * (c.1 - b.1) ≤ c.2 := by linarith
  nlinarith [mul_le_mul_of_nonneg_left hC' (sub_nonneg.mpr hab), mul_le_mul_of_nonneg_left hA' (sub_nonneg.mpr hbc.le)]

/-! ## Running maximum and the correction -/

theorem le_runMax (y : Fin M → K) {j i : Fin M} (h : j ≤ i) : y j ≤ runMax y i :=
  Finset.le_sup' y (by simp [h])

theorem runMax_attained (y : Fin M → K) (i : Fin M) : ∃ j, j ≤ i ∧ runMax y i = y j := by
  obtain ⟨j, hj, he⟩ := Finset.exists_mem_eq_sup' (s := Finset.univ.filter (fun j : Fin M => j ≤ i)) ⟨i, by simp⟩ y
  exact ⟨j, by simpa using hj, he⟩

theorem runMax_mono (y : Fin M → K) : Monotone (runMax y) := by
  intro a b hab
  obtain ⟨j, hj, he⟩ := runMax_attained y a
  rw [he]
  exact le_runMax y (hj.trans hab)

theorem runMax_of_mono {y : Fin M → K} (hy : Monotone y) : runMax y = y := by
  funext i
  obtain ⟨j, hj, he⟩ := runMax_attained y i
  exact le_antisymm (he.trans_le (hy hj)) (le_runMax y le_rfl)

/-- The final stack of a non-empty frontier: last index on top, first index at the bottom. -/
theorem envelope_shape {x y : Fin M → K} (hx : Monotone x) (hy : Monotone y) {eps : K} (he : 0 ≤ eps) (hM : 0 < M) :
    ∃ t, envelopeStack x y eps = ⟨M - 1, by omega⟩ :: t ∧ (⟨0, hM⟩ : Fin M) ∈ envelopeStack x y eps ∧
      (envelopeStack x y eps).Pairwise (· > ·) ∧ Hull (pts x y (envelopeStack x y eps)) := by
  have hi := stack_inv hx hy he (List.finRange M) (List.pairwise_lt_finRange M)
  have h1 := hi.head
  have h2 := hi.last
  have hlast : (List.finRange M).getLast? = some ⟨M - 1, by omega⟩ := by
    rw [List.getLast?_eq_getElem?]
    simp [hM]
  have hhead : (List.finRange M).head? = some ⟨0, hM⟩ := by
    rw [List.head?_eq_getElem?]
    simp [hM]
  rw [hlast] at h1
  rw [hhead] at h2
  refine ⟨(envelopeStack x y eps).tail, ?_, List.mem_of_getLast? h2, hi.desc, hi.hull⟩
  exact List.eq_cons_of_mem_head? h1

theorem mem_pts {x y : Fin M → K} {st : List (Fin M)} {k : Fin M} (h : k ∈ st) : (x k, y k) ∈ pts x y st :=
  List.mem_map_of_mem h

/-- The three shapes of the correction. -/
theorem convexify_cases {x y : Fin M → K} (hx : Monotone x) {eps : K} (he : 0 ≤ eps) (hM : 0 < M) :
    ∃ t, Hull ((x ⟨M - 1, by omega⟩, runMax y ⟨M - 1, by omega⟩) :: t) ∧
      (x ⟨0, hM⟩, runMax y ⟨0, hM⟩) ∈ (x ⟨M - 1, by omega⟩, runMax y ⟨M - 1, by omega⟩) :: t ∧
      (∀ c ∈ (x ⟨M - 1, by omega⟩, runMax y ⟨M - 1, by omega⟩) :: t, ∃ k : Fin M, c = (x k, runMax y k)) ∧
      ((∀ i, convexify eps x y i = interpDesc ((x ⟨M - 1, by omega⟩, runMax y ⟨M - 1, by omega⟩) :: t) (x i)) ∨
       (convexify eps x y = runMax y ∧
          ∀ k : Fin M, (x k, runMax y k) ∈ (x ⟨M - 1, by omega⟩, runMax y ⟨M - 1, by omega⟩) :: t)) := by
  obtain ⟨t, ht, h0, hd, hh⟩ := envelope_shape hx (runMax_mono y) he hM
  refine ⟨pts x (runMax y) t, ?_, ?_, ?_, ?_⟩
  · rw [ht] at hh; exact hh
  · rw [ht] at h0; exact mem_pts (st := ⟨M - 1, _⟩ :: t) h0
  · intro c hc
    have : c ∈ pts x (runMax y) (⟨M - 1, by omega⟩ :: t) := hc
    simp only [pts, List.mem_map] at this
    obtain ⟨k, _, rfl⟩ := this
    exact ⟨k, rfl⟩
  · by_cases hk : 2 ≤ (envelopeStack x (runMax y) eps).length ∧ (envelopeStack x (runMax y) eps).length < M
    · left
      intro i
      simp only [convexify]
      rw [if_pos hk, ht]
      rfl
    · right
      refine ⟨by simp only [convexify]; rw [if_neg hk], ?_⟩
      have hnd : (envelopeStack x (runMax y) eps).Nodup := hd.imp (fun h => ne_of_gt h)
      have hlen : M ≤ (envelopeStack x (runMax y) eps).length := by
        by_contra hcon
        push Not at hcon
        have : ¬ 2 ≤ (envelopeStack x (runMax y) eps).length := fun h2 => hk ⟨h2, hcon⟩
        have hM2 : 2 ≤ M := by
          have : (envelopeStack x (runMax y) eps).length ≠ 0 := by rw [ht]; simp
          omega
        rw [ht] at h0 this
        simp only [List.length_cons] at this
        have : t = [] := by
          rw [← List.length_eq_zero_iff]; omega
        subst this
        simp only [List.mem_singleton, Fin.mk.injEq] at h0
        omega
      intro k
      have hmem : k ∈ envelopeStack x (runMax y) eps := by
        have hcard : (envelopeStack x (runMax y) eps).toFinset = Finset.univ := by
          rw [← Finset.card_eq_iff_eq_univ, List.toFinset_card_of_nodup hnd, Fintype.card_fin]
          refine le_antisymm ?_ hlen
          simpa using hnd.length_le_card
        rw [← List.mem_toFinset, hcard]
        exact Finset.mem_univ _
      rw [ht] at hmem
      exact mem_pts (st := ⟨M - 1, _⟩ :: t) hmem

theorem convexify_mono {x y : Fin M → K} (hx : Monotone x) {eps : K} (he : 0 ≤ eps) : Monotone (convexify eps x y) := by
  intro i j hij
  have hM : 0 < M := i.pos
  obtain ⟨t, hh, h0, _, hc⟩ := convexify_cases (y := y) hx he hM
  have hb : ∀ k : Fin M, ∃ c ∈ (x ⟨M - 1, by omega⟩, runMax y ⟨M - 1, by omega⟩) :: t, c.1 ≤ x k :=
    fun k => ⟨_, h0, hx (Fin.mk_le_of_le_val (Nat.zero_le _))⟩
  have htop : ∀ k : Fin M, x k ≤ x ⟨M - 1, by omega⟩ := fun k => hx (by rw [Fin.le_def]; simp only; omega)
  rcases hc with hc | ⟨hc, _⟩
  · rw [hc i, hc j]
    rcases (htop i).lt_or_eq with hlt | heq
    · obtain ⟨m, hm, hs⟩ := interp_support hh hlt (hb i)
      have := hs (x j) (htop j) (hb j)
      nlinarith [mul_nonneg hm (sub_nonneg.mpr (hx hij))]
    · have : x i = x j := le_antisymm (hx hij) (by rw [heq]; exact htop j)
      rw [this]
  · rw [hc]; exact runMax_mono y hij

theorem convexify_convex {x y : Fin M → K} (hx : Monotone x) {eps : K} (he : 0 ≤ eps) {i j k : Fin M} (hij : i ≤ j)
    (hjk : j ≤ k) : (convexify eps x y j - convexify eps x y i) * (x k - x i) ≤
      (x j - x i) * (convexify eps x y k - convexify eps x y i) := by
  have hM : 0 < M := i.pos
  have hmono := convexify_mono (y := y) hx he
  rcases (hx hjk).lt_or_eq with hlt | heq
  swap
  · rw [← heq]
    nlinarith [mul_nonneg (sub_nonneg.mpr (hx hij)) (sub_nonneg.mpr (hmono hjk))]
  obtain ⟨t, hh, h0, _, hc⟩ := convexify_cases (y := y) hx he hM
  have hb : ∀ k : Fin M, ∃ c ∈ (x ⟨M - 1, by omega⟩, runMax y ⟨M - 1, by omega⟩) :: t, c.1 ≤ x k :=
    fun k => ⟨_, h0, hx (Fin.mk_le_of_le_val (Nat.zero_le _))⟩
  have htop : ∀ k : Fin M, x k ≤ x ⟨M - 1, by omega⟩ := fun k => hx (by rw [Fin.le_def]; simp only; omega)
  rcases hc with hc | ⟨hc, hall⟩
  · obtain ⟨m, hm, hs⟩ := interp_support hh (lt_of_lt_of_le hlt (htop k)) (hb j)
    have h1 := hs (x i) (htop i) (hb i)
    have h2 := hs (x k) (htop k) (hb k)
    rw [← hc i, ← hc j] at h1
    rw [← hc k, ← hc j] at h2
    nlinarith [mul_le_mul_of_nonneg_left h2 (sub_nonneg.mpr (hx hij)), mul_le_mul_of_nonneg_left h1 (sub_nonneg.mpr hlt.le)]
  · rw [hc]
    exact hull_convex hh (hall i) (hall j) (hall k) (hx hij) hlt

theorem convexify_minorant {x y : Fin M → K} (hx : Monotone x) {eps : K} (he : 0 ≤ eps) (α β : K)
    (hl : ∀ i, α + β * x i ≤ runMax y i) (i : Fin M) : α + β * x i ≤ convexify eps x y i := by
  have hM : 0 < M := i.pos
  obtain ⟨t, hh, h0, hmem, hc⟩ := convexify_cases (y := y) hx he hM
  rcases hc with hc | ⟨hc, _⟩
  · rw [hc i]
    refine interp_minorant hh α β ?_ (hx (by rw [Fin.le_def]; simp only; omega)) ⟨_, h0, hx (Fin.mk_le_of_le_val (Nat.zero_le _))⟩
    intro c hcm
    obtain ⟨k, rfl⟩ := hmem c hcm
    exact hl k
  · rw [hc]; exact hl i

theorem convexify_upper {x y : Fin M → K} {eps g : K} (he : 0 ≤ eps) (hg : 0 < g)
    (hgap : ∀ a b : Fin M, a < b → x a + g ≤ x b) (i : Fin M) : convexify eps x y i ≤ runMax y i + M * (eps / g) := by
  have hE : 0 ≤ eps / g := div_nonneg he hg.le
  obtain ⟨c, hc, hle⟩ := stack_raise (runMax_mono y) he hg hgap (List.finRange M) (List.pairwise_lt_finRange M) i
    (List.mem_finRange i)
  have hcM : (c : K) ≤ M := by
    have : c ≤ M := by rw [List.length_finRange] at hc; omega
    exact_mod_cast this
  simp only [convexify]
  split_ifs with hk
  · have : interpDesc (List.map (fun k => (x k, runMax y k)) (envelopeStack x (runMax y) eps)) (x i) ≤ _ := hle
    nlinarith [mul_le_mul_of_nonneg_right hcM hE]
  · have : (0 : K) ≤ M := Nat.cast_nonneg M
    nlinarith [mul_nonneg this hE]

end PyV.Fr
