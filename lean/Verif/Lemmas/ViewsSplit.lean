import Verif.Props.ViewsRanges
import Verif.Spec.ViewsOracle
import Verif.Lemmas.Gibbs
import Verif.Model.ViewsApi

/-! # Splitting scenarios: how the rows, the passes and the relative entropy move

`c` sends each scenario of a long list to the scenario of a short list it is a copy of; `κ t` is the share of that scenario's probability
given to the copy `t`. -/

namespace PyV.FV

open PyV PyV.Spec

variable {S T N : ℕ}

/-- Probabilities of the long list: each scenario's probability is divided among its copies. -/
def lift (c : Fin T → Fin S) (κ : Fin T → ℝ) (q : Fin S → ℝ) : Fin T → ℝ := fun t => q (c t) * κ t

/-- Probabilities of the short list: copies are added up. -/
def push (c : Fin T → Fin S) (q : Fin T → ℝ) : Fin S → ℝ := fun s => ∑ t, if c t = s then q t else 0

/-- The shares of the copies of each scenario are positive and add up to one. -/
def Shares (c : Fin T → Fin S) (κ : Fin T → ℝ) : Prop := (∀ t, 0 < κ t) ∧ ∀ s, (∑ t, if c t = s then κ t else 0) = 1

theorem sum_push (c : Fin T → Fin S) (a : Fin S → ℝ) (q : Fin T → ℝ) : ∑ s, a s * push c q s = ∑ t, a (c t) * q t := by
  unfold push
  simp only [Finset.mul_sum]
  rw [Finset.sum_comm]
  refine Finset.sum_congr rfl fun t _ => ?_
  simp only [mul_ite, mul_zero]
  rw [Finset.sum_ite_eq]
  simp

theorem push_lift {c : Fin T → Fin S} {κ : Fin T → ℝ} (h : Shares c κ) (q : Fin S → ℝ) : push c (lift c κ q) = q := by
  funext s
  unfold push lift
  have : ∀ t, (if c t = s then q (c t) * κ t else 0) = q s * (if c t = s then κ t else 0) := by
    intro t
    split
    · rename_i e; rw [e]
    · simp
  simp only [this, ← Finset.mul_sum, h.2, mul_one]

theorem sum_lift {c : Fin T → Fin S} {κ : Fin T → ℝ} (h : Shares c κ) (a q : Fin S → ℝ) :
    ∑ t, a (c t) * lift c κ q t = ∑ s, a s * q s := by
  rw [← sum_push, push_lift h]

theorem sum_lift_one {c : Fin T → Fin S} {κ : Fin T → ℝ} (h : Shares c κ) (q : Fin S → ℝ) : ∑ t, lift c κ q t = ∑ s, q s := by
  have := sum_lift h (fun _ => 1) q
  simpa using this

theorem sum_push_one (c : Fin T → Fin S) (q : Fin T → ℝ) : ∑ s, push c q s = ∑ t, q t := by
  have := sum_push c (fun _ => 1) q
  simpa using this

theorem Shares.surj {c : Fin T → Fin S} {κ : Fin T → ℝ} (h : Shares c κ) (s : Fin S) : ∃ t, c t = s := by
  by_contra hn
  push Not at hn
  have := h.2 s
  simp [hn] at this

theorem isProb_lift {c : Fin T → Fin S} {κ : Fin T → ℝ} (h : Shares c κ) {q : Fin S → ℝ} (hq : IsProb q) : IsProb (lift c κ q) :=
  ⟨fun t => mul_nonneg (hq.nonneg _) (h.1 t).le, by rw [sum_lift_one h, hq.sum]⟩

theorem isProb_push (c : Fin T → Fin S) {q : Fin T → ℝ} (hq : IsProb q) : IsProb (push c q) :=
  ⟨fun s => Finset.sum_nonneg fun t _ => by split <;> [exact hq.nonneg t; exact le_rfl], by rw [sum_push_one, hq.sum]⟩

theorem lift_pos {c : Fin T → Fin S} {κ : Fin T → ℝ} (h : Shares c κ) {q : Fin S → ℝ} : (∀ t, 0 < lift c κ q t) ↔ ∀ s, 0 < q s := by
  constructor
  · intro hh s
    obtain ⟨t, rfl⟩ := h.surj s
    exact (pos_iff_pos_of_mul_pos (hh t)).2 (h.1 t)
  · exact fun hh t => mul_pos (hh _) (h.1 t)

theorem lift_injective {c : Fin T → Fin S} {κ : Fin T → ℝ} (h : Shares c κ) : Function.Injective (lift c κ) :=
  fun a b e => by rw [← push_lift h a, e, push_lift h b]

/-- The same rows for the long list. -/
def Rows.comp (c : Fin T → Fin S) (r : Rows S) : Rows T :=
  ⟨r.eq.map (fun p => (p.1 ∘ c, p.2)), r.ineq.map (fun p => (p.1 ∘ c, p.2))⟩

theorem meets_comp (c : Fin T → Fin S) (r : Rows S) (q : Fin T → ℝ) : MeetsRows (r.comp c) q ↔ MeetsRows r (push c q) := by
  unfold MeetsRows Rows.comp
  simp only [List.mem_map, sum_push]
  refine and_congr ⟨fun h p hp => h _ ⟨p, hp, rfl⟩, ?_⟩ ⟨fun h p hp => h _ ⟨p, hp, rfl⟩, ?_⟩
  · rintro h _ ⟨p, hp, rfl⟩; exact h p hp
  · rintro h _ ⟨p, hp, rfl⟩; exact h p hp

theorem kl_lift {c : Fin T → Fin S} {κ : Fin T → ℝ} (h : Shares c κ) {q p : Fin S → ℝ} (hp : ∀ s, 0 < p s) :
    kl (lift c κ q) (lift c κ p) = kl q p := by
  have e : ∀ t, lift c κ q t * (Real.log (lift c κ q t) - Real.log (lift c κ p t)) =
      (Real.log (q (c t)) - Real.log (p (c t))) * lift c κ q t := by
    intro t
    by_cases h0 : q (c t) = 0
    · simp [lift, h0]
    · have : Real.log (lift c κ q t) = Real.log (q (c t)) + Real.log (κ t) := Real.log_mul h0 (h.1 t).ne'
      have h2 : Real.log (lift c κ p t) = Real.log (p (c t)) + Real.log (κ t) := Real.log_mul (hp _).ne' (h.1 t).ne'
      rw [this, h2]; ring
  unfold kl
  simp only [e]
  rw [sum_lift h (fun s => Real.log (q s) - Real.log (p s))]
  exact Finset.sum_congr rfl fun s _ => by ring

/-- Adding up copies loses relative entropy, unless the copies of each scenario were weighted by their shares. -/
theorem kl_push {c : Fin T → Fin S} {κ : Fin T → ℝ} (h : Shares c κ) {p : Fin S → ℝ} (hp : ∀ s, 0 < p s) {q : Fin T → ℝ} (hq : IsProb q) :
    kl (push c q) p ≤ kl q (lift c κ p) ∧ (kl q (lift c κ p) ≤ kl (push c q) p → q = lift c κ (push c q)) := by
  have hle : ∀ t, q t ≤ push c q (c t) := by
    intro t
    have := Finset.single_le_sum (f := fun u => if c u = c t then q u else 0)
      (fun u _ => by show (0 : ℝ) ≤ if _ then _ else _; split <;> [exact hq.nonneg u; exact le_rfl]) (Finset.mem_univ t)
    simpa [push] using this
  have hterm : ∀ t, q t - lift c κ (push c q) t ≤
      q t * (Real.log (q t) - Real.log (lift c κ p t)) - (Real.log (push c q (c t)) - Real.log (p (c t))) * q t ∧
      (q t * (Real.log (q t) - Real.log (lift c κ p t)) - (Real.log (push c q (c t)) - Real.log (p (c t))) * q t
        ≤ q t - lift c κ (push c q) t → q t = lift c κ (push c q) t) := by
    intro t
    rcases ((hq.nonneg t).trans (hle t)).eq_or_lt with h0 | h0
    · have : q t = 0 := le_antisymm (by rw [h0]; exact hle t) (hq.nonneg t)
      simp [lift, ← h0, this]
    · have e1 : Real.log (lift c κ (push c q) t) = Real.log (push c q (c t)) + Real.log (κ t) := Real.log_mul h0.ne' (h.1 t).ne'
      have e2 : Real.log (lift c κ p t) = Real.log (p (c t)) + Real.log (κ t) := Real.log_mul (hp _).ne' (h.1 t).ne'
      have hpos : 0 < lift c κ (push c q) t := mul_pos h0 (h.1 t)
      have e3 : q t * (Real.log (q t) - Real.log (lift c κ p t)) - (Real.log (push c q (c t)) - Real.log (p (c t))) * q t =
          q t * (Real.log (q t) - Real.log (lift c κ (push c q) t)) := by rw [e1, e2]; ring
      rw [e3]
      exact ⟨gibbs_term (hq.nonneg t) hpos, gibbs_term_eq (hq.nonneg t) hpos⟩
  have hs0 : ∑ t, (q t - lift c κ (push c q) t) = 0 := by
    rw [Finset.sum_sub_distrib, sum_lift_one h, sum_push_one, sub_self]
  have hk : kl q (lift c κ p) - kl (push c q) p =
      ∑ t, (q t * (Real.log (q t) - Real.log (lift c κ p t)) - (Real.log (push c q (c t)) - Real.log (p (c t))) * q t) := by
    rw [Finset.sum_sub_distrib, ← sum_push c (fun s => Real.log (push c q s) - Real.log (p s))]
    unfold kl
    congr 1
    exact Finset.sum_congr rfl fun s _ => by ring
  have h1 := Finset.sum_le_sum fun t (_ : t ∈ Finset.univ) => (hterm t).1
  rw [hs0, ← hk] at h1
  refine ⟨by linarith, fun hle2 => ?_⟩
  funext t
  refine (hterm t).2 ?_
  by_contra hlt
  have := Finset.sum_lt_sum (fun u (_ : u ∈ Finset.univ) => (hterm u).1) ⟨t, Finset.mem_univ t, not_le.1 hlt⟩
  rw [hs0, ← hk] at this
  linarith

/-- The minimum-entropy distribution on the long list is the one on the short list, divided among the copies. -/
theorem klPosterior_split {c : Fin T → Fin S} {κ : Fin T → ℝ} (h : Shares c κ) {p : Fin S → ℝ} (hp : ∀ s, 0 < p s) (r : Rows S) (q' : Fin T → ℝ) :
    IsKlPosterior (lift c κ p) (r.comp c) q' ↔ ∃ q, IsKlPosterior p r q ∧ q' = lift c κ q := by
  constructor
  · rintro ⟨h1, h2, h3, h4⟩
    have hm := (meets_comp c r q').1 h3
    have hpp := isProb_push c h2
    have hL : MeetsRows (r.comp c) (lift c κ (push c q')) := by rw [meets_comp, push_lift h]; exact hm
    have e : q' = lift c κ (push c q') := by
      have := h4 _ (isProb_lift h hpp) hL
      refine (this.2 ?_).symm
      rw [kl_lift h hp]
      exact (kl_push h hp h2).1
    refine ⟨push c q', ⟨(lift_pos h).1 (by rw [← e]; exact h1), hpp, hm, ?_⟩, e⟩
    intro q1 g1 g2
    have := h4 (lift c κ q1) (isProb_lift h g1) (by rw [meets_comp, push_lift h]; exact g2)
    rw [e, kl_lift h hp, kl_lift h hp, ← e] at this
    refine ⟨this.1, fun hle => ?_⟩
    have e2 := this.2 hle
    rw [← push_lift h q1, e2]
  · rintro ⟨q, ⟨h1, h2, h3, h4⟩, rfl⟩
    refine ⟨(lift_pos h).2 h1, isProb_lift h h2, by rw [meets_comp, push_lift h]; exact h3, ?_⟩
    intro q1 g1 g2
    have := h4 (push c q1) (isProb_push c g1) ((meets_comp c r q1).1 g2)
    have hk := kl_push h hp g1
    rw [kl_lift h hp]
    refine ⟨this.1.trans hk.1, fun hle => ?_⟩
    have e1 := this.2 (hk.1.trans hle)
    rw [hk.2 (hle.trans this.1), e1]

/-! ## Rows -/

theorem mapE_map {α β γ : Type} {f : α → Except PyErr β} {f' : α → Except PyErr γ} {g : β → γ} (h : ∀ a, f' a = (f a).map g) :
    ∀ l : List α, mapE f' l = (mapE f l).map (List.map g)
  | [] => rfl
  | a :: l => by
    have ih := mapE_map h l
    unfold mapE
    rw [h a, ih]
    cases f a with
    | error e => rfl
    | ok b => cases mapE f l <;> rfl

theorem concat_comp (c : Fin T → Fin S) (l : List (Rows S)) : Rows.concat (l.map (Rows.comp c)) = (Rows.concat l).comp c := by
  induction l with
  | nil => rfl
  | cons a l ih =>
    show Rows.append (a.comp c) (Rows.concat (l.map (Rows.comp c))) = (Rows.append a (Rows.concat l)).comp c
    rw [ih]
    simp [Rows.append, Rows.comp]

theorem build_comp (c : Fin T → Fin S) {α : Type} {f : α → Except PyErr (Rows S)} {f' : α → Except PyErr (Rows T)}
    (h : ∀ a, f' a = (f a).map (Rows.comp c)) (l : List α) :
    (do let rows ← mapE f' l; Except.ok (Rows.concat rows)) = (do let rows ← mapE f l; Except.ok (Rows.concat rows)).map (Rows.comp c) := by
  rw [mapE_map h]
  cases mapE f l with
  | error e => rfl
  | ok rows => exact congrArg Except.ok (concat_comp c rows)

theorem addRow_comp (c : Fin T → Fin S) (op : Op) (row : Fin S → ℝ) (raw : ℝ) :
    addRow op (row ∘ c) raw = (addRow op row raw).comp c := by
  cases op <;> rfl

theorem viewRows_comp (c : Fin T → Fin S) (row : Fin S → ℝ) (rawOf : ℝ → Except PyErr ℝ) (v : ViewVal) :
    viewRows (row ∘ c) rawOf v = (viewRows row rawOf v).map (Rows.comp c) := by
  unfold viewRows
  cases parseViewSpecs v with
  | error e => rfl
  | ok specs =>
    refine build_comp c (fun p => ?_) specs
    obtain ⟨op, x⟩ := p
    cases x with
    | fin t =>
      simp only
      cases rawOf t with
      | error e => rfl
      | ok raw => exact congrArg Except.ok (addRow_comp c op row raw)
    | _ => rfl

section
variable (assets : Fin N → Label) (c : Fin T → Fin S) (R : Fin S → Fin N → ℝ)

theorem buildMean_comp (views : List (MKey × ViewVal)) :
    buildMean assets (fun t => R (c t)) views = (buildMean assets R views).map (Rows.comp c) := by
  unfold buildMean
  refine build_comp c (fun kv => ?_) views
  have e : meanRow assets (fun t => R (c t)) kv.1 = (meanRow assets R kv.1).map (fun row => row ∘ c) := by
    cases kv.1 with
    | single a => simp only [meanRow]; cases assetIdx assets a <;> rfl
    | pair a b => simp only [meanRow]; cases assetIdx assets a <;> [rfl; (cases assetIdx assets b <;> rfl)]
  rw [e]
  cases meanRow assets R kv.1 with
  | error e => rfl
  | ok row => exact viewRows_comp c row _ kv.2

theorem buildVol_comp (mu : Fin N → ℝ) (views : List (Label × ViewVal)) :
    buildVol assets (fun t => R (c t)) mu views = (buildVol assets R mu views).map (Rows.comp c) := by
  unfold buildVol
  refine build_comp c (fun kv => ?_) views
  cases assetIdx assets kv.1 with
  | error e => rfl
  | ok i => exact viewRows_comp c (fun s => R s i ^ 2) _ kv.2

theorem buildVar_comp (mu : Fin N → ℝ) (views : List (Label × ViewVal)) :
    buildVar assets (fun t => R (c t)) mu views = (buildVar assets R mu views).map (Rows.comp c) := by
  unfold buildVar
  refine build_comp c (fun kv => ?_) views
  cases assetIdx assets kv.1 with
  | error e => rfl
  | ok i => exact viewRows_comp c (fun s => R s i ^ 2) _ kv.2

theorem buildSkew_comp (mu var : Fin N → ℝ) (views : List (Label × ViewVal)) :
    buildSkew assets (fun t => R (c t)) mu var views = (buildSkew assets R mu var views).map (Rows.comp c) := by
  unfold buildSkew
  refine build_comp c (fun kv => ?_) views
  cases assetIdx assets kv.1 with
  | error e => rfl
  | ok i =>
    show (if var i < 1 / 10 ^ 12 then _ else _) = Except.map _ (if var i < 1 / 10 ^ 12 then _ else _)
    split
    · rfl
    · exact viewRows_comp c (fun s => R s i ^ 3) _ kv.2

theorem buildCorr_comp (mu var : Fin N → ℝ) (views : List ((Label × Label) × ViewVal)) :
    buildCorr assets (fun t => R (c t)) mu var views = (buildCorr assets R mu var views).map (Rows.comp c) := by
  unfold buildCorr
  refine build_comp c (fun kv => ?_) views
  cases assetIdx assets kv.1.1 with
  | error e => rfl
  | ok i =>
    cases assetIdx assets kv.1.2 with
    | error e => rfl
    | ok j => exact viewRows_comp c (fun s => R s i * R s j) _ kv.2

theorem buildQuantile_comp (views : List (Label × (ℝ × ViewVal))) :
    buildQuantile assets (fun t => R (c t)) views = (buildQuantile assets R views).map (Rows.comp c) := by
  unfold buildQuantile
  refine build_comp c (fun kv => ?_) views
  cases assetIdx assets kv.1 with
  | error e => rfl
  | ok i => exact viewRows_comp c (fun s => if R s i ≤ kv.2.1 then 1 else 0) _ kv.2.2

end

/-! ## Moments -/

section
variable {c : Fin T → Fin S} {κ : Fin T → ℝ} (h : Shares c κ) (R : Fin S → Fin N → ℝ)

include h

theorem meanOf_lift (q : Fin S → ℝ) : meanOf (fun t => R (c t)) (lift c κ q) = meanOf R q :=
  funext fun i => sum_lift h (fun s => R s i) q

theorem varOf_lift (mu : Fin N → ℝ) (q : Fin S → ℝ) : varOf (fun t => R (c t)) mu (lift c κ q) = varOf R mu q :=
  funext fun i => sum_lift h (fun s => (R s i - mu i) ^ 2) q

theorem npVarW_lift (q : Fin S → ℝ) : npVarW (fun t => R (c t)) (lift c κ q) = npVarW R q := by
  funext i
  unfold npVarW
  rw [sum_lift h (fun s => R s i) q, sum_lift_one h]
  rw [sum_lift h (fun s => (R s i - (∑ s, R s i * q s) / ∑ s, q s) ^ 2) q]

theorem npCovW_lift (q : Fin S → ℝ) : npCovW (fun t => R (c t)) (lift c κ q) = npCovW R q := by
  ext i j
  unfold npCovW
  simp only [Matrix.of_apply]
  rw [sum_lift h (fun s => R s i) q, sum_lift h (fun s => R s j) q, sum_lift_one h]
  rw [sum_lift h (fun s => (R s i - (∑ s, R s i * q s) / ∑ s, q s) * (R s j - (∑ s, R s j * q s) / ∑ s, q s)) q]

end

/-! ## Passes -/

section
variable {ep : Ep S} (hep : EpExact ep) {ep' : Ep T} (hep' : EpExact ep') {c : Fin T → Fin S} {κ : Fin T → ℝ} (h : Shares c κ)

include hep hep' h

theorem doEp_split {p : Fin S → ℝ} (hp : ∀ s, 0 < p s) (r : Rows S) (q' : Fin T → ℝ) :
    doEp ep' (lift c κ p) (r.comp c) = .ok q' ↔ ∃ q, doEp ep p r = .ok q ∧ q' = lift c κ q := by
  have e : (⟨(r.comp c).eq ++ [(fun _ => 1, 1)], (r.comp c).ineq⟩ : Rows T) = Rows.comp c ⟨r.eq ++ [(fun _ => 1, 1)], r.ineq⟩ := by
    simp [Rows.comp, Function.comp_def]
  unfold doEp
  rw [e, hep', klPosterior_split h hp]
  simp only [hep p _ _]

omit h hep' in
theorem doEp_pos {p q : Fin S → ℝ} {r : Rows S} (hd : doEp ep p r = .ok q) : ∀ s, 0 < q s := ((hep _ _ _).1 hd).1

theorem sequential_split (R : Fin S → Fin N → ℝ) :
    ∀ {blocks : List (Bool × ((Fin N → ℝ) → (Fin N → ℝ) → Except PyErr (Rows S)))}
      {blocks' : List (Bool × ((Fin N → ℝ) → (Fin N → ℝ) → Except PyErr (Rows T)))},
      List.Forall₂ (fun b b' => b'.1 = b.1 ∧ ∀ mu var, b'.2 mu var = (b.2 mu var).map (Rows.comp c)) blocks blocks' →
      ∀ {p : Fin S → ℝ}, (∀ s, 0 < p s) → ∀ (mu var : Fin N → ℝ) (q' : Fin T → ℝ),
      sequentialPass ep' (lift c κ p) (fun t => R (c t)) blocks' mu var = .ok q' ↔
        ∃ q, sequentialPass ep p R blocks mu var = .ok q ∧ q' = lift c κ q := by
  intro blocks blocks' hb
  induction hb with
  | nil =>
    intro p hp mu var q'
    unfold sequentialPass
    constructor
    · intro hh; injection hh with hh; exact ⟨p, rfl, hh.symm⟩
    · rintro ⟨q, hh, rfl⟩; injection hh with hh; rw [hh]
  | @cons b b' bs bs' hb _ ih =>
    obtain ⟨pr, build⟩ := b
    obtain ⟨pr', build'⟩ := b'
    obtain ⟨e1, e2⟩ := hb
    simp only at e1 e2
    subst e1
    intro p hp mu var q'
    unfold sequentialPass
    cases pr' with
    | false => exact ih hp mu var q'
    | true =>
      simp only [if_true, e2]
      cases hbuild : build mu var with
      | error e =>
        constructor
        · intro hh; cases hh
        · rintro ⟨q, hh, -⟩; cases hh
      | ok r =>
        simp only [Except.map, bind_ok, Except.ok.injEq, exists_eq_left']
        constructor
        · rintro ⟨q1', h1, h2⟩
          obtain ⟨q1, h3, rfl⟩ := (doEp_split hep hep' h hp r q1').1 h1
          rw [meanOf_lift h, varOf_lift h] at h2
          obtain ⟨q, h4, h5⟩ := (ih (doEp_pos hep h3) _ _ q').1 h2
          exact ⟨q, ⟨q1, h3, h4⟩, h5⟩
        · rintro ⟨q, ⟨q1, h3, h4⟩, rfl⟩
          refine ⟨lift c κ q1, (doEp_split hep hep' h hp r _).2 ⟨q1, h3, rfl⟩, ?_⟩
          rw [meanOf_lift h, varOf_lift h]
          exact (ih (doEp_pos hep h3) _ _ _).2 ⟨q, h4, rfl⟩

omit h hep' in
theorem sequential_pos (R : Fin S → Fin N → ℝ) :
    ∀ {blocks : List (Bool × ((Fin N → ℝ) → (Fin N → ℝ) → Except PyErr (Rows S)))} {p : Fin S → ℝ}, (∀ s, 0 < p s) →
      ∀ {mu var : Fin N → ℝ} {q : Fin S → ℝ}, sequentialPass ep p R blocks mu var = .ok q → ∀ s, 0 < q s
  | [], p, hp, mu, var, q, hh => by
    unfold sequentialPass at hh
    injection hh with hh; subst hh; exact hp
  | (pr, build) :: rest, p, hp, mu, var, q, hh => by
    unfold sequentialPass at hh
    cases pr with
    | false => exact sequential_pos R hp hh
    | true =>
      simp only [if_true, bind_ok] at hh
      obtain ⟨r, -, q1, h1, h2⟩ := hh
      exact sequential_pos R (doEp_pos hep h1) h2

/-- One pass succeeds on the long list exactly when it does on the short one, with the result divided among the copies. -/
def Splits (c : Fin T → Fin S) (κ : Fin T → ℝ) (x : Except PyErr (Fin S → ℝ)) (x' : Except PyErr (Fin T → ℝ)) : Prop :=
  ∀ q', x' = .ok q' ↔ ∃ q, x = .ok q ∧ q' = lift c κ q

omit hep hep' h in
theorem splits_ok (q : Fin S → ℝ) : Splits c κ (.ok q) (.ok (lift c κ q)) := by
  intro q'
  constructor
  · intro hh; injection hh with hh; exact ⟨q, rfl, hh.symm⟩
  · rintro ⟨q1, hh, rfl⟩; injection hh with hh; rw [hh]

omit hep hep' h in
theorem splits_error (e e' : PyErr) : Splits c κ (.error e) (.error e') := by
  intro q'
  constructor
  · intro hh; cases hh
  · rintro ⟨q1, hh, -⟩; cases hh

omit hep hep' h in
theorem empty_comp (r : Rows S) : ((r.comp c).eq.isEmpty && (r.comp c).ineq.isEmpty) = (r.eq.isEmpty && r.ineq.isEmpty) := by
  simp [Rows.comp]

theorem linPoint_split {p : Fin S → ℝ} (hp : ∀ s, 0 < p s) (assets : Fin N → Label) (R : Fin S → Fin N → ℝ) (v : Views) (mu var : Fin N → ℝ)
    (x : (Fin N → ℝ) × (Fin N → ℝ)) :
    linPoint ep' (lift c κ p) assets (fun t => R (c t)) v mu var = .ok x ↔ linPoint ep p assets R v mu var = .ok x := by
  unfold linPoint
  split
  · rw [buildMean_comp]
    cases buildMean assets R v.mean with
    | error e => exact ⟨fun hh => by (cases hh), fun hh => by (cases hh)⟩
    | ok r =>
      simp only [Except.map, bind_ok, Except.ok.injEq, exists_eq_left']
      constructor
      · rintro ⟨q', h1, h2⟩
        obtain ⟨q, h3, rfl⟩ := (doEp_split hep hep' h hp r q').1 h1
        rw [meanOf_lift h, varOf_lift h] at h2
        exact ⟨q, h3, h2⟩
      · rintro ⟨q, h1, h2⟩
        refine ⟨lift c κ q, (doEp_split hep hep' h hp r _).2 ⟨q, h1, rfl⟩, ?_⟩
        rw [meanOf_lift h, varOf_lift h]
        exact h2
  · rfl

theorem rows_split {p : Fin S → ℝ} (hp : ∀ s, 0 < p s) (r : Rows S) :
    Splits c κ (if r.eq.isEmpty && r.ineq.isEmpty then .ok p else doEp ep p r)
      (if (r.comp c).eq.isEmpty && (r.comp c).ineq.isEmpty then .ok (lift c κ p) else doEp ep' (lift c κ p) (r.comp c)) := by
  rw [empty_comp]
  split
  · exact splits_ok p
  · exact doEp_split hep hep' h hp r

theorem simultaneous_split {p : Fin S → ℝ} (hp : ∀ s, 0 < p s) (assets : Fin N → Label) (R : Fin S → Fin N → ℝ) (v : Views) (mu var : Fin N → ℝ) :
    Splits c κ (simultaneousPass ep p assets R v mu var) (simultaneousPass ep' (lift c κ p) assets (fun t => R (c t)) v mu var) := by
  intro q'
  unfold simultaneousPass
  simp only [buildMean_comp, buildVol_comp, buildVar_comp, buildSkew_comp, buildCorr_comp]
  have key : ∀ mu' var', Splits c κ (do
        let r1 ← buildMean assets R v.mean
        let r2 ← buildVol assets R mu' v.vol
        let r3 ← buildVar assets R mu' v.var
        let r4 ← buildSkew assets R mu' var' v.skew
        let r5 ← buildCorr assets R mu' var' v.corr
        let r := Rows.concat [r1, r2, r3, r4, r5]
        if r.eq.isEmpty && r.ineq.isEmpty then Except.ok p else doEp ep p r) (do
        let r1 ← (buildMean assets R v.mean).map (Rows.comp c)
        let r2 ← (buildVol assets R mu' v.vol).map (Rows.comp c)
        let r3 ← (buildVar assets R mu' v.var).map (Rows.comp c)
        let r4 ← (buildSkew assets R mu' var' v.skew).map (Rows.comp c)
        let r5 ← (buildCorr assets R mu' var' v.corr).map (Rows.comp c)
        let r := Rows.concat [r1, r2, r3, r4, r5]
        if r.eq.isEmpty && r.ineq.isEmpty then Except.ok (lift c κ p) else doEp ep' (lift c κ p) r) := by
    intro mu' var'
    cases buildMean assets R v.mean with
    | error e => exact splits_error _ _
    | ok r1 => cases buildVol assets R mu' v.vol with
      | error e => exact splits_error _ _
      | ok r2 => cases buildVar assets R mu' v.var with
        | error e => exact splits_error _ _
        | ok r3 => cases buildSkew assets R mu' var' v.skew with
          | error e => exact splits_error _ _
          | ok r4 => cases buildCorr assets R mu' var' v.corr with
            | error e => exact splits_error _ _
            | ok r5 =>
              have e : Rows.concat [r1.comp c, r2.comp c, r3.comp c, r4.comp c, r5.comp c] = (Rows.concat [r1, r2, r3, r4, r5]).comp c :=
                concat_comp c [r1, r2, r3, r4, r5]
              have := rows_split hep hep' h hp (Rows.concat [r1, r2, r3, r4, r5])
              rw [← e] at this
              exact this
  rw [bind_ok]
  constructor
  · rintro ⟨⟨mu', var'⟩, h1, h2⟩
    obtain ⟨q, h3, h4⟩ := (key mu' var' q').1 h2
    exact ⟨q, by rw [bind_ok]; exact ⟨_, (linPoint_split hep hep' h hp assets R v mu var _).1 h1, h3⟩, h4⟩
  · rintro ⟨q, h1, rfl⟩
    rw [bind_ok] at h1
    obtain ⟨⟨mu', var'⟩, h2, h3⟩ := h1
    exact ⟨_, (linPoint_split hep hep' h hp assets R v mu var _).2 h2, (key mu' var' _).2 ⟨q, h3, rfl⟩⟩

theorem momentPass_split {p : Fin S → ℝ} (hp : ∀ s, 0 < p s) (assets : Fin N → Label) (R : Fin S → Fin N → ℝ) (v : Views) (sequential : Bool)
    (mu var : Fin N → ℝ) :
    Splits c κ (momentPass ep p assets R v sequential mu var)
      (momentPass ep' (lift c κ p) assets (fun t => R (c t)) v sequential mu var) := by
  unfold momentPass
  cases sequential with
  | false => exact simultaneous_split hep hep' h hp assets R v mu var
  | true =>
    refine sequential_split hep hep' h R ?_ hp mu var
    unfold blocksOf
    exact .cons ⟨rfl, fun _ _ => buildMean_comp _ _ _ _⟩ (.cons ⟨rfl, fun _ _ => buildVol_comp _ _ _ _ _⟩
      (.cons ⟨rfl, fun _ _ => buildVar_comp _ _ _ _ _⟩ (.cons ⟨rfl, fun _ _ => buildSkew_comp _ _ _ _ _ _⟩
      (.cons ⟨rfl, fun _ _ => buildCorr_comp _ _ _ _ _ _⟩ .nil))))

omit h hep' in
theorem momentPass_pos {p : Fin S → ℝ} (hp : ∀ s, 0 < p s) {assets : Fin N → Label} {R : Fin S → Fin N → ℝ} {v : Views} {sequential : Bool}
    {mu var : Fin N → ℝ} {q : Fin S → ℝ} (hq : momentPass ep p assets R v sequential mu var = .ok q) : ∀ s, 0 < q s := by
  unfold momentPass at hq
  cases sequential with
  | true => exact sequential_pos hep R hp hq
  | false =>
    simp only [Bool.false_eq_true, if_false] at hq
    unfold simultaneousPass at hq
    simp only [bind_ok] at hq
    obtain ⟨⟨mu', var'⟩, -, r1, -, r2, -, r3, -, r4, -, r5, -, hq⟩ := hq
    split at hq
    · injection hq with hq; subst hq; exact hp
    · exact doEp_pos hep hq

theorem quantilePass_split {p : Fin S → ℝ} (hp : ∀ s, 0 < p s) (assets : Fin N → Label) (R : Fin S → Fin N → ℝ) (views : List (Label × (ℝ × ViewVal))) :
    Splits c κ (quantilePass ep assets R views p) (quantilePass ep' assets (fun t => R (c t)) views (lift c κ p)) := by
  unfold quantilePass
  split
  · exact splits_ok p
  · rw [buildQuantile_comp assets c R]
    cases buildQuantile assets R views with
    | error e => exact splits_error _ _
    | ok r => exact rows_split hep hep' h hp r

/-- The whole computation without CVaR views. -/
theorem computePosterior_split {p : Fin S → ℝ} (hp : ∀ s, 0 < p s) (argsort : (Fin S → ℝ) → Equiv.Perm (Fin S))
    (argsort' : (Fin T → ℝ) → Equiv.Perm (Fin T)) (round round' : ℝ → ℤ) (assets : Fin N → Label) (R : Fin S → Fin N → ℝ) (v : Views)
    (hv : v.cvar = []) (sequential : Bool) :
    Splits c κ (computePosterior ep argsort round p assets R v sequential)
      (computePosterior ep' argsort' round' (lift c κ p) assets (fun t => R (c t)) v sequential) := by
  unfold computePosterior
  simp only [meanOf_lift h, npVarW_lift h, hv, cvarPass]
  split
  · exact splits_ok p
  · intro q'
    simp only [bind_ok, Except.ok.injEq]
    constructor
    · rintro ⟨q1', h1, q2', h2, rfl⟩
      obtain ⟨q1, h3, rfl⟩ := (momentPass_split hep hep' h hp assets R v sequential _ _ _).1 h1
      obtain ⟨q2, h4, h5⟩ := (quantilePass_split hep hep' h (momentPass_pos hep hp h3) assets R v.quantile _).1 h2
      exact ⟨q2, ⟨q1, h3, q2, h4, rfl⟩, h5⟩
    · rintro ⟨q2, ⟨q1, h3, q2', h4, rfl⟩, rfl⟩
      exact ⟨_, (momentPass_split hep hep' h hp assets R v sequential _ _ _).2 ⟨q1, h3, rfl⟩, _,
        (quantilePass_split hep hep' h (momentPass_pos hep hp h3) assets R v.quantile _).2 ⟨_, h4, rfl⟩, rfl⟩

end

end PyV.FV
