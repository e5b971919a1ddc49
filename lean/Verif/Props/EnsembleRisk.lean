import Verif.Props.Assemble
import Verif.Props.FrontierEnsembles
import Verif.Props.FrontierShape
import Mathlib.Algebra.QuadraticDiscriminant

set_option linter.unusedSectionVars false

/-!
# Combining strategies: limits, return and risk of the ensemble (C224), order of the strategies (C225)
-/

namespace PyV.Props

open PyV PyV.Fr PyV.Ens PyV.Spec PyV.Spec.Ens PyV.Spec.Opt PyV.Spec.Con

variable {N S : ℕ}

/-! ## Convex combinations -/

/-- The portfolio mixing the listed ones in the proportions `x`. -/
def blended (ws : List (Fin N → ℝ)) (x : Fin ws.length → ℝ) : Fin N → ℝ := fun i => ∑ k, x k * ws.get k i

/-- Gains of a portfolio in each scenario. -/
def gains {T : ℕ} (R : Fin T → Fin N → ℝ) (w : Fin N → ℝ) : Fin T → ℝ := fun t => ∑ i, R t i * w i

theorem blended_linear (ws : List (Fin N → ℝ)) (x : Fin ws.length → ℝ) (c : Fin N → ℝ) :
    ∑ i, c i * blended ws x i = ∑ k, x k * ∑ i, c i * ws.get k i := by
  unfold blended
  simp only [Finset.mul_sum]
  rw [Finset.sum_comm]
  exact Finset.sum_congr rfl fun k _ => Finset.sum_congr rfl fun i _ => by ring

theorem blend_le {x : Fin S → ℝ} (hx : Simplex x) {a : Fin S → ℝ} {b : ℝ} (h : ∀ k, a k ≤ b) : ∑ k, x k * a k ≤ b := by
  calc ∑ k, x k * a k ≤ ∑ k, x k * b := Finset.sum_le_sum fun k _ => mul_le_mul_of_nonneg_left (h k) (hx.1 k)
    _ = b := by rw [← Finset.sum_mul, hx.2, one_mul]

theorem le_blend {x : Fin S → ℝ} (hx : Simplex x) {a : Fin S → ℝ} {b : ℝ} (h : ∀ k, b ≤ a k) : b ≤ ∑ k, x k * a k := by
  calc b = ∑ k, x k * b := by rw [← Finset.sum_mul, hx.2, one_mul]
    _ ≤ ∑ k, x k * a k := Finset.sum_le_sum fun k _ => mul_le_mul_of_nonneg_left (h k) (hx.1 k)

theorem blend_eq {x : Fin S → ℝ} (hx : Simplex x) {a : Fin S → ℝ} {b : ℝ} (h : ∀ k, a k = b) : ∑ k, x k * a k = b := by
  simp only [h]
  rw [← Finset.sum_mul, hx.2, one_mul]

/-- Every constraint specification satisfied by all the portfolios is satisfied by a blend. -/
theorem satisfies_blend {c : PyV.Con.Spec ℝ} {ws : List (Fin N → ℝ)} (h : ∀ w ∈ ws, Satisfies c w) {x : Fin ws.length → ℝ} (hx : Simplex x) :
    Satisfies c (blended ws x) := by
  have hk : ∀ k, Satisfies c (ws.get k) := fun k => h _ (List.get_mem ws k)
  refine ⟨fun hl i => le_blend hx fun k => (hk k).long hl i, fun t ht => ?_, ?_, ?_, ?_, ?_, ?_⟩
  · have := blended_linear ws x (fun _ => 1)
    simp only [one_mul] at this
    rw [this]
    exact blend_eq hx fun k => (hk k).total t ht
  · have hb := fun k => (hk k).bounds
    revert hb
    generalize c.bounds = bd
    intro hb
    rcases bd with _ | ⟨lo, hi⟩ | l | l
    · exact trivial
    · exact fun i => ⟨fun a ha => le_blend hx fun k => (hb k i).1 a ha, fun a ha => blend_le hx fun k => (hb k i).2 a ha⟩
    · exact fun e he i hi => ⟨fun a ha => le_blend hx fun k => (hb k e he i hi).1 a ha,
        fun a ha => blend_le hx fun k => (hb k e he i hi).2 a ha⟩
    · exact fun i e he => ⟨fun a ha => le_blend hx fun k => (hb k i e he).1 a ha,
        fun a ha => blend_le hx fun k => (hb k i e he).2 a ha⟩
  · intro e he k hkk i j hi hj
    have : blended ws x i - blended ws x j = ∑ k, x k * (ws.get k i - ws.get k j) := by
      unfold blended
      rw [← Finset.sum_sub_distrib]
      exact Finset.sum_congr rfl fun k _ => by ring
    rw [this]
    exact blend_le hx fun k' => (hk k').relative e he k hkk i j hi hj
  · intro e he lo hi hlo hhi
    have : groupWeight e.2.1 (blended ws x) = ∑ k, x k * groupWeight e.2.1 (ws.get k) := by
      have := blended_linear ws x (fun i : Fin N => if (i : ℤ) ∈ e.2.1 then 1 else 0)
      simpa only [groupWeight, ite_mul, one_mul, zero_mul] using this
    rw [this]
    exact ⟨le_blend hx fun k => ((hk k).groups e he lo hi hlo hhi).1, blend_le hx fun k => ((hk k).groups e he lo hi hlo hhi).2⟩
  · intro e he r hr
    rw [blended_linear]
    exact blend_le hx fun k => (hk k).ineq e he r hr
  · intro e he r hr
    rw [blended_linear]
    exact blend_eq hx fun k => (hk k).eq e he r hr

/-- The covariance form. -/
def covForm (C : Fin N → Fin N → ℝ) (u v : Fin N → ℝ) : ℝ := ∑ i, ∑ j, u i * C i j * v j

theorem covForm_le {C : Fin N → Fin N → ℝ} (hC : IsCov C) (u v : Fin N → ℝ) :
    covForm C u v ≤ Real.sqrt (quad C u) * Real.sqrt (quad C v) := by
  have hsym : covForm C v u = covForm C u v := by
    unfold covForm
    rw [Finset.sum_comm]
    exact Finset.sum_congr rfl fun i _ => Finset.sum_congr rfl fun j _ => by rw [hC.1 j i]; ring
  have hexp : ∀ t : ℝ, quad C (fun i => t * u i + v i) = quad C u * (t * t) + 2 * covForm C u v * t + quad C v := by
    intro t
    have h1 : quad C (fun i => t * u i + v i) = quad C u * (t * t) + covForm C u v * t + covForm C v u * t + quad C v := by
      unfold quad covForm
      simp only [Finset.sum_mul, ← Finset.sum_add_distrib]
      exact Finset.sum_congr rfl fun i _ => Finset.sum_congr rfl fun j _ => by ring
    rw [h1, hsym]; ring
  have hd := discrim_le_zero (a := quad C u) (b := 2 * covForm C u v) (c := quad C v) fun t => by
    rw [← hexp t]; exact hC.2 _
  unfold discrim at hd
  have h0 : 0 ≤ quad C u := hC.2 u
  rw [← Real.sqrt_mul h0]
  refine Real.le_sqrt_of_sq_le ?_
  nlinarith

/-- Volatility of a blend is at most the blend of the volatilities. -/
theorem vol_blend {C : Fin N → Fin N → ℝ} (hC : IsCov C) (ws : List (Fin N → ℝ)) {x : Fin ws.length → ℝ} (hx : Simplex x) :
    Real.sqrt (quad C (blended ws x)) ≤ ∑ k, x k * Real.sqrt (quad C (ws.get k)) := by
  have hnn : 0 ≤ ∑ k, x k * Real.sqrt (quad C (ws.get k)) :=
    Finset.sum_nonneg fun k _ => mul_nonneg (hx.1 k) (Real.sqrt_nonneg _)
  refine Real.sqrt_le_iff.2 ⟨hnn, ?_⟩
  have h1 : quad C (blended ws x) = ∑ k, ∑ l, x k * x l * covForm C (ws.get k) (ws.get l) := by
    unfold quad covForm blended
    simp only [Finset.sum_mul, Finset.mul_sum]
    have e1 : ∀ i : Fin N, ∑ j : Fin N, ∑ l, ∑ k, x k * ws.get k i * C i j * (x l * ws.get l j) =
        ∑ k, ∑ l, ∑ j : Fin N, x k * ws.get k i * C i j * (x l * ws.get l j) := by
      intro i
      rw [Finset.sum_comm]
      simp only [Finset.sum_comm (s := (Finset.univ : Finset (Fin N)))]
      rw [Finset.sum_comm]
    calc _ = ∑ i : Fin N, ∑ k, ∑ l, ∑ j : Fin N, x k * ws.get k i * C i j * (x l * ws.get l j) :=
            Finset.sum_congr rfl fun i _ => e1 i
      _ = ∑ k, ∑ l, ∑ i : Fin N, ∑ j : Fin N, x k * ws.get k i * C i j * (x l * ws.get l j) := by
            rw [Finset.sum_comm]
            exact Finset.sum_congr rfl fun k _ => Finset.sum_comm
      _ = _ := Finset.sum_congr rfl fun k _ => Finset.sum_congr rfl fun l _ => Finset.sum_congr rfl fun i _ =>
            Finset.sum_congr rfl fun j _ => by ring
  rw [h1, sq, Finset.sum_mul_sum]
  refine Finset.sum_le_sum fun k _ => Finset.sum_le_sum fun l _ => ?_
  calc x k * x l * covForm C (ws.get k) (ws.get l)
      ≤ x k * x l * (Real.sqrt (quad C (ws.get k)) * Real.sqrt (quad C (ws.get l))) :=
        mul_le_mul_of_nonneg_left (covForm_le hC _ _) (mul_nonneg (hx.1 k) (hx.1 l))
    _ = _ := by ring

/-- CVaR of a blend is at most the blend of the CVaRs. -/
theorem cvar_blend {T : ℕ} {R : Fin T → Fin N → ℝ} {p : Fin T → ℝ} (hp : IsProb p) {conf : ℝ} (hc : conf < 1)
    (ws : List (Fin N → ℝ)) {x : Fin ws.length → ℝ} (hx : Simplex x) {c : Fin ws.length → ℝ}
    (hk : ∀ k, IsCvar p (gains R (ws.get k)) conf (c k)) {v : ℝ} (hv : IsCvar p (gains R (blended ws x)) conf v) :
    v ≤ ∑ k, x k * c k := by
  choose a ha using fun k => (hk k).1
  refine (hv.2 ⟨∑ k, x k * a k, rfl⟩).trans ?_
  simp only [← ha]
  unfold ru expect
  have hlin : ∀ t, gains R (blended ws x) t = ∑ k, x k * gains R (ws.get k) t := fun t => blended_linear ws x (R t)
  have h1 : ∀ t, p t * max (-(gains R (blended ws x) t) - ∑ k, x k * a k) 0 ≤
      ∑ k, x k * (p t * max (-(gains R (ws.get k) t) - a k) 0) := by
    intro t
    have : max (-(gains R (blended ws x) t) - ∑ k, x k * a k) 0 ≤ ∑ k, x k * max (-(gains R (ws.get k) t) - a k) 0 := by
      refine max_le ?_ (Finset.sum_nonneg fun k _ => mul_nonneg (hx.1 k) (le_max_right _ _))
      have e : -(gains R (blended ws x) t) - ∑ k, x k * a k = ∑ k, x k * (-(gains R (ws.get k) t) - a k) := by
        rw [hlin, ← Finset.sum_neg_distrib, ← Finset.sum_sub_distrib]
        exact Finset.sum_congr rfl fun k _ => by ring
      rw [e]
      exact Finset.sum_le_sum fun k _ => mul_le_mul_of_nonneg_left (le_max_left _ _) (hx.1 k)
    refine (mul_le_mul_of_nonneg_left this (hp.1 t)).trans_eq ?_
    rw [Finset.mul_sum]
    exact Finset.sum_congr rfl fun k _ => by ring
  have h2 : ∑ t, p t * max (-(gains R (blended ws x) t) - ∑ k, x k * a k) 0 ≤
      ∑ k, x k * ∑ t, p t * max (-(gains R (ws.get k) t) - a k) 0 := by
    refine (Finset.sum_le_sum fun t _ => h1 t).trans_eq ?_
    rw [Finset.sum_comm]
    exact Finset.sum_congr rfl fun k _ => by rw [Finset.mul_sum]
  have h3 : ∑ k, x k * (a k + (∑ t, p t * max (-(gains R (ws.get k) t) - a k) 0) / (1 - conf)) =
      ∑ k, x k * a k + (∑ k, x k * ∑ t, p t * max (-(gains R (ws.get k) t) - a k) 0) / (1 - conf) := by
    rw [Finset.sum_div, ← Finset.sum_add_distrib]
    exact Finset.sum_congr rfl fun k _ => by ring
  rw [h3]
  have := div_le_div_of_nonneg_right h2 (sub_pos.2 hc).le
  linarith

/-! ## C224 -/

/-- `v` blends the portfolios `ws` in non-negative proportions summing to one: every constraint specification they all satisfy holds
for it, its expected return is the blend of theirs under every mean, and under every covariance or scenario set its volatility or CVaR is
at most the blend of theirs; `equal` says that the proportions are equal. -/
def Diversifies (ws : List (Fin N → ℝ)) (v : Fin N → ℝ) (equal : Prop) : Prop :=
  ∃ x : Fin ws.length → ℝ, Simplex x ∧ (equal → ∀ k, x k = 1 / ws.length) ∧
    (∀ c : PyV.Con.Spec ℝ, (∀ w ∈ ws, Satisfies c w) → Satisfies c v) ∧
    (∀ m, ret m v = ∑ k, x k * ret m (ws.get k)) ∧
    (∀ C, IsCov C → Real.sqrt (quad C v) ≤ ∑ k, x k * Real.sqrt (quad C (ws.get k))) ∧
    ∀ (T : ℕ) (R : Fin T → Fin N → ℝ) (p : Fin T → ℝ) (conf : ℝ) (c : Fin ws.length → ℝ) (cv : ℝ), IsProb p → conf < 1 →
      (∀ k, IsCvar p (gains R (ws.get k)) conf (c k)) → IsCvar p (gains R v) conf cv → cv ≤ ∑ k, x k * c k

theorem diversifies_blend (ws : List (Fin N → ℝ)) {x : Fin ws.length → ℝ} (hx : Simplex x) {equal : Prop}
    (he : equal → ∀ k, x k = 1 / ws.length) : Diversifies ws (blended ws x) equal :=
  ⟨x, hx, he, fun _ hc => satisfies_blend hc hx, fun m => blended_linear ws x m, fun _ hC => vol_blend hC ws hx,
    fun _ _ _ _ _ _ hp hc hk hv => cvar_blend hp hc ws hx hk hv⟩

theorem ensembleOf_blend {V : Type*} {solve : ∀ S, QpSolver S S 1 ℝ V} (hs : ∀ S, SolverSound (solve S)) {off : V} {g : List (String × V)}
    {ws : List (Fin N → ℝ)} {names : Option (List String)} {w : WeightsArg String ℝ} {sf : Option ℤ} {kw : Option (List (String × V))}
    {e : String} {v : Fin N → ℝ} (hw : ∀ raw : Fin ws.length → ℝ, Requested names w raw → ∀ k, 0 ≤ raw k)
    (h : EnsembleOf solve off g ws names w sf kw e v) : Diversifies ws v (e = "average" ∧ w = .none) := by
  rcases h with ⟨he, h⟩ | ⟨he, L, -, h⟩
  · obtain ⟨raw, hr, hpos, hv⟩ := (C46_average _ _ _ _).1 h
    have hx : Simplex fun k => raw k / ∑ j, raw j :=
      ⟨fun k => div_nonneg (hw raw hr k) hpos.le, by rw [← Finset.sum_div, div_self hpos.ne']⟩
    have : v = blended ws fun k => raw k / ∑ j, raw j := by
      funext i
      rw [hv, blended, Finset.sum_div]
      exact Finset.sum_congr rfl fun k _ => by rw [div_mul_eq_mul_div]; rfl
    rw [this]
    refine diversifies_blend ws hx ?_
    rintro ⟨-, rfl⟩ k
    have hr' : ∀ k, raw k = 1 := hr
    simp [hr']
  · obtain ⟨Fs, x, -, hx, hv, -⟩ := C48_result _ (hs _) _ _ _ _ _ _ h
    have : v = blended ws x := funext fun i => hv i
    rw [this]
    exact diversifies_blend ws hx fun hne => absurd (he.symm.trans hne.1) (by decide)

/-- **C224** (selected portfolios) with caller weights that are not negative, every portfolio returned by
`assemble_portfolio_ensemble(combine="selected")` diversifies the strategies' selected portfolios. -/
theorem C224_selected {V : Type*} (solve : ∀ S, QpSolver S S 1 ℝ V) (hs : ∀ S, SolverSound (solve S)) (off : V) (g : List (String × V))
    (specs : List (EnsSpec ℝ N)) (ws : List (Fin N → ℝ)) (hp : Picked specs ws) (entries : List String) (sf : Option ℤ)
    (w : WeightsArg String ℝ) (hw : ∀ raw : Fin ws.length → ℝ, Requested (some (specs.map EnsSpec.name)) w raw → ∀ k, 0 ≤ raw k)
    (kw : Option (List (String × V))) (r : List (String × (Fin N → ℝ)))
    (hr : assemble solve off g specs entries "selected" sf w kw = .ok r) (e : String) (v : Fin N → ℝ) (hv : (e, v) ∈ r) :
    Diversifies ws v (e = "average" ∧ w = .none) := by
  have hne : specs ≠ [] := by rintro rfl; simp [assemble] at hr
  exact ensembleOf_blend hs hw (((C119_selected solve off g specs ws hne hp entries sf w kw).2 r hr).2.2 e v hv)

/-- **C224** (frontier columns) the same with `combine="frontier"`, for one column of each strategy's own frontier. -/
theorem C224_frontier {V : Type*} (solve : ∀ S, QpSolver S S 1 ℝ V) (hs : ∀ S, SolverSound (solve S)) (off : V) (g : List (String × V))
    (specs : List (EnsSpec ℝ N)) (hn : (specs.map EnsSpec.name).Nodup) (entries : List String) (sf : Option ℤ)
    (w : WeightsArg String ℝ) (hw : ∀ S (raw : Fin S → ℝ), Requested none w raw → ∀ k, 0 ≤ raw k)
    (kw : Option (List (String × V))) (r : List (String × (Fin N → ℝ)))
    (hr : assemble solve off g specs entries "frontier" sf w kw = .ok r) :
    ∀ e v, (e, v) ∈ r → ∃ cols, List.Forall₂ OwnColumn specs cols ∧ Diversifies cols v (e = "average" ∧ w = .none) := by
  intro e v hv
  by_cases he : entries = []
  · subst he
    unfold assemble at hr
    split at hr
    · cases hr
    split at hr
    · cases hr
    rw [if_neg (by decide), if_pos rfl] at hr
    injection hr with hr
    rw [← hr] at hv
    simp at hv
  · obtain ⟨cols, hown, -, -, h⟩ := C119_frontier solve off g specs hn entries he sf w kw r hr
    exact ⟨cols, hown, ensembleOf_blend hs (hw _) (h e v hv)⟩

/-- Two strategies that select 1 and 3 units of a single asset. -/
noncomputable def twoStrategies : List (EnsSpec ℝ 1) :=
  [⟨"x", .ok ⟨0, ⟨fun _ => nofun, nofun, nofun, "", []⟩⟩, fun _ => .ok fun _ => 1, none⟩,
   ⟨"y", .ok ⟨0, ⟨fun _ => nofun, nofun, nofun, "", []⟩⟩, fun _ => .ok fun _ => 3, none⟩]

theorem twoStrategies_picked : Picked twoStrategies [fun _ => 1, fun _ => 3] := .cons ⟨_, rfl, rfl⟩ (.cons ⟨_, rfl, rfl⟩ .nil)

/-- Their average is returned, earns 2 when the asset earns 1, and with variance 4 has volatility at most 4 = (2 + 6) / 2. -/
example : ∃ r v, assemble (V := Unit) (fun _ _ _ => (.ok none, [])) () [] twoStrategies ["average"] "selected" none .none none = .ok r ∧
    ("average", v) ∈ r ∧ Real.sqrt (quad (fun _ _ => 4) v) ≤ 4 ∧ ret (fun _ => 1) v = 2 := by
  have h119 := C119_selected (V := Unit) (fun _ _ _ => (.ok none, [])) () [] twoStrategies _ (by simp [twoStrategies]) twoStrategies_picked
    ["average"] none .none none
  obtain ⟨r, hr⟩ := h119.1.1 fun e he => by
    rw [List.mem_singleton] at he
    exact ⟨_, Or.inl ⟨he, (C46_average _ _ _ (fun i => (∑ k, (1 : ℝ) * matrixOf [fun _ : Fin 1 => (1 : ℝ), fun _ => 3] i k) / ∑ _k : Fin 2, 1)).2
      ⟨fun _ => 1, fun _ => rfl, by simp, fun i => rfl⟩⟩⟩
  obtain ⟨p, hp, hp1⟩ := List.mem_map.1 (((h119.2 r hr).2.1 "average").2 (by simp))
  obtain ⟨e, v⟩ := p
  subst hp1
  refine ⟨r, v, hr, hp, ?_⟩
  obtain ⟨x, -, he, -, hret, hvol, -⟩ := C224_selected (V := Unit) (fun _ _ _ => (.ok none, [])) (by intro S q g x h; cases h) () []
    twoStrategies [fun _ => 1, fun _ => 3] twoStrategies_picked ["average"] none .none (fun raw h k => by
      rw [show raw k = 1 from h k]; norm_num) none r hr "average" v hp
  have hx := he ⟨rfl, rfl⟩
  have h4 : IsCov (N := 1) fun _ _ => (4 : ℝ) := ⟨fun _ _ => rfl, fun w => by
    simp only [Finset.univ_unique, Finset.sum_singleton]; nlinarith [sq_nonneg (w default)]⟩
  have s1 : Real.sqrt 4 = 2 := by rw [show (4 : ℝ) = 2 ^ 2 by norm_num]; exact Real.sqrt_sq (by norm_num)
  have s2 : Real.sqrt (3 * 4 * 3) = 6 := by rw [show (3 * 4 * 3 : ℝ) = 6 ^ 2 by norm_num]; exact Real.sqrt_sq (by norm_num)
  constructor
  · refine (hvol _ h4).trans_eq ?_
    simp only [hx, quad]
    simp [Fin.sum_univ_two, s1, s2]
    norm_num
  · rw [hret]
    simp only [hx, ret]
    simp [Fin.sum_univ_two]
    norm_num

/-! ## C225 -/

/-- The weight the caller gives to the strategy called `a`: one when weights are omitted, else the entry under that label. -/
def GivenTo (w : WeightsArg String ℝ) (a : String) (x : ℝ) : Prop :=
  match w with
  | .none => x = 1
  | .array _ => False
  | .series l => (l.map Prod.fst).Nodup ∧ (a, PyFloat.fin x) ∈ l

theorem givenTo_unique {w : WeightsArg String ℝ} {a : String} {x y : ℝ} (hx : GivenTo w a x) (hy : GivenTo w a y) : x = y := by
  cases w with
  | none => exact hx.trans hy.symm
  | array l => exact hx.elim
  | series l =>
    have := List.inj_on_of_nodup_map hx.1 hx.2 hy.2 rfl
    injection this with _ h
    injection h

/-- The portfolio a strategy selects. -/
noncomputable def chosen (s : EnsSpec ℝ N) : Fin N → ℝ :=
  match s.factory with
  | .error _ => 0
  | .ok f => match s.selector f with
    | .error _ => 0
    | .ok w => w

theorem picked_chosen {specs : List (EnsSpec ℝ N)} {ws : List (Fin N → ℝ)} (h : Picked specs ws) : ws = specs.map chosen := by
  induction h with
  | nil => rfl
  | cons h _ ih =>
    obtain ⟨f, hf, hw⟩ := h
    rw [List.map_cons, ← ih]
    simp only [chosen, hf, hw]

theorem average_by_name {specs : List (EnsSpec ℝ N)} {w : WeightsArg String ℝ} (hw : ∀ l, w ≠ .array l) (v : Fin N → ℝ) :
    averageExposures (matrixOf (specs.map chosen)) (some (specs.map EnsSpec.name)) w = .ok v ↔
      ∃ f : String → ℝ, (∀ s ∈ specs, GivenTo w s.name (f s.name)) ∧ ((w = .none) ∨ ∃ l, w = .series l ∧ (l.map Prod.fst).Nodup) ∧
        0 < (specs.map fun s => f s.name).sum ∧
        ∀ i, v i = (specs.map fun s => f s.name * chosen s i).sum / (specs.map fun s => f s.name).sum := by
  have hlen : (specs.map chosen).length = specs.length := List.length_map _
  have key : ∀ (raw : Fin (specs.map chosen).length → ℝ) (f : String → ℝ),
      (∀ k : Fin (specs.map chosen).length, raw k = f (specs[(k : ℕ)]'(hlen ▸ k.2)).name) →
      (∑ k, raw k = (specs.map fun s => f s.name).sum) ∧
      ∀ i, ∑ k, raw k * matrixOf (specs.map chosen) i k = (specs.map fun s => f s.name * chosen s i).sum := by
    intro raw f h
    constructor
    · rw [← List.sum_ofFn]
      refine congrArg List.sum (List.ext_getElem (by simp) fun n h1 h2 => ?_)
      simp [h]
    · intro i
      rw [← List.sum_ofFn]
      refine congrArg List.sum (List.ext_getElem (by simp) fun n h1 h2 => ?_)
      simp [h, matrixOf]
  rw [C46_average]
  constructor
  · rintro ⟨raw, hr, hpos, hv⟩
    classical
    have hgiven : ∀ k : Fin (specs.map chosen).length, GivenTo w (specs[(k : ℕ)]'(hlen ▸ k.2)).name (raw k) := by
      intro k
      cases w with
      | none => exact hr k
      | array l => exact absurd rfl (hw l)
      | series l =>
        obtain ⟨hnd, hl, h⟩ := hr
        obtain ⟨a, h1, h2⟩ := h k
        refine ⟨hnd, ?_⟩
        rw [List.getElem?_map, List.getElem?_eq_getElem (hlen ▸ k.2)] at h1
        simp only [Option.map_some, Option.some.injEq] at h1
        rw [h1]; exact h2
    refine ⟨fun a => if h : ∃ x, GivenTo w a x then h.choose else 0, ?_, ?_, ?_⟩
    · intro s hs
      obtain ⟨n, hn, rfl⟩ := List.getElem_of_mem hs
      have hex : ∃ x, GivenTo w specs[n].name x := ⟨_, hgiven ⟨n, hlen.symm ▸ hn⟩⟩
      simp only [dif_pos hex]
      exact hex.choose_spec
    · cases w with
      | none => exact Or.inl rfl
      | array l => exact absurd rfl (hw l)
      | series l => exact Or.inr ⟨l, rfl, hr.1⟩
    · have hk := key raw (fun a => if h : ∃ x, GivenTo w a x then h.choose else 0) fun k => by
        have hex : ∃ x, GivenTo w (specs[(k : ℕ)]'(hlen ▸ k.2)).name x := ⟨_, hgiven k⟩
        simp only [dif_pos hex]
        exact givenTo_unique (hgiven k) hex.choose_spec
      rw [hk.1] at hpos hv
      exact ⟨hpos, fun i => by rw [hv, hk.2]⟩
  · rintro ⟨f, hf, hser, hpos, hv⟩
    have hk := key (fun k => f (specs[(k : ℕ)]'(hlen ▸ k.2)).name) f fun k => rfl
    refine ⟨fun k => f (specs[(k : ℕ)]'(hlen ▸ k.2)).name, ?_, by rw [hk.1]; exact hpos, fun i => by rw [hk.2, hk.1, hv]⟩
    rcases hser with rfl | ⟨l, rfl, hnd⟩
    · exact fun k => hf _ (List.getElem_mem _)
    · refine ⟨hnd, by simp, fun k => ⟨(specs[(k : ℕ)]'(hlen ▸ k.2)).name, ?_, (hf _ (List.getElem_mem _)).2⟩⟩
      rw [List.getElem?_map, List.getElem?_eq_getElem (hlen ▸ k.2)]
      rfl

/-- What a call asking only for the average returns. -/
theorem assemble_average {V : Type*} (solve : ∀ S, QpSolver S S 1 ℝ V) (off : V) (g : List (String × V))
    (specs : List (EnsSpec ℝ N)) (sf : Option ℤ) (w : WeightsArg String ℝ) (kw : Option (List (String × V)))
    (r : List (String × (Fin N → ℝ))) :
    assemble solve off g specs ["average"] "selected" sf w kw = .ok r ↔
      specs ≠ [] ∧ Picked specs (specs.map chosen) ∧
        ∃ v, averageExposures (matrixOf (specs.map chosen)) (some (specs.map EnsSpec.name)) w = .ok v ∧ r = [("average", v)] := by
  have fwd : ∀ r, assemble solve off g specs ["average"] "selected" sf w kw = .ok r → specs ≠ [] ∧ Picked specs (specs.map chosen) ∧
        ∃ v, averageExposures (matrixOf (specs.map chosen)) (some (specs.map EnsSpec.name)) w = .ok v ∧ r = [("average", v)] := by
    intro r hr
    have hne : specs ≠ [] := by rintro rfl; simp [assemble] at hr
    have hp : ∃ ws, Picked specs ws := by
      unfold assemble at hr
      rw [if_neg hne] at hr
      cases hrs : mapE runSpec specs with
      | error e => rw [hrs] at hr; cases hr
      | ok rs =>
        refine ⟨rs.map fun r => r.2.2, ?_⟩
        rw [mapE_iff] at hrs
        clear hr hne
        induction hrs with
        | nil => exact .nil
        | cons h _ ih =>
          refine .cons ?_ ih
          unfold runSpec at h
          split at h
          · cases h
          · rename_i f hf
            split at h
            · cases h
            · rename_i w' hw'
              injection h with h
              exact ⟨f, hf, by rw [hw', ← h]⟩
    obtain ⟨ws, hp⟩ := hp
    have hp' := hp
    rw [picked_chosen hp] at hp'
    refine ⟨hne, hp', ?_⟩
    obtain ⟨-, hkeys, hens⟩ := (C119_selected solve off g specs _ hne hp' ["average"] sf w kw).2 r hr
    have hnd := ((C119_selected solve off g specs _ hne hp' ["average"] sf w kw).2 r hr).1
    have hone : r.map Prod.fst = ["average"] := by
      refine List.perm_singleton.1 ?_
      refine (List.perm_ext_iff_of_nodup hnd (List.nodup_singleton _)).2 fun e => ?_
      exact hkeys e
    obtain ⟨⟨e, v⟩, hrv, he⟩ : ∃ p, r = [p] ∧ p.1 = "average" := by
      obtain ⟨p, hp⟩ := List.length_eq_one_iff.1 (by simpa using congrArg List.length hone)
      exact ⟨p, hp, by simpa [hp] using hone⟩
    simp only at he
    subst he
    refine ⟨v, ?_, hrv⟩
    rcases hens "average" v (by rw [hrv]; exact List.mem_singleton.2 rfl) with ⟨-, h⟩ | ⟨h, -⟩
    · exact h
    · exact absurd h (by decide)
  refine ⟨fwd r, ?_⟩
  rintro ⟨hne, hp, v, hv, rfl⟩
  obtain ⟨r, hr⟩ := (C119_selected solve off g specs _ hne hp ["average"] sf w kw).1.1 fun e he => by
    rw [List.mem_singleton] at he
    exact ⟨v, Or.inl ⟨he, hv⟩⟩
  obtain ⟨-, -, v', hv', rfl⟩ := fwd r hr
  rw [hv] at hv'
  injection hv' with hv'
  rw [hv', hr]

/-- **C225** (partial) the averaged ensemble of the selected portfolios does not depend on the order in which the strategies are listed,
with equal weights or with weights given by name. Missing: the stacked ensemble (`C225_counterexample`). -/
theorem C225_average_partial {V : Type*} (solve : ∀ S, QpSolver S S 1 ℝ V) (off : V) (g : List (String × V))
    (specs specs' : List (EnsSpec ℝ N)) (hperm : specs.Perm specs') (sf : Option ℤ) (w : WeightsArg String ℝ)
    (hw : ∀ l, w ≠ .array l) (kw : Option (List (String × V))) (r : List (String × (Fin N → ℝ))) :
    assemble solve off g specs ["average"] "selected" sf w kw = .ok r ↔
      assemble solve off g specs' ["average"] "selected" sf w kw = .ok r := by
  have one : ∀ (specs specs' : List (EnsSpec ℝ N)), specs.Perm specs' →
      assemble solve off g specs ["average"] "selected" sf w kw = .ok r →
      assemble solve off g specs' ["average"] "selected" sf w kw = .ok r := by
    intro specs specs' hperm h
    rw [assemble_average] at h ⊢
    obtain ⟨hne, hp, v, hv, hr⟩ := h
    refine ⟨fun h => hne (by rw [h] at hperm; exact hperm.eq_nil), ?_, v, ?_, hr⟩
    · have : ∀ s ∈ specs', ∃ f, s.factory = .ok f ∧ s.selector f = .ok (chosen s) := by
        intro s hs
        obtain ⟨n, hn, rfl⟩ := List.getElem_of_mem (hperm.mem_iff.2 hs)
        have := (List.forall₂_iff_get.1 hp).2 n hn (by simpa using hn)
        simpa using this
      clear hr hv hne hp hperm
      induction specs' with
      | nil => exact .nil
      | cons s l ih => exact .cons (this s List.mem_cons_self) (ih fun x hx => this x (List.mem_cons_of_mem _ hx))
    · rw [average_by_name hw] at hv ⊢
      obtain ⟨f, hf, hser, hpos, hv⟩ := hv
      have e1 := (hperm.map fun s => f s.name).sum_eq
      refine ⟨f, fun s hs => hf s (hperm.mem_iff.2 hs), hser, e1 ▸ hpos, fun i => ?_⟩
      rw [hv, e1, (hperm.map fun s => f s.name * chosen s i).sum_eq]
  exact ⟨one _ _ hperm, one _ _ hperm.symm⟩

/-- Both orders of two strategies give the same average. -/
example (r : List (String × (Fin 1 → ℝ))) (kw : Option (List (String × Unit))) :
    assemble (fun _ _ _ => (.ok none, [])) () [] twoStrategies ["average"] "selected" none .none kw = .ok r ↔
      assemble (fun _ _ _ => (.ok none, [])) () [] twoStrategies.reverse ["average"] "selected" none .none kw = .ok r :=
  C225_average_partial _ _ _ _ _ twoStrategies.reverse_perm.symm _ _ (by simp) _ _

/-- What stacking returns, with its folds. -/
theorem stacking_folds {V : Type*} {solve : QpSolver S S 1 ℝ V} (hs : SolverSound solve) {off : V} {E : Fin N → Fin S → ℝ} {L : ℤ}
    {o : Option (List (String × V))} {g : List (String × V)} {v : Fin N → ℝ} (h : (exposureStacking solve off E L o g).1 = .ok v) :
    2 ≤ L.toNat ∧ L.toNat ≤ S ∧ ∃ x : Fin S → ℝ, QpOptimal (stackQp E L.toNat) x ∧ v = combine E x ∧ Simplex x ∧
      ∀ y, Simplex y → cvLoss E (folds S L.toNat) x ≤ cvLoss E (folds S L.toNat) y := by
  unfold exposureStacking at h
  split at h
  · cases h
  split at h
  · cases h
  split at h
  · cases h
  rename_i h0 h1 h2
  simp only at h
  have hr : (withOptions (some (dictUpdate [("show_progress", off)] (o.getD []))) (solve (stackQp E L.toNat)) g).1 =
      (solve (stackQp E L.toNat) (dictUpdate g (dictUpdate [("show_progress", off)] (o.getD [])))).1 := rfl
  rw [hr] at h
  cases hx : (solve (stackQp E L.toNat) (dictUpdate g (dictUpdate [("show_progress", off)] (o.getD [])))).1 with
  | error e => rw [hx] at h; cases h
  | ok r =>
    rw [hx] at h
    cases r with
    | none => cases h
    | some x =>
      simp only [Except.ok.injEq] at h
      have hopt := hs _ _ _ hx
      have h2' : 2 ≤ L.toNat := by omega
      have hL' : L.toNat ≤ S := by omega
      obtain ⟨⟨c, hc⟩, hf⟩ := C48_objective E L.toNat h2' hL'
      refine ⟨h2', hL', x, hopt, h.symm, (hf x).mp hopt.1, fun y hy => ?_⟩
      have := hopt.2 y ((hf y).mpr hy)
      rw [hc, hc] at this
      linarith

/-- With as many folds as samples the cross-validation loss is the leave-one-out loss. -/
theorem cvLoss_leave_one_out (hS : 2 ≤ S) (E : Fin N → Fin S → ℝ) (x : Fin S → ℝ) :
    cvLoss E (folds S S) x = ∑ s, foldLoss E x {s} := by
  have hf : folds S S = (List.finRange S).map fun s => ({s} : Finset (Fin S)) := by
    have hd : S / S = 1 := Nat.div_self (by omega)
    unfold folds
    simp only [hd]
    refine List.ext_getElem (by simp; omega) fun n h1 h2 => ?_
    have hn : n < S := by simpa using h2
    rw [List.getElem_append]
    split_ifs with h
    · ext k
      simp [Fin.ext_iff]
      omega
    · have hn' : n = S - 1 := by simp at h; omega
      ext k
      have := k.2
      simp [Fin.ext_iff]
      omega
  unfold cvLoss
  rw [hf, List.map_map, ← List.sum_ofFn, List.ofFn_eq_map]
  rfl

/-- **C225** (partial) stacking with as many folds as strategies (the default for two or three of them) does not depend on their order, up
to the choice among optima: a portfolio can be returned for one order exactly when it can be returned for every other. -/
theorem C225_leave_one_out_partial {V : Type*} (off : V) (o : Option (List (String × V))) (g : List (String × V)) (E : Fin N → Fin S → ℝ)
    (σ : Equiv.Perm (Fin S)) (v : Fin N → ℝ) :
    (∃ solve : QpSolver S S 1 ℝ V, SolverSound solve ∧ (exposureStacking solve off E S o g).1 = .ok v) ↔
      ∃ solve : QpSolver S S 1 ℝ V, SolverSound solve ∧ (exposureStacking solve off (fun i k => E i (σ k)) S o g).1 = .ok v := by
  classical
  have one : ∀ (E : Fin N → Fin S → ℝ) (σ : Equiv.Perm (Fin S)),
      (∃ solve : QpSolver S S 1 ℝ V, SolverSound solve ∧ (exposureStacking solve off E S o g).1 = .ok v) →
      ∃ solve : QpSolver S S 1 ℝ V, SolverSound solve ∧ (exposureStacking solve off (fun i k => E i (σ k)) S o g).1 = .ok v := by
    rintro E σ ⟨solve, hs, h⟩
    obtain ⟨h2, hL, x, -, hv, hx, hmin⟩ := stacking_folds hs h
    simp only [Int.toNat_natCast] at h2 hL hmin
    obtain ⟨⟨c, hc⟩, hf⟩ := C48_objective (fun i k => E i (σ k)) S h2 hL
    have hloss : ∀ y : Fin S → ℝ, cvLoss (fun i k => E i (σ k)) (folds S S) (fun k => y (σ k)) = cvLoss E (folds S S) y := by
      intro y
      rw [cvLoss_leave_one_out h2, cvLoss_leave_one_out h2, ← Equiv.sum_comp σ (fun s => foldLoss E y {s})]
      refine Finset.sum_congr rfl fun s _ => ?_
      unfold foldLoss foldMean
      refine Finset.sum_congr rfl fun i _ => ?_
      have : ∑ k ∈ ({s} : Finset (Fin S))ᶜ, y (σ k) * E i (σ k) = ∑ k ∈ ({σ s} : Finset (Fin S))ᶜ, y k * E i k :=
        Finset.sum_bij (fun k _ => σ k) (by simp) (by simp) (fun b hb => ⟨σ.symm b, by
          simp only [Finset.mem_compl, Finset.mem_singleton] at hb ⊢
          rwa [Equiv.symm_apply_eq], by simp⟩) (by simp)
      rw [this]
      simp
    have hsimp : ∀ y : Fin S → ℝ, ∀ τ : Equiv.Perm (Fin S), Simplex y → Simplex fun k => y (τ k) :=
      fun y τ hy => ⟨fun k => hy.1 _, by rw [Equiv.sum_comp τ y]; exact hy.2⟩
    have hopt : QpOptimal (stackQp (fun i k => E i (σ k)) S) fun k => x (σ k) := by
      refine ⟨(hf _).2 (hsimp x σ hx), fun y hy => ?_⟩
      rw [hc, hc]
      have hy' := (hf y).1 hy
      have h1 := hmin (fun k => y (σ.symm k)) (hsimp y σ.symm hy')
      have h3 := hloss fun k => y (σ.symm k)
      simp only [Equiv.symm_apply_apply] at h3
      rw [hloss x, h3]
      linarith
    refine ⟨fun q g => (.ok (if QpOptimal q (fun k => x (σ k)) then some fun k => x (σ k) else none), g), fun q g y hy => ?_, ?_⟩
    · simp only at hy
      split_ifs at hy with hq
      · injection hy with hy
        injection hy with hy
        rw [← hy]; exact hq
      · injection hy with hy
        cases hy
    · unfold exposureStacking
      rw [if_neg (by omega), if_neg (by omega), if_neg (by omega)]
      simp only [withOptions, Int.toNat_natCast]
      rw [if_pos hopt]
      simp only [Except.ok.injEq]
      rw [hv]
      funext i
      exact Equiv.sum_comp σ fun k => E i k * x k
  refine ⟨one E σ, fun h => ?_⟩
  have := one _ σ.symm h
  simpa using this

/-- A strategy that always selects `x` units of a single asset. -/
noncomputable def always (name : String) (x : ℝ) : EnsSpec ℝ 1 :=
  ⟨name, .ok ⟨0, ⟨fun _ => nofun, nofun, nofun, "", []⟩⟩, fun _ => .ok fun _ => x, none⟩

theorem four_loss (E : Fin 1 → Fin 4 → ℝ) (y : Fin 4 → ℝ) : cvLoss E (folds 4 3) y =
    (E 0 0 - (E 0 1 * y 1 + E 0 2 * y 2 + E 0 3 * y 3)) ^ 2 + (E 0 1 - (E 0 0 * y 0 + E 0 2 * y 2 + E 0 3 * y 3)) ^ 2 +
      ((E 0 2 + E 0 3) / 2 - (E 0 0 * y 0 + E 0 1 * y 1)) ^ 2 := by
  have hfold : folds 4 3 = [{0}, {1}, {2, 3}] := by decide
  have c0 : ({0} : Finset (Fin 4))ᶜ = {1, 2, 3} := by decide
  have c1 : ({1} : Finset (Fin 4))ᶜ = {0, 2, 3} := by decide
  have c2 : ({2, 3} : Finset (Fin 4))ᶜ = {0, 1} := by decide
  have card : ({2, 3} : Finset (Fin 4)).card = 2 := by decide
  have s3 : ∀ (f : Fin 4 → ℝ) (i j k : Fin 4), i ≠ j → i ≠ k → j ≠ k → ∑ t ∈ ({i, j, k} : Finset (Fin 4)), f t = f i + (f j + f k) := by
    intro f i j k h1 h2 h3
    rw [Finset.sum_insert (by simp [h1, h2]), Finset.sum_pair h3]
  unfold cvLoss
  rw [hfold]
  simp only [List.map_cons, List.map_nil, List.sum_cons, List.sum_nil, foldLoss, foldMean, Finset.univ_unique, Finset.sum_singleton,
    Finset.card_singleton, card]
  rw [c0, c1, c2, s3 _ 1 2 3 (by decide) (by decide) (by decide), s3 _ 0 2 3 (by decide) (by decide) (by decide),
    Finset.sum_pair (by decide), Finset.sum_pair (by decide)]
  simp only [Fin.default_eq_zero, Fin.isValue, Nat.cast_one, Nat.cast_ofNat]
  ring

theorem always_stack {V : Type*} {solve : ∀ S, QpSolver S S 1 ℝ V} (hs : ∀ S, SolverSound (solve S)) (hc : ∀ S, SolverComplete (solve S))
    (off : V) (g : List (String × V)) (na nb nc nd : String) (a b c d : ℝ) (kw : Option (List (String × V))) :
    ∃ v, assemble solve off g [always na a, always nb b, always nc c, always nd d] ["stack"] "selected" none .none kw =
        .ok [("stack", v)] ∧ ∃ x : Fin 4 → ℝ, Simplex x ∧ v 0 = a * x 0 + b * x 1 + c * x 2 + d * x 3 ∧
        ∀ y : Fin 4 → ℝ, Simplex y →
          (a - (b * x 1 + c * x 2 + d * x 3)) ^ 2 + (b - (a * x 0 + c * x 2 + d * x 3)) ^ 2 + ((c + d) / 2 - (a * x 0 + b * x 1)) ^ 2 ≤
          (a - (b * y 1 + c * y 2 + d * y 3)) ^ 2 + (b - (a * y 0 + c * y 2 + d * y 3)) ^ 2 + ((c + d) / 2 - (a * y 0 + b * y 1)) ^ 2 := by
  let ws : List (Fin 1 → ℝ) := [fun _ => a, fun _ => b, fun _ => c, fun _ => d]
  obtain ⟨x, hx⟩ := hc 4 (stackQp (matrixOf ws) 3) (dictUpdate g (dictUpdate [("show_progress", off)] (kw.getD [])))
    (C48_optimum_exists (matrixOf ws) 3 (by norm_num) (show (3 : ℕ) ≤ 4 by norm_num))
  have hst : (exposureStacking (solve 4) off (matrixOf ws) 3 kw g).1 = .ok (combine (matrixOf ws) x) := by
    unfold exposureStacking
    rw [if_neg (by decide), if_neg (by decide), if_neg (by decide)]
    simp only [withOptions]
    rw [show (3 : ℤ).toNat = 3 from rfl, hx]
  have hp : Picked [always na a, always nb b, always nc c, always nd d] ws :=
    .cons ⟨_, rfl, rfl⟩ (.cons ⟨_, rfl, rfl⟩ (.cons ⟨_, rfl, rfl⟩ (.cons ⟨_, rfl, rfl⟩ .nil)))
  have hsel := C119_selected solve off g _ ws (by simp) hp ["stack"] none .none kw
  obtain ⟨r, hr⟩ := hsel.1.1 fun e he => by
    rw [List.mem_singleton] at he
    exact ⟨_, Or.inr ⟨he, 3, Or.inl ⟨rfl, rfl⟩, hst⟩⟩
  obtain ⟨hnd, hkeys, hens⟩ := hsel.2 r hr
  have hone : r.map Prod.fst = ["stack"] := by
    refine List.perm_singleton.1 ?_
    refine (List.perm_ext_iff_of_nodup hnd (List.nodup_singleton _)).2 fun e => ?_
    exact hkeys e
  obtain ⟨⟨e, v⟩, hrv, he⟩ : ∃ p, r = [p] ∧ p.1 = "stack" := by
    obtain ⟨p, hp⟩ := List.length_eq_one_iff.1 (by simpa using congrArg List.length hone)
    exact ⟨p, hp, by simpa [hp] using hone⟩
  simp only at he
  subst he
  refine ⟨v, hrv ▸ hr, ?_⟩
  rcases hens "stack" v (by rw [hrv]; exact List.mem_singleton.2 rfl) with ⟨h, -⟩ | ⟨-, L, hL, h⟩
  · exact absurd h (by decide)
  obtain rfl : L = 3 := foldCount_unique hL (Or.inl ⟨rfl, rfl⟩)
  obtain ⟨-, -, z, -, hz, hsx, hmin⟩ := stacking_folds (hs 4) h
  refine ⟨z, hsx, ?_, fun y hy => ?_⟩
  · rw [hz]
    show ∑ k : Fin 4, matrixOf ws 0 k * z k = _
    rw [Fin.sum_univ_four]
    rfl
  · have := hmin y hy
    have e : ∀ y : Fin 4 → ℝ, cvLoss (matrixOf ws) (folds 4 3) y =
      (a - (b * y 1 + c * y 2 + d * y 3)) ^ 2 + (b - (a * y 0 + c * y 2 + d * y 3)) ^ 2 + ((c + d) / 2 - (a * y 0 + b * y 1)) ^ 2 :=
      four_loss (matrixOf ws)
    have this' : cvLoss (matrixOf ws) (folds 4 3) z ≤ cvLoss (matrixOf ws) (folds 4 3) y := this
    rw [e, e] at this'
    exact this'

/-- **C225** (counterexample) for every QP solver that finds optima: four strategies that select 1, 2, 0 and 0 units of the asset are
stacked into 1 unit; listed in another order they are stacked into 0 units. -/
theorem C225_counterexample {V : Type*} (solve : ∀ S, QpSolver S S 1 ℝ V) (hs : ∀ S, SolverSound (solve S))
    (hc : ∀ S, SolverComplete (solve S)) (off : V) (g : List (String × V)) (kw : Option (List (String × V))) :
    ∃ v v', assemble solve off g [always "a" 1, always "b" 2, always "c" 0, always "d" 0] ["stack"] "selected" none .none kw =
        .ok [("stack", v)] ∧
      assemble solve off g [always "c" 0, always "d" 0, always "a" 1, always "b" 2] ["stack"] "selected" none .none kw =
        .ok [("stack", v')] ∧ v 0 = 1 ∧ v' 0 = 0 := by
  obtain ⟨v, hv, x, hx, hv0, hmin⟩ := always_stack hs hc off g "a" "b" "c" "d" 1 2 0 0 kw
  obtain ⟨v', hv', x', hx', hv0', hmin'⟩ := always_stack hs hc off g "c" "d" "a" "b" 0 0 1 2 kw
  refine ⟨v, v', hv, hv', ?_, ?_⟩
  · have h := hmin ![1, 0, 0, 0] ⟨fun k => by fin_cases k <;> simp, by simp [Fin.sum_univ_four]⟩
    simp at h
    rw [hv0]
    have h0 := hx.1 0
    have h1 := hx.1 1
    nlinarith [sq_nonneg (x 0 - 1), sq_nonneg (x 1), sq_nonneg (x 0 + 2 * x 1 - 1)]
  · have h := hmin' ![1, 0, 0, 0] ⟨fun k => by fin_cases k <;> simp, by simp [Fin.sum_univ_four]⟩
    simp at h
    rw [hv0']
    have h0 := hx'.1 2
    have h1 := hx'.1 3
    nlinarith [sq_nonneg (x' 2 + 2 * x' 3)]

end PyV.Props
