import Verif.Props.DiscreteIgnored
import Mathlib.Tactic

/-! # Property C269: validated allocator inputs can be reused -/

namespace PyV.Props

open PyV PyV.Discrete PyV.Spec.Discrete

variable {K : Type*} [Field K] [LinearOrder K] [IsStrictOrderedRing K] [FloorRing K]
variable {weights prices : List (String × K)} {total : K} {lots : Option (List (String × ℤ))}

/-- The `weights` attribute of a validated input. -/
def storedWeights (inp : Input K) : List (String × K) := List.ofFn fun i => (inp.name i, inp.w i)

/-- The `latest_prices` attribute of a validated input. -/
def storedPrices (inp : Input K) : List (String × K) := List.ofFn fun i => (inp.name i, inp.price i)

/-- The `lot_sizes` attribute of a validated input. -/
def storedLots (inp : Input K) : List (String × ℤ) := List.ofFn fun i => (inp.name i, inp.lot i)

private theorem lookup_ofFn {α : Type*} {n : ℕ} {name : Fin n → String} (hinj : Function.Injective name) (f : Fin n → α) (i : Fin n) :
    (List.ofFn fun j => (name j, f j)).lookup (name i) = some (f i) := by
  rw [show (List.ofFn fun j => (name j, f j)) = (List.finRange n).map (fun j => (name j, f j)) from by rw [List.ofFn_eq_map]]
  have : ∀ l : List (Fin n), i ∈ l → (l.map fun j => (name j, f j)).lookup (name i) = some (f i) := by
    intro l
    induction l with
    | nil => intro h; cases h
    | cons a l ih =>
      intro h
      rw [List.map_cons, List.lookup_cons]
      by_cases e : name i = name a
      · have := hinj e
        subst this
        simp
      · have hb : (name i == name a) = false := by simpa using e
        rw [hb]
        refine ih ?_
        rcases List.mem_cons.mp h with rfl | h
        · exact absurd rfl e
        · exact h
  exact this _ (List.mem_finRange i)

private theorem input_eq {a b : Input K} (h : a.n = b.n) (h1 : ∀ i : Fin a.n, a.name i = b.name (i.cast h)) (h2 : ∀ i : Fin a.n, a.w i = b.w (i.cast h))
    (h3 : ∀ i : Fin a.n, a.price i = b.price (i.cast h)) (h4 : ∀ i : Fin a.n, a.lot i = b.lot (i.cast h)) (h5 : a.total = b.total)
    (h6 : a.hasShorts = b.hasShorts) : a = b := by
  cases a; cases b
  simp only at h
  subst h
  simp only [Input.mk.injEq, heq_eq_eq, true_and]
  exact ⟨funext h1, funext h2, funext h3, funext h4, h5, h6⟩

/-- **C269** A validated input is a fixed point: building an input again from the stored weights, prices and lot sizes, with any positive total, gives the
same input with the new total, whenever every stored (normalised) weight is above `1e-8`. -/
theorem C269_rebuild_partial (hn : (weights.map Prod.fst).Nodup) {inp : Input K} (h : mkInput weights prices total lots = .ok inp)
    (hbig : ∀ i, 1 / 10 ^ 8 < |inp.w i|) {total' : K} (ht : 0 < total') :
    mkInput (storedWeights inp) (storedPrices inp) total' (some (storedLots inp)) = .ok { inp with total := total' } := by
  have hinj := name_injective h hn
  have ha := accepted_of_mkInput h
  have hk : kept (storedWeights inp) = storedWeights inp := by
    unfold kept storedWeights
    rw [List.filter_eq_self]
    intro p hp
    obtain ⟨i, rfl⟩ := (List.mem_ofFn' _ _).mp hp
    simpa using hbig i
  have hrows : alignRows (storedWeights inp) (storedPrices inp) (some (storedLots inp)) =
      List.ofFn fun i => (⟨inp.name i, inp.w i, inp.price i, inp.lot i⟩ : Row K) := by
    unfold alignRows storedWeights
    rw [List.map_ofFn]
    congr 1
    funext i
    simp only [Function.comp, storedPrices, storedLots, lotOf]
    rw [lookup_ofFn hinj inp.price i, lookup_ofFn hinj inp.lot i]
    rfl
  have htw : ((storedWeights inp).map Prod.snd).sum = 1 := by
    unfold storedWeights
    rw [List.map_ofFn, List.sum_ofFn]
    exact ha.wsum
  refine (mkInput_ok_valid _ _ _ _ _).mpr ⟨⟨?_, ?_, ?_, ht, ?_, ?_⟩, ?_⟩
  · intro p hp
    obtain ⟨i, rfl⟩ := (List.mem_ofFn' _ _).mp hp
    exact ⟨_, lookup_ofFn hinj inp.price i⟩
  · exact ⟨(inp.name ⟨0, ha.npos⟩, inp.w ⟨0, ha.npos⟩), (List.mem_ofFn' _ _).mpr ⟨_, rfl⟩, hbig _⟩
  · intro p hp
    rw [hk] at hp
    obtain ⟨i, rfl⟩ := (List.mem_ofFn' _ _).mp hp
    unfold priceOf
    rw [show (storedPrices inp).lookup (inp.name i) = _ from lookup_ofFn hinj inp.price i]
    exact ha.price i
  · intro p hp
    rw [hk] at hp
    obtain ⟨i, rfl⟩ := (List.mem_ofFn' _ _).mp hp
    unfold lotSize
    rw [Option.bind_some, show (storedLots inp).lookup (inp.name i) = _ from lookup_ofFn hinj inp.lot i]
    exact ha.lot i
  · unfold totalWeight
    rw [hk, htw]
    exact one_pos
  · rw [hk, hrows, totalWeight, hk, htw]
    symm
    refine input_eq (a := ofRows _ _ _ _) (List.length_ofFn) (fun i => ?_) (fun i => ?_) (fun i => ?_) (fun i => ?_) rfl ?_
    · exact congrArg Row.name (List.get_ofFn _ i)
    · exact (congrArg (fun r : Row K => r.w / 1) (List.get_ofFn _ i)).trans (div_one _)
    · exact congrArg Row.price (List.get_ofFn _ i)
    · exact congrArg Row.lot (List.get_ofFn _ i)
    · symm
      show inp.hasShorts = List.any _ _
      rw [Bool.eq_iff_iff, ha.shorts, List.any_eq_true]
      constructor
      · rintro ⟨i, hi⟩
        exact ⟨(inp.name i, inp.w i), (List.mem_ofFn' _ _).mpr ⟨i, rfl⟩, by simpa using hi⟩
      · rintro ⟨p, hp, hlt⟩
        obtain ⟨i, rfl⟩ := (List.mem_ofFn' _ _).mp hp
        exact ⟨i, by simpa using hlt⟩

/-- **C269** The condition is needed: an input is a fixed point exactly when every stored weight is above `1e-8`. -/
theorem C269_rebuild_iff (hn : (weights.map Prod.fst).Nodup) {inp : Input K} (h : mkInput weights prices total lots = .ok inp) :
    mkInput (storedWeights inp) (storedPrices inp) inp.total (some (storedLots inp)) = .ok inp ↔ ∀ i, 1 / 10 ^ 8 < |inp.w i| := by
  refine ⟨fun h' i => ?_, fun hb => C269_rebuild_partial hn h hb (accepted_of_mkInput h).total⟩
  have hl := congrArg List.length (input_zip h')
  rw [List.length_ofFn, List.length_map] at hl
  have hlen : (storedWeights inp).length = inp.n := by simp [storedWeights]
  have hself : kept (storedWeights inp) = storedWeights inp :=
    List.Sublist.eq_of_length List.filter_sublist (by rw [hlen]; exact hl.symm)
  have hm : (inp.name i, inp.w i) ∈ kept (storedWeights inp) := by
    rw [hself]; exact (List.mem_ofFn' _ _).mpr ⟨i, rfl⟩
  simpa [kept] using (List.mem_filter.mp hm).2

/-- **C269** Allocating from the stored fields gives the result of the original call. -/
theorem C269_same_result_partial (hn : (weights.map Prod.fst).Nodup) {inp : Input K} (h : mkInput weights prices total lots = .ok inp)
    (hbig : ∀ i, 1 / 10 ^ 8 < |inp.w i|) (method : String) (maxIter : Option ℤ) (mode : Mode)
    (sortBy : (inp : Input K) → Equiv.Perm (Fin inp.n)) (solve : (inp : Input K) → Option (MipPoint K inp.n)) :
    discretize (storedWeights inp) (storedPrices inp) inp.total (some (storedLots inp)) method maxIter mode sortBy solve =
      discretize weights prices total lots method maxIter mode sortBy solve := by
  unfold discretize
  rw [h, (C269_rebuild_iff hn h).mpr hbig]

/-- A large weight and a tiny one. -/
def exTiny : List (String × ℚ) := [("A", 100), ("B", 1 / 10 ^ 7)]

private theorem exTiny_valid : Valid exTiny [("A", 10), ("B", 1)] (1000 : ℚ) none := by
  have hk : kept exTiny = exTiny := by decide +kernel
  refine ⟨?_, ⟨("A", 100), by simp [exTiny], by norm_num⟩, ?_, by norm_num, ?_, ?_⟩
  · intro p hp
    simp only [exTiny, List.mem_cons, List.not_mem_nil, or_false] at hp
    rcases hp with rfl | rfl <;> exact ⟨_, rfl⟩
  · intro p hp
    rw [hk] at hp
    simp only [exTiny, List.mem_cons, List.not_mem_nil, or_false] at hp
    rcases hp with rfl | rfl <;> decide +kernel
  · intro p _
    exact one_pos
  · rw [totalWeight, hk]
    simp only [exTiny, List.map_cons, List.map_nil, List.sum_cons, List.sum_nil]
    norm_num

/-- **C269** is false of the code in general: a weight that passed the `1e-8` filter before normalisation can fail it afterwards, so building the input
again from its own fields loses an asset. -/
theorem C269_counterexample : ∃ inp inp' : Input ℚ, mkInput exTiny [("A", 10), ("B", 1)] 1000 none = .ok inp ∧
    mkInput (storedWeights inp) (storedPrices inp) inp.total (some (storedLots inp)) = .ok inp' ∧
    List.ofFn inp.name = ["A", "B"] ∧ List.ofFn inp'.name = ["A"] := by
  obtain ⟨inp, h⟩ := C07_validation_iff.1.mpr exTiny_valid
  have hn : (exTiny.map Prod.fst).Nodup := by decide
  have hz := input_zip h
  have ha := accepted_of_mkInput h
  have hs : storedWeights inp = [("A", 100 / (100 + 1 / 10 ^ 7)), ("B", 1 / 10 ^ 7 / (100 + 1 / 10 ^ 7))] := by
    unfold storedWeights
    rw [hz]
    decide +kernel
  have hk : kept (storedWeights inp) = [("A", 100 / (100 + 1 / 10 ^ 7))] := by
    rw [hs]
    decide +kernel
  obtain ⟨ht, hname, -, -, hprice, hlot⟩ := input_labels h
  have hname' : List.ofFn inp.name = ["A", "B"] := by rw [hname]; decide +kernel
  have hinj := name_injective h hn
  have hv : Valid (storedWeights inp) (storedPrices inp) inp.total (some (storedLots inp)) := by
    refine ⟨?_, ⟨("A", 100 / (100 + 1 / 10 ^ 7)), by rw [hs]; simp, by norm_num [abs_of_pos]⟩, ?_, ha.total, ?_, ?_⟩
    · intro p hp
      obtain ⟨i, rfl⟩ := (List.mem_ofFn' _ _).mp hp
      exact ⟨_, lookup_ofFn hinj inp.price i⟩
    · intro p hp
      obtain ⟨i, rfl⟩ := (List.mem_ofFn' _ _).mp (List.mem_of_mem_filter hp)
      unfold priceOf
      rw [show (storedPrices inp).lookup (inp.name i) = _ from lookup_ofFn hinj inp.price i]
      exact ha.price i
    · intro p hp
      obtain ⟨i, rfl⟩ := (List.mem_ofFn' _ _).mp (List.mem_of_mem_filter hp)
      unfold lotSize
      rw [Option.bind_some, show (storedLots inp).lookup (inp.name i) = _ from lookup_ofFn hinj inp.lot i]
      exact ha.lot i
    · rw [totalWeight, hk]
      norm_num
  obtain ⟨inp', h'⟩ := C07_validation_iff.1.mpr hv
  refine ⟨inp, inp', h, h', hname', ?_⟩
  rw [(input_labels h').2.1, hk]
  rfl

/-- Every hypothesis is met by an ordinary input. -/
example : ∃ inp, mkInput exW exP 1000 exLots = .ok inp ∧ (exW.map Prod.fst).Nodup ∧ ∀ i, 1 / 10 ^ 8 < |inp.w i| := by
  obtain ⟨inp, h⟩ := C07_validation_iff.1.mpr exValid
  refine ⟨inp, h, by decide, fun i => ?_⟩
  obtain ⟨p, hp, -, hw⟩ := (input_labels h).2.2.1 i
  rw [hw]
  have : ∀ p ∈ kept exW, 1 / 10 ^ 8 < |p.2 / totalWeight exW| := by decide +kernel
  exact this p hp

end PyV.Props
