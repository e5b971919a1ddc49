import Mathlib.Data.Rat.Floor
import Mathlib.Algebra.BigOperators.Group.List.Basic

/-!
# Specification vocabulary for discrete allocation

Plain user-level notions, over labelled inputs and a labelled share dictionary.  Nothing here refers to the model.
-/

namespace PyV.Spec.Discrete

variable {K : Type*} [Field K] [LinearOrder K]

/-- The weights that count: those larger than `1e-8` in absolute value. -/
def kept (weights : List (String × K)) : List (String × K) :=
  weights.filter (fun p => decide ((1 : K) / 10 ^ 8 < |p.2|))

/-- Price of a label. -/
def priceOf (prices : List (String × K)) (k : String) : K := (prices.lookup k).getD 0

/-- Lot size of a label; 1 when unspecified. -/
def lotSize (lots : Option (List (String × ℤ))) (k : String) : ℤ :=
  (lots.bind (fun l => l.lookup k)).getD 1

/-- Cost of one lot. -/
def lotCost (prices : List (String × K)) (lots : Option (List (String × ℤ))) (k : String) : K :=
  priceOf prices k * lotSize lots k

/-- Shares of a label held in a share dictionary (0 when absent). -/
def held (shares : List (String × ℤ)) (k : String) : ℤ := (shares.lookup k).getD 0

/-- Market value of a share dictionary. -/
def spent (prices : List (String × K)) (shares : List (String × ℤ)) : K :=
  (shares.map fun p => p.2 * priceOf prices p.1).sum

/-- Sum of the weights that count. -/
def totalWeight (weights : List (String × K)) : K := ((kept weights).map Prod.snd).sum

/-- Long-only: no kept weight is negative. -/
def LongOnly (weights : List (String × K)) : Prop := ∀ p ∈ kept weights, 0 ≤ p.2

/-- The documented acceptance conditions of the allocator's inputs. -/
structure Valid (weights prices : List (String × K)) (total : K) (lots : Option (List (String × ℤ))) : Prop where
  priced : ∀ p ∈ weights, ∃ x, prices.lookup p.1 = some x
  some_weight : ∃ p ∈ weights, (1 : K) / 10 ^ 8 < |p.2|
  price_pos : ∀ p ∈ kept weights, 0 < priceOf prices p.1
  total_pos : 0 < total
  lot_pos : ∀ p ∈ kept weights, 0 < lotSize lots p.1
  weight_pos : 0 < totalWeight weights

end PyV.Spec.Discrete
