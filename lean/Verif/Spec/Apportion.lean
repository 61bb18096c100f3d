import Verif.Spec.Tree
import Mathlib.Data.Rat.Floor

/-!
# Specification of dividing rows by weights

Stated without any rounding: the amount a key ought to get is `chunk * w / (sum of the weights)`.
-/

namespace Mixtera

/-- `rows` divides `chunk` rows by the weights, up to `1 + ε` rows per key: the same keys, in total exactly `chunk`, nothing for
a key of weight zero, and exactly the right amount for every key if all the amounts are whole numbers. -/
structure Apportioned {K : Type} [DecidableEq K] (chunk : Nat) (weights : Dict K ℚ) (ε : ℚ) (rows : Dict K Nat) : Prop where
  keys : rows.keys = weights.keys
  total : rows.values.sum = chunk
  close : ∀ k w r, weights.get? k = some w → rows.get? k = some r → |(r : ℚ) - chunk * (w / weights.values.sum)| ≤ 1 + ε
  zero : ∀ k r, weights.get? k = some 0 → rows.get? k = some r → r = 0
  exact : (∀ k w, weights.get? k = some w → ∃ n : Nat, (chunk : ℚ) * (w / weights.values.sum) = n) →
    ∀ k w r, weights.get? k = some w → rows.get? k = some r → (r : ℚ) = chunk * (w / weights.values.sum)

/-- The number of levels of a mixture tree. -/
def levels : MComps → Nat
  | .nil => 0
  | .leaf _ _ rest => max 1 (levels rest)
  | .sub _ _ _ comps rest => max (levels comps + 1) (levels rest)

/-- Every weight is between zero and one. -/
def WeightsUnit : MComps → Prop
  | .nil => True
  | .leaf _ w rest => 0 ≤ w ∧ w ≤ 1 ∧ WeightsUnit rest
  | .sub _ w _ comps rest => 0 ≤ w ∧ w ≤ 1 ∧ WeightsUnit comps ∧ WeightsUnit rest

end Mixtera
