import Verif.Model.Dict
import Mathlib.Data.Rat.Floor

/-!
# Specification of rounding shares to rows
-/

namespace Mixtera

/-- `rows` is a largest remainder rounding of `chunk` times the shares: the same keys, in total exactly `chunk`, every
key its exact amount rounded down or that plus one, and a key that got one more has at least the fractional part of a
key that did not. -/
structure Rounded {K : Type} [DecidableEq K] (chunk : Nat) (share : Dict K ℚ) (rows : Dict K Nat) : Prop where
  keys : rows.keys = share.keys
  total : rows.values.sum = chunk
  near : ∀ k q r, share.get? k = some q → rows.get? k = some r →
    (r : Int) = ⌊(chunk : ℚ) * q⌋ ∨ (r : Int) = ⌊(chunk : ℚ) * q⌋ + 1
  largest : ∀ k q r k' q' r', share.get? k = some q → rows.get? k = some r →
    share.get? k' = some q' → rows.get? k' = some r' →
    (r : Int) = ⌊(chunk : ℚ) * q⌋ + 1 → (r' : Int) = ⌊(chunk : ℚ) * q'⌋ →
    Int.fract ((chunk : ℚ) * q') ≤ Int.fract ((chunk : ℚ) * q)

end Mixtera
