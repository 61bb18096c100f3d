import Mathlib.Data.Rat.Floor
import Verif.Model.Component

/-!
# mixtera/utils/utils.py: pure helpers

Floats are modelled by exact rationals.
-/

namespace Mixtera

/-- Errors the modelled code can raise. -/
inductive Err
  | valueError
  | assertion
  | zeroDivision
  | runtimeError
  | keyError
  | indexError
  | notImplemented
  | stopIteration
  | attributeError
  | typeError
  | outOfFuel -- not a Python error: the model's iteration bound was hit
deriving DecidableEq, Repr

/-- `merge_sorted_lists` (/repo/mixtera/utils/utils.py:189-220): the usual two-index merge, ties
taken from the first list. Simplification: tuples are pairs. -/
def mergeSortedLists : List Rng → List Rng → List Rng
  | [], l2 => l2
  | l1, [] => l1
  | a :: l1, b :: l2 =>
    if a.1 ≤ b.1 then a :: mergeSortedLists l1 (b :: l2)
    else b :: mergeSortedLists (a :: l1) l2
termination_by l1 l2 => l1.length + l2.length

/-- Python's `int(x)` on a number: truncation towards zero. -/
def pyInt (q : ℚ) : Int := if 0 ≤ q then ⌊q⌋ else ⌈q⌉

/-- The loop of utils.py:270-275: hand one unit to each listed index while some remain. -/
def bumpLoop : Int → List Nat → List Int → List Int
  | _, [], assigned => assigned
  | remainder, i :: is, assigned =>
    if remainder > 0 then bumpLoop (remainder - 1) is (assigned.modify i (· + 1)) else assigned

/-- Indices sorted by descending fractional part; Python's `sort(reverse=True)` keeps the original
order of equal elements, as does a stable sort by `≥` (utils.py:255-260,267). -/
def fracOrder (exact : List ℚ) : List Nat :=
  (sortBy (fun a b => decide (b.1 ≤ a.1)) (exact.mapIdx fun i x => (x - pyInt x, i))).map Prod.snd

/-- `distribute_by_ratio` (/repo/mixtera/utils/utils.py:236-277). -/
def distributeByRatio (n : Nat) (ratios : List ℚ) : Except Err (List Int) :=
  if ratios = [] then .ok []
  else if |ratios.sum - 1| > 1 / 1000000000 then .error .valueError
  else
    let exact := ratios.map (· * (n : ℚ))
    let assigned := exact.map pyInt
    .ok (bumpLoop (n - assigned.sum) (fracOrder exact) assigned)

end Mixtera
