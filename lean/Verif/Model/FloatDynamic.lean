import Verif.Model.Float64

/-!
# Dynamic mixtures in floating point

From the policy of a dynamic mixing algorithm to rows of a chunk, with every float operation rounded to binary64:
`enforce_min_probability` (/repo/mixtera/core/algo/ado/ado.py:549-575) and `DynamicMixture._process_losses`
(/repo/mixtera/core/query/mixture/dynamic_mixture.py:87-104).  Not modelled: overflow, infinities and NaN.
-/

namespace Mixtera.F64

variable {K : Type} [DecidableEq K]

/-- `enforce_min_probability` (ado.py:549-575); `npSum` is `np.sum`.  `np.maximum` and the masked assignment do not round; a mask of
another length raises `IndexError`.  An empty array that sums to zero raises the `ZeroDivisionError` of `len(self.counts)` only if
`mu` is divided by it (numpy gives NaN instead; simplification: an error). -/
def enforceMin (npSum : List ℚ → ℚ) (deltaMin : ℚ) (counts : List Int) (mu pi : List ℚ) : Except Err (List ℚ) :=
  if counts.length ≠ pi.length then .error .indexError
  else
    let v := List.zipWith (fun (c : Int) p => if c > 0 then max p deltaMin else p) counts pi
    if npSum v > 0 then .ok (v.map fun x => fl (x / npSum v))
    else if counts.length = 0 then .error .zeroDivision
    else .ok (mu.map fun x => fl (x / fl counts.length))

/-- `np.isclose(s, 1)` (dynamic_mixture.py:97): numpy compares `abs(s - 1)` with `atol + rtol * abs(1)`. -/
def npCloseToOne (s : ℚ) : Prop := |fl (s - 1)| ≤ fl (fl (1 / 100000000) + fl (fl (1 / 100000) * 1))

instance (t : ℚ) : Decidable (npCloseToOne t) := inferInstanceAs (Decidable (_ ≤ _))

/-- The mixture made of the result `w` of the algorithm (dynamic_mixture.py:97-103): the rows of the new `StaticMixture`. -/
def dynamicRows (npSum sum : List ℚ → ℚ) (chunk : Nat) (ids : Dict K Nat) (w : List ℚ) : Except Err (Dict K Nat) :=
  if ¬ npCloseToOne (npSum w) then .error .assertion
  else
    match weightMap ids 0 w [] with
    | .error e => .error e
    | .ok m => staticMixture sum chunk m

end Mixtera.F64
