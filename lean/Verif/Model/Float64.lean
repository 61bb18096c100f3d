import Mathlib.Data.Int.Log
import Mathlib.Data.Rat.Floor
import Verif.Model.Mixture

/-!
# Mixture counts in floating point

The other files treat Python's `float` as an exact number.  Here every operation on floats of the code that turns shares
into row counts rounds its result as IEEE 754 binary64 does (round to nearest, ties to even, gradual underflow):
/repo/mixtera/core/query/mixture/static_mixture.py, inferring_mixture.py, hierarchical_static_mixture.py and
`distribute_by_ratio` (/repo/mixtera/utils/utils.py:236-277).  Not modelled: overflow, infinities and NaN.
-/

namespace Mixtera.F64

variable {K : Type} [DecidableEq K]

/-- Round to the nearest integer, ties to even. -/
def roundEven (q : ℚ) : Int :=
  if q - ⌊q⌋ < 1 / 2 then ⌊q⌋ else if 1 / 2 < q - ⌊q⌋ then ⌊q⌋ + 1 else if ⌊q⌋ % 2 = 0 then ⌊q⌋ else ⌊q⌋ + 1

/-- The exponent of the last place of the binary64 number nearest to `x`: 53 significant bits, at least `2 ^ -1074`. -/
def ulpExp (x : ℚ) : Int := max (Int.log 2 |x| - 52) (-1074)

/-- The binary64 number nearest to `x` (IEEE 754, section 4.3.1); every arithmetic operation of Python's `float` rounds its
exact result like this. Simplification: no overflow. -/
def fl (x : ℚ) : ℚ := if x = 0 then 0 else roundEven (x / 2 ^ ulpExp x) * 2 ^ ulpExp x

/-! ## StaticMixture and InferringMixture -/

/-- `chunk_size * val` (static_mixture.py:48): the integer is converted first. -/
def ideal (chunk : Nat) (v : ℚ) : ℚ := fl (fl chunk * v)

/-- `floor_counts` (static_mixture.py:49). -/
def floorCounts (chunk : Nat) (m : Dict K ℚ) : Dict K Nat := m.map fun kv => (kv.1, (pyInt (ideal chunk kv.2)).toNat)

/-- `fractions[k]` for a key with weight `v` (static_mixture.py:50). -/
def fraction (chunk : Nat) (v : ℚ) : ℚ := fl (ideal chunk v - fl (pyInt (ideal chunk v)))

/-- `sorted(fractions.keys(), key=..., reverse=True)` (static_mixture.py:60). -/
def sortedKeys (chunk : Nat) (m : Dict K ℚ) : List K :=
  (sortBy (fun a b => decide (fraction chunk b.2 ≤ fraction chunk a.2)) m).map Prod.fst

/-- `StaticMixture.parse_user_mixture` (static_mixture.py:40-70). The loop that adds the remainder works on integers. -/
def parseUserMixture (chunk : Nat) (m : Dict K ℚ) : Except Err (Dict K Nat) :=
  if m.any (fun kv => decide (kv.2 < 0)) then .error .assertion
  else if chunk < (floorCounts chunk m).values.sum then .error .assertion
  else
    match addRemainder (sortedKeys chunk m) (chunk - (floorCounts chunk m).values.sum) 0 (floorCounts chunk m) with
    | .error e => .error e
    | .ok out => if out.values.sum = chunk then .ok out else .error .assertion

/-- `math.isclose(t, 1.0, rel_tol=1e-3)` (static_mixture.py:32): CPython compares `|t - 1|` with `|rel_tol * 1.0|` and
`|rel_tol * t|`. -/
def closeToOne (t : ℚ) : Prop := |fl (t - 1)| ≤ |fl (fl (1 / 1000) * 1)| ∨ |fl (t - 1)| ≤ |fl (fl (1 / 1000) * t)|

instance (t : ℚ) : Decidable (closeToOne t) := inferInstanceAs (Decidable (_ ∨ _))

/-- `sum` as a loop of additions from the left (CPython before 3.12; later versions compensate the rounding errors). -/
def loopSum (l : List ℚ) : ℚ := l.foldl (fun a x => fl (a + x)) 0

/-- `StaticMixture(chunk, m).mixture_in_rows()` (static_mixture.py:14-38); `sum` is Python's `sum`. -/
def staticMixture (sum : List ℚ → ℚ) (chunk : Nat) (m : Dict K ℚ) : Except Err (Dict K Nat) :=
  if ¬ closeToOne (sum m.values) then .error .valueError
  else parseUserMixture chunk (m.map fun kv => (kv.1, fl (kv.2 / sum m.values)))

/-- `infer_mixture_from_chunkerindex` (/repo/mixtera/core/datacollection/index/index_utils.py:4-30): the quotient of two
integers is rounded once. -/
def inferMixture (index : Dict K Entries) : Except Err (Nat × Dict K ℚ) :=
  let masses : Dict K Nat := index.map fun kv => (kv.1, entriesSize kv.2)
  let total := masses.values.sum
  if index ≠ [] ∧ total = 0 then .error .zeroDivision
  else .ok (total, masses.map fun kv => (kv.1, fl ((kv.2 : ℚ) / total)))

/-- `InferringMixture.process_index` (inferring_mixture.py:32-50): the new rows. -/
def inferRows (chunk : Nat) (index : Dict K Entries) : Except Err (Dict K Nat) :=
  match inferMixture index with
  | .error e => .error e
  | .ok (total, m) =>
    if total = 0 then (if m = [] then .ok [] else .error .assertion)
    else parseUserMixture chunk m

/-! ## HierarchicalStaticMixture -/

/-- The inner loop of `convert_to_mixture_key_format` (hierarchical_static_mixture.py:64-66). -/
def addProperty (name : PyStr) (values : List PyStr) (weight : ℚ) (result acc : Dict RawKey ℚ) : Dict RawKey ℚ :=
  result.foldl (fun acc kv => acc.set (normKey (kv.1.set name values)) (fl (kv.2 * weight))) acc

/-- `convert_to_mixture_key_format` (hierarchical_static_mixture.py:59-69). -/
def convert (name : PyStr) : MComps → Dict RawKey ℚ → Dict RawKey ℚ
  | .nil, acc => acc
  | .leaf values weight rest, acc => convert name rest (acc.set (normKey [(name, values)]) weight)
  | .sub values weight sname comps rest, acc =>
    convert name rest (addProperty name values weight (convert sname comps []) acc)

/-- `HierarchicalStaticMixture(chunk, node).mixture_in_rows()` (hierarchical_static_mixture.py:28-57). -/
def hierarchicalMixture (chunk : Nat) (node : MNode) : Except Err (Dict RawKey Nat) :=
  let m := convert node.name node.comps []
  if m.any (fun kv => decide (kv.2 < 0)) then .error .assertion
  else
    let rows := floorCounts chunk m
    if chunk - rows.values.sum > 0 then
      match rows with
      | [] => .error .indexError
      | (k, r) :: rest => .ok ((k, r + (chunk - rows.values.sum)) :: rest)
    else .ok rows

/-! ## Redistributing missing samples -/

/-- Indices by descending fractional part (utils.py:255-260, 267). -/
def fracOrder (exact : List ℚ) : List Nat :=
  (sortBy (fun a b => decide (b.1 ≤ a.1)) (exact.mapIdx fun i x => (fl (x - fl (pyInt x)), i))).map Prod.snd

/-- `distribute_by_ratio` (/repo/mixtera/utils/utils.py:236-277); `sum` is Python's `sum`. -/
def distributeByRatio (sum : List ℚ → ℚ) (n : Nat) (ratios : List ℚ) : Except Err (List Int) :=
  if ratios = [] then .ok []
  else if |fl (sum ratios - 1)| > fl (1 / 1000000000) then .error .valueError
  else
    let exact := ratios.map fun r => fl (r * fl n)
    let assigned := exact.map pyInt
    .ok (bumpLoop (n - assigned.sum) (fracOrder exact) assigned)

/-- `ratios` and the call of `distribute_by_ratio` (/repo/mixtera/core/query/query_result.py:449-453): `counts` are the rows of
the keys that are not finished. -/
def redistribute (sum : List ℚ → ℚ) (missing : Nat) (counts : List Nat) : Except Err (List Int) :=
  if counts.sum = 0 then .error .zeroDivision
  else distributeByRatio sum missing (counts.map fun (c : Nat) => fl ((c : ℚ) / (counts.sum : ℕ)))

end Mixtera.F64
