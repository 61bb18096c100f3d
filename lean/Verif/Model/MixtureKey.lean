import Mathlib.Data.List.Lex
import Mathlib.Data.Char
import Verif.Model.Dict
import Verif.Model.Sort

/-!
# Mixture keys

Models `MixtureKey` (/repo/mixtera/core/query/mixture/mixture_key.py:1-86) and `hash_dict`
(/repo/mixtera/utils/utils.py:114-147).

Text is a list of characters (Python compares strings by code point). Property values are text: `hash_dict`
joins them with `"\0".join`, which raises for anything else, so other values cannot be used as dictionary keys.
-/

namespace Mixtera

/-- A Python string. -/
abbrev PyStr := List Char

/-- `properties` of a mixture key, as the user listed them (mixture_key.py:7-15). -/
abbrev RawKey := Dict PyStr (List PyStr)

/-- `sorted` on strings. -/
def sortStr (l : List PyStr) : List PyStr := sortBy (fun a b => decide (a ≤ b)) l

/-- `sep.join(l)`. -/
def joinStr (sep : PyStr) : List PyStr → PyStr
  | [] => []
  | [a] => a
  | a :: b :: l => a ++ sep ++ joinStr sep (b :: l)

namespace RawKey

/-- `self.properties[k]`. -/
def vals (a : RawKey) (k : PyStr) : List PyStr := (a.get? k).getD []

/-- `sorted(self.properties)`. -/
def names (a : RawKey) : List PyStr := sortStr a.keys

/-- `self == other` (mixture_key.py:21-39): every property of `self` occurs in `other` and the value lists share
a value or are both empty. -/
def isMatch (a b : RawKey) : Bool :=
  a.all fun (k, v) =>
    match b.get? k with
    | none => false
    | some w => v.any (fun x => decide (x ∈ w)) || (v.isEmpty && w.isEmpty)

/-- First loop of `__lt__` (mixture_key.py:58-67) on (name, number of values) pairs; `none`: the loop ends without
a verdict. -/
def cmpNames : List (PyStr × Nat) → List (PyStr × Nat) → Option Bool
  | (k, m) :: l, (k', m') :: l' =>
    if k ≠ k' then some (decide (k < k'))
    else if m ≠ m' then some (decide (m < m'))
    else cmpNames l l'
  | _, _ => none

/-- Second loop of `__lt__` (mixture_key.py:70-74). -/
def cmpValues : List (List PyStr) → List (List PyStr) → Option Bool
  | v :: l, v' :: l' => if v ≠ v' then some (decide (v < v')) else cmpValues l l'
  | _, _ => none

/-- `str(self)` (mixture_key.py:81-83). -/
def str (a : RawKey) : PyStr :=
  joinStr [';'] (a.names.map fun k => k ++ [':'] ++ joinStr [':'] (sortStr (a.vals k)))

/-- `self < other` (mixture_key.py:41-77). -/
def lt (a b : RawKey) : Bool :=
  if a.length ≠ b.length then decide (a.length < b.length)
  else
    match cmpNames (a.names.map fun k => (k, (a.vals k).length)) (b.names.map fun k => (k, (b.vals k).length)) with
    | some r => r
    | none =>
      match cmpValues (a.names.map fun k => sortStr (a.vals k)) (a.names.map fun k => sortStr (b.vals k)) with
      | some r => r
      | none => decide (a.str < b.str)

/-- The text that `hash_dict` hashes (utils.py:124-142). -/
def hashText (a : RawKey) : PyStr :=
  joinStr ['\x00'] (a.names.map fun k => k ++ [':'] ++ joinStr ['\x00'] (sortStr (a.vals k)))

/-- Whether a Python dictionary that contains the key `stored` treats `key` as the same key: equal hashes and
`stored == key`. `hash` stands for xxhash. -/
def sameSlot (hash : PyStr → Nat) (stored key : RawKey) : Bool :=
  hash stored.hashText == hash key.hashText && stored.isMatch key

end RawKey

end Mixtera
