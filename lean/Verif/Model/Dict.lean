/-!
# Python dictionaries

Insertion-ordered association lists with the operations the modelled code uses.
Keys are compared with `=`; for `MixtureKey` this means equality of the
(canonical) key contents, see `Verif/Model/MixtureKey.lean`.
-/

namespace Mixtera

/-- A Python `dict` (insertion ordered, CPython >= 3.7). -/
abbrev Dict (α : Type u) (β : Type v) := List (α × β)

namespace Dict

variable {α : Type u} {β : Type v} [DecidableEq α]

/-- `d.get(k)`. -/
def get? : Dict α β → α → Option β
  | [], _ => none
  | (a, b) :: d, k => if a = k then some b else get? d k

/-- `k in d`. -/
def has (d : Dict α β) (k : α) : Bool := (d.get? k).isSome

/-- `d[k] = f(d.get(k))`: overwrites in place, or appends at the end when `k` is new. -/
def upsert : Dict α β → α → (Option β → β) → Dict α β
  | [], k, f => [(k, f none)]
  | (a, b) :: d, k, f => if a = k then (a, f (some b)) :: d else (a, b) :: upsert d k f

/-- `d[k] = v`. -/
def set (d : Dict α β) (k : α) (v : β) : Dict α β := d.upsert k (fun _ => v)

/-- `d.pop(k, None)` / `del d[k]` (the remaining dictionary). -/
def pop : Dict α β → α → Dict α β
  | [], _ => []
  | (a, b) :: d, k => if a = k then d else (a, b) :: pop d k

/-- `d.keys()`. -/
def keys (d : Dict α β) : List α := d.map Prod.fst

/-- `d.values()`. -/
def values (d : Dict α β) : List β := d.map Prod.snd

end Dict

end Mixtera
