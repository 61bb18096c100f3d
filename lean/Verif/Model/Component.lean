import Verif.Model.Dict
import Verif.Model.Sort

/-!
# The per-component coroutine

Models `QueryResult._generate_per_mixture_component_chunks`
(/repo/mixtera/core/query/query_result.py:182-260).
-/

namespace Mixtera

/-- A half-open range of sample numbers `[lo, hi)` (query_result.py:224, `tuple[int, int]`). -/
abbrev Rng := Nat × Nat

/-- `dataset_id -> file_id -> list of ranges`
(`ChunkerIndexDatasetEntries`, /repo/mixtera/core/datacollection/index/index.py:1-12). -/
abbrev Entries := Dict Nat (Dict Nat (List Rng))

/-- A range together with the dataset and file it belongs to. Simplification: the nested
dictionary of one component is represented by the list of its ranges in iteration order. -/
structure Seg where
  ds : Nat
  file : Nat
  lo : Nat
  hi : Nat
deriving DecidableEq, Repr

/-- The iteration order of query_result.py:226-228: data sets sorted by id, files sorted by id,
ranges in the order in which they are stored. -/
def flattenSorted (e : Entries) : List Seg :=
  (sortBy (fun a b => decide (a.1 ≤ b.1)) e).flatMap fun (d, files) =>
    (sortBy (fun a b => decide (a.1 ≤ b.1)) files).flatMap fun (f, rs) =>
      rs.map fun r => ⟨d, f, r.1, r.2⟩

/-- One `send(n)` into the coroutine (query_result.py:220-260). The coroutine state between two
yields is the list of ranges not yet handed out: at every suspension point
`current_cardinality = 0` and `current_partition` is empty (lines 250-252), and a split range is
kept with its new lower end (line 250). `cur`/`acc` are `current_cardinality` and
`current_partition`. Result: the yielded ranges and the new state, or `none` for `StopIteration`
(lines 257-260: the last, possibly smaller, part is yielded only if it is non-empty). -/
def sendAux (n : Nat) : Nat → List Seg → List Seg → Option (List Seg × List Seg)
  | cur, acc, [] => if cur > 0 then some (acc, []) else none
  | cur, acc, s :: rest =>
    if s.hi > s.lo then
      if cur + (s.hi - s.lo) < n then
        sendAux n (cur + (s.hi - s.lo)) (acc ++ [s]) rest
      else
        let diff := cur + (s.hi - s.lo) - n
        some (acc ++ [{ s with hi := s.hi - diff }], { s with lo := s.hi - diff } :: rest)
    else sendAux n cur acc rest

/-- `iterator.send(n)` on a component coroutine whose unread ranges are `st`. -/
def send (n : Nat) (st : List Seg) : Option (List Seg × List Seg) := sendAux n 0 [] st

/-- The nested dictionary built by `current_partition[dataset_id][file_id].append(range)`
(query_result.py:224,237,246). -/
def nestSegs (segs : List Seg) : Entries :=
  segs.foldl (fun e s =>
    e.upsert s.ds fun fs =>
      (fs.getD []).upsert s.file fun rs => rs.getD [] ++ [(s.lo, s.hi)]) []

end Mixtera
