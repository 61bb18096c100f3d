import Verif.Model.Component
import Verif.Model.Utils
import Verif.Model.MixtureKey

/-!
# The C++ chunker

Models /repo/mixtera/core/query/chunker/src/chunker.cpp: from the table of intervals a query returns to the chunker
index. Arrow's decoding of columns (plain, large, dictionary encoded) is not modelled: a cell is its decoded value.
`absl::flat_hash_map` is an association list; the order in which it is iterated is left open (`reorder`).
-/

namespace Mixtera

/-- A decoded cell of a property column: NULL, a string, or a list whose elements may be NULL. -/
inductive Cell where
  | null
  | str (s : PyStr)
  | list (vs : List (Option PyStr))
deriving DecidableEq

/-- A row of the query's result table: the property columns in column order and the interval. -/
structure TRow where
  cells : List (PyStr × Cell)
  ds : Nat
  file : Nat
  start : Nat
  stop : Nat
deriving DecidableEq

/-- The text of a non-null cell (chunker.cpp:143-307): a string as it is, the non-null elements of a list joined by
commas. -/
def cellText : Cell → Option PyStr
  | .null => none
  | .str s => some s
  | .list vs => some (joinStr [','] (vs.filterMap id))

/-- The key built for a row (chunker.cpp:120-308): `name:values` for each non-null property, joined by semicolons. -/
def keyText (cells : List (PyStr × Cell)) : PyStr :=
  joinStr [';'] (cells.filterMap fun nc => (cellText nc.2).map fun t => nc.1 ++ [':'] ++ t)

/-- `ChunkerIndexCpp` (chunker.hpp:53-57). -/
abbrev CppIndex := Dict PyStr Entries

/-- `local_chunker_index[key][dataset_id][file_id].push_back(interval)` (chunker.cpp:342). -/
def pushInterval (idx : CppIndex) (key : PyStr) (d f : Nat) (r : Rng) : CppIndex :=
  idx.upsert key fun e => (e.getD []).upsert d fun fs => (fs.getD []).upsert f fun l => l.getD [] ++ [r]

/-- One row (chunker.cpp:119-343). -/
def processRow (idx : CppIndex) (r : TRow) : Except Err CppIndex :=
  if r.stop < r.start then .error .runtimeError
  else .ok (pushInterval idx (keyText r.cells) r.ds r.file (r.start, r.stop))

/-- `process_batch` (chunker.cpp:94-349). -/
def processBatch (idx : CppIndex) (batch : List TRow) : Except Err CppIndex := batch.foldlM processRow idx

/-- The batches of thread `t` (chunker.cpp:405-414). -/
def threadBatches (n : Nat) (batches : List (List TRow)) (t : Nat) : List (List TRow) :=
  let per := (batches.length + n - 1) / n
  (batches.drop (t * per)).take (min (t * per + per) batches.length - t * per)

/-- The body of thread `t` (chunker.cpp:415-423). -/
def threadIndex (n : Nat) (batches : List (List TRow)) (t : Nat) : Except Err CppIndex :=
  (threadBatches n batches t).foldlM processBatch []

/-- `calc_thread_chunker_indices` (chunker.cpp:367-457). Threads share nothing but the flag for exceptions; if one of
them throws, the call throws. -/
def threadIndices (n : Nat) (batches : List (List TRow)) : Except Err (List CppIndex) :=
  (List.range n).mapM (threadIndex n batches)

/-- `operator<` on pairs of integers. -/
def rngLt (a b : Rng) : Bool := decide (a.1 < b.1 ∨ (a.1 = b.1 ∧ a.2 < b.2))

/-- `std::inplace_merge` (stable) of two sorted ranges (chunker.cpp:77-91). For unsorted ranges (rows of different groups
with one text) the standard leaves the result open; of that case the theorems use only that it is a permutation. -/
def stdMerge : List Rng → List Rng → List Rng
  | [], bs => bs
  | a :: as, bs => go a as (stdMerge as) bs
where
  /-- Insert from the right range until `a` is not greater. -/
  go (a : Rng) (as : List Rng) (rest : List Rng → List Rng) : List Rng → List Rng
    | [] => a :: as
    | b :: bs => if rngLt b a then b :: go a as rest bs else a :: rest (b :: bs)

/-- Merging one file's intervals (chunker.cpp:483-491). -/
def mergeIv (old : Option (List Rng)) (new : List Rng) : List Rng :=
  match old with
  | none => new
  | some l => if l.isEmpty then new else stdMerge l new

/-- Merging the files of one dataset (chunker.cpp:483-493). -/
def mergeFileMaps (t s : Dict Nat (List Rng)) : Dict Nat (List Rng) :=
  s.foldl (fun t kv => t.upsert kv.1 fun o => mergeIv o kv.2) t

/-- Merging the datasets of one key (chunker.cpp:480-496). -/
def mergeDsMaps (t s : Entries) : Entries := s.foldl (fun t kv => t.upsert kv.1 fun o => mergeFileMaps (o.getD []) kv.2) t

/-- Merging one thread's index (chunker.cpp:477-498). -/
def mergeIndex (t s : CppIndex) : CppIndex := s.foldl (fun t kv => t.upsert kv.1 fun o => mergeDsMaps (o.getD []) kv.2) t

/-- `merge_chunker_indices` (chunker.cpp:459-530); `reorder` is the iteration order of the hash maps. -/
def mergeIndices (reorder : CppIndex → CppIndex) (l : List CppIndex) : CppIndex :=
  match l with
  | [idx] => idx
  | l => l.foldl (fun t s => mergeIndex t (reorder s)) []

/-- `std::getline` until the stream is exhausted: the pieces between delimiters; an empty piece at the very end is not
delivered (chunker.cpp:538-552). -/
def getlines (d : Char) : PyStr → List PyStr
  | [] => []
  | c :: s => if c = d then [] :: getlines d s else
    match getlines d s with
    | [] => [[c]]
    | p :: ps => (c :: p) :: ps

/-- Split `name:values` at the first colon; no colon: the piece is ignored (chunker.cpp:539-545). -/
def splitColon (p : PyStr) : Option (PyStr × PyStr) :=
  match p.dropWhile (fun c => decide (c ≠ ':')) with
  | [] => none
  | _ :: vs => some (p.takeWhile (fun c => decide (c ≠ ':')), vs)

/-- One `name:values` piece (chunker.cpp:539-554). -/
def parsePiece (d : RawKey) (p : PyStr) : RawKey :=
  match splitColon p with
  | none => d
  | some nv => d.set nv.1 (getlines ',' nv.2)

/-- `string_key_to_property_dict` (chunker.cpp:532-556). -/
def parseKey (s : PyStr) : RawKey := (getlines ';' s).foldl parsePiece []

/-- `build_py_chunker_index` (chunker.cpp:558-624): the Python dictionary; `mk` makes the Python key from the text. -/
def buildPyIndex {K : Type} [DecidableEq K] (mk : PyStr → K) (idx : CppIndex) : Dict K Entries :=
  idx.foldl (fun py ke => py.set (mk ke.1) ke.2) []

/-- `create_chunker_index` (chunker.cpp:626-654). -/
def createChunkerIndex {K : Type} [DecidableEq K] (reorder : CppIndex → CppIndex) (mk : PyStr → K)
    (batches : List (List TRow)) (numThreads : Int) : Except Err (Dict K Entries) :=
  if numThreads < 0 then .error .runtimeError
  else do
    let locals ← threadIndices (max numThreads 1).toNat batches
    .ok (buildPyIndex mk (reorder (mergeIndices reorder locals)))

end Mixtera
