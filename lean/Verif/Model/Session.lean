import Verif.Model.ChunkGen

/-!
# The query result object

Models the state of `QueryResult` around its chunk generator: mixture reference, shared index, lazily
created generator, mixture log, key ids, caching and replay
(/repo/mixtera/core/query/query_result.py:36-114,263-276,568-596,656-796).

Mixture objects live in a heap, because client feedback mutates them in place
(/repo/mixtera/core/client/local/local_stub.py:213-224) and the generator keeps a reference.
Not modelled: file logs, metadata of datasets and files, locks (every operation runs under them).
-/

namespace Mixtera

variable {K : Type} [DecidableEq K]

/-- The loop of `_update_key_id_map` (query_result.py:107-111). -/
def assignIds : List K → Nat → Dict K Nat → Dict K Nat
  | [], _, m => m
  | k :: ks, n, m => if m.has k then assignIds ks n m else assignIds ks (n + 1) (m.set k n)

/-- `max(values)` of a non-empty list. -/
def maxOf : List Nat → Nat
  | [] => 0
  | a :: l => max a (maxOf l)

/-- `_update_key_id_map` (query_result.py:94-114); `rows` are the keys of the current mixture, `index`
those of the chunker index. The Python set union is a list with possible duplicates here; a duplicate is
skipped by the membership test. -/
def updateKeyIds (ops : KeyOps K) (rows index : List K) (m : Dict K Nat) : Dict K Nat :=
  if m.length = 0 then assignIds (ops.sort (rows ++ index)) 0 m
  else assignIds (ops.sort rows) (maxOf m.values + 1) m

/-- A `QueryResult` (query_result.py:36-92). `order` is the order in which the generator visits the keys:
a seeded shuffle, the same for every generator created from the same index (query_result.py:295-298). -/
structure Sess (K : Type) where
  index : Dict K Entries
  order : List K
  stopOnNone : Bool
  heap : Nat → MixView K
  mixRef : Nat
  gen : Option (Gen K)
  idx : Nat
  numReturns : Nat
  isReplay : Bool
  log : List (Nat × MixView K)
  keyIds : Dict K Nat

/-- The constructor (query_result.py:36-92) with mixture object `ref` (whose view after `process_index` is
`v`). -/
def Sess.fresh (ops : KeyOps K) (index : Dict K Entries) (order : List K) (stopOnNone : Bool) (ref : Nat)
    (v : MixView K) : Sess K :=
  { index, order, stopOnNone, heap := fun _ => v, mixRef := ref, gen := none, idx := 0, numReturns := 0,
    isReplay := false, log := [], keyIds := updateKeyIds ops v.rows.keys index.keys [] }

/-- `update_mixture` with the mixture object `ref`, whose view (after `process_index`) is `v`
(query_result.py:263-276). -/
def Sess.update (ops : KeyOps K) (s : Sess K) (ref : Nat) (v : MixView K) : Sess K :=
  { s with
    heap := fun i => if i = ref then v else s.heap i
    mixRef := ref
    keyIds := updateKeyIds ops v.rows.keys s.index.keys s.keyIds }

/-- `process_feedback`: the current mixture object changes in place to view `v` (local_stub.py:213-224). -/
def Sess.feedback (s : Sess K) (v : MixView K) : Sess K :=
  { s with heap := fun i => if i = s.mixRef then v else s.heap i }

/-- The generator, created on first use (query_result.py:575-582). -/
def Sess.theGen (s : Sess K) : Gen K :=
  match s.gen with
  | some g => g
  | none => { Gen.init s.index s.order with log := s.log }

/-- `__next__` (query_result.py:568-596). `.none`: the call returned `None` or, with `stop_on_none`,
raised `StopIteration` (the index is given back either way); `.stop`: the generator has finished
(`StopIteration`, the index stays incremented). The key ids are updated by the generator when it sees a
changed mixture (line 347). -/
def Sess.next (ops : KeyOps K) (fuel : Nat) (s : Sess K) : Sess K × Out K :=
  if s.gen.isNone && s.numReturns != 0 then ({ s with idx := s.idx + 1 }, .raised .assertion)
  else
    let g := s.theGen
    let (g', o) := g.send ops fuel s.isReplay s.heap s.mixRef s.idx
    ({ s with
        gen := some g'
        idx := match o with
          | .none => s.idx
          | _ => s.idx + 1
        numReturns := s.numReturns + 1
        log := g'.log
        keyIds := if g'.mixtureId = g.mixtureId then s.keyIds
          else updateKeyIds ops (s.heap s.mixRef).rows.keys s.index.keys s.keyIds }, o)

/-- Operations on a query result. -/
inductive SOp (K : Type)
  | update (ref : Nat) (v : MixView K)
  | feedback (v : MixView K)
  | next

/-- One operation; only `next` has an answer. -/
def Sess.op (ops : KeyOps K) (fuel : Nat) (s : Sess K) : SOp K → Sess K × Option (Out K)
  | .update ref v => (s.update ops ref v, none)
  | .feedback v => (s.feedback v, none)
  | .next => ((s.next ops fuel).1, some (s.next ops fuel).2)

/-- A sequence of operations and the answers of its `next`s. -/
def Sess.run (ops : KeyOps K) (fuel : Nat) : Sess K → List (SOp K) → Sess K × List (Out K)
  | s, [] => (s, [])
  | s, o :: os =>
    let (s1, a) := s.op ops fuel o
    let (s2, as) := Sess.run ops fuel s1 os
    (s2, a.toList ++ as)

/-- What `to_cache` stores (query_result.py:656-689): everything but lock, index counter and generator.
pickle, dill and the index serialization are taken as the identity (for the latter see C31). -/
structure Cached (K : Type) where
  index : Dict K Entries
  order : List K
  stopOnNone : Bool
  mixture : MixView K
  numReturns : Nat
  isReplay : Bool
  log : List (Nat × MixView K)
  keyIds : Dict K Nat

/-- `to_cache` (query_result.py:656-689). -/
def Sess.toCache (s : Sess K) : Cached K :=
  { index := s.index, order := s.order, stopOnNone := s.stopOnNone, mixture := s.heap s.mixRef,
    numReturns := s.numReturns, isReplay := s.isReplay, log := s.log, keyIds := s.keyIds }

/-- The start of an iteration of `replay` (query_result.py:715-720): apply the next logged mixture if it is
due. -/
def Sess.due (ops : KeyOps K) (ref i : Nat) (s : Sess K) : List (Nat × MixView K) → Sess K × List (Nat × MixView K)
  | [] => (s, [])
  | (c, v) :: rest => if i = c then (s.update ops ref v, rest) else (s, (c, v) :: rest)

/-- The loop of `replay` (query_result.py:713-731): iteration `i`, `n` iterations to go, `pending` log
entries. Every update uses a fresh copy of the logged mixture; all of them are called `ref` here, which is
harmless because an older copy is only referenced by the generator after a `None`, and a `None` makes
`replay` fail. -/
def replayLoop (ops : KeyOps K) (fuel ref : Nat) : Nat → Nat → List (Nat × MixView K) → Sess K →
    Except Err (Sess K)
  | _, 0, _, s => .ok s
  | i, n + 1, pending, s =>
    let due := s.due ops ref i pending
    match due.1.next ops fuel with
    | (s', .chunk _) => replayLoop ops fuel ref (i + 1) n due.2 s'
    | (s', .none) =>
      if s'.stopOnNone then .error .runtimeError else replayLoop ops fuel ref (i + 1) n due.2 s'
    | (_, .stop) => .error .runtimeError
    | (_, .raised e) => .error e

/-- `replay` (query_result.py:691-739). -/
def Sess.replay (ops : KeyOps K) (fuel ref n : Nat) (s : Sess K) : Except Err (Sess K) :=
  if n < 1 then .ok s
  else
    match s.log with
    | [] => .error .keyError
    | (_, v) :: rest =>
      match replayLoop ops fuel ref 0 n rest ({ s with isReplay := true }.update ops ref v) with
      | .error e => .error e
      | .ok s' =>
        if s'.numReturns = n ∧ s'.idx = n then .ok { s' with isReplay := false } else .error .assertion

/-- `from_cache` (query_result.py:741-796). -/
def fromCache (ops : KeyOps K) (fuel ref : Nat) (c : Cached K) : Except Err (Sess K) :=
  Sess.replay ops fuel ref c.numReturns
    { index := c.index, order := c.order, stopOnNone := c.stopOnNone, heap := fun _ => c.mixture, mixRef := ref,
      gen := none, idx := 0, numReturns := 0, isReplay := c.isReplay, log := c.log, keyIds := c.keyIds }

end Mixtera
