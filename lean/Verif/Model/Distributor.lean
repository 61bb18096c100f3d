import Verif.Model.Utils

/-!
# The chunk distributor

Models `ChunkDistributor` (/repo/mixtera/core/query/chunk_distributor.py:19-643).

The query result is an arbitrary source of chunks: a state, a function `fetch` (`next(query_result)`) and
arbitrary other operations on it (`poke`: `update_mixture`, feedback). `Props/Distributor.lean` instantiates
it with the query result of `Model/Session.lean`.
Not modelled: dill (the identity), the fork detection, logging, locks.
-/

namespace Mixtera

/-- What `next(query_result)` does: a chunk, `None` or `StopIteration` (both make `next_chunk_for` raise
`StopIteration`, lines 151-152), or another exception. -/
inductive Fetch (C : Type)
  | chunk (c : C)
  | stop
  | raised (e : Err)

/-- A source of chunks with state `σ` and other operations `ι`. -/
structure Source (σ ι C : Type) where
  fetch : σ → σ × Fetch C
  poke : ι → σ → σ

/-- The distributor (chunk_distributor.py:60-90). The nested dictionaries `_chunk_cache` and `_chunk_usage`
are indexed by group; `_next_chunk[group][node][worker]` exists for all valid ids and is a function here. -/
structure Dist (σ C : Type) where
  groups : Nat
  nodes : Nat
  workers : Nat
  src : σ
  cache : Nat → Dict Nat C
  usage : Nat → Dict Nat Nat
  next : Nat → Nat → Nat → Nat

variable {σ ι C : Type}

/-- The constructor (chunk_distributor.py:29-78); zero workers are treated as one (line 57). -/
def Dist.init (groups nodes workers : Nat) (src : σ) : Except Err (Dist σ C) :=
  if groups < 1 then .error .valueError
  else .ok {
    groups := groups
    nodes := nodes
    workers := if workers > 0 then workers else 1
    src := src
    cache := fun _ => []
    usage := fun _ => []
    next := fun _ _ worker => worker }

/-- A request `next_chunk_for(group, node, worker)`. -/
structure DReq where
  group : Nat
  node : Nat
  worker : Nat
deriving DecidableEq, Repr

/-- The answer to a request. -/
inductive Ans (C : Type)
  | chunk (c : C)
  | stop
  | raised (e : Err)

/-- The end of `next_chunk_for`, once chunk `id` is in the cache (chunk_distributor.py:167-189). -/
def Dist.deliver (d : Dist σ C) (r : DReq) (id : Nat) (c : C) : Dist σ C × Ans C :=
  match (d.usage r.group).get? id with
  | none => (d, .raised .keyError)
  | some u =>
    let usage := (d.usage r.group).set id (u + 1)
    let d := { d with usage := fun g => if g = r.group then usage else d.usage g }
    let next := fun g n w =>
      if g = r.group ∧ n = r.node ∧ w = r.worker then id + d.workers else d.next g n w
    if u + 1 ≥ d.nodes ∧ id ≥ d.workers ∧ (d.cache r.group).has (id - d.workers) then
      let cache := (d.cache r.group).pop (id - d.workers)
      let d := { d with cache := fun g => if g = r.group then cache else d.cache g }
      if usage.has (id - d.workers) then
        let usage := usage.pop (id - d.workers)
        ({ d with usage := (fun g => if g = r.group then usage else d.usage g), next := next }, .chunk c)
      else (d, .raised .keyError)
    else ({ d with next := next }, .chunk c)

/-- `next_chunk_for` (chunk_distributor.py:92-189). -/
def Dist.nextChunkFor (S : Source σ ι C) (d : Dist σ C) (r : DReq) : Dist σ C × Ans C :=
  if r.group < d.groups ∧ r.node < d.nodes ∧ r.worker < d.workers then
    let id := d.next r.group r.node r.worker
    match (d.cache r.group).get? id with
    | some c => d.deliver r id c
    | none =>
      match S.fetch d.src with
      | (s, .chunk c) =>
        Dist.deliver
          { d with
            src := s
            cache := fun g => if g = r.group then (d.cache g).set id c else d.cache g
            usage := fun g => if g = r.group then (d.usage g).set id 0 else d.usage g }
          r id c
      | (s, .stop) => ({ d with src := s }, .stop)
      | (s, .raised e) => ({ d with src := s }, .raised e)
  else (d, .raised .assertion)

/-- Events in the life of a distributor: requests, and operations on the query result. -/
inductive DOp (ι : Type)
  | ask (r : DReq)
  | poke (i : ι)

/-- One event; only requests have an answer. -/
def Dist.op (S : Source σ ι C) (d : Dist σ C) : DOp ι → Dist σ C × Option (DReq × Ans C)
  | .ask r => ((d.nextChunkFor S r).1, some (r, (d.nextChunkFor S r).2))
  | .poke i => ({ d with src := S.poke i d.src }, none)

/-- A sequence of events and the answers. -/
def Dist.run (S : Source σ ι C) : Dist σ C → List (DOp ι) → Dist σ C × List (DReq × Ans C)
  | d, [] => (d, [])
  | d, o :: os =>
    let (d1, a) := d.op S o
    let (d2, as) := Dist.run S d1 os
    (d2, a.toList ++ as)

/-! ### Checkpoints -/

/-- `_validate_checkpoint_state`, first part (chunk_distributor.py:311-323): within each group every worker id
is at the same chunk on all nodes. -/
def Dist.aligned (d : Dist σ C) : Bool :=
  (List.range d.groups).all fun g => (List.range d.workers).all fun w =>
    (List.range d.nodes).all fun n => d.next g n w == d.next g 0 w

/-- `_validate_checkpoint_state`, second part (chunk_distributor.py:325-346): the largest sample index that the
nodes of the group reported for worker `w`; `none` if no node reported that worker. -/
def maxStatus (statuses : Dict (Nat × Nat) (List Nat)) (g w : Nat) : Option Nat :=
  (statuses.filterMap fun ((g', _), l) => if g' = g then l[w]? else none).max?

/-- What `_persist_checkpoint_process` writes (chunk_distributor.py:364-372,466-496): the state with every
started worker moved back by one chunk. `none`: the process fails (KeyError) because a started worker's status
was not reported or its chunk is not cached. `skip k c` is chunk `c` with `_samples_to_skip = k`. -/
structure Saved (C : Type) where
  groups : Nat
  nodes : Nat
  workers : Nat
  cache : Nat → Dict Nat C
  usage : Nat → Dict Nat Nat
  next : Nat → Nat → Nat → Nat

/-- One iteration of the persisting loop (chunk_distributor.py:469-490). -/
def Saved.adjust (skip : Nat → C → C) (status : Nat → Nat → Option Nat) (s : Saved C) (r : DReq) :
    Except Err (Saved C) :=
  let cur := s.next r.group r.node r.worker
  if cur ≥ s.workers then
    let id := cur - s.workers
    match (s.cache r.group).get? id, status r.group r.worker with
    | some c, some k => .ok { s with
        next := fun g n w => if g = r.group ∧ n = r.node ∧ w = r.worker then id else s.next g n w
        usage := fun g => if g = r.group then (s.usage g).set id 0 else s.usage g
        cache := fun g => if g = r.group then (s.cache g).set id (skip k c) else s.cache g }
    | _, _ => .error .keyError
  else .ok s

/-- The three nested loops (chunk_distributor.py:466-468). -/
def allIds (groups nodes workers : Nat) : List DReq :=
  (List.range groups).flatMap fun g => (List.range nodes).flatMap fun n =>
    (List.range workers).map fun w => ⟨g, n, w⟩

/-- The persisting loop (chunk_distributor.py:466-496). -/
def Saved.adjustAll (skip : Nat → C → C) (status : Nat → Nat → Option Nat) :
    List DReq → Saved C → Except Err (Saved C)
  | [], s => .ok s
  | r :: rs, s =>
    match s.adjust skip status r with
    | .error e => .error e
    | .ok s => Saved.adjustAll skip status rs s

/-- `_start_checkpointing` and `_persist_checkpoint_process` (chunk_distributor.py:348-512), without the query
result. -/
def Dist.persist (skip : Nat → C → C) (status : Nat → Nat → Option Nat) (d : Dist σ C) : Except Err (Saved C) :=
  Saved.adjustAll skip status (allIds d.groups d.nodes d.workers)
    { groups := d.groups, nodes := d.nodes, workers := d.workers, cache := d.cache, usage := d.usage, next := d.next }

/-- `from_checkpoint` (chunk_distributor.py:557-643); `src` is the query result after replay. -/
def Saved.restore (s : Saved C) (src : σ) : Dist σ C :=
  { groups := s.groups, nodes := s.nodes, workers := s.workers, src := src, cache := s.cache, usage := s.usage,
    next := s.next }

/-- The attributes of the distributor used to collect reports (chunk_distributor.py:80-90). -/
structure Chk where
  statuses : Dict (Nat × Nat) (List Nat)
  counter : Nat
  current : Option Nat

/-- Before the first checkpoint. -/
def Chk.init : Chk := { statuses := [], counter := 0, current := none }

/-- The answer of `checkpoint`: an id (number `n` stands for `"chkpnt_n"`), and whether this call started the
persisting process. -/
inductive ChkAns
  | accepted (id : Nat) (started : Bool)
  | raised (e : Err)
deriving DecidableEq, Repr

/-- `checkpoint` (chunk_distributor.py:218-292), server mode. `_nodes_reported` is the key set of
`_worker_statuses`: both are always changed together (lines 277-278, 289-290). `aligned` is the verdict of
`_validate_checkpoint_state`. -/
def Chk.report (groups nodes : Nat) (aligned : Bool) (c : Chk) (g n : Nat) (status : List Nat) : Chk × ChkAns :=
  if c.statuses.has (g, n) then (c, .raised .runtimeError)
  else
    let (counter, id) := match c.current with
      | none => (c.counter + 1, c.counter + 1)
      | some id => (c.counter, id)
    let c : Chk := { statuses := c.statuses.set (g, n) status, counter := counter, current := some id }
    if c.statuses.length = groups * nodes then
      if aligned then ({ statuses := [], counter := counter, current := none }, .accepted id true)
      else (c, .raised .runtimeError)
    else (c, .accepted id false)

/-- The id counter after `from_checkpoint` (chunk_distributor.py:627-639); `dirs` are the numbers of the
existing checkpoint directories. -/
def restoredCounter (saved : Nat) (dirs : List Nat) : Nat := dirs.foldl max saved

end Mixtera
