import Verif.Model.Utils

/-!
# The chunk generator

Models `QueryResult._chunk_generator` (/repo/mixtera/core/query/query_result.py:278-547).

The model is generic in the key type `K`; `KeyOps` carries the two operations of `MixtureKey` that
the generator uses (`sorted`, i.e. `__lt__`, and `==`, i.e. the asymmetric match). Dictionary lookups
use `=` on `K`.
-/

namespace Mixtera

/-- The operations of `MixtureKey` used by the generator: `le a b` is `not (b < a)` and
`isMatch a b` is `a == b` (/repo/mixtera/core/query/mixture/mixture_key.py:21-76). -/
structure KeyOps (K : Type) where
  le : K → K → Bool
  isMatch : K → K → Bool

/-- `sorted(keys)` (query_result.py:360,363,446). -/
def KeyOps.sort {K} (ops : KeyOps K) (l : List K) : List K := sortBy ops.le l

/-- What the generator reads from a `Mixture` object: `mixture_in_rows()`, `strict`, `chunk_size`
(query_result.py:321-322,489,523). Row counts are natural numbers: the constructors reject negative
weights (static_mixture.py:45). -/
structure MixView (K : Type) where
  rows : Dict K Nat
  strict : Bool
  chunkSize : Nat

/-- The parts of a `ResultChunk` that the generator fills in (query_result.py:484-494,535-544). -/
structure RChunk (K : Type) where
  content : Dict K Entries
  chunkSize : Nat
  mixtureId : Int
  mixture : Option (Dict K Nat)
  strict : Bool

/-- Number of samples in a nested dictionary (query_result.py:372-376). -/
def entriesSize (e : Entries) : Nat :=
  (e.map fun (_, files) => (files.map fun (_, rs) => (rs.map fun r => r.2 - r.1).sum).sum).sum

/-- Local variables of one attempt to build a chunk (query_result.py:349-355); `iters` are the
component coroutines (their unread ranges). -/
structure Att (K : Type) where
  iters : Dict K (List Seg)
  remaining : Dict K Nat
  mixture : Dict K Nat
  chunk : Dict K Entries
  progress : Bool

variable {K : Type} [DecidableEq K]

/-- Merge one file's ranges into the entries of one mixture key (query_result.py:390-397). -/
def addFile (e : Entries) (d f : Nat) (rs : List Rng) : Entries :=
  e.upsert d fun files => (files.getD []).upsert f fun old =>
    match old with
    | none => rs
    | some o => mergeSortedLists o rs

/-- Merge a component chunk into the entries of one mixture key (query_result.py:388-397). -/
def addEntries (e : Entries) (new : Entries) : Entries :=
  new.foldl (fun e (d, files) => files.foldl (fun e (f, rs) => addFile e d f rs) e) e

/-- The loop over the sorted component iterators for one mixture key (query_result.py:363-410).
`remaining_sizes[mixture_key]` always exists here: `mixture_key` was taken from the dictionary's keys
and only the (later) best-effort branch removes keys. -/
def compLoop (ops : KeyOps K) (mk : K) : List K → Att K → Except Err (Att K)
  | [], st => .ok st
  | c :: cs, st =>
    if ops.isMatch mk c then
      let want := (st.remaining.get? mk).getD 0
      match send want ((st.iters.get? c).getD []) with
      | none => compLoop ops mk cs { st with iters := st.iters.set c [] }
      | some (out, rest) =>
        let part := nestSegs out
        let size := entriesSize part
        if size ≤ want then
          let st' : Att K :=
            { iters := st.iters.set c rest
              remaining := st.remaining.set mk (want - size)
              mixture := st.mixture
              chunk := st.chunk.upsert mk fun e => addEntries (e.getD []) part
              progress := st.progress || decide (size > 0) }
          if want - size = 0 then .ok st' else compLoop ops mk cs st'
        else .error .assertion
    else compLoop ops mk cs st

/-- `remaining_sizes[key] += x; mixture[key] += x` for all targets (query_result.py:459-462).
The distributed numbers are non-negative integers. -/
def addAll (d : Dict K Nat) : List (K × Int) → Dict K Nat
  | [] => d
  | (k, x) :: l => addAll (d.upsert k fun o => o.getD 0 + x.toNat) l

/-- Best-effort handling of a mixture key whose components are exhausted
(query_result.py:417-473). -/
def redistribute (ops : KeyOps K) (mk : K) (st : Att K) : Except Err (Att K) :=
  let missing := (st.remaining.get? mk).getD 0
  let remaining := st.remaining.pop mk
  let planned := (st.mixture.get? mk).getD 0
  if missing ≤ planned then
    let preSum := st.mixture.values.sum
    let mixture := if missing = planned then st.mixture.pop mk else st.mixture.set mk (planned - missing)
    if remaining = [] then
      .ok { st with remaining := remaining, mixture := mixture }
    else
      let targets := ops.sort remaining.keys
      let total := (targets.map fun k => (mixture.get? k).getD 0).sum
      if total = 0 then .error .zeroDivision
      else
        let ratios := targets.map fun k => (((mixture.get? k).getD 0 : Nat) : ℚ) / (total : ℚ)
        match distributeByRatio missing ratios with
        | .error e => .error e
        | .ok extra =>
          if extra.sum = (missing : Int) then
            let mixture' := addAll mixture (targets.zip extra)
            if preSum = mixture'.values.sum then
              .ok { st with
                remaining := addAll remaining (targets.zip extra)
                mixture := mixture'
                progress := true }
            else .error .assertion
          else .error .assertion
  else .error .assertion

/-- The loop over the sorted mixture keys (query_result.py:360-475); the best-effort branch breaks
out of it (line 475). -/
def keyLoop (ops : KeyOps K) (strict : Bool) (comps : List K) : List K → Att K → Except Err (Att K)
  | [], st => .ok st
  | mk :: mks, st =>
    match compLoop ops mk comps st with
    | .error e => .error e
    | .ok st =>
      if (st.remaining.get? mk).getD 0 > 0 then
        if strict then keyLoop ops strict comps mks st
        else redistribute ops mk st
      else keyLoop ops strict comps mks st

/-- `while global_progress_made and any(remaining_sizes.values())` (query_result.py:356-475). The
`Nat` bounds the number of passes; `Props/ChunkGen.lean` shows that the bound used by `attempt` is
never hit. -/
def passes (ops : KeyOps K) (strict : Bool) : Nat → Att K → Except Err (Att K)
  | 0, _ => .error .outOfFuel
  | n + 1, st =>
    if st.progress && st.remaining.values.any (· != 0) then
      match keyLoop ops strict (ops.sort st.iters.keys) (ops.sort st.remaining.keys)
          { st with progress := false } with
      | .error e => .error e
      | .ok st => passes ops strict n st
    else .ok st

/-- Start of an attempt (query_result.py:321,349-355). -/
def Att.start (iters : Dict K (List Seg)) (rows : Dict K Nat) : Att K :=
  { iters := iters, remaining := rows, mixture := rows, chunk := [], progress := true }

/-- One attempt to build a chunk for a non-empty mixture (query_result.py:349-478). The Boolean is
the test of line 478: data was found for all keys still in the mixture. -/
def attempt (ops : KeyOps K) (iters : Dict K (List Seg)) (v : MixView K) :
    Except Err (Att K × Bool) :=
  match passes ops v.strict (v.rows.length + 3) (Att.start iters v.rows) with
  | .error e => .error e
  | .ok st => .ok (st, (!st.remaining.isEmpty) && st.remaining.values.all (· == 0))

/-- Equality of Python dictionaries (same keys, same values; order irrelevant), used by
`previous_mixture != mixture` (query_result.py:326). -/
def dictEq (a b : Dict K Nat) : Bool :=
  a.length == b.length && a.all fun (k, v) => b.get? k == some v

/-- Where the coroutine is suspended: at a `yield` whose result is assigned (lines 310, 484, 535),
at the bare `yield None` of line 503, or finished. -/
inductive Susp
  | ready
  | afterNone
  | finished
deriving DecidableEq, Repr

/-- The state of `_chunk_generator` between two `send`s (query_result.py:287-314), plus the part of
the mixture log written by it (lines 344, 510). `base`/`target` are the last received pair; mixture
objects are references into a heap, because feedback mutates them in place
(/repo/mixtera/core/client/local/local_stub.py:222). -/
structure Gen (K : Type) where
  order : List K
  iters : Dict K (List Seg)
  cur : Nat
  mixtureId : Int
  keyIdx : Nat
  emptyIdx : List Nat
  noSuccess : Nat
  prev : Option (Dict K Nat)
  susp : Susp
  base : Nat
  target : Nat
  log : List (Nat × MixView K)

/-- Creation of the generator up to its first `yield` (query_result.py:287-310). `order` is the list
of chunker index keys after seeding, sorting and shuffling: an arbitrary permutation in the model. -/
def Gen.init (index : Dict K Entries) (order : List K) : Gen K :=
  { order := order
    iters := order.map fun k => (k, flattenSorted ((index.get? k).getD []))
    cur := 0, mixtureId := -1, keyIdx := 0, emptyIdx := [], noSuccess := 0, prev := none
    susp := .ready, base := 0, target := 0, log := [] }

/-- Result of a `send`: a chunk, `None`, `StopIteration`, or another exception. -/
inductive Out (K : Type)
  | chunk (c : RChunk K)
  | none
  | stop
  | raised (e : Err)

/-- The loop of query_result.py:514-526 looking for a component that still has data. Result:
`keyIdx`, `emptyIdx`, `iters` and the component chunk (`none`: all components are exhausted).
The first argument bounds the number of iterations. -/
def rotate (order : List K) (size : Nat) :
    Nat → Nat → List Nat → Dict K (List Seg) →
    Except Err (Nat × List Nat × Dict K (List Seg) × Option (List Seg))
  | 0, _, _, _ => .error .outOfFuel
  | fuel + 1, idx, empty, iters =>
    if empty.length < order.length then
      let idx := (idx + 1) % order.length
      if idx ∈ empty then
        rotate order size fuel ((idx + 1) % order.length) empty iters
      else
        match order[idx]? with
        | Option.none => .error .keyError -- impossible: idx < order.length
        | some key =>
          match send size ((iters.get? key).getD []) with
          | Option.none => rotate order size fuel idx (empty ++ [idx]) (iters.set key [])
          | some (out, rest) => .ok (idx, empty, iters.set key rest, some out)
    else .ok (idx, empty, iters, Option.none)

/-- One iteration of `while True` (query_result.py:316-547) for the mixture branch (325-503).
`replay` is `self._is_replay`. -/
def stepMixture (ops : KeyOps K) (replay : Bool) (v : MixView K) (g : Gen K) :
    Gen K × Option (Out K) :=
  let changed := match g.prev with
    | Option.none => true
    | some p => !dictEq p v.rows
  let g := if changed then
      { g with
        mixtureId := g.mixtureId + 1
        prev := some v.rows
        log := if replay then g.log else g.log ++ [(g.cur, v)] }
    else g
  match attempt ops g.iters v with
  | .error e => ({ g with susp := .finished }, some (.raised e))
  | .ok (att, true) =>
    let g' := { g with iters := att.iters, noSuccess := 0, cur := g.cur + 1 }
    if g.cur = g.target then
      ({ g' with susp := .ready },
        some (.chunk { content := att.chunk, chunkSize := v.chunkSize, mixtureId := g.mixtureId,
                       mixture := some att.mixture, strict := v.strict }))
    else (g', Option.none)
  | .ok (att, false) =>
    ({ g with iters := att.iters, noSuccess := g.noSuccess + 1, susp := .afterNone }, some .none)

/-- One iteration of `while True` for the branch without mixture (query_result.py:504-547). Simplification: the log gets a
copy of the mixture, while line 510 puts the object itself into it, which makes a difference only if the object gets rows
later; see Model/MixtureLog.lean, `c80_schedule_rewrites_log` and `c13_restore_schedule_repeats`. -/
def stepArbitrary (fuel : Nat) (replay : Bool) (v : MixView K) (g : Gen K) :
    Gen K × Option (Out K) :=
  let g := if g.prev.isSome || g.cur == 0 then
      { g with
        mixtureId := g.mixtureId + 1
        prev := Option.none
        log := if replay then g.log else g.log ++ [(g.cur, v)] }
    else g
  match rotate g.order v.chunkSize fuel g.keyIdx g.emptyIdx g.iters with
  | .error e => ({ g with susp := .finished }, some (.raised e))
  | .ok (idx, empty, iters, Option.none) =>
    ({ g with keyIdx := idx, emptyIdx := empty, iters := iters, susp := .finished }, some .stop)
  | .ok (idx, empty, iters, some out) =>
    let g' := { g with keyIdx := idx, emptyIdx := empty, iters := iters, cur := g.cur + 1 }
    if g.cur = g.target then
      match g.order[idx]? with
      | Option.none => ({ g' with susp := .finished }, some (.raised .keyError))
      | some key =>
        ({ g' with susp := .ready },
          some (.chunk { content := [(key, nestSegs out)], chunkSize := v.chunkSize,
                         mixtureId := g.mixtureId, mixture := Option.none, strict := true }))
    else (g', Option.none)

/-- One iteration of `while True` (query_result.py:316-547). -/
def Gen.step (ops : KeyOps K) (fuel : Nat) (replay : Bool) (heap : Nat → MixView K) (g : Gen K) :
    Gen K × Option (Out K) :=
  if g.noSuccess > 10 then ({ g with susp := .finished }, some .stop)
  else
    let v := heap g.base
    if v.rows = [] then stepArbitrary fuel replay v g else stepMixture ops replay v g

/-- The loop `while True` until the next `yield` (or the end). -/
def Gen.run (ops : KeyOps K) (fuel : Nat) (replay : Bool) (heap : Nat → MixView K) :
    Nat → Gen K → Gen K × Out K
  | 0, g => ({ g with susp := .finished }, .raised .outOfFuel)
  | n + 1, g =>
    match g.step ops fuel replay heap with
    | (g', some o) => (g', o)
    | (g', Option.none) => Gen.run ops fuel replay heap n g'

/-- `generator.send((mixture, target))` (query_result.py:586). A value sent while the generator is
suspended at the bare `yield None` of line 503 is dropped: `base_mixture` and `target_chunk_index`
keep their old values. -/
def Gen.send (ops : KeyOps K) (fuel : Nat) (replay : Bool) (heap : Nat → MixView K) (g : Gen K)
    (mix target : Nat) : Gen K × Out K :=
  match g.susp with
  | .finished => (g, .stop)
  | .ready => Gen.run ops fuel replay heap fuel { g with base := mix, target := target }
  | .afterNone => Gen.run ops fuel replay heap fuel g

end Mixtera
