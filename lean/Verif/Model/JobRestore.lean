import Verif.Model.ResultFiles

/-!
# The query result of a job, its checkpoint, and the restored job

A job starts with a query result that was computed for it or with one that another job stored, with another mixture
(/repo/mixtera/core/client/local/local_stub.py:71-97).  Its checkpoint consists of a copy of the *cache* directory and of the
mixture log and the number of returned chunks at the time of the checkpoint (/repo/mixtera/core/query/chunk_distributor.py:377-413).

Not modelled here: the state of the distributor itself (C13, C71), the files of the index (C31), the state of a mixing algorithm
(C91, C94).
-/

namespace Mixtera

variable {K : Type} [DecidableEq K]

/-- The directory of the query cache for a query that was executed with a mixture whose view is `v0`; the cache stores it before
anything was returned (local_stub.py:93-94, query_cache.py:26-56). A query computes results with `stop_on_none`
(query_result.py:36-50). -/
def queryDir (ops : KeyOps K) (index : Dict K Entries) (order : List K) (v0 : MixView K) : Cached K :=
  (Sess.fresh ops index order true 0 v0).toCache

/-- The query result a job starts with, for its mixture object `ref` with view `v` (local_stub.py:71-97): `hit` if the cache
had it, else it is new. The distributor of the job switches `stop_on_none` off (chunk_distributor.py:60-62). -/
def startJob (ops : KeyOps K) (fuel : Nat) (index : Dict K Entries) (order : List K) (v0 : MixView K) (hit : Bool) (ref : Nat)
    (v : MixView K) : Except Err (Sess K) :=
  if hit then
    match fromCache ops fuel ref (queryDir ops index order v0) with
    | .error e => .error e
    | .ok q =>
      match q.reuse ops ref v with
      | none => .error .assertion
      | some t => .ok { t with stopOnNone := false }
  else .ok { Sess.fresh ops index order true ref v with stopOnNone := false }

/-- The file `query_result_state.pkl` of a checkpoint (chunk_distributor.py:391-413,487-495). -/
structure QueryPoint (K : Type) where
  log : List (Nat × MixView K)
  numReturns : Nat

/-- What a checkpoint of a job stores of its query result (chunk_distributor.py:391-413). The exchange of the mixing algorithm in
the last log entry does not change its view. -/
def Sess.point (s : Sess K) : QueryPoint K := ⟨s.log, s.numReturns⟩

/-- The query result of a restored job (chunk_distributor.py:597-612, 60-62): the copied cache directory is loaded without replay
(query_result.py:741-796), gets the mixture log of the checkpoint, replays the number of chunks of the checkpoint; then the new
distributor switches `stop_on_none` off. -/
def restoreJob (ops : KeyOps K) (fuel ref : Nat) (dir : Cached K) (p : QueryPoint K) : Except Err (Sess K) :=
  match Sess.replay ops fuel ref p.numReturns
      { index := dir.index, order := dir.order, stopOnNone := dir.stopOnNone, heap := fun _ => dir.mixture, mixRef := ref,
        gen := none, idx := 0, numReturns := 0, isReplay := dir.isReplay, log := p.log, keyIds := dir.keyIds } with
  | .error e => .error e
  | .ok r => .ok { r with stopOnNone := false }

/-- The lives of a job: in each it uses its query result (`seg`), takes a checkpoint right after a chunk, and is restored from it;
what it does between the checkpoint and its end leaves no trace and does not occur here. All checkpoints of a job share one copy of
the cache directory (chunk_distributor.py:377-387,459-466). With the answers up to the checkpoints. -/
def Sess.lives (ops : KeyOps K) (fuel : Nat) (dir : Cached K) : Sess K → List (List (SOp K)) → Except Err (Sess K × List (Out K))
  | s, [] => .ok (s, [])
  | s, seg :: segs =>
    let kept := s.run ops fuel (seg ++ [.next])
    match restoreJob ops fuel kept.1.mixRef dir kept.1.point with
    | .error e => .error e
    | .ok r =>
      match Sess.lives ops fuel dir r segs with
      | .error e => .error e
      | .ok (t, answers) => .ok (t, kept.2 ++ answers)

end Mixtera
