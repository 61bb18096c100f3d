import Verif.Model.Protocol
import Verif.Model.Distributor

/-!
# Chunks over the network

Models how a remote client streams the chunks of a job: `_return_next_result_chunk`
(/repo/mixtera/network/server/server.py:122-145) and `_get_next_result`, `_stream_result_chunks`
(/repo/mixtera/network/connection/server_connection.py:215-275), on top of `Model/Protocol.lean` and
`Model/Distributor.lean`.

A request is answered in one step: the server's handler does not wait between reading its last argument and writing the
reply, except for the lock around the look-up of the distributor. Not modelled: the server's own map of distributors in
front of the stub's (see `Model/Server.lean`, C56), the wait of up to 60 seconds for an unknown job, and the duration of
the calls.
-/

namespace Mixtera.Net

variable {T O F A σ ι C : Type} [DecidableEq T]

/-- The bytes written for an answer of the distributor (server.py:139-145): `StopIteration` gives `None`; any other
exception closes the connection. `k` is dill for chunks (the distributor's cache holds the dumped chunks,
chunk_distributor.py:154-160; the model's holds the chunks). -/
def chunkReply (k : Codec C) : Ans C → Option (Reply T O)
  | .chunk c => some (.bytes (some (k.encode c)))
  | .stop => some (.bytes none)
  | .raised _ => none

/-- `_return_next_result_chunk` (server.py:130-145). An unknown job raises `RuntimeError`
(local_stub.py:179-182), a missing id a `TypeError` and a negative one a `KeyError` (chunk_distributor.py:124-140). Other
requests are handled elsewhere. -/
def chunkHandler (S : Source σ ι C) (k : Codec C) (v : Received T O F A) (jobs : Dict T (Dist σ C)) :
    Dict T (Dist σ C) × Option (Reply T O) :=
  match v with
  | .nextChunk (some job) (some g) (some n) (some w) =>
    match jobs.get? job with
    | none => (jobs, none)
    | some d =>
      if 0 ≤ g ∧ 0 ≤ n ∧ 0 ≤ w then
        (jobs.set job (d.nextChunkFor S ⟨g.toNat, n.toNat, w.toNat⟩).1,
          chunkReply k (d.nextChunkFor S ⟨g.toNat, n.toNat, w.toNat⟩).2)
      else (jobs, none)
  | _ => (jobs, none)

/-- One step of the client's generator: it yields a chunk, ends, or raises. -/
inductive Got (C : Type)
  | chunk (c : C)
  | ended
  | failed

/-- What the client makes of the reply (server_connection.py:244-249, 270-275). -/
def gotOf (k : Codec C) : Except NetErr (Option (Reply T O)) → Got C
  | .ok (some (.bytes (some d))) =>
    match k.decode d with
    | .ok c => .chunk c
    | .error _ => .failed
  | .ok _ => .ended
  | .error _ => .failed

/-- One iteration of `_stream_result_chunks` for one worker (server_connection.py:228-249, 270-275). -/
def getNext (c : Codecs T O F A) (S : Source σ ι C) (k : Codec C) (job : T) (r : DReq) (l : Link) (jobs : Dict T (Dist σ C)) :
    Dict T (Dist σ C) × Got C :=
  let e := exchange c (chunkHandler S k) (.nextChunk job r.group r.node r.worker) l jobs
  (e.1, gotOf k e.2)

/-- What happens at the server: a worker of some job asks for its next chunk over some connection, or an operation on a
job's query result takes place (feedback, a changed mixture). -/
inductive REvent (T ι : Type)
  | ask (job : T) (r : DReq) (l : Link)
  | poke (job : T) (i : ι)

/-- One event; only asking gives the asking worker something. -/
def remoteStep (c : Codecs T O F A) (S : Source σ ι C) (k : Codec C) (jobs : Dict T (Dist σ C)) :
    REvent T ι → Dict T (Dist σ C) × Option (T × DReq × Got C)
  | .ask job r l => ((getNext c S k job r l jobs).1, some (job, r, (getNext c S k job r l jobs).2))
  | .poke job i =>
    match jobs.get? job with
    | none => (jobs, none)
    | some d => (jobs.set job { d with src := S.poke i d.src }, none)

/-- A history: what all workers of all jobs see, in order. -/
def remoteRun (c : Codecs T O F A) (S : Source σ ι C) (k : Codec C) :
    Dict T (Dist σ C) → List (REvent T ι) → Dict T (Dist σ C) × List (T × DReq × Got C)
  | jobs, [] => (jobs, [])
  | jobs, e :: es =>
    let (jobs1, o) := remoteStep c S k jobs e
    let (jobs2, os) := remoteRun c S k jobs1 es
    (jobs2, o.toList ++ os)

end Mixtera.Net
