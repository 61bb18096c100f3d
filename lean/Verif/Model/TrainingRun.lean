import Verif.Model.Session
import Verif.Model.Torch
import Verif.Model.Random
import Verif.Model.ChunkConfig

/-!
# A whole training run

Puts the pieces together: the query result (`Model/Session.lean`) is the source of the chunk distributor
(`Model/Distributor.lean`), whose chunks the loaders read (`Model/Torch.lean`).
Models /repo/mixtera/core/query/chunk_distributor.py:61-62,148-152 and the constructor of `ResultChunk`
(/repo/mixtera/core/query/result_chunk.py:88-118), where the key ids of the query result enter the chunk.
-/

namespace Mixtera.Torch

variable {K α R : Type} [DecidableEq K]

/-- What may happen to the query result besides taking chunks: `update_mixture`
(/repo/mixtera/core/query/query_result.py:263-276) and feedback
(/repo/mixtera/core/client/local/local_stub.py:213-224). -/
inductive MixOp (K : Type)
  | update (ref : Nat) (v : MixView K)
  | feedback (v : MixView K)

/-- The same, as an operation of `Model/Session.lean`. -/
def MixOp.toSOp : MixOp K → SOp K
  | .update ref v => .update ref v
  | .feedback v => .feedback v

/-- A chunk that the distributor hands over (result_chunk.py:88-118, dill: the identity): its samples in reading order, the
ids that its keys have in the query result, and nothing to skip. -/
def parcelOf (read : RChunk K → List (K × α)) (ids : Dict K Nat) (c : RChunk K) : Parcel K α :=
  { source := read c, keyId := fun k => (ids.get? k).getD 0, mixtureId := c.mixtureId, skip := 0 }

/-- `next(self._query_result)` in the distributor (chunk_distributor.py:151-152): `None` ends the stream, because the
distributor switched `stop_on_none` off (line 62). The constructor of the chunk asserts that every key has an id
(result_chunk.py:115-118); it runs inside the generator, which is finished if the assertion fails. -/
def handOver (read : RChunk K → List (K × α)) (s : Sess K) : Out K → Sess K × Fetch (Parcel K α)
  | .chunk c =>
    if c.content.keys.all (fun k => s.keyIds.has k) then (s, .chunk (parcelOf read s.keyIds c))
    else ({ s with gen := s.gen.map fun g => { g with susp := .finished } }, .raised .assertion)
  | .none => (s, .stop)
  | .stop => (s, .stop)
  | .raised e => (s, .raised e)

/-- The query result as the source of a distributor. -/
def resultSource (ops : KeyOps K) (fuel : Nat) (read : RChunk K → List (K × α)) :
    Source (Sess K) (MixOp K) (Parcel K α) where
  fetch s := handOver read (s.next ops fuel).1 (s.next ops fuel).2
  poke o s := (s.op ops fuel o.toSOp).1

/-- The reading of a chunk in a loader (mixtera_client.py:279-293, result_chunk.py:120-275): configure it, then iterate it
with the seeded shuffles, from some state `r` of the process's random number generator. A chunk whose reading fails has no
samples here. -/
def readWith (lib : RandomLib R) (hash : PyStr → Nat) (text : K → PyStr) (isStub : Bool) (loads : Nat → Bool)
    (args : StreamArgs) (line : Nat × Nat × Nat → α) (fuel : RChunk K → Nat) (r : R) (c : RChunk K) : List (K × α) :=
  match configureChunk isStub loads args c with
  | .error _ => []
  | .ok cfg =>
    match (iterateSeeded lib hash text cfg c line (fuel c) r).1 with
    | .error _ => []
    | .ok out => out

end Mixtera.Torch
