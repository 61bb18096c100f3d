import Verif.Model.Distributor
import Verif.Model.ChunkRead

/-!
# The training side: data loader workers

Models `MixteraTorchDataset.__iter__` and `worker_status` (/repo/mixtera/torch/mixtera_torch_dataset.py:236-288),
`MixteraClient.stream_results` and `current_mixture_id` (/repo/mixtera/core/client/mixtera_client.py:137-148, 267-293)
on top of the chunk distributor (`Model/Distributor.lean`) and the reading of one chunk (`iterateSamples` of
`Model/ChunkRead.lean`).

Every node runs `workers` loader processes. A loader process is a generator: it asks for a chunk, hands over its samples one
by one, and asks for the next chunk when the chunk is used up. Processes are interleaved arbitrarily; one event is one
action of one process.
Simplified: the shared memory is one cell per worker (the cell of worker `w` is only written by worker `w`); a chunk is
already the list of its samples in the order in which `_iterate_overall_mixture` / `_iterate_window_mixture` yields them
(C38, C39), which is the same whenever the chunk is read.
-/

namespace Mixtera.Torch

variable {σ ι K α : Type}

/-- A chunk as the training side sees it (result_chunk.py:88-118): the samples in reading order with their keys, the ids of
the keys, the id of the mixture, and the number of samples to skip. -/
structure Parcel (K α : Type) where
  source : List (K × α)
  keyId : K → Nat
  mixtureId : Int
  skip : Nat

/-- `chunk._samples_to_skip = n` (chunk_distributor.py:455-460). -/
def Parcel.setSkip (n : Nat) (c : Parcel K α) : Parcel K α := { c with skip := n }

/-- `yield from result_chunk` (result_chunk.py:259-275). -/
def Parcel.read [DecidableEq K] (c : Parcel K α) : List (Nat × Nat × α) := iterateSamples c.keyId c.source c.skip

/-- One loader process: the rest of its chunk, its cell of the status array, whether its stream is over, and what it has
handed over (key id and sample) since it was started. -/
structure Loader (α : Type) where
  pending : List (Nat × Nat × α)
  status : Nat
  ended : Bool
  out : List (Nat × α)

/-- A loader that has just entered `__iter__` (mixtera_torch_dataset.py:255-266): `status_array[worker_id] = 0`. -/
def Loader.fresh : Loader α := ⟨[], 0, false, []⟩

/-- The whole job: the distributor, all loaders, and on every node the shared `current_mixture_id_val`
(mixtera_client.py:137-139; one client object per node, its value is shared by the node's processes). -/
structure Train (σ K α : Type) where
  dist : Dist σ (Parcel K α)
  loaders : DReq → Loader α
  current : Nat → Nat → Int

/-- All processes have just been started. -/
def Train.start (d : Dist σ (Parcel K α)) : Train σ K α := ⟨d, fun _ => Loader.fresh, fun _ _ => -1⟩

/-- One action: a loader asks for its next chunk, or hands over a sample; or something happens at the query result. -/
inductive TEv (ι : Type)
  | ask (r : DReq)
  | give (r : DReq)
  | poke (i : ι)

/-- Replace the loader of `r`. -/
def Train.setLoader (t : Train σ K α) (r : DReq) (l : Loader α) : Train σ K α :=
  { t with loaders := fun r' => if r' = r then l else t.loaders r' }

/-- Replace the mixture id of the node of `r`. -/
def Train.setCurrent (t : Train σ K α) (r : DReq) (v : Int) : Train σ K α :=
  { t with current := fun g n => if g = r.group ∧ n = r.node then v else t.current g n }

/-- What the stream does with an answer of the distributor (mixtera_client.py:279-293): with a chunk it raises the mixture id
and starts to read it; at the end it resets the mixture id; an exception ends the loader without a reset. -/
def Train.answer [DecidableEq K] (t : Train σ K α) (r : DReq) : Ans (Parcel K α) → Train σ K α
  | .chunk c => (t.setCurrent r (max c.mixtureId (t.current r.group r.node))).setLoader r
      { t.loaders r with pending := c.read }
  | .stop => (t.setCurrent r (-1)).setLoader r { t.loaders r with ended := true }
  | .raised _ => t.setLoader r { t.loaders r with ended := true }

/-- One event (mixtera_torch_dataset.py:268-270; mixtera_client.py:279-293). A loader asks only when its chunk is used up and
its stream is not over, and hands over only if it has a sample; otherwise the event does nothing. The status is written
before the sample is handed over. -/
def Train.step [DecidableEq K] (S : Source σ ι (Parcel K α)) (t : Train σ K α) :
    TEv ι → Train σ K α × List (DReq × Ans (Parcel K α))
  | .ask r =>
    if (t.loaders r).pending.isEmpty ∧ (t.loaders r).ended = false then
      let x := t.dist.nextChunkFor S r
      (({ t with dist := x.1 } : Train σ K α).answer r x.2, [(r, x.2)])
    else (t, [])
  | .give r =>
    match (t.loaders r).pending with
    | [] => (t, [])
    | s :: rest => (t.setLoader r { t.loaders r with pending := rest, status := s.1, out := (t.loaders r).out ++ [s.2] }, [])
  | .poke i => ({ t with dist := { t.dist with src := S.poke i t.dist.src } }, [])

/-- A history, and the answers of the distributor. -/
def Train.run [DecidableEq K] (S : Source σ ι (Parcel K α)) : Train σ K α → List (TEv ι) →
    Train σ K α × List (DReq × Ans (Parcel K α))
  | t, [] => (t, [])
  | t, e :: es =>
    let (t1, a) := t.step S e
    let (t2, as) := Train.run S t1 es
    (t2, a ++ as)

/-- `worker_status` of one node (mixtera_torch_dataset.py:236-245): the status array of its loaders. -/
def Train.workerStatus (t : Train σ K α) (g n : Nat) : List Nat :=
  (List.range t.dist.workers).map fun w => (t.loaders ⟨g, n, w⟩).status

/-- `client.current_mixture_id` (mixtera_client.py:141-148). -/
def Train.currentMixtureId (t : Train σ K α) (g n : Nat) : Option Int :=
  if t.current g n < 0 then none else some (t.current g n)

/-- Which mixture id `handle_mixtera_feedback` sends (utils/feedback.py:11-36): nothing unless the rank is first in its data
parallel group and tensor parallel group; without a current mixture id it fails. -/
def Train.feedbackId (t : Train σ K α) (g n dpRank tpRank : Nat) : Except Err (Option Int) :=
  if dpRank ≠ 0 ∨ tpRank ≠ 0 then .ok none
  else match t.currentMixtureId g n with
    | none => .error .assertion
    | some m => .ok (some m)

end Mixtera.Torch
