import Verif.Model.Utils

/-!
# The shared memory of the data loader workers

Models the shared memory segments of `MixteraTorchDataset` (/repo/mixtera/torch/mixtera_torch_dataset.py): their creation
(126-165), the iteration (250-282) as far as it touches them, the clean-up (201-237), `worker_status` (239-248) and the
handler at the end of the main process (27-41).

Every event is an atomic action of one process; writing a cell of an array is atomic, and the end of a stream (270-280) is
under a lock. Processes are interleaved arbitrarily.
Simplified: the two segments (status and completion) are always created, closed and unlinked together, so there is one
`linked` for both. Every iteration with worker processes happens in a new process (`persistent_workers=False`). What the
client streams is a parameter: the events say which index it yields. A process that dies holding the lock is not modelled.
-/

namespace Mixtera.Shm

/-- How the data loader runs the iteration: in forked processes, in spawned processes (which attach to the segments by
name), or in the main process (`num_workers=0`). -/
inductive Mode | fork | spawn | inMain
  deriving DecidableEq

/-- What happens to the worker with the given id: it is started and its iteration begins; the client yields a sample with an
index within its chunk; the stream ends; the iteration is left early (an exception, or the generator is closed); the process
is killed. Or the main process ends. -/
inductive Ev
  | start (w : Nat)
  | give (w : Nat) (i : Int)
  | finish (w : Nat)
  | abort (w : Nat)
  | kill (w : Nat)
  | exit
  deriving DecidableEq

/-- `num_workers` of the dataset, whether the names of the segments exist, the two arrays, whether the main process still has
its handle, which workers are iterating, and how many attempts to unlink succeeded and failed. -/
structure State where
  workers : Nat
  linked : Bool
  status : Nat → Int
  comp : Nat → Bool
  main : Bool
  running : Nat → Bool
  unlinked : Nat
  failed : Nat

/-- `_init_status_shm` (mixtera_torch_dataset.py:126-165), `num_workers` (181-183). -/
def init (numWorkers : Nat) : State :=
  { workers := max numWorkers 1, linked := true, status := fun _ => 0, comp := fun _ => false, main := true,
    running := fun _ => false, unlinked := 0, failed := 0 }

/-- `a[w] = v`. -/
def put {β : Type} (a : Nat → β) (w : Nat) (v : β) : Nat → β := fun w' => if w' = w then v else a w'

/-- `_cleanup_shared_memory(True)` in a process that still has its handle (mixtera_torch_dataset.py:201-237). -/
def State.unlink (s : State) : State :=
  if s.linked then { s with linked := false, unlinked := s.unlinked + 1 } else { s with failed := s.failed + 1 }

/-- Closing the handle of the process (line 207): only the main process' handle outlives the iteration. -/
def State.close (m : Mode) (s : State) : State := if m = .inMain then { s with main := false } else s

/-- The beginning of `__iter__` (mixtera_torch_dataset.py:251-264). Spawned processes attach by name when the dataset is
unpickled; an id beyond `num_workers` raises within the `try`, so that the segments are unlinked. -/
def start (m : Mode) (s : State) (w : Nat) : State × Bool :=
  if s.running w then (s, false)
  else if (m = .spawn ∧ s.linked = false) ∨ s.main = false then (s, false)
  else if s.workers ≤ w then ((s.unlink).close m, false)
  else ({ s with status := put s.status w 0, comp := put s.comp w false, running := put s.running w true }, true)

/-- The end of the stream (mixtera_torch_dataset.py:270-282): the flag is set and, if all are set, the segments are
unlinked; if that fails, the handle is kept and the `finally` block fails once more. -/
def finish (m : Mode) (s : State) (w : Nat) : State :=
  let s := { s with comp := put s.comp w true, running := put s.running w false }
  if (List.range s.workers).all s.comp then
    if s.linked then s.unlink.close m else (s.unlink.unlink).close m
  else s.close m

/-- One event; the Boolean says whether it took place (only running workers yield, finish or are interrupted). -/
def step (m : Mode) (s : State) : Ev → State × Bool
  | .start w => start m s w
  | .give w i => if s.running w then ({ s with status := put s.status w i }, true) else (s, false)
  | .finish w => if s.running w then (finish m s w, true) else (s, false)
  | .abort w => if s.running w then (({ s with running := put s.running w false }).unlink.close m, true) else (s, false)
  | .kill w => if s.running w then ({ s with running := put s.running w false }, true) else (s, false)
  | .exit => if s.linked then (s.unlink, true) else (s, true)

/-- A history: the final state and the events with whether they took place. -/
def run (m : Mode) : State → List Ev → State × List (Ev × Bool)
  | s, [] => (s, [])
  | s, e :: es => ((run m (step m s e).1 es).1, (e, (step m s e).2) :: (run m (step m s e).1 es).2)

/-- `worker_status` in the main process (mixtera_torch_dataset.py:239-248). -/
def State.workerStatus (s : State) : Option (List Int) :=
  if s.main then some ((List.range s.workers).map s.status) else none

end Mixtera.Shm
