import Verif.Model.Dict

/-!
# Jobs at the server and in the local stub

Models the job map of /repo/mixtera/core/client/local/local_stub.py:71-100,148-223 and the background tasks of
/repo/mixtera/network/server/server.py:50-102,122-145,387-423.

Chunk distributor objects are represented by numbers (their identity); every constructed object gets a fresh one. A task is
a background task of the server (or, for the local stub, a thread): it is advanced one atomic step at a time, in any order
(asyncio may switch tasks at every `await`, and `asyncio.to_thread` runs the stub's methods concurrently with the event
loop). Whether the query itself, or loading the checkpoint, succeeds is decided by the environment.

Not modelled: what a query computes, the query cache (see C36), the contents of the requests (see C60).
-/

namespace Mixtera.Srv

variable {J : Type} [DecidableEq J]

/-- What a task does: `execute_query` or `restore_checkpoint` for a job. -/
inductive Kind | register | restore
  deriving DecidableEq, Repr

/-- Where a task is.
* `waiting`: not yet inside `async with self._register_query_lock` (server.py:93, 397);
* `started`: about to run the stub's method (server.py:95, 399);
* `queried`: `execute_query` has passed its first check (local_stub.py:74-76) and runs the query;
* `checked`: about to make the second check, in `_register_query` (local_stub.py:157-159);
* `inserting`: about to insert into the map (local_stub.py:161-168);
* `updating`: `restore_checkpoint` has returned, `_chunk_distributor_map` is about to be updated (server.py:400-401);
* `finishing ok`: about to set the status (server.py:96, 102, 402, 408) and release the lock;
* `done ok`. -/
inductive Phase | waiting | started | queried | checked | inserting | updating | finishing (ok : Bool) | done (ok : Bool)
  deriving DecidableEq, Repr

/-- A task. -/
structure Task (J : Type) where
  kind : Kind
  job : J
  phase : Phase

/-- The state: the stub's `_training_query_map` (local_stub.py:40), the server's `_chunk_distributor_map`, its
`_query_registration` (server.py:55-59), the tasks created so far and the holder of `_register_query_lock`. -/
structure State (J : Type) where
  jobs : Dict J Nat
  fresh : Nat
  served : Dict J Nat
  status : Dict J Bool
  tasks : List (Task J)
  lock : Option Nat

/-- The initial state (server.py:50-59). -/
def State.init : State J := { jobs := [], fresh := 0, served := [], status := [], tasks := [], lock := none }

/-- Replace the phase of task `i`. -/
def State.goto (s : State J) (i : Nat) (p : Phase) : State J :=
  { s with tasks := s.tasks.modify i fun t => { t with phase := p } }

/-- `ok = true`: the fallible step of the task succeeds. -/
def advance (useLock : Bool) (i : Nat) (t : Task J) (ok : Bool) (s : State J) : State J :=
  match t.phase with
  | .waiting =>
    if useLock then
      if s.lock = none then { s with lock := some i }.goto i .started else s
    else s.goto i .started
  | .started =>
    match t.kind with
    | .register => if s.jobs.has t.job then s.goto i (.finishing false) else s.goto i .queried
    | .restore =>
      if ok then { s with jobs := s.jobs.set t.job s.fresh, fresh := s.fresh + 1 }.goto i .updating
      else s.goto i (.finishing false)
  | .queried => if ok then s.goto i .checked else s.goto i (.finishing false)
  | .checked => if s.jobs.has t.job then s.goto i (.finishing false) else s.goto i .inserting
  | .inserting => { s with jobs := s.jobs.set t.job s.fresh, fresh := s.fresh + 1 }.goto i (.finishing true)
  | .updating =>
    match s.jobs.get? t.job with
    | some d => { s with served := s.served.set t.job d }.goto i (.finishing true)
    | none => s.goto i (.finishing false)
  | .finishing b =>
    { s with status := s.status.set t.job b, lock := if useLock then none else s.lock }.goto i (.done b)
  | .done _ => s

/-- One atomic step of task `i`; nothing happens if there is no such task. -/
def stepTask (useLock : Bool) (i : Nat) (ok : Bool) (s : State J) : State J :=
  match s.tasks[i]? with
  | none => s
  | some t => advance useLock i t ok s

/-- What clients do and what the scheduler does. -/
inductive Act (J : Type)
  | register (job : J)
  | restore (job : J)
  | nextChunk (job : J)
  | metadata (job : J)
  | askStatus (job : J)
  | step (task : Nat) (ok : Bool)

/-- What a client sees. For `chunk` and `meta`: the distributor object that answered; `none` if the job is unknown (after
waiting for 60 seconds, local_stub.py:179-182). -/
inductive Seen (J : Type)
  | chunk (job : J) (by_ : Option Nat)
  | metadata (job : J) (by_ : Option Nat)
  | status (job : J) (code : Nat)
  deriving DecidableEq

/-- `_return_next_result_chunk` (server.py:135-137): the distributor is looked up once and remembered. -/
def serveChunk (job : J) (s : State J) : State J × Option Nat :=
  match s.served.get? job with
  | some d => (s, some d)
  | none =>
    match s.jobs.get? job with
    | some d => ({ s with served := s.served.set job d }, some d)
    | none => (s, none)

/-- `_check_query_registration` (server.py:410-423). -/
def statusCode : Option Bool → Nat
  | some true => 1
  | some false => 2
  | none => 0

/-- One action. `_restore_checkpoint` removes the status when it is requested (server.py:391); checkpoints, metadata and
feedback go to the stub's own map (server.py:156, 371, 382, 433). -/
def act (useLock : Bool) (s : State J) : Act J → State J × Option (Seen J)
  | .register job => ({ s with tasks := s.tasks ++ [⟨.register, job, .waiting⟩] }, none)
  | .restore job => ({ s with status := s.status.pop job, tasks := s.tasks ++ [⟨.restore, job, .waiting⟩] }, none)
  | .nextChunk job => ((serveChunk job s).1, some (.chunk job (serveChunk job s).2))
  | .metadata job => (s, some (.metadata job (s.jobs.get? job)))
  | .askStatus job => (s, some (.status job (statusCode (s.status.get? job))))
  | .step i ok => (stepTask useLock i ok s, none)

/-- A history. -/
def run (useLock : Bool) : State J → List (Act J) → State J × List (Seen J)
  | s, [] => (s, [])
  | s, a :: as =>
    let (s1, o) := act useLock s a
    let (s2, os) := run useLock s1 as
    (s2, o.toList ++ os)

end Mixtera.Srv
