import Verif.Model.Distributor

/-!
# Taking a checkpoint, from the training nodes to the disk

Models `handle_mixtera_checkpoint` (/repo/mixtera/utils/checkpoint.py:10-68) on all training nodes, together with the part of
`ChunkDistributor` (/repo/mixtera/core/query/chunk_distributor.py) that writes checkpoints: `checkpoint` (218-292, by
`Chk.report`), `_start_checkpointing` (348-430), `_persist_checkpoint_process` (432-512), `checkpoint_completed` (514-554) and
`from_checkpoint` (557-643, as far as files and the id counter go), and the life of the job at the server
(/repo/mixtera/core/client/local/local_stub.py:74-103, 194-213).

`Q` is the type of query results, `S` that of everything else a checkpoint saves (distributor state, mixture log, number of
returned chunks; the two state files are taken to hold the same `S`). Nodes, persisting processes, the server, crashes and
the removal of query cache directories are interleaved arbitrarily; an event is atomic. A process that writes a file or
copies a directory leaves an incomplete one in between. Simplified: the connection between node and server works while the
server is up, and reading a complete file back gives what was written; adjusting the state (471-497, see C20) either succeeds
or the process is killed.
-/

namespace Mixtera.CkRun

/-- A file or directory: missing, incompletely written, or complete. -/
inductive File (α : Type)
  | absent
  | incomplete
  | full (a : α)
  deriving DecidableEq

/-- Where a persisting process is: about to copy the query result from a cache directory, copying, about to check that the
copy exists, to make its directory, to open and to finish the first and the second file; done, or dead. -/
inductive Pc
  | copy (src : Nat)
  | copying (src : Nat)
  | check
  | mkdir
  | write1
  | writing1
  | write2
  | writing2
  | done
  | failed
  deriving DecidableEq

/-- A persisting process with the number of its checkpoint and its copy of the state. -/
structure Proc (S : Type) where
  id : Nat
  snap : S
  pc : Pc

/-- The job's checkpoint directory: the query result and the numbered directories with their two state files. -/
structure Disk (Q S : Type) where
  query : File Q
  dirs : Dict Nat (File S × File S)

/-- A training node: not checkpointing, about to write `mixtera.id` (node 0 of group 0 only), or polling. -/
inductive Node
  | idle
  | writing (id : Nat) (wait : Bool)
  | waiting (id : Nat) (wait : Bool)
  deriving DecidableEq

/-- The job at the server: the query result and the cache directory it was loaded from or stored in, if any. -/
structure Job (Q : Type) where
  query : Q
  cache : Option Nat

/-- Everything together. `info` is `_checkpoint_info`: the process of every checkpoint of the current distributor;
`procs` and `caches` are all processes and query cache directories there have been. -/
structure World (Q S : Type) where
  job : Option (Job Q)
  chk : Chk
  info : Dict Nat Nat
  procs : List (Proc S)
  caches : List (Option Q)
  disk : Disk Q S
  node : Nat → Nat → Node
  idFile : Option Nat

variable {Q S : Type}

/-- Nothing has happened. -/
def World.init : World Q S :=
  { job := none, chk := Chk.init, info := [], procs := [], caches := [], disk := { query := .absent, dirs := [] },
    node := fun _ _ => .idle, idFile := none }

/-- The two state files of a checkpoint. -/
def Disk.put (d : Disk Q S) (id : Nat) (f : File S × File S) : Disk Q S := { d with dirs := d.dirs.set id f }

/-- `shutil.copytree`, first part: fails if the source is gone or the destination exists (chunk_distributor.py:459-462). -/
def copyStep (caches : List (Option Q)) (d : Disk Q S) (p : Proc S) (k : Nat) : Disk Q S × Proc S :=
  match (caches[k]?).join, d.query with
  | some _, .absent => ({ d with query := .incomplete }, { p with pc := .copying k })
  | _, _ => (d, { p with pc := .failed })

/-- `shutil.copytree`, the rest (chunk_distributor.py:461). -/
def copyingStep (caches : List (Option Q)) (d : Disk Q S) (p : Proc S) (k : Nat) : Disk Q S × Proc S :=
  match (caches[k]?).join with
  | some q => ({ d with query := .full q }, { p with pc := .check })
  | none => (d, { p with pc := .failed })

/-- `assert (chkpnt_dir / "queryresult").exists()` (chunk_distributor.py:464-466). -/
def checkStep (d : Disk Q S) (p : Proc S) : Disk Q S × Proc S :=
  match d.query with
  | .absent => (d, { p with pc := .failed })
  | _ => (d, { p with pc := .mkdir })

/-- `checkpoint_path.mkdir(parents=True, exist_ok=False)` (chunk_distributor.py:468-469). -/
def mkdirStep (d : Disk Q S) (p : Proc S) : Disk Q S × Proc S :=
  if d.dirs.has p.id then (d, { p with pc := .failed }) else (d.put p.id (.absent, .absent), { p with pc := .write1 })

/-- One step of `_persist_checkpoint_process` (chunk_distributor.py:432-512). -/
def Proc.step (caches : List (Option Q)) (d : Disk Q S) (p : Proc S) : Disk Q S × Proc S :=
  match p.pc with
  | .copy k => copyStep caches d p k
  | .copying k => copyingStep caches d p k
  | .check => checkStep d p
  | .mkdir => mkdirStep d p
  | .write1 => (d.put p.id (.incomplete, .absent), { p with pc := .writing1 })
  | .writing1 => (d.put p.id (.full p.snap, .absent), { p with pc := .write2 })
  | .write2 => (d.put p.id (.full p.snap, .incomplete), { p with pc := .writing2 })
  | .writing2 => (d.put p.id (.full p.snap, .full p.snap), { p with pc := .done })
  | .done => (d, p)
  | .failed => (d, p)

/-- A process is killed: a finished one stays finished. -/
def Proc.kill (p : Proc S) : Proc S := if p.pc = .done then p else { p with pc := .failed }

/-- What happens: a node calls `handle_mixtera_checkpoint` (with the verdict of the validation and the state that would be
saved); node 0 of group 0 writes `mixtera.id`; a node asks whether its checkpoint is completed; a node dies; a persisting
process makes a step or dies; the server dies, and with it all persisting processes whose number is not in `survive`; the
query is executed (with the query cache switched on or off); a checkpoint is restored; a query cache directory is removed;
a query cache directory is filled with the result of the same query on a changed database (another job executes it: the
directory found to be stale is removed, and its number is free again, query_cache.py:34-38,91-97). -/
inductive Ev (Q S : Type)
  | call (g n : Nat) (status : List Nat) (aligned : Bool) (snap : S) (wait : Bool)
  | writeId
  | poll (g n : Nat)
  | die (g n : Nat)
  | persist (pid : Nat)
  | kill (pid : Nat)
  | crash (survive : List Nat)
  | execute (q : Q) (cached : Bool)
  | restore (id : Nat)
  | drop (k : Nat)
  | recache (k : Nat) (q : Q)

/-- What can be seen: nothing, a node's report was accepted for a checkpoint (and completed the round), its call raised or
returned, or a restored job. -/
inductive Out (Q S : Type)
  | nothing
  | entered (id : Nat) (started : Bool)
  | raised
  | returned (id : Nat) (wait : Bool)
  | executed
  | restored (q : Q) (s : S)
  | restoreFailed
  deriving DecidableEq

/-- The state of one node is changed. -/
def World.setNode (w : World Q S) (g n : Nat) (x : Node) : World Q S :=
  { w with node := fun g' n' => if g' = g ∧ n' = n then x else w.node g' n' }

/-- The state of one process is changed. -/
def World.setProc (w : World Q S) (pid : Nat) (p : Proc S) : World Q S := { w with procs := w.procs.set pid p }

/-- The first instruction of the persisting process of checkpoint `counter` (chunk_distributor.py:377-386): only the first
checkpoint copies the query result; without a cache directory `to_cache` is called for a directory that does not exist, which
raises (query_result.py:653-654). -/
def firstPc (j : Job Q) (counter : Nat) : Option Pc :=
  if counter = 1 then j.cache.map Pc.copy else some .check

/-- `client.checkpoint` on a node (checkpoint.py:52-57, chunk_distributor.py:259-292). If `_start_checkpointing` raises, the
reports are kept as after a failed validation. -/
def World.call (G N : Nat) (w : World Q S) (j : Job Q) (g n : Nat) (status : List Nat) (aligned : Bool) (snap : S)
    (wait : Bool) : World Q S × Out Q S :=
  let first := firstPc j (if w.chk.current.isSome then w.chk.counter else w.chk.counter + 1)
  match w.chk.report G N (aligned && first.isSome) g n status with
  | (c, .raised _) => ({ w with chk := c }, .raised)
  | (c, .accepted id started) =>
    let w1 := ({ w with chk := c }).setNode g n (if n = 0 ∧ g = 0 then .writing id wait else .waiting id wait)
    if started then
      match first with
      | some pc => ({ w1 with info := w1.info.set id w1.procs.length, procs := w1.procs ++ [⟨id, snap, pc⟩] }, .entered id true)
      | none => (w1, .entered id true)
    else (w1, .entered id false)

/-- The answers of `checkpoint_completed`. -/
inductive Answer | no | yes | failed
  deriving DecidableEq

/-- `checkpoint_completed` (chunk_distributor.py:514-554); the server may be down (server_connection.py:646-647). -/
def World.completed (w : World Q S) (id : Nat) (wait : Bool) : Answer :=
  match (w.info.get? id).bind (w.procs[·]?) with
  | none => .no
  | some p => if wait = false then .yes else if p.pc = .done then .yes else if p.pc = .failed then .failed else .no

/-- The loop at the end of `handle_mixtera_checkpoint` (checkpoint.py:64-65), one round. -/
def World.poll (w : World Q S) (g n id : Nat) (wait : Bool) : World Q S × Out Q S :=
  match w.completed id wait with
  | .no => (w, .nothing)
  | .yes => (w.setNode g n .idle, .returned id wait)
  | .failed => (w.setNode g n .idle, .raised)

/-- `execute_query` of a job that is not known to the server (local_stub.py:74-103). -/
def World.execute (w : World Q S) (q : Q) (cached : Bool) : World Q S :=
  if cached then { w with job := some ⟨q, some w.caches.length⟩, caches := w.caches ++ [some q], chk := Chk.init, info := [] }
  else { w with job := some ⟨q, none⟩, chk := Chk.init, info := [] }

/-- What can be read back for a checkpoint (chunk_distributor.py:579-602). -/
def Disk.read (d : Disk Q S) (id : Nat) : Option (Q × S) :=
  match d.query, d.dirs.get? id with
  | .full q, some (.full s, .full _) => some (q, s)
  | _, _ => none

/-- `restore_checkpoint` (local_stub.py:194-213, chunk_distributor.py:557-643). -/
def World.restore (w : World Q S) (id : Nat) : World Q S × Out Q S :=
  match w.disk.read id with
  | none => (w, .restoreFailed)
  | some (q, s) =>
    ({ w with job := some ⟨q, none⟩, info := [],
              chk := { statuses := [], counter := restoredCounter id w.disk.dirs.keys, current := none } }, .restored q s)

/-- One event. -/
def World.step (G N : Nat) (w : World Q S) : Ev Q S → World Q S × Out Q S
  | .call g n status aligned snap wait => match w.job, w.node g n with
    | some j, .idle => w.call G N j g n status aligned snap wait
    | _, _ => (w, .nothing)
  | .writeId => match w.node 0 0 with
    | .writing id wait => ({ w.setNode 0 0 (.waiting id wait) with idFile := some id }, .nothing)
    | _ => (w, .nothing)
  | .poll g n => match w.node g n with
    | .waiting id wait => w.poll g n id wait
    | _ => (w, .nothing)
  | .die g n => (w.setNode g n .idle, .nothing)
  | .persist pid => match w.procs[pid]? with
    | some p => ({ w.setProc pid (p.step w.caches w.disk).2 with disk := (p.step w.caches w.disk).1 }, .nothing)
    | none => (w, .nothing)
  | .kill pid => match w.procs[pid]? with
    | some p => (w.setProc pid p.kill, .nothing)
    | none => (w, .nothing)
  | .crash survive =>
    ({ w with job := none, chk := Chk.init, info := [],
              procs := w.procs.mapIdx fun i p => if i ∈ survive then p else p.kill }, .nothing)
  | .execute q cached => match w.job with
    | none => (w.execute q cached, .executed)
    | some _ => (w, .nothing)
  | .restore id => w.restore id
  | .drop k => ({ w with caches := w.caches.set k none }, .nothing)
  | .recache k q => ({ w with caches := w.caches.set k (some q) }, .nothing)

/-- A history, with what can be seen of every event. -/
def World.run (G N : Nat) : World Q S → List (Ev Q S) → World Q S × List (Ev Q S × Out Q S)
  | w, [] => (w, [])
  | w, e :: es => (((w.step G N e).1.run G N es).1, (e, (w.step G N e).2) :: ((w.step G N e).1.run G N es).2)

end Mixtera.CkRun
