import Verif.Model.QueryCache
import Verif.Model.TrainingRun
import Verif.Spec.Database

/-!
# Several jobs of one server

Models /repo/mixtera/core/client/local/local_stub.py:22-224 (`LocalStub`) with any number of jobs: the job map, the query
cache they share, the mixture objects they were given, and their checkpoint directories. Every operation is atomic here (for
operations that overlap see C36, C52, C56, C70); the query cache is switched on (query_cache.py:20); job ids are plain file
names, so that different jobs have different directories.

Mixture objects live in a heap, because `execute_query` keeps a reference to the object it is given and `process_index` and
feedback change it in place (`process_index` is taken not to raise, see C23 for when it does). What a mixture object and a stored checkpoint are is left open (see C08-C25 and C13, C20, C62).
-/

namespace Mixtera.Jobs

open Mixtera.Torch

variable {J Q K α M F S T : Type} [DecidableEq J] [DecidableEq K]

/-- What the chunks of a query result depend on, apart from the mixture: the chunker index and the order of its keys
(/repo/mixtera/core/query/query_result.py:60-65,288-298). -/
abbrev Result (K : Type) := Dict K Entries × List K

/-- Everything that is left open: query cache, keys, reading, and mixture objects: their `mixture_in_rows` and so on (`view`),
`process_index` (/repo/mixtera/core/query/mixture/mixture.py:53-58), `process_client_feedback`; and what is stored of
a distributor and its mixture in a checkpoint directory and how it is loaded again, with the query result stored beside it
(/repo/mixtera/core/query/chunk_distributor.py:348-512,557-643). -/
structure Env (Q K α M F S T : Type) where
  E : CacheEnv Q (Result K)
  ops : KeyOps K
  fuel : Nat
  read : RChunk K → List (K × α)
  view : M → MixView K
  processIndex : Dict K Entries → M → M
  feedback : F → M → M
  save : Dist (Sess K) (Parcel K α) → M → T → Option S
  load : Result K → S → Option (M × Dist (Sess K) (Parcel K α))

/-- An entry of `_training_query_map` (local_stub.py:39): the distributor with its query result, the address of the mixture
object of the query result, the directory in the query cache (none after a restore) and `_checkpoint_id_counter`. The mixture
was passed in by the user (`inl`) or created by the last restore of the job (`inr`). -/
structure Job (J K α : Type) where
  dist : Dist (Sess K) (Parcel K α)
  mix : Nat ⊕ J
  cacheDir : Option (PyStr × Nat)
  counter : Nat

/-- The stub (local_stub.py:22-41): database and query cache, job map, mixture objects, for every query text the mixture
with which its cached result was made, and the checkpoint directories: `queryresult` of every job and its numbered
checkpoints. -/
structure Stub (J K α M S : Type) where
  sys : Sys (Result K)
  jobs : Dict J (Job J K α)
  heap : Nat ⊕ J → M
  firstMix : PyStr → MixView K
  copies : Dict J (Result K)
  saved : Dict (J × Nat) S

/-- A new server on an empty directory; `heap`: the mixture objects the user has. -/
def Stub.init (heap : Nat ⊕ J → M) (firstMix : PyStr → MixView K) : Stub J K α M S :=
  { sys := ⟨{}, []⟩, jobs := [], heap, firstMix, copies := [], saved := [] }

/-- What happens: a dataset is registered or removed, a query executed for a job (with mixture object `ref`, numbers of
groups, nodes and workers), a chunk requested, feedback given, a checkpoint taken (all nodes report, and it is written), a
checkpoint restored. -/
inductive Ev (J Q F T : Type)
  | data (o : DbOp)
  | execute (j : J) (q : Q) (ref : Nat) (groups nodes workers : Nat)
  | ask (j : J) (r : DReq)
  | feedback (j : J) (f : F)
  | checkpoint (j : J) (status : T)
  | restore (j : J) (id : Nat)

/-- What is seen of it. -/
inductive Seen (K α : Type)
  | nothing
  | started
  | refused
  | raised (e : Err)
  | answer (a : Ans (Parcel K α))
  | fed (ok : Bool)
  | checkpointed (id : Nat)
  | checkpointFailed
  | restored
  | restoreFailed

/-- The query result sees the mixture object it refers to in its present state. -/
def withView (v : MixView K) (s : Sess K) : Sess K := { s with heap := fun _ => v }

/-- A query result made with mixture view `v0` is loaded from the cache and used with mixture view `v`: the key ids are reset
and the mixture is updated (local_stub.py:82-92, query_result.py:741-796). -/
def reuse (ops : KeyOps K) (fuel : Nat) (r : Result K) (v0 v : MixView K) : Except Err (Sess K) :=
  match fromCache ops fuel 0 (Sess.fresh ops r.1 r.2 true 0 v0).toCache with
  | .error e => .error e
  | .ok s => .ok (({ s with keyIds := [] }).update ops 0 v)

/-- Whether the lookup finds a result. -/
def Found.isHit {R : Type} : Found R → Bool
  | .hit _ => true
  | _ => false

/-- The query result a job starts with: from the cache or new (local_stub.py:82-94). -/
def startSess (env : Env Q K α M F S T) (hit : Bool) (r : Result K) (v0 v : MixView K) : Except Err (Sess K) :=
  if hit then reuse env.ops env.fuel r v0 v else .ok (Sess.fresh env.ops r.1 r.2 true 0 v)

/-- The number of the cache directory with the result of a query after it was executed: the one it was loaded from or stored
in (query_cache.py:26-56,77-104). -/
def cacheNumber (env : Env Q K α M F S T) (q : Q) (s : Sys (Result K)) : Option Nat :=
  (((s.cache.get? (env.E.hash (env.E.text q))).getD []).find? fun d =>
    decide (d.info = .full s.db.version (env.E.text q))).map (·.num)

/-- The result in a cache directory. -/
def cacheContent (s : Sys (Result K)) : PyStr × Nat → Option (Result K)
  | (h, n) => (((s.cache.get? h).getD []).find? fun d => d.num == n).bind (·.results)

/-- A new job is entered: `_mixture.process_index`, `ChunkDistributor(...)`, which switches `stop_on_none` off
(local_stub.py:92,161-168, chunk_distributor.py:60-62). -/
def Stub.start (env : Env Q K α M F S T) (s : Stub J K α M S) (j : J) (q : Q) (ref G N W : Nat) (sys' : Sys (Result K))
    (r : Result K) : Stub J K α M S × Seen K α :=
  let hit := Found.isHit (lookup env.E q s.sys)
  let m := env.processIndex r.1 (s.heap (.inl ref))
  let v := env.view m
  let s1 := { s with
    sys := sys'
    heap := fun a => if a = .inl ref then m else s.heap a
    firstMix := fun t => if t = env.E.text q ∧ hit = false then v else s.firstMix t }
  match startSess env hit r (s.firstMix (env.E.text q)) v with
  | .error e => (s1, .raised e)
  | .ok sess =>
    match Dist.init G N W (withView v { sess with stopOnNone := false }) with
    | .error e => (s1, .raised e)
    | .ok d =>
      ({ s1 with jobs := s1.jobs.set j ⟨d, .inl ref, (cacheNumber env q sys').map fun n => (env.E.hash (env.E.text q), n), 0⟩ },
        .started)

/-- `execute_query` (local_stub.py:71-97). -/
def Stub.execute (env : Env Q K α M F S T) (s : Stub J K α M S) (j : J) (q : Q) (ref G N W : Nat) :
    Stub J K α M S × Seen K α :=
  if ¬ (0 < G ∧ 0 < N) then (s, .raised .assertion)
  else if s.jobs.has j then (s, .refused)
  else match (executeQuery env.E q).run s.sys with
    | (sys', .error e) => ({ s with sys := sys' }, .raised e)
    | (sys', .ok r) => s.start env j q ref G N W sys' r

/-- `_stream_result_chunks`, one chunk (local_stub.py:131-138,179-182); an unknown job raises after 60 seconds. -/
def Stub.ask (env : Env Q K α M F S T) (s : Stub J K α M S) (j : J) (r : DReq) : Stub J K α M S × Seen K α :=
  match s.jobs.get? j with
  | none => (s, .raised .runtimeError)
  | some job =>
    let d := { job.dist with src := withView (env.view (s.heap job.mix)) job.dist.src }
    let x := d.nextChunkFor (resultSource env.ops env.fuel env.read) r
    ({ s with jobs := s.jobs.set j { job with dist := x.1 } }, .answer x.2)

/-- `process_feedback` (local_stub.py:214-224). -/
def Stub.feedback (env : Env Q K α M F S T) (s : Stub J K α M S) (j : J) (f : F) : Stub J K α M S × Seen K α :=
  match s.jobs.get? j with
  | none => (s, .fed false)
  | some job => ({ s with heap := fun a => if a = job.mix then env.feedback f (s.heap a) else s.heap a }, .fed true)

/-- The copying of the query result by a checkpoint process (chunk_distributor.py:377-386,459-466): the first checkpoint
copies the cache directory, the others only check that there is a copy. -/
def Stub.copyResult (s : Stub J K α M S) (j : J) (job : Job J K α) : Option (Dict J (Result K)) :=
  if job.counter = 0 then
    match job.cacheDir.bind (cacheContent s.sys), s.copies.has j with
    | some r, false => some (s.copies.set j r)
    | _, _ => none
  else if s.copies.has j then some s.copies else none

/-- `checkpoint` on all nodes, and the process that writes it (local_stub.py:184-189, chunk_distributor.py:348-512). The
counter is increased whether it succeeds or not. -/
def Stub.checkpoint (env : Env Q K α M F S T) (s : Stub J K α M S) (j : J) (status : T) : Stub J K α M S × Seen K α :=
  match s.jobs.get? j with
  | none => (s, .raised .runtimeError)
  | some job =>
    let s1 := { s with jobs := s.jobs.set j { job with counter := job.counter + 1 } }
    match s.copyResult j job with
    | none => (s1, .checkpointFailed)
    | some copies =>
      if s.saved.has (j, job.counter + 1) then ({ s1 with copies := copies }, .checkpointFailed)
      else match env.save job.dist (s.heap job.mix) status with
        | none => ({ s1 with copies := copies }, .checkpointFailed)
        | some x => ({ s1 with copies := copies, saved := s.saved.set (j, job.counter + 1) x }, .checkpointed (job.counter + 1))

/-- The numbers of the checkpoints of a job on disk (chunk_distributor.py:629-637). -/
def savedIds (saved : Dict (J × Nat) S) (j : J) : List Nat := (saved.keys.filter fun k => k.1 = j).map (·.2)

/-- `restore_checkpoint` (local_stub.py:194-211, chunk_distributor.py:557-643). -/
def Stub.restore (env : Env Q K α M F S T) (s : Stub J K α M S) (j : J) (id : Nat) : Stub J K α M S × Seen K α :=
  match s.copies.get? j, s.saved.get? (j, id) with
  | some r, some x =>
    match env.load r x with
    | none => (s, .restoreFailed)
    | some (m, d) =>
      ({ s with
          heap := fun a => if a = .inr j then m else s.heap a
          jobs := s.jobs.set j ⟨d, .inr j, none, restoredCounter id (savedIds s.saved j)⟩ }, .restored)
  | _, _ => (s, .restoreFailed)

/-- One event. -/
def Stub.step (env : Env Q K α M F S T) (s : Stub J K α M S) : Ev J Q F T → Stub J K α M S × Seen K α
  | .data o => ({ s with sys := { s.sys with db := (o.prog.run s.sys.db).1 } }, .nothing)
  | .execute j q ref G N W => s.execute env j q ref G N W
  | .ask j r => s.ask env j r
  | .feedback j f => s.feedback env j f
  | .checkpoint j st => s.checkpoint env j st
  | .restore j id => s.restore env j id

/-- A history, with what is seen of every event. -/
def Stub.run (env : Env Q K α M F S T) : Stub J K α M S → List (Ev J Q F T) → Stub J K α M S × List (Ev J Q F T × Seen K α)
  | s, [] => (s, [])
  | s, e :: es => (((s.step env e).1.run env es).1, (e, (s.step env e).2) :: ((s.step env e).1.run env es).2)

end Mixtera.Jobs
