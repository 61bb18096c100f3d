import Verif.Model.FeedbackRestore

/-!
# A job with a dynamic mixture: checkpoints and restarts

What a job's checkpoint keeps of a dynamic mixture (/repo/mixtera/core/query/chunk_distributor.py:348-430), and what comes back
(chunk_distributor.py:557-643, /repo/mixtera/core/query/query_result.py:691-737): unlike `to_cache`, the checkpoint of a job stores the
current algorithm with the last entry of the mixture log.
-/

namespace Mixtera.Mixing

variable {K A : Type} [DecidableEq K]

/-- The start of an iteration of the replay: the next logged mixture, if it is due (query_result.py:717-728). -/
def due (index : Dict K Entries) (i : Nat) (m : Live K (Option A)) :
    List (LogEntry K A) → Except Err (Live K (Option A) × List (LogEntry K A))
  | [] => .ok (m, [])
  | e :: es =>
    if i = e.idx then
      match e.install index with
      | .error err => .error err
      | .ok m' => .ok (m', es)
    else .ok (m, e :: es)

/-- The loop of `replay` (query_result.py:717-733): `k` chunks to go, the next is `i`; the mixture, `previous_mixture` of the new
generator (query_result.py:314, 326-329), the entries to come. Simplification: a request that is not answered ends the replay with an
error (it does, line 733 or the assertions in lines 736-737, when the loop is over). -/
def replayRun (index : Dict K Entries) : Nat → Nat → Live K (Option A) → Option (Dict K Nat) → List (LogEntry K A) →
    Except Err (Live K (Option A) × Option (Dict K Nat))
  | 0, _, m, prev, _ => .ok (m, prev)
  | k + 1, i, m, prev, pending =>
    match due index i m pending with
    | .error e => .error e
    | .ok (m', rest) =>
      if m'.dyn.cur.rows = [] then .error .runtimeError
      else replayRun index k (i + 1) m' (if noticed prev m'.dyn.cur.rows then some m'.dyn.cur.rows else prev) rest

/-- `mixture_log[-1][1]._mixing_alg = deepcopy(self._query_result._mixture._mixing_alg)` (chunk_distributor.py:395-411). -/
def withLastAlg (a : A) : List (LogEntry K A) → List (LogEntry K A)
  | [] => []
  | [e] => [{ e with alg := some a }]
  | e :: es => e :: withLastAlg a es

/-- `query_result_state.pkl` (chunk_distributor.py:497-502): the mixture log and the number of chunks. -/
structure QChk (K A : Type) where
  log : List (LogEntry K A)
  n : Nat

/-- What `_start_checkpointing` passes on of the query result (chunk_distributor.py:393-413). -/
def LiveQ.checkpoint (q : LiveQ K A) : QChk K A := ⟨withLastAlg q.live.alg q.log, q.n⟩

/-- `from_checkpoint` as far as the query result is concerned (chunk_distributor.py:597-604; query_result.py:742-800, 691-737, 344). It
is loaded from the directory `queryresult`, in which the mixture is `base`; the first checkpoint of a job has put it there
(chunk_distributor.py:377-387, 459-462), as a copy of the query cache or of the query result. Simplification: a mixture that comes back
without an algorithm is an error at once, while the code fails at the next report (dynamic_mixture.py:97). -/
def QChk.restore (index : Dict K Entries) (base : Live K A) (c : QChk K A) : Except Err (LiveQ K A) :=
  if c.n = 0 then .ok ⟨base, none, c.log, 0⟩
  else
    match c.log with
    | [] => .error .indexError
    | e :: es =>
      match e.install index with
      | .error err => .error err
      | .ok m =>
        match replayRun index c.n 0 m none es with
        | .error err => .error err
        | .ok (m', prev) =>
          match m'.alg with
          | none => .error .attributeError
          | some a => .ok ⟨⟨m'.dyn, a, m'.step⟩, prev, c.log, c.n⟩

/-- The life of a job: calls of the training loop, chunk requests, completed checkpoints (local_stub.py:184-192), and crashes after
which the job is resumed from the latest one (local_stub.py:194-213). The key ids of a dynamic mixture stay (C93). -/
inductive LEv
  | call (c : FbCall)
  | chunk
  | save
  | crash

/-- A job and its latest checkpoint. -/
structure Job (K A : Type) where
  q : LiveQ K A
  saved : Option (QChk K A)

/-- One event (the lines cited at the operations). A job without any checkpoint is submitted anew, with the mixture `s`; if resuming
fails the job stays where it was. -/
def Job.on (P : MixAlg A) (index : Dict K Entries) (base s : Live K A) (j : Job K A) : LEv → Job K A
  | .call c => { j with q := j.q.on P (.call c) }
  | .chunk => { j with q := j.q.on P .chunk }
  | .save => { j with saved := some j.q.checkpoint }
  | .crash =>
    match j.saved with
    | none => { j with q := LiveQ.start s }
    | some c =>
      match c.restore index base with
      | .ok q => { j with q := q }
      | .error _ => j

/-- A life of a job that is submitted with the mixture `s`. -/
def Job.run (P : MixAlg A) (index : Dict K Entries) (base s : Live K A) (es : List LEv) : Job K A :=
  es.foldl (fun j e => j.on P index base s e) ⟨LiveQ.start s, none⟩

end Mixtera.Mixing
