import Verif.Model.Feedback
import Verif.Model.ChunkGen

/-!
# Dynamic mixtures and checkpoints of the query result

The mixture log of a query result (/repo/mixtera/core/query/query_result.py:324-348), which keeps copies of the mixture *with its
algorithm*, and what `from_cache` (query_result.py:739-800) and `replay` (query_result.py:691-737) make of it. Chunks themselves are
not in this model (C13 is about them): a request here is one that is answered with a chunk. (The checkpoint of a job does not use this path:
Model/FeedbackRestarts.lean.)
-/

namespace Mixtera.Mixing

variable {K A : Type} [DecidableEq K]

/-- An entry of `_mixture_log` (query_result.py:345): the chunk index and a deep copy of the mixture. The copy's algorithm is set to
`None` when the next entry is added (query_result.py:331-341). -/
structure LogEntry (K A : Type) where
  idx : Nat
  dyn : Dyn K
  alg : Option A
  step : Int

/-- A query result with its mixture: `_mixture`, `previous_mixture` of the generator, `_mixture_log`, and the number of chunks handed
out, which is `current_chunk_index` and `_num_returns_gen` at once since every request is answered with a chunk. -/
structure LiveQ (K A : Type) where
  live : Live K A
  prev : Option (Dict K Nat)
  log : List (LogEntry K A)
  n : Nat

/-- A query result of which no chunk was requested yet (query_result.py:60-92, 306). -/
def LiveQ.start (s : Live K A) : LiveQ K A := ⟨s, none, [], 0⟩

/-- `last_mixture._mixing_alg = None` (query_result.py:331-341). -/
def dropLastAlg : List (LogEntry K A) → List (LogEntry K A)
  | [] => []
  | [e] => [{ e with alg := none }]
  | e :: es => e :: dropLastAlg es

/-- `previous_mixture != mixture` (query_result.py:326). -/
def noticed (prev : Option (Dict K Nat)) (rows : Dict K Nat) : Bool :=
  match prev with
  | none => true
  | some p => !dictEq p rows

/-- A request that is answered with a chunk (query_result.py:320-350, 582-586); with an empty mixture none is (line 325). -/
def LiveQ.chunk (q : LiveQ K A) : LiveQ K A :=
  if q.live.dyn.cur.rows = [] then q
  else if noticed q.prev q.live.dyn.cur.rows then
    { q with
      prev := some q.live.dyn.cur.rows
      log := dropLastAlg q.log ++ [⟨q.n, q.live.dyn, some q.live.alg, q.live.step⟩]
      n := q.n + 1 }
  else { q with n := q.n + 1 }

/-- What happens to a query result: calls of the training loop, key ids (query_result.py:94-114), chunk requests. -/
inductive QEv (K : Type)
  | call (c : FbCall)
  | idMap (ids : Dict K Nat)
  | chunk

/-- One event (the lines cited at the operations). -/
def LiveQ.on (P : MixAlg A) (q : LiveQ K A) : QEv K → LiveQ K A
  | .call c => { q with live := (q.live.on P (.call c)).1 }
  | .idMap ids => { q with live := (q.live.on P (.idMap ids)).1 }
  | .chunk => q.chunk

/-- A history; an exception does not end it. -/
def LiveQ.run (P : MixAlg A) (q : LiveQ K A) (es : List (QEv K)) : LiveQ K A := es.foldl (fun q e => q.on P e) q

/-- `update_mixture` with a copy of a log entry (query_result.py:262-278): `process_index`; `_update_key_id_map` does nothing, as the
key ids in the checkpoint include the keys of every logged mixture (query_result.py:348). -/
def LogEntry.install (index : Dict K Entries) (e : LogEntry K A) : Except Err (Live K (Option A)) :=
  match (e.dyn.processIndex index).2 with
  | some err => .error err
  | none => .ok ⟨(e.dyn.processIndex index).1, e.alg, e.step⟩

/-- The loop of `replay` (query_result.py:717-731): `k` chunks to go, the next is `i`; the mixture and the entries to come. -/
def replayMix (index : Dict K Entries) : Nat → Nat → Live K (Option A) → List (LogEntry K A) → Except Err (Live K (Option A))
  | 0, _, m, _ => .ok m
  | k + 1, i, m, [] => replayMix index k (i + 1) m []
  | k + 1, i, m, e :: es =>
    if i = e.idx then
      match e.install index with
      | .error err => .error err
      | .ok m' => replayMix index k (i + 1) m' es
    else replayMix index k (i + 1) m (e :: es)

/-- The mixture, with its algorithm, after `from_cache` (query_result.py:775-800): the pickled one if no chunk was handed out,
otherwise what `replay` (query_result.py:691-737) installs. -/
def LiveQ.restored (index : Dict K Entries) (q : LiveQ K A) : Except Err (Live K (Option A)) :=
  if q.n = 0 then .ok ⟨q.live.dyn, some q.live.alg, q.live.step⟩
  else
    match q.log with
    | [] => .error .indexError
    | e :: es =>
      match e.install index with
      | .error err => .error err
      | .ok m => replayMix index q.n 0 m es

end Mixtera.Mixing
