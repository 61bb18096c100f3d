import Verif.Model.Session

/-!
# The mixture log on disk

Models what a query result writes to its log directory: `mixture.log` and `chunk.idx`
(/repo/mixtera/core/query/query_result.py:88-92,116-143,326-346,483,506-511,534), and that the mixture log holds copies of
mixtures with rows, but references to mixtures without rows (lines 344 and 510).

Not modelled: the JSON text (the file is its content: `json.dump` and reading it back are the identity, except that chunk
indices become decimal strings), a crash in the middle of writing a file, and the mixing algorithm that is removed from older
entries (lines 331-341), which has no influence on their rows.
-/

namespace Mixtera

variable {K : Type} [DecidableEq K]

/-- The mixture of an entry of `_mixture_log`: `deepcopy(base_mixture)` (query_result.py:344) or `base_mixture` itself
(line 510). -/
inductive Logged (K : Type)
  | copy (v : MixView K)
  | ref (obj : Nat)

/-- The mixture an entry stands for, now. -/
def Logged.view (heap : Nat → MixView K) : Logged K → MixView K
  | .copy v => v
  | .ref obj => heap obj

/-- `stringified_mixture` (/repo/mixtera/core/query/mixture/mixture.py:81-85); `str` is `str(key)`. -/
def stringified (str : K → String) (rows : Dict K Nat) : Dict String Nat :=
  rows.foldl (fun d e => d.set (str e.1) e.2) []

/-- The content of `mixture.log`. -/
structure LogFile where
  entries : Dict Nat (Dict String Nat)
  currIdx : Nat

/-- `_persist_mixture_log` (query_result.py:116-136) with a log directory: the dictionary comprehension over the log, a
later entry for the same chunk index replacing an earlier one. -/
def persistLog (str : K → String) (log : List (Nat × MixView K)) (idx : Nat) : LogFile :=
  { entries := log.foldl (fun d e => d.set e.1 (stringified str e.2.rows)) [], currIdx := idx }

/-- A query result with its real mixture log and its log directory. `sess.log` is the log with a copy in every entry. -/
structure LogSess (K : Type) where
  sess : Sess K
  log : List (Nat × Logged K)
  mixFile : Option LogFile
  idxFile : Option Nat

/-- The constructor with a log directory (query_result.py:88-92). -/
def LogSess.fresh (ops : KeyOps K) (index : Dict K Entries) (order : List K) (stopOnNone : Bool) (ref : Nat)
    (v : MixView K) : LogSess K :=
  { sess := Sess.fresh ops index order stopOnNone ref v, log := [], mixFile := none, idxFile := none }

/-- The log with the mixtures its entries stand for at the moment. -/
def LogSess.resolved (s : LogSess K) : List (Nat × MixView K) := s.log.map fun e => (e.1, e.2.view s.sess.heap)

/-- How a mixture is put into the log: without rows by reference to `obj`, the object the generator works with
(query_result.py:344,510). -/
def logEntry (obj : Nat) (e : Nat × MixView K) : Nat × Logged K :=
  (e.1, if e.2.rows = [] then .ref obj else .copy e.2)

/-- `__next__` (query_result.py:568-596) with the effects on the log and the files: what the generator adds to the log is
added as by lines 344 and 510, `mixture.log` is written whenever the generator notices a new mixture, i.e. whenever the
mixture id is incremented (lines 346, 511; the shared index was incremented in line 572), and `chunk.idx` before a chunk is
yielded (lines 483, 534). -/
def LogSess.next (ops : KeyOps K) (str : K → String) (fuel : Nat) (s : LogSess K) : LogSess K × Out K :=
  let r := s.sess.next ops fuel
  let log := s.log ++ (r.1.log.drop s.sess.log.length).map (logEntry r.1.theGen.base)
  let s' : LogSess K := { s with sess := r.1, log := log }
  let noticed : Bool := !(r.1.theGen.mixtureId == s.sess.theGen.mixtureId)
  ({ s' with
      mixFile := if noticed then some (persistLog str s'.resolved (s.sess.idx + 1)) else s.mixFile
      idxFile := match r.2 with
        | .chunk _ => some r.1.theGen.target
        | _ => s.idxFile }, r.2)

/-- One operation; only `next` has an answer. `update_mixture` and feedback write no file. -/
def LogSess.op (ops : KeyOps K) (str : K → String) (fuel : Nat) (s : LogSess K) : SOp K → LogSess K × Option (Out K)
  | .update ref v => ({ s with sess := s.sess.update ops ref v }, none)
  | .feedback v => ({ s with sess := s.sess.feedback v }, none)
  | .next => ((s.next ops str fuel).1, some (s.next ops str fuel).2)

/-- A sequence of operations and the answers of its `next`s. -/
def LogSess.run (ops : KeyOps K) (str : K → String) (fuel : Nat) : LogSess K → List (SOp K) → LogSess K × List (Out K)
  | s, [] => (s, [])
  | s, o :: os =>
    (((s.op ops str fuel o).1.run ops str fuel os).1,
      (s.op ops str fuel o).2.toList ++ ((s.op ops str fuel o).1.run ops str fuel os).2)

/-- What `to_cache` or a checkpoint stores (query_result.py:656-689, chunk_distributor.py:393): the log as it is now. -/
def LogSess.toCache (s : LogSess K) : Cached K := { s.sess.toCache with log := s.resolved }

end Mixtera
