import Verif.Model.MixtureLog

/-!
# Crashes and the mixture log on disk

The files `mixture.log` and `chunk.idx` at every crash point, and what restoring a checkpoint writes to them: `replay`
(/repo/mixtera/core/query/query_result.py:691-739) runs the generator, which writes the files as in normal operation, but with the
log of the checkpoint (lines 343-346, 509-511).  Continues `Verif/Model/MixtureLog.lean`.  Not modelled: parts of files (a file being
written is `torn`), writes that reach the disk in another order than they are made.
-/

namespace Mixtera

variable {K : Type} [DecidableEq K]

/-- A file: `open(…, "w")` truncates it, and only when it is closed it has its content (query_result.py:125-134, 142-143). -/
inductive FileText (α : Type)
  | missing
  | torn
  | text (a : α)

/-- The log directory (query_result.py:89-91). -/
structure LogDir where
  mix : FileText LogFile := .missing
  idx : FileText Nat := .missing

/-- Writing a file: `_persist_mixture_log` (query_result.py:116-136) or `_persist_chunk_idx` (lines 138-143). -/
inductive LogWrite
  | mix (f : LogFile)
  | idx (n : Nat)

/-- The directory while the file is being written. -/
def LogWrite.during (d : LogDir) : LogWrite → LogDir
  | .mix _ => { d with mix := .torn }
  | .idx _ => { d with idx := .torn }

/-- The directory afterwards. -/
def LogWrite.after (d : LogDir) : LogWrite → LogDir
  | .mix f => { d with mix := .text f }
  | .idx n => { d with idx := .text n }

/-- The directory after several writes. -/
def writeAll (d : LogDir) (ws : List LogWrite) : LogDir := ws.foldl LogWrite.after d

/-- The directory at all crash points of several writes. -/
def crashDirs (d : LogDir) : List LogWrite → List LogDir
  | [] => [d]
  | w :: ws => d :: w.during d :: crashDirs (w.after d) ws

/-- The directory of a query result that has written to it without a crash since it was created. -/
def LogSess.dir (s : LogSess K) : LogDir :=
  { mix := match s.mixFile with
      | none => .missing
      | some f => .text f
    idx := match s.idxFile with
      | none => .missing
      | some n => .text n }

/-- What a request writes, in this order: `mixture.log` if the generator notices a new mixture (query_result.py:346, 511), and
`chunk.idx` before the chunk is handed out (lines 483, 534). -/
def LogSess.writes (ops : KeyOps K) (str : K → String) (fuel : Nat) (s : LogSess K) : List LogWrite :=
  let r := s.next ops str fuel
  (if r.1.sess.theGen.mixtureId == s.sess.theGen.mixtureId then [] else (r.1.mixFile.map LogWrite.mix).toList) ++
    match r.2 with
    | .chunk _ => (r.1.idxFile.map LogWrite.idx).toList
    | _ => []

/-- The loop of `replay` (query_result.py:718-734) with what it writes. -/
def replayWrites (ops : KeyOps K) (str : K → String) (fuel ref : Nat) : Nat → Nat → List (Nat × MixView K) → LogSess K →
    List LogWrite × Except Err (LogSess K)
  | _, 0, _, s => ([], .ok s)
  | i, n + 1, pending, s =>
    let due := s.sess.due ops ref i pending
    let t : LogSess K := { s with sess := due.1 }
    match t.next ops str fuel with
    | (s', .chunk _) =>
      (t.writes ops str fuel ++ (replayWrites ops str fuel ref (i + 1) n due.2 s').1,
        (replayWrites ops str fuel ref (i + 1) n due.2 s').2)
    | (s', .none) =>
      if s'.sess.stopOnNone then (t.writes ops str fuel, .error .runtimeError)
      else (t.writes ops str fuel ++ (replayWrites ops str fuel ref (i + 1) n due.2 s').1,
        (replayWrites ops str fuel ref (i + 1) n due.2 s').2)
    | (_, .stop) => (t.writes ops str fuel, .error .runtimeError)
    | (_, .raised e) => (t.writes ops str fuel, .error e)

/-- `replay` (query_result.py:691-739) with what it writes. -/
def LogSess.replay (ops : KeyOps K) (str : K → String) (fuel ref n : Nat) (s : LogSess K) :
    List LogWrite × Except Err (LogSess K) :=
  if n < 1 then ([], .ok s)
  else
    match s.sess.log with
    | [] => ([], .error .keyError)
    | (_, v) :: rest =>
      let r := replayWrites ops str fuel ref 0 n rest
        { s with sess := ({ s.sess with isReplay := true } : Sess K).update ops ref v }
      (r.1, match r.2 with
        | .error e => .error e
        | .ok s' =>
          if s'.sess.numReturns = n ∧ s'.sess.idx = n then .ok { s' with sess := { s'.sess with isReplay := false } }
          else .error .assertion)

/-- Restoring a checkpoint as far as the query result is concerned (/repo/mixtera/core/query/chunk_distributor.py:598-604): it is
loaded without replay, gets the log of the checkpoint and the log directory, whatever that contains, and replays.  The fields
`mixFile` and `idxFile` are what the new process has written.  Mixtures in a loaded log are copies (dill). -/
def restoreLog (ops : KeyOps K) (str : K → String) (fuel ref : Nat) (c : Cached K) : List LogWrite × Except Err (LogSess K) :=
  LogSess.replay ops str fuel ref c.numReturns
    { sess := { index := c.index, order := c.order, stopOnNone := c.stopOnNone, heap := fun _ => c.mixture, mixRef := ref,
                gen := none, idx := 0, numReturns := 0, isReplay := c.isReplay, log := c.log, keyIds := c.keyIds }
      log := c.log.map fun e => (e.1, .copy e.2)
      mixFile := none
      idxFile := none }

end Mixtera
