import Verif.Model.Protocol

/-!
# Connecting to the server, and what the client's methods return

Models `_connect_to_server` (/repo/mixtera/network/connection/server_connection.py:91-139), an `@asynccontextmanager` around
a loop of tenacity attempts, its use as `async with self._connect_to_server() as (reader, writer)` in every method, and the
values that the methods return.

The generator is modelled by where it is suspended. `AsyncRetrying` with `reraise=True` swallows the exception of an attempt,
goes on with the next one while less than `max_retries` attempts were made, and raises the last exception otherwise; an
attempt without an exception ends the loop. `asynccontextmanager` asks the generator for one value; when the body ends, it
resumes the generator and raises `RuntimeError("generator didn't stop")` unless the generator ends; when the body raises, it
throws the exception into the generator and raises `RuntimeError("generator didn't stop after athrow()")` if the generator
yields again. Not modelled: the waiting times, cancellation (`BaseException`s that are not `Exception`s).
-/

namespace Mixtera.Net

variable {T O F A σ ε α : Type}

/-- What happens in one attempt (server_connection.py:115-122): `open_connection` raises or times out; the connection is
opened, but unusable (`setsockopt` raises, or one of the ends is `None`); the connection is opened. -/
inductive Dial
  | refused
  | unusable
  | opened
  deriving DecidableEq

/-- What is observed on the client: attempt `k` is made; the body of the `async with` runs with the connection of attempt
`k`, or without one; the connection of attempt `k` is closed. -/
inductive ConnEv
  | dial (k : Nat)
  | body (k : Option Nat)
  | close (k : Nat)
  deriving DecidableEq

/-- Where the generator is suspended: at `yield reader, writer` in attempt `k` (line 123); at `yield None, None` (line 128)
with the variable `writer` bound to the connection of the given attempt, if any; or it has ended. -/
inductive Gen
  | atConn (k : Nat)
  | atNone (w : Option Nat)
  | ended
  deriving DecidableEq

/-- The loop from attempt `k` on with `left` attempts left, up to the next `yield` (lines 108-128). Without attempts left the
last exception is raised and caught in line 126. -/
def dialFrom (net : Nat → Dial) : Nat → Nat → Option Nat → List ConnEv × Gen
  | 0, _, w => ([], .atNone w)
  | left + 1, k, w =>
    match net k with
    | .opened => ([.dial k], .atConn k)
    | .unusable => (.dial k :: (dialFrom net left (k + 1) (some k)).1, (dialFrom net left (k + 1) (some k)).2)
    | .refused => (.dial k :: (dialFrom net left (k + 1) w).1, (dialFrom net left (k + 1) w).2)

/-- The `finally` clause (lines 130-136). -/
def closeWriter : Option Nat → List ConnEv
  | none => []
  | some k => [.close k]

/-- The default of `max_retries` (line 93); no caller passes another one. -/
def maxRetries : Nat := 10

/-- Resuming the generator after a `yield` (lines 124, 129-139): `yielded` is set, the loop or the handler ends, the
connection is closed and the generator ends. -/
def Gen.next : Gen → List ConnEv × Gen
  | .atConn k => ([.close k], .ended)
  | .atNone w => (closeWriter w, .ended)
  | .ended => ([], .ended)

/-- Throwing an exception into the generator. In an attempt it counts as a failure of the attempt, so that the loop goes on;
at `yield None, None` it leaves the generator (lines 112-136). -/
def Gen.throw (net : Nat → Dial) : Gen → List ConnEv × Gen
  | .atConn k => dialFrom net (maxRetries - (k + 1)) (k + 1) (some k)
  | .atNone w => (closeWriter w, .ended)
  | .ended => ([], .ended)

/-- The exception of an `async with`: the one of the body, or the `RuntimeError` of `asynccontextmanager`. -/
inductive Raised (ε : Type)
  | original (e : ε)
  | generatorDidNotStop
  deriving DecidableEq

/-- Leaving the body with an exception: `athrow`; if the generator is suspended again afterwards, a `RuntimeError`, and the
generator is closed (by `__aexit__`, or by `asyncio.run` at the end), which runs its `finally` clause. -/
def exitWith (net : Nat → Dial) (g : Gen) (e : ε) : List ConnEv × Raised ε :=
  match g.throw net with
  | (log, .ended) => (log, .original e)
  | (log, .atConn k) => (log ++ [.close k], .generatorDidNotStop)
  | (log, .atNone w) => (log ++ closeWriter w, .generatorDidNotStop)

/-- What the body of the `async with` gets. -/
def Gen.value : Gen → Option Nat
  | .atConn k => some k
  | _ => none

/-- Leaving the body with a value: `__anext__`, and a `RuntimeError` if the generator is suspended again. -/
def exitOk (g : Gen) (v : α) : List ConnEv × Except (Raised ε) α :=
  match g.next with
  | (log, .ended) => (log, .ok v)
  | (log, .atConn k) => (log ++ [.close k], .error .generatorDidNotStop)
  | (log, .atNone w) => (log ++ closeWriter w, .error .generatorDidNotStop)

/-- Leaving the body with its outcome. -/
def exitBody (net : Nat → Dial) (g : Gen) : Except ε α → List ConnEv × Except (Raised ε) α
  | .ok v => exitOk g v
  | .error e => ((exitWith net g e).1, .error (exitWith net g e).2)

/-- `async with self._connect_to_server() as (reader, writer): body`, where `body (some k)` is the body with the connection of
attempt `k` and `body none` the body with `(None, None)`; `s` is the state of the server. -/
def withConnection (net : Nat → Dial) (body : Option Nat → σ → σ × Except ε α) (s : σ) :
    σ × List ConnEv × Except (Raised ε) α :=
  let d := dialFrom net maxRetries 0 none
  let b := body d.2.value s
  let x := exitBody net d.2 b.2
  (b.1, d.1 ++ .body d.2.value :: x.1, x.2)

/-! ### The methods -/

/-- The body of a method: `none` if there is no connection (every method but the polling of `register_dataset` returns a fixed
value then, server_connection.py:66, 153, 202, 230, 339, 385, 423, 452, 484, 573, 619, 646, 668, 691, 713), and otherwise the
request is written and the reply read, as in `exchange`. -/
def methodBody (c : Codecs T O F A) (handler : Received T O F A → σ → σ × Option (Reply T O)) (r : Request T O F A)
    (links : Nat → Link) : Option Nat → σ → σ × Except NetErr (Option (Option (Reply T O)))
  | none, s => (s, .ok none)
  | some k, s =>
    match r.write c with
    | .error e => (s, .error e)
    | .ok w =>
      ((serveRequest c handler ⟨arrived (links k).requestLen w, (links k).requestAvail, 0⟩ s).1,
        (r.readReply c ⟨arrived (links k).replyLen
          (serveRequest c handler ⟨arrived (links k).requestLen w, (links k).requestAvail, 0⟩ s).2, (links k).replyAvail, 0⟩).1.map
          some)

/-- What a method of `ServerConnection` returns, or that it raises. -/
inductive Value (T O : Type)
  | bool (b : Bool)
  | int (z : Int)
  | nothing
  | text (x : T)
  | obj (x : O)
  | emptyList
  | bytes (d : List Byte)
  | raises
  deriving DecidableEq

/-- `bool(await read_int(…))`. -/
def flagValue : Option (Reply T O) → Value T O
  | some (.int z) => .bool (z ≠ 0)
  | _ => .bool false

/-- What a method makes of the reply (server_connection.py:72, 169-175, 212, 245-249, 288-291, 347-354, 397, 432, 458, 493, 612,
638-639, 660-661, 678-683, 706, 719-721); `none`: the helper returned `None`. `jobOf` is the job id of a query.
Simplified: `register_dataset` and the polling of its status are only followed up to the first reply (C67 has the rest), the
bytes of a chunk are not unpickled (C57). -/
def Request.onReply [DecidableEq T] (jobOf : O → T) : Request T O F A → Option (Reply T O) → Value T O
  | .registerQuery _ _ _ _ q, some (.name j) => .bool (j = jobOf q)
  | .registerQuery .., _ => .bool false
  | .queryStatus _, some (.int z) => .int z
  | .queryStatus _, _ => .nothing
  | .readFile _, some (.content x) => .text x
  | .readFile _, _ => .nothing
  | .resultMeta _, some (.obj x) => .obj x
  | .resultMeta _, _ => .raises
  | .nextChunk .., some (.bytes (some d)) => .bytes d
  | .nextChunk .., _ => .nothing
  | .registerDataset .., some (.name x) => .text x
  | .registerDataset .., _ => .nothing
  | .datasetStatus _, some (.int z) => .int z
  | .datasetStatus _, _ => .nothing
  | .listDatasets, some (.obj x) => .obj x
  | .listDatasets, _ => .nothing
  | .checkpoint .., some (.content x) => .text x
  | .checkpoint .., _ => .nothing
  | .restore .., _ => .nothing
  | .registerParser .., y | .datasetExists _, y | .removeDataset _, y | .addProperty .., y | .checkpointCompleted .., y
  | .feedback .., y => flagValue y

/-- What a method returns when there is no connection (server_connection.py:66-67, 153-154, 202-203 with 288-289,
230-231, 339-340, 385-386, 423-424, 452-453, 484-485, 573-574, 619-620, 646-647, 668-669, 691-693, 713-714). The polling of
`register_dataset` does not check (line 350) and raises an `AttributeError`. -/
def Request.unreachable : Request T O F A → Value T O
  | .registerQuery .. | .queryStatus _ | .registerDataset .. | .registerParser .. | .datasetExists _ | .removeDataset _
  | .addProperty .. | .checkpointCompleted .. | .feedback .. => .bool false
  | .readFile _ | .nextChunk .. | .checkpoint .. | .restore .. => .nothing
  | .listDatasets => .emptyList
  | .resultMeta _ | .datasetStatus _ => .raises

/-- What a method returns, from the outcome of its body. -/
def Request.outcome [DecidableEq T] (jobOf : O → T) (r : Request T O F A) :
    Except (Raised NetErr) (Option (Option (Reply T O))) → Value T O
  | .error _ => .raises
  | .ok none => r.unreachable
  | .ok (some y) => r.onReply jobOf y

/-- A call of a method: `net` says what happens in every attempt to connect, `links` what the network does to the connection
of an attempt. -/
def callMethod [DecidableEq T] (c : Codecs T O F A) (jobOf : O → T) (handler : Received T O F A → σ → σ × Option (Reply T O))
    (r : Request T O F A) (net : Nat → Dial) (links : Nat → Link) (s : σ) : σ × List ConnEv × Value T O :=
  let w := withConnection net (methodBody c handler r links) s
  (w.1, w.2.1, r.outcome jobOf w.2.2)

end Mixtera.Net
