import Verif.Model.Utils

/-!
# Registering datasets over the network, and waiting for a query

Models `register_dataset` of a client connected to a server: the client's side
(/repo/mixtera/network/connection/server_connection.py:293-360), the handlers `_register_dataset`,
`_background_register_dataset` and `_check_dataset_registration` of the server
(/repo/mixtera/network/server/server.py:165-220), and `wait_for_execution`
(/repo/mixtera/core/client/server/server_stub.py:138-155).

Every request is one event in which the client, the network and the server take part; what happens on the connection is part
of the event. Any number of calls, background tasks and restarts of the server are interleaved arbitrarily. Simplified: job ids
are numbers that are never used twice (`uuid4`); each call of `register_dataset` has its own number; what the registration
does (C37) is only represented by its result.
-/

namespace Mixtera.Reg

/-- What happens on a connection: everything is delivered; no connection is possible (`_connect_to_server` yields
`(None, None)`); the connection is closed before the answer, or the exchange fails with an exception, in both cases after or
before the request has arrived. -/
inductive Conn
  | ok
  | unreachable
  | closed (arrived : Bool)
  | broken (arrived : Bool)
  deriving DecidableEq

/-- A call of `register_dataset`: not begun, polling with a job id, ended with a result or with an exception. -/
inductive Call
  | idle
  | polling (job : Nat)
  | returned (b : Bool)
  | raised
  deriving DecidableEq

/-- What happens: a call submits its request; a call polls; a background task finishes with a result (an exception counts as
`False`); the server restarts. -/
inductive Ev
  | submit (c : Nat) (n : Conn)
  | poll (c : Nat) (n : Conn)
  | finish (job : Nat) (b : Bool)
  | restart
  deriving DecidableEq

/-- What is observed: the server starts a task for a call, a task finishes, a call ends. -/
inductive Obs
  | started (c job : Nat)
  | finished (job : Nat) (b : Bool)
  | returned (c : Nat) (b : Bool)
  | raised (c : Nat)
  deriving DecidableEq

/-- The server's running background tasks, its `_dataset_registration`, the next job id, and the calls. -/
structure State where
  next : Nat
  tasks : List Nat
  status : Nat → Option Bool
  calls : Nat → Call

def init : State := { next := 0, tasks := [], status := fun _ => none, calls := fun _ => .idle }

def State.setCall (s : State) (c : Nat) (x : Call) : State := { s with calls := fun c' => if c' = c then x else s.calls c' }

/-- The handler `_register_dataset` (server.py:165-190): a new task is started. -/
def State.accept (s : State) : State := { s with next := s.next + 1, tasks := s.tasks ++ [s.next] }

/-- The first exchange of the client (server_connection.py:336-345). Without a job id the call raises when it polls. -/
def submit (s : State) (c : Nat) : Conn → State × List Obs
  | .ok => (s.accept.setCall c (.polling s.next), [.started c s.next])
  | .unreachable => (s.setCall c (.returned false), [.returned c false])
  | .closed arrived | .broken arrived =>
    if arrived then (s.accept.setCall c .raised, [.started c s.next, .raised c]) else (s.setCall c .raised, [.raised c])

/-- One round of the polling loop (server_connection.py:347-360) with `_check_dataset_registration` (server.py:209-220). -/
def poll (s : State) (c job : Nat) : Conn → State × List Obs
  | .ok =>
    match s.status job with
    | none => (s, [])
    | some b => (s.setCall c (.returned b), [.returned c b])
  | .closed _ => (s.setCall c (.returned false), [.returned c false])
  | .unreachable | .broken _ => (s.setCall c .raised, [.raised c])

def step (s : State) : Ev → State × List Obs
  | .submit c n => match s.calls c with
    | .idle => submit s c n
    | _ => (s, [])
  | .poll c n => match s.calls c with
    | .polling job => poll s c job n
    | _ => (s, [])
  | .finish job b => if job ∈ s.tasks then
      ({ s with tasks := s.tasks.filter (· ≠ job), status := fun j => if j = job then some b else s.status j }, [.finished job b])
    else (s, [])
  | .restart => ({ s with tasks := [], status := fun _ => none }, [])

/-- A history: the final state and everything observed, in order. -/
def run : State → List Ev → State × List Obs
  | s, [] => (s, [])
  | s, e :: es => ((run (step s e).1 es).1, (step s e).2 ++ (run (step s e).1 es).2)

/-- The answer to a status request: what the server said, no answer, or no connection (where the code returns `False`, which
compares equal to `0`) (server_connection.py:711-721). -/
inductive Ans
  | code (z : Int)
  | closed
  | unreachable
  deriving DecidableEq

/-- `status == 0`. -/
def Ans.pending : Ans → Bool
  | .code z => z = 0
  | .closed => false
  | .unreachable => true

/-- The loop of `wait_for_execution` from the second status request on (server_stub.py:143-147); `fuel` is the number of
further requests that are allowed. -/
def waitLoop (ans : Nat → Ans) : Nat → Nat → Ans
  | 0, k => ans k
  | fuel + 1, k => if (ans k).pending then waitLoop ans fuel (k + 1) else ans k

/-- `wait_for_execution` (server_stub.py:138-155), where `ans k` is the answer to the `k`-th status request: after the first
one, `curr_time` runs from 0 to 30 minutes. -/
def waitForExecution (ans : Nat → Ans) : Bool := waitLoop ans (30 * 60 + 1) 0 = .code 1

end Mixtera.Reg
