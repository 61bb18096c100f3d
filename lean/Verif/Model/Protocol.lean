import Verif.Model.Network

/-!
# Requests and replies

Models what a client writes and reads for every request (/repo/mixtera/network/connection/server_connection.py) and what
the server reads and writes (/repo/mixtera/network/server/server.py:61-89,104-436,438-502), on top of the helpers of
`Model/Network.lean`.

Text (`T`), pickled objects (`O`), floats (`F`) and arrays (`A`) are arbitrary types with codecs. Every request uses a
connection of its own, which both sides close afterwards.
-/

namespace Mixtera.Net

variable {T O F A : Type}

/-- `str.encode`, `dill.dumps`, `struct.pack` and `np.save` with their inverses. -/
structure Codecs (T O F A : Type) where
  text : Codec T
  obj : Codec O
  float : Codec F
  array : Codec A

/-- A request with its arguments, as the caller of `ServerConnection` gives them. -/
inductive Request (T O F A : Type)
  | registerQuery (mixture : O) (groups nodes workers : Int) (query : O)
  | queryStatus (job : T)
  | readFile (path : T)
  | resultMeta (job : T)
  | nextChunk (job : T) (group node worker : Int)
  | registerDataset (name loc : T) (dtype : Int) (parsing : O) (parser : T)
  | datasetStatus (id : T)
  | registerParser (name source : T)
  | datasetExists (name : T)
  | listDatasets
  | removeDataset (name : T)
  | addProperty (name : T) (setup calculation : O) (mode ptype : Int) (lo hi : F) (buckets batch degree primary : Int)
  | checkpoint (job : T) (group node : Int) (status : List Int)
  | checkpointCompleted (job id : T) (onDisk : Int)
  | restore (job id : T)
  | feedback (job : T) (steps mixture : Int) (losses counts : Option A)

/-- Two writes in a row; an `OverflowError` of one of them ends the request. -/
def wThen (a b : Except NetErr (List Byte)) : Except NetErr (List Byte) :=
  match a, b with
  | .ok x, .ok y => .ok (x ++ y)
  | .error e, _ => .error e
  | .ok _, .error e => .error e

/-- No further write. -/
def wNil : Except NetErr (List Byte) := .ok []

infixr:60 " +> " => wThen

/-- The integers of `worker_status`, one after the other (server_connection.py:634-635). -/
def writeInts : List Int → Except NetErr (List Byte)
  | [] => wNil
  | x :: xs => writeInt x idBytes +> writeInts xs

/-- What the client writes for a request; the task numbers are those of /repo/mixtera/network/server_task.py.
server_connection.py: `_execute_query` 157-168, `_check_query_exec_status` 716-717, `_fetch_file` 69-70,
`_get_query_result_meta` 206-209, `_get_next_result` 234-242, `_register_dataset` 341-346 and 352-353,
`_register_metadata_parser` 389-395, `_check_dataset_exists` 427-430, `_list_datasets` 456, `_remove_dataset` 488-491,
`_add_property` 577-610, `_checkpoint` 623-635, `_checkpoint_completed` 650-657, `_restore_checkpoint` 672-676,
`_receive_feedback` 696-704. Simplification: a request with an argument that does not fit is not sent at all (the
arguments before it are sent in the code). -/
def Request.write (c : Codecs T O F A) : Request T O F A → Except NetErr (List Byte)
  | .registerQuery mixture groups nodes workers query =>
    writeInt 0 idBytes +> writeCoded c.obj mixture sizeBytes +> writeInt groups idBytes +> writeInt nodes idBytes +>
      writeInt workers idBytes +> writeCoded c.obj query sizeBytes +> wNil
  | .queryStatus job => writeInt 1 idBytes +> writeCoded c.text job idBytes +> wNil
  | .readFile path => writeInt 2 idBytes +> writeCoded c.text path idBytes +> wNil
  | .resultMeta job => writeInt 4 idBytes +> writeCoded c.text job idBytes +> wNil
  | .nextChunk job group node worker =>
    writeInt 5 idBytes +> writeCoded c.text job idBytes +> writeInt group idBytes +> writeInt node idBytes +>
      writeInt worker idBytes +> wNil
  | .registerDataset name loc dtype parsing parser =>
    writeInt 6 idBytes +> writeCoded c.text name idBytes +> writeCoded c.text loc idBytes +> writeInt dtype idBytes +>
      writeCoded c.obj parsing sizeBytes +> writeCoded c.text parser idBytes +> wNil
  | .datasetStatus id => writeInt 7 idBytes +> writeCoded c.text id idBytes +> wNil
  | .registerParser name source =>
    writeInt 8 idBytes +> writeCoded c.text name idBytes +> writeCoded c.text source sizeBytes +> wNil
  | .datasetExists name => writeInt 9 idBytes +> writeCoded c.text name idBytes +> wNil
  | .listDatasets => writeInt 10 idBytes +> wNil
  | .removeDataset name => writeInt 11 idBytes +> writeCoded c.text name idBytes +> wNil
  | .addProperty name setup calculation mode ptype lo hi buckets batch degree primary =>
    writeInt 12 idBytes +> writeCoded c.text name idBytes +> writeCoded c.obj setup sizeBytes +>
      writeCoded c.obj calculation sizeBytes +> writeInt mode idBytes +> writeInt ptype idBytes +> writeFloat c.float lo +>
      writeFloat c.float hi +> writeInt buckets idBytes +> writeInt batch idBytes +> writeInt degree idBytes +>
      writeInt primary idBytes +> wNil
  | .checkpoint job group node status =>
    writeInt 13 idBytes +> writeCoded c.text job idBytes +> writeInt group idBytes +> writeInt node idBytes +>
      writeInt status.length idBytes +> writeInts status +> wNil
  | .checkpointCompleted job id onDisk =>
    writeInt 14 idBytes +> writeCoded c.text job idBytes +> writeCoded c.text id idBytes +> writeInt onDisk idBytes +> wNil
  | .restore job id => writeInt 15 idBytes +> writeCoded c.text job idBytes +> writeCoded c.text id idBytes +> wNil
  | .feedback job steps mixture losses counts =>
    writeInt 16 idBytes +> writeCoded c.text job idBytes +> writeInt steps idBytes +> writeInt mixture idBytes +>
      writeArray c.array idBytes sizeBytes losses +> writeArray c.array idBytes sizeBytes counts +> wNil

/-- What a handler of the server has read: every helper gives `None` if the connection was closed before the value. -/
inductive Received (T O F A : Type)
  | registerQuery (mixture : Option O) (groups nodes workers : Option Int) (query : Option O)
  | queryStatus (job : Option T)
  | readFile (path : Option T)
  | resultMeta (job : Option T)
  | nextChunk (job : Option T) (group node worker : Option Int)
  | registerDataset (name loc : Option T) (dtype : Option Int) (parsing : Option O) (parser : Option T)
  | datasetStatus (id : Option T)
  | registerParser (name source : Option T)
  | datasetExists (name : Option T)
  | listDatasets
  | removeDataset (name : Option T)
  | addProperty (name : Option T) (setup calculation : Option O) (mode ptype : Option Int) (lo hi : Option F)
      (buckets batch degree primary : Option Int)
  | checkpoint (job : Option T) (group node : Option Int) (status : List (Option Int))
  | checkpointCompleted (job id : Option T) (onDisk : Option Int)
  | restore (job id : Option T)
  | feedback (job : Option T) (steps mixture : Option Int) (losses counts : Option A)
  /-- Unknown or unsupported task (server.py:451-453, 488-489). -/
  | unknown (task : Option Int)

/-- The loop over `range(worker_status_length)` (server.py:366-369). -/
def readInts : Nat → Reader (List (Option Int))
  | 0 => Reader.pure []
  | n + 1 => Reader.bind (readInt idBytes) fun x => Reader.bind (readInts n) fun xs => Reader.pure (x :: xs)

/-- `worker_status` after its length (server.py:365-369): `range(None)` raises. -/
def readStatus : Option Int → Reader (List (Option Int))
  | none => Reader.raise .assertion
  | some n => readInts n.toNat

/-- The handlers, up to the point where they have read their arguments (server.py: `_register_query` 72-87, `_read_file` 112,
`_return_next_result_chunk` 130-133, `_return_result_metadata` 155, `_register_dataset` 177-182,
`_check_dataset_registration` 208, `_register_metadata_parser` 230-231, `_check_dataset_exists` 293, `_remove_dataset` 316,
`_add_property` 332-344, `_checkpoint` 361-369, `_checkpoint_completed` 377-380, `_restore_checkpoint` 388-389,
`_check_query_registration` 415, `_process_feedback` 426-431). -/
def dispatch (c : Codecs T O F A) : Option Int → Reader (Received T O F A)
  | some 0 =>
    .bind (readCoded c.obj sizeBytes) fun mixture => .bind (readInt idBytes) fun groups =>
    .bind (readInt idBytes) fun nodes => .bind (readInt idBytes) fun workers =>
    .bind (readCoded c.obj sizeBytes) fun query => .pure (.registerQuery mixture groups nodes workers query)
  | some 1 => .bind (readCoded c.text idBytes) fun job => .pure (.queryStatus job)
  | some 2 => .bind (readCoded c.text idBytes) fun path => .pure (.readFile path)
  | some 4 => .bind (readCoded c.text idBytes) fun job => .pure (.resultMeta job)
  | some 5 =>
    .bind (readCoded c.text idBytes) fun job => .bind (readInt idBytes) fun group =>
    .bind (readInt idBytes) fun node => .bind (readInt idBytes) fun worker => .pure (.nextChunk job group node worker)
  | some 6 =>
    .bind (readCoded c.text idBytes) fun name => .bind (readCoded c.text idBytes) fun loc =>
    .bind (readInt idBytes) fun dtype => .bind (readCoded c.obj sizeBytes) fun parsing =>
    .bind (readCoded c.text idBytes) fun parser => .pure (.registerDataset name loc dtype parsing parser)
  | some 7 => .bind (readCoded c.text idBytes) fun id => .pure (.datasetStatus id)
  | some 8 =>
    .bind (readCoded c.text idBytes) fun name => .bind (readCoded c.text sizeBytes) fun source =>
    .pure (.registerParser name source)
  | some 9 => .bind (readCoded c.text idBytes) fun name => .pure (.datasetExists name)
  | some 10 => .pure .listDatasets
  | some 11 => .bind (readCoded c.text idBytes) fun name => .pure (.removeDataset name)
  | some 12 =>
    .bind (readCoded c.text idBytes) fun name => .bind (readCoded c.obj sizeBytes) fun setup =>
    .bind (readCoded c.obj sizeBytes) fun calculation => .bind (readInt idBytes) fun mode =>
    .bind (readInt idBytes) fun ptype => .bind (readFloat c.float) fun lo => .bind (readFloat c.float) fun hi =>
    .bind (readInt idBytes) fun buckets => .bind (readInt idBytes) fun batch => .bind (readInt idBytes) fun degree =>
    .bind (readInt idBytes) fun primary =>
    .pure (.addProperty name setup calculation mode ptype lo hi buckets batch degree primary)
  | some 13 =>
    .bind (readCoded c.text idBytes) fun job => .bind (readInt idBytes) fun group => .bind (readInt idBytes) fun node =>
    .bind (readInt idBytes) fun length => .bind (readStatus length) fun status =>
    .pure (.checkpoint job group node status)
  | some 14 =>
    .bind (readCoded c.text idBytes) fun job => .bind (readCoded c.text idBytes) fun id =>
    .bind (readInt idBytes) fun onDisk => .pure (.checkpointCompleted job id onDisk)
  | some 15 =>
    .bind (readCoded c.text idBytes) fun job => .bind (readCoded c.text idBytes) fun id => .pure (.restore job id)
  | some 16 =>
    .bind (readCoded c.text idBytes) fun job => .bind (readInt idBytes) fun steps => .bind (readInt idBytes) fun mixture =>
    .bind (readArray c.array idBytes sizeBytes) fun losses => .bind (readArray c.array idBytes sizeBytes) fun counts =>
    .pure (.feedback job steps mixture losses counts)
  | task => .pure (.unknown task)

/-- `_dispatch_client` (server.py:450-489): the task number, then the handler. -/
def readRequest (c : Codecs T O F A) : Reader (Received T O F A) := .bind (readInt idBytes) (dispatch c)

/-! ### Replies -/

/-- What a handler sends back. -/
inductive Reply (T O : Type)
  | int (x : Int)
  | name (x : T)
  | content (x : T)
  | obj (x : O)
  | bytes (x : Option (List Byte))

/-- The helper with which a reply is written (server.py:90, 119, 145, 163, 187, 217, 283, 295, 306, 318, 358, 373,
385, 394, 423, 436). -/
def Reply.write (c : Codecs T O F A) : Reply T O → Except NetErr (List Byte)
  | .int x => writeInt x idBytes
  | .name x => writeCoded c.text x idBytes
  | .content x => writeCoded c.text x sizeBytes
  | .obj x => writeCoded c.obj x sizeBytes
  | .bytes x => writeBytesObj x sizeBytes

/-- How the client reads the reply to a request (same places of server_connection.py as for `Request.write`); `none`: the
helper returned `None`. -/
def Request.readReply (c : Codecs T O F A) : Request T O F A → Reader (Option (Reply T O))
  | .registerQuery .. | .registerDataset .. | .restore .. =>
    .bind (readCoded c.text idBytes) fun r => .pure (r.map .name)
  | .readFile .. | .checkpoint .. => .bind (readCoded c.text sizeBytes) fun r => .pure (r.map .content)
  | .resultMeta .. | .listDatasets => .bind (readCoded c.obj sizeBytes) fun r => .pure (r.map .obj)
  | .nextChunk .. => .bind (readBytesObj sizeBytes) fun r => .pure (r.map fun d => .bytes (some d))
  | .queryStatus .. | .datasetStatus .. | .registerParser .. | .datasetExists .. | .removeDataset .. | .addProperty ..
  | .checkpointCompleted .. | .feedback .. => .bind (readInt idBytes) fun r => .pure (r.map .int)

/-- The kind of reply that the server's handler of the request sends (same places of server.py as for `Reply.write`). -/
def Request.Answers : Request T O F A → Reply T O → Prop
  | .registerQuery .., .name _ | .registerDataset .., .name _ | .restore .., .name _ => True
  | .readFile .., .content _ | .checkpoint .., .content _ => True
  | .resultMeta .., .obj _ | .listDatasets, .obj _ => True
  | .nextChunk .., .bytes _ => True
  | .queryStatus .., .int _ | .datasetStatus .., .int _ | .registerParser .., .int _ | .datasetExists .., .int _
  | .removeDataset .., .int _ | .addProperty .., .int _ | .checkpointCompleted .., .int _ | .feedback .., .int _ => True
  | _, _ => False

/-! ### One exchange -/

/-- What the network does to one exchange: how many bytes of the request and of the reply arrive before the connection
breaks (`none`: all of them), and how they arrive; `reachable = false`: no connection is established (after ten attempts,
server_connection.py:104-121). -/
structure Link where
  reachable : Bool
  requestLen : Option Nat
  requestAvail : Nat → Option Nat
  replyLen : Option Nat
  replyAvail : Nat → Option Nat

/-- The bytes that arrive. -/
def arrived : Option Nat → List Byte → List Byte
  | none, l => l
  | some k, l => l.take k

/-- The server's side of an exchange: reads the request, runs the handler and writes the reply; if reading, the handler or
writing raises, the connection is closed without a reply (server.py:491-502). -/
def serveRequest {σ : Type} (c : Codecs T O F A) (handler : Received T O F A → σ → σ × Option (Reply T O)) (input : Stream) (s : σ) :
    σ × List Byte :=
  match (readRequest c input).1 with
  | .error _ => (s, [])
  | .ok v =>
    match (handler v s).2 with
    | none => ((handler v s).1, [])
    | some r =>
      match r.write c with
      | .error _ => ((handler v s).1, [])
      | .ok w => ((handler v s).1, w)

/-- One call of a method of `ServerConnection`: writes the request and reads the reply. `.ok none`: not reachable, or the
helper returned `None`. An exception while reading surfaces as an exception of the call (`_connect_to_server` yields a
second time, which `asynccontextmanager` turns into a `RuntimeError`, server_connection.py:104-139). -/
def exchange {σ : Type} (c : Codecs T O F A) (handler : Received T O F A → σ → σ × Option (Reply T O)) (r : Request T O F A)
    (l : Link) (s : σ) : σ × Except NetErr (Option (Reply T O)) :=
  if l.reachable then
    match r.write c with
    | .error e => (s, .error e)
    | .ok w =>
      let (s', reply) := serveRequest c handler ⟨arrived l.requestLen w, l.requestAvail, 0⟩ s
      (s', (r.readReply c ⟨arrived l.replyLen reply, l.replyAvail, 0⟩).1)
  else (s, .ok none)

end Mixtera.Net
