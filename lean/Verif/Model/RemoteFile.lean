import Verif.Model.Protocol
import Verif.Model.Datasets
import Verif.Model.MixtureKey

/-!
# Files over the network

Models how a JSONL file is read directly and through the server: `LocalFileSystem.get_file_iterable`
(/repo/mixtera/core/filesystem/local_filesystem.py:10-18), `_read_file`
(/repo/mixtera/network/server/server.py:104-120), `_fetch_file` and `get_file_iterable`
(/repo/mixtera/network/connection/server_connection.py:55-89), `open_file` (/repo/mixtera/core/filesystem/filesystem.py:34-54).

The text of a file is the text after decoding and newline translation, which is the same for both ways (`xopen(…, "r")`).
-/

namespace Mixtera.Net

variable {O F A β : Type}

/-- Iterating over a text file (local_filesystem.py:17-18): lines keep their line feed; the last one may lack it. -/
def localLines : PyStr → List PyStr
  | [] => []
  | c :: s =>
    if c = '\n' then [c] :: localLines s
    else
      match localLines s with
      | [] => [[c]]
      | l :: ls => (c :: l) :: ls

/-- `text.split("\n")` (server_connection.py:89). -/
def splitLines : PyStr → List PyStr
  | [] => [[]]
  | c :: s =>
    if c = '\n' then [] :: splitLines s
    else
      match splitLines s with
      | [] => [[c]]
      | l :: ls => (c :: l) :: ls

/-- `_read_file` (server.py:112-120): the lines joined again; nothing for an empty path. `files` gives the text of a file,
`none` if opening or decoding it raises. -/
def fileHandler (files : PyStr → Option PyStr) (v : Received PyStr O F A) (s : Unit) : Unit × Option (Reply PyStr O) :=
  match v with
  | .readFile (some path) =>
    if path = [] then (s, none)
    else match files path with
      | none => (s, none)
      | some text => (s, some (.content (localLines text).flatten))
  | _ => (s, none)

/-- `get_file_iterable` of the client (server_connection.py:72-89): the lines it yields, or the exception. -/
def fetchLines (c : Codecs PyStr O F A) (files : PyStr → Option PyStr) (path : PyStr) (l : Link) : Except NetErr (List PyStr) :=
  match (exchange c (fileHandler files) (.readFile path) l ()).2 with
  | .ok (some (.content text)) => .ok (splitLines text)
  | .ok _ => .ok []
  | .error e => .error e

/-- Reading ranges of a file through the server (jsonl_dataset.py:46-73 with a server connection). The file is fetched when
the first line is asked for, so not at all without ranges. Simplification: an error in the ranges themselves is only
reported after fetching, and the exception of a failed fetch is a `RuntimeError`. -/
def readRemote (c : Codecs PyStr O F A) (files : PyStr → Option PyStr) (path : PyStr) (l : Link) (parse : PyStr → β)
    (ranges : List (Nat × Nat)) : Yields β :=
  if ranges.isEmpty then ([], none)
  else
    match fetchLines c files path l with
    | .ok lines => jsonlReadFile parse lines ranges
    | .error _ => ([], some .runtimeError)

end Mixtera.Net
