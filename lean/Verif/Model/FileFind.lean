import Verif.Model.MixtureKey
import Verif.Model.Utils

/-!
# Finding the files of a dataset

Models /repo/mixtera/core/filesystem/filesystem.py, /repo/mixtera/core/filesystem/local_filesystem.py and `iterate_files`
of /repo/mixtera/core/datacollection/datasets/{jsonl,web,parquet,croissant}_dataset.py. The generators are consumed by
`list(...)` (mixtera_data_collection.py:155), so a generator is modelled by the list it yields or the exception it raises.
The disk is a parameter: what is found under a path, and the names in a directory in the order of `scandir`. Links are not
modelled, nor changes of the disk during the iteration.
-/

namespace Mixtera.Files

/-- A `pathlib.Path`: absolute or relative, and its parts. (A path of exactly two leading slashes, which POSIX treats
separately, is not modelled.) -/
structure PPath where
  absolute : Bool
  parts : List PyStr
deriving DecidableEq

/-- `s.split('/')`. -/
def splitSlash : PyStr → List PyStr
  | [] => [[]]
  | c :: s =>
    if c = '/' then [] :: splitSlash s
    else match splitSlash s with
      | [] => [[c]]
      | p :: ps => (c :: p) :: ps

/-- `Path(s)`: empty parts and `.` are dropped (used in local_filesystem.py:23, 40). -/
def toPath (s : PyStr) : PPath :=
  ⟨s.head? = some '/', (splitSlash s).filter fun p => decide (p ≠ [] ∧ p ≠ ['.'])⟩

/-- `str(path)` for a path with at least one part (local_filesystem.py:45). -/
def showPath (p : PPath) : PyStr :=
  if p.absolute then p.parts.flatMap ('/' :: ·) else joinStr ['/'] p.parts

/-- What a path leads to: a file, with what `_is_valid_jsonl` (jsonl_dataset.py:75-88) and `_is_valid_parquet`
(parquet_dataset.py:120-128) find out about its contents, or a directory with the names in it. -/
inductive Node
  | file (jsonl parquet : Bool)
  | dir (names : List PyStr)
deriving DecidableEq

/-- The disk; `none` if the path does not exist. -/
abbrev Disk := PPath → Option Node

/-- `file://`. -/
def scheme : PyStr := "file://".toList

/-- `FileSystem.from_path` (filesystem.py:11-31): there is only the local file system. -/
def fromPath (s : PyStr) : Except Err Unit :=
  if scheme <+: s ∨ ['/'] <+: s then .ok () else .error .notImplemented

/-- `FileSystem.is_dir` and `LocalFileSystem.is_dir` (filesystem.py:74-88, local_filesystem.py:22-28). -/
def isDir (d : Disk) (s : PyStr) : Except Err Bool := do
  fromPath s
  match d (toPath s) with
  | none => .error .runtimeError
  | some (.file _ _) => .ok false
  | some (.dir _) => .ok true

/-- `Path.glob("*.ext")`: the entries of the directory, of any kind, whose name ends in `.ext`; nothing for a file. The
extensions contain no wildcards (local_filesystem.py:44). -/
def glob (p : PPath) (ext : PyStr) : Node → List PyStr
  | .file _ _ => []
  | .dir names =>
    (names.filter fun n => decide (('.' :: ext) <:+ n)).map fun n => showPath ⟨p.absolute, p.parts ++ [n]⟩

/-- `get_all_files_with_ext` (filesystem.py:90-102, local_filesystem.py:30-45). -/
def withExt (d : Disk) (s ext : PyStr) : Except Err (List PyStr) := do
  fromPath s
  match d (toPath s) with
  | none => .error .runtimeError
  | some node => .ok (glob (toPath s) ext node)

/-- `get_all_files_with_exts` (filesystem.py:104-117). -/
def withExts (d : Disk) (s : PyStr) : List PyStr → Except Err (List PyStr)
  | [] => .ok []
  | e :: es => do
    let l ← withExt d s e
    let ls ← withExts d s es
    return l ++ ls

/-- The dataset types. -/
inductive Kind | jsonl | web | parquet | croissant
deriving DecidableEq

/-- The extensions of jsonl_dataset.py:28. -/
def jsonlExts : List PyStr :=
  ["jsonl".toList, "jsonl.gz".toList, "jsonl.zst".toList, "jsonl.xz".toList, "jsonl.bz2".toList, "jsonl.z".toList]

/-- The test of a single file (jsonl_dataset.py:19-23, parquet_dataset.py:18-22); the web dataset has none. `open` raises
for a directory, and the callers ask for files only. -/
def validFile (k : Kind) (d : Disk) (s : PyStr) : Bool :=
  match k, d (toPath s) with
  | .jsonl, some (.file j _) => j
  | .parquet, some (.file _ p) => p
  | .web, _ => true
  | _, _ => false

/-- `JSONLDataset.iterate_files` (jsonl_dataset.py:17-29): after a single file the search goes on, and finds nothing. -/
def iterateJsonl (d : Disk) (s : PyStr) : Except Err (List PyStr) := do
  let first ← if ← isDir d s then .ok [] else if validFile .jsonl d s then .ok [s] else .error .runtimeError
  let rest ← withExts d s jsonlExts
  return first ++ rest

/-- `WebDataset.iterate_files` (web_dataset.py:16-23). -/
def iterateWeb (d : Disk) (s : PyStr) : Except Err (List PyStr) := do
  let first ← if ← isDir d s then .ok [] else if validFile .web d s then .ok [s] else .error .runtimeError
  let rest ← withExt d s "tar".toList
  return first ++ rest

/-- `ParquetDataset.iterate_files` (parquet_dataset.py:16-25). -/
def iterateParquet (d : Disk) (s : PyStr) : Except Err (List PyStr) := do
  if ← isDir d s then withExt d s "parquet".toList
  else if validFile .parquet d s then .ok [s] else .error .runtimeError

/-- `iterate_files`; the Croissant dataset is not implemented (croissant_dataset.py:19-20). -/
def iterateFiles : Kind → Disk → PyStr → Except Err (List PyStr)
  | .jsonl, d, s => iterateJsonl d s
  | .web, d, s => iterateWeb d s
  | .parquet, d, s => iterateParquet d s
  | .croissant, _, _ => .error .notImplemented

end Mixtera.Files
