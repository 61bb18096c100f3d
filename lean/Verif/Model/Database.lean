import Verif.Model.Chunker
import Verif.Model.Dict

/-!
# The data collection's database

Models /repo/mixtera/core/datacollection/mixtera_data_collection.py: registering and removing datasets, and the version
counter.  Every SQL statement is one atomic step (the connection is in auto-commit mode: no transaction is ever opened,
so `commit()` does nothing), and an operation is the program of its statements; a crash can hit between any two
statements.  DuckDB itself and the parsing pool are not modelled; column types (`ENUM` checks and casts)
are in `Verif/Model/ColumnTypes.lean`.
-/

namespace Mixtera

/-- A program over a shared state: `stmt f k` atomically replaces the state `s` by `f s` and goes on with `k s`
(a statement's result depends on the state it ran in).  `ret` is the outcome: a value or a raised exception. -/
inductive Prog (σ : Type) (α : Type) where
  | ret (r : Except Err α)
  | stmt (f : σ → σ) (k : σ → Prog σ α)

namespace Prog

variable {σ α β : Type}

/-- Sequencing; an exception ends the program. -/
def bind : Prog σ α → (α → Prog σ β) → Prog σ β
  | .ret (.ok a), g => g a
  | .ret (.error e), _ => .ret (.error e)
  | .stmt f k, g => .stmt f fun s => (k s).bind g

instance : Monad (Prog σ) where
  pure a := .ret (.ok a)
  bind := bind

/-- `raise` -/
def raise (e : Err) : Prog σ α := .ret (.error e)

/-- A statement that changes the state and returns something computed from the state it ran in. -/
def exec (f : σ → σ) (g : σ → α) : Prog σ α := .stmt f fun s => .ret (.ok (g s))

/-- A `for` loop. -/
def forEach (g : β → Prog σ Unit) : List β → Prog σ Unit
  | [] => .ret (.ok ())
  | b :: l => (g b).bind fun _ => forEach g l

/-- The program run alone: the final state and the outcome. -/
def run : Prog σ α → σ → σ × Except Err α
  | .ret r, s => (s, r)
  | .stmt f k, s => (k s).run (f s)

/-- The states the program goes through when run alone: what a crash can leave behind. -/
def states : Prog σ α → σ → List σ
  | .ret _, s => [s]
  | .stmt f k, s => s :: (k s).states (f s)

end Prog

/-- A row of the table `datasets` (mixtera_data_collection.py:89-96). -/
structure DatasetRow where
  id : Nat
  name : PyStr
  loc : PyStr
  dtype : Nat
  func : PyStr
deriving DecidableEq

/-- A row of the table `files` (mixtera_data_collection.py:98-106). -/
structure FileRow where
  id : Nat
  dataset : Nat
  loc : PyStr
deriving DecidableEq

/-- A row of the table `samples` (mixtera_data_collection.py:108-116); `cells` are the property columns of the
dataset's parser, all other columns are NULL. -/
structure SampleRow where
  dataset : Nat
  file : Nat
  sample : Nat
  cells : List (PyStr × Cell)
deriving DecidableEq

/-- The primary key of a sample row. -/
def SampleRow.key (r : SampleRow) : Nat × Nat × Nat := (r.dataset, r.file, r.sample)

/-- The database. `columns` are the property columns of `samples` and whether they hold lists. -/
structure Db where
  datasets : List DatasetRow := []
  files : List FileRow := []
  samples : List SampleRow := []
  columns : Dict PyStr Bool := []
  nextDataset : Nat := 1
  nextFile : Nat := 1
  version : Nat := 1
deriving DecidableEq

/-- A sample as the metadata parser returns it: its id and the values. -/
abbrev ParsedSample := Nat × Dict PyStr Cell

/-- The arguments of `register_dataset`. `validType` is the outcome of the checks on the dataset type, `files` what
`dtype.iterate_files(loc)` yields, `props` the properties of the metadata parser (`none` if the parser is unknown) and
`parse` the metadata of one file (the parser may raise). -/
structure RegArgs where
  name : PyStr
  loc : PyStr
  validType : Bool
  dtype : Nat
  func : PyStr
  files : List PyStr
  props : Option (List (PyStr × Bool))
  parse : PyStr → Except Err (List ParsedSample)

/-- `_db_incr_version` (mixtera_data_collection.py:136-142): a read and a write. -/
def incrVersion : Prog Db Unit := do
  let v ← Prog.exec id Db.version
  Prog.exec (fun db => { db with version := v + 1 }) fun _ => ()

/-- Is a dataset of this name in the table? -/
def Db.hasName (db : Db) (n : PyStr) : Bool := db.datasets.any fun d => d.name == n

/-- The `INSERT INTO datasets` statement (mixtera_data_collection.py:226-230); the name is UNIQUE. The sequence
advances even if the insertion fails. -/
def insertDatasetStmt (a : RegArgs) (db : Db) : Db :=
  if db.hasName a.name then { db with nextDataset := db.nextDataset + 1 }
  else { db with
    datasets := db.datasets ++ [⟨db.nextDataset, a.name, a.loc, a.dtype, a.func⟩]
    nextDataset := db.nextDataset + 1 }

/-- `_insert_dataset_into_table` (mixtera_data_collection.py:204-247): the new id, or `none` for `-1`. -/
def insertDataset (a : RegArgs) : Prog Db (Option Nat) :=
  if a.validType then do
    match ← Prog.exec (insertDatasetStmt a) (fun db => if db.hasName a.name then none else some db.nextDataset) with
    | none => pure none
    | some did => do incrVersion; pure (some did)
  else pure none

/-- `_add_columns_to_samples_table` (mixtera_data_collection.py:281-319): one `ALTER TABLE` per missing column, the
missing columns being determined beforehand. -/
def addColumns (props : List (PyStr × Bool)) : Prog Db Unit := do
  let missing ← Prog.exec id fun db => props.filter fun p => !(db.columns.has p.1)
  Prog.forEach (fun p => Prog.exec (fun db => { db with columns := db.columns ++ [p] }) fun _ => ()) missing

/-- The rows `INSERT INTO files` adds (mixtera_data_collection.py:250-263). -/
def newFiles (did next : Nat) : List PyStr → List FileRow
  | [] => []
  | l :: ls => ⟨next, did, l⟩ :: newFiles did (next + 1) ls

/-- `id_map[str(loc)]` for every location (mixtera_data_collection.py:265-269). -/
def fileIds (rows : List FileRow) (locs : List PyStr) : List Nat :=
  let idMap : Dict PyStr Nat := rows.foldl (fun m r => Dict.set m r.loc r.id) []
  locs.filterMap fun l => idMap.get? l

/-- Does the dataset exist? (the foreign key of `files`) -/
def Db.hasDataset (db : Db) (did : Nat) : Bool := db.datasets.any fun d => d.id == did

/-- `_insert_files_into_table` (mixtera_data_collection.py:249-279); no ids if the foreign key is violated. -/
def insertFiles (did : Nat) (locs : List PyStr) : Prog Db (List Nat) := do
  match ← Prog.exec
      (fun db => if db.hasDataset did then
        { db with files := db.files ++ newFiles did db.nextFile locs, nextFile := db.nextFile + locs.length } else db)
      (fun db => if db.hasDataset did then some (fileIds (newFiles did db.nextFile locs) locs) else none) with
  | none => pure []
  | some ids => do incrVersion; pure ids

/-- The rows of one file's samples (mixtera_data_collection.py:328-341): the parser's properties in sorted order. -/
def sampleRows (did : Nat) (props : List (PyStr × Bool)) (fid : Nat) (l : List ParsedSample) : List SampleRow :=
  l.map fun s => ⟨did, fid, s.1, (sortStr (props.map Prod.fst)).map fun p => (p, (s.2.get? p).getD .null)⟩

/-- The primary key constraint for a batch of new rows. -/
def keysFree (db : Db) (rows : List SampleRow) : Bool :=
  decide ((rows.map SampleRow.key).Nodup) && rows.all fun r => db.samples.all fun s => s.key != r.key

/-- `_insert_samples_with_metadata` (mixtera_data_collection.py:321-381): one INSERT; raises on a duplicate key. -/
def insertSamples (rows : List SampleRow) : Prog Db Unit :=
  .stmt (fun db => if keysFree db rows then { db with samples := db.samples ++ rows } else db)
    fun db => if keysFree db rows then .ret (.ok ()) else .ret (.error .runtimeError)

/-- `pool.map(process_file_for_metadata, chunk)` and the rows built from it
(mixtera_data_collection.py:23-32, 191-195). -/
def parseBatch (a : RegArgs) (did : Nat) (props : List (PyStr × Bool)) (tasks : List (Nat × PyStr)) :
    Except Err (List SampleRow) :=
  (tasks.mapM fun t => (a.parse t.2).map fun l => sampleRows did props t.1 l).map List.flatten

/-- The tasks in slices of `n` (mixtera_data_collection.py:183, 190-191, `chunk_size = 2000`). -/
def slices (n : Nat) : Nat → List α → List (List α)
  | 0, _ => []
  | k + 1, l => if l.isEmpty then [] else l.take n :: slices n k (l.drop n)

/-- One iteration of the loop over the slices (mixtera_data_collection.py:190-195). -/
def registerBatch (a : RegArgs) (did : Nat) (props : List (PyStr × Bool)) (tasks : List (Nat × PyStr)) : Prog Db Unit :=
  match parseBatch a did props tasks with
  | .error e => Prog.raise e
  | .ok rows => insertSamples rows

/-- `register_dataset` (mixtera_data_collection.py:144-202). -/
def registerDataset (a : RegArgs) : Prog Db Bool := do
  match ← insertDataset a with
  | none => pure false
  | some did =>
    if a.files.isEmpty then pure false
    else
      match a.props with
      | none => Prog.raise .keyError
      | some props => do
        addColumns props
        let ids ← insertFiles did a.files
        if ids.isEmpty || ids.length != a.files.length then pure false
        else do
          Prog.forEach (registerBatch a did props) (slices 2000 a.files.length (ids.zip a.files))
          incrVersion
          pure true

/-- The ids the sub-select `SELECT id FROM datasets WHERE name = ?` returns. -/
def Db.idsOf (db : Db) (n : PyStr) : List Nat := (db.datasets.filter fun d => d.name == n).map DatasetRow.id

/-- `remove_dataset` (mixtera_data_collection.py:410-441). The last DELETE violates the foreign key if files still
refer to the dataset. -/
def removeDataset (n : PyStr) : Prog Db Bool := do
  if ← Prog.exec id (fun db => db.hasName n) then
    Prog.exec (fun db => { db with samples := db.samples.filter fun s => !((db.idsOf n).contains s.dataset) }) fun _ => ()
    Prog.exec (fun db => { db with files := db.files.filter fun f => !((db.idsOf n).contains f.dataset) }) fun _ => ()
    let ok ← Prog.exec
      (fun db => if db.files.any (fun f => (db.idsOf n).contains f.dataset) then db
        else { db with datasets := db.datasets.filter fun d => d.name != n })
      (fun db => !(db.files.any fun f => (db.idsOf n).contains f.dataset))
    if ok then do incrVersion; pure true else pure false
  else pure false

end Mixtera
