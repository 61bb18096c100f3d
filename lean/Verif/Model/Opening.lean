import Verif.Model.Database

/-!
# Opening a directory

Models how a data collection is opened (/repo/mixtera/core/datacollection/mixtera_data_collection.py:36-142), and the
operations of `Verif/Model/Database.lean` on a database file of which only some tables exist.  `_init_database` creates
the tables one statement after the other, and every statement is committed by itself; the tables are created only if the
file does not exist yet.  Not modelled: settings and vacuuming (lines 55-73, 123-126, which change no table), the other
directories (`mkdir(exist_ok=True)`), the file lock DuckDB holds (one process at a time has the directory open).
-/

namespace Mixtera.Opening

variable {α : Type}

/-- The file `mixtera.duckdb`. `stage` is the number of statements of `_init_database`
(mixtera_data_collection.py:82-121) that have been committed: 1 `seq_dataset_id`, 2 `datasets`, 3 `seq_file_id`, 4 `files`,
5 `seq_sample_id`, 6 `samples`, 7 `version`, 8 the row of `version`. -/
structure DbFile where
  stage : Nat
  data : Db
deriving DecidableEq

/-- What is on disk: whether the directory exists, and the file in it. -/
structure Dir where
  found : Bool := true
  file : Option DbFile := none
deriving DecidableEq

/-! ## Opening -/

/-- One statement of `_init_database` (mixtera_data_collection.py:89-118), the one with number `i + 1`.  `CREATE SEQUENCE`
(`i` = 0, 2, 4) and the insertion of the version (`i` = 7) raise if they have been executed before; `CREATE TABLE IF NOT
EXISTS` does nothing then. -/
def createStmt (i : Nat) : Prog Dir Unit :=
  .stmt (fun d => { d with
      file := d.file.map fun f => if f.stage = i then { f with stage := i + 1 } else f })
    fun d => match d.file with
      | none => .ret (.error .runtimeError)
      | some f => if f.stage = i ∨ i = 1 ∨ i = 3 ∨ i = 5 ∨ i = 6 then .ret (.ok ()) else .ret (.error .runtimeError)

/-- `duckdb.connect` (mixtera_data_collection.py:78, 86): creates the file if there is none. -/
def connect : Prog Dir Unit :=
  Prog.exec (fun d => { d with file := some (d.file.getD ⟨0, {}⟩) }) fun _ => ()

/-- `_init_database` (mixtera_data_collection.py:82-121). -/
def initDatabase : Prog Dir Unit := do
  connect
  Prog.forEach createStmt (List.range 8)

/-- `MixteraDataCollection.__init__` (mixtera_data_collection.py:36-53) with `_load_db_from_disk` (lines 75-80). -/
def openDir : Prog Dir Unit := do
  if ← Prog.exec id Dir.found then
    if ← Prog.exec id fun d => d.file.isSome then connect else initDatabase
  else Prog.raise .runtimeError

/-! ## The operations on an opened file -/

/-- A SQL statement that needs the objects created by the first `n` statements of `_init_database`; `none` stands for
the `duckdb.Error` it raises if they are missing. -/
def sql (n : Nat) (f : Db → Db) (g : Db → α) : Prog DbFile (Option α) :=
  .stmt (fun s => if n ≤ s.stage then { s with data := f s.data } else s)
    fun s => .ret (.ok (if n ≤ s.stage then some (g s.data) else none))

/-- The `duckdb.Error` is not caught. -/
def orRaise (p : Prog DbFile (Option α)) : Prog DbFile α :=
  p.bind fun r => match r with
    | none => .ret (.error .runtimeError)
    | some a => .ret (.ok a)

/-- `get_db_version` (mixtera_data_collection.py:128-134): a missing table is a `duckdb.Error` (`none`), a missing row an
`AssertionError`. -/
def getVersion : Prog DbFile (Option Nat) :=
  .stmt id fun s =>
    if 8 ≤ s.stage then .ret (.ok (some s.data.version))
    else if 7 ≤ s.stage then .ret (.error .assertion) else .ret (.ok none)

/-- `_db_incr_version` (mixtera_data_collection.py:136-142). -/
def incrVersionF : Prog DbFile (Option Unit) :=
  getVersion.bind fun r => match r with
    | none => .ret (.ok none)
    | some v => sql 7 (fun db => { db with version := v + 1 }) fun _ => ()

/-- `_insert_dataset_into_table` (mixtera_data_collection.py:204-247): a `duckdb.Error`, also one from incrementing the
version, is caught; `none` for `-1`. -/
def insertDatasetF (a : RegArgs) : Prog DbFile (Option Nat) :=
  if a.validType then
    (sql 2 (insertDatasetStmt a) fun db => if db.hasName a.name then none else some db.nextDataset).bind fun r =>
      match r with
      | none => .ret (.ok none)
      | some none => .ret (.ok none)
      | some (some did) => incrVersionF.bind fun v => match v with
        | none => .ret (.ok none)
        | some _ => .ret (.ok (some did))
  else .ret (.ok none)

/-- `_add_columns_to_samples_table` (mixtera_data_collection.py:281-319). -/
def addColumnsF (props : List (PyStr × Bool)) : Prog DbFile Unit :=
  (orRaise (sql 6 id fun db => props.filter fun p => !(db.columns.has p.1))).bind fun missing =>
    Prog.forEach (fun p => orRaise (sql 6 (fun db => { db with columns := db.columns ++ [p] }) fun _ => ())) missing

/-- `_insert_files_into_table` (mixtera_data_collection.py:249-279): a `duckdb.Error` of the insertion is caught. -/
def insertFilesF (did : Nat) (locs : List PyStr) : Prog DbFile (List Nat) :=
  (sql 4
      (fun db => if db.hasDataset did then
        { db with files := db.files ++ newFiles did db.nextFile locs, nextFile := db.nextFile + locs.length } else db)
      (fun db => if db.hasDataset did then some (fileIds (newFiles did db.nextFile locs) locs) else none)).bind fun r =>
    match r with
    | none => .ret (.ok [])
    | some none => .ret (.ok [])
    | some (some ids) => (orRaise incrVersionF).bind fun _ => .ret (.ok ids)

/-- `_insert_samples_with_metadata` (mixtera_data_collection.py:321-381). -/
def insertSamplesF (rows : List SampleRow) : Prog DbFile Unit :=
  (orRaise (sql 6 (fun db => if keysFree db rows then { db with samples := db.samples ++ rows } else db)
    fun db => keysFree db rows)).bind fun ok => if ok then .ret (.ok ()) else .ret (.error .runtimeError)

/-- One iteration of the loop over the slices (mixtera_data_collection.py:190-195). -/
def registerBatchF (a : RegArgs) (did : Nat) (props : List (PyStr × Bool)) (tasks : List (Nat × PyStr)) :
    Prog DbFile Unit :=
  match parseBatch a did props tasks with
  | .error e => .ret (.error e)
  | .ok rows => insertSamplesF rows

/-- `register_dataset` (mixtera_data_collection.py:144-202). -/
def registerF (a : RegArgs) : Prog DbFile Bool :=
  (insertDatasetF a).bind fun r => match r with
    | none => .ret (.ok false)
    | some did =>
      if a.files.isEmpty then .ret (.ok false)
      else match a.props with
        | none => .ret (.error .keyError)
        | some props => (addColumnsF props).bind fun _ => (insertFilesF did a.files).bind fun ids =>
          if ids.isEmpty || ids.length != a.files.length then .ret (.ok false)
          else (Prog.forEach (registerBatchF a did props) (slices 2000 a.files.length (ids.zip a.files))).bind fun _ =>
            (orRaise incrVersionF).bind fun _ => .ret (.ok true)

/-- `check_dataset_exists` (mixtera_data_collection.py:383-397). -/
def checkF (n : PyStr) : Prog DbFile Bool :=
  (sql 2 id fun db => db.hasName n).bind fun r => .ret (.ok (r.getD false))

/-- `list_datasets` (mixtera_data_collection.py:399-408). -/
def listF : Prog DbFile (List PyStr) :=
  (sql 2 id fun db => db.datasets.map DatasetRow.name).bind fun r => .ret (.ok (r.getD []))

/-- `remove_dataset` (mixtera_data_collection.py:410-441): every `duckdb.Error` is caught. -/
def removeF (n : PyStr) : Prog DbFile Bool :=
  (checkF n).bind fun there =>
    if there then
      (sql 6 (fun db => { db with samples := db.samples.filter fun s => !((db.idsOf n).contains s.dataset) })
          fun _ => ()).bind fun r => match r with
      | none => .ret (.ok false)
      | some _ =>
        (sql 4 (fun db => { db with files := db.files.filter fun f => !((db.idsOf n).contains f.dataset) })
            fun _ => ()).bind fun r => match r with
        | none => .ret (.ok false)
        | some _ =>
          (sql 2
            (fun db => if db.files.any (fun f => (db.idsOf n).contains f.dataset) then db
              else { db with datasets := db.datasets.filter fun d => d.name != n })
            (fun db => !(db.files.any fun f => (db.idsOf n).contains f.dataset))).bind fun r => match r with
          | none => .ret (.ok false)
          | some ok => if ok then
              incrVersionF.bind fun v => match v with
                | none => .ret (.ok false)
                | some _ => .ret (.ok true)
            else .ret (.ok false)
    else .ret (.ok false)

/-- `LocalStub.execute_query` (/repo/mixtera/core/client/local/local_stub.py:72-97) of a query that is not in the cache, as
far as the database is concerned: `PRAGMA table_info('samples')` and the query itself
(/repo/mixtera/core/query/query.py:85-111), whose result is the parameter `eval`, and then the version for the cache
(/repo/mixtera/core/query/query_cache.py:45).  No exception is caught. -/
def queryF (eval : Db → Except Err α) : Prog DbFile α :=
  (orRaise (sql 6 id eval)).bind fun r => match r with
    | .error e => .ret (.error e)
    | .ok a => (orRaise getVersion).bind fun _ => .ret (.ok a)

end Mixtera.Opening
