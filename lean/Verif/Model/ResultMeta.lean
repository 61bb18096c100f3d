import Verif.Model.QueryEval
import Verif.Model.Parser
import Verif.Model.Datasets

/-!
# From the tables to the text of a sample

Models what connects the rows of the database with the contents of files: the metadata of a query result
(/repo/mixtera/core/query/query_result.py:145-156 and the lookups in
/repo/mixtera/core/datacollection/mixtera_data_collection.py:457-502), the dataset classes
(/repo/mixtera/core/datacollection/datasets/dataset.py:14-46), parsing a file at registration
(mixtera_data_collection.py:23-32) and reading the ranges of a chunk (/repo/mixtera/core/query/result_chunk.py:350-359).
-/

namespace Mixtera

/-- The dataset classes (dataset_type.py:4-9; there is no class for Croissant datasets). -/
inductive DsClass | generic | jsonl | web | parquet
  deriving DecidableEq

/-- `dtype.type.value` (dataset_type.py:4-9, mixtera_data_collection.py:216). -/
def DsClass.typeId : DsClass → Nat
  | .generic => 0
  | .jsonl => 1
  | .web => 3
  | .parquet => 4

/-- `Dataset.from_type_id` (dataset.py:14-46). -/
def fromTypeId : Nat → Except Err DsClass
  | 0 => .ok .generic
  | 1 => .ok .jsonl
  | 2 => .error .notImplemented
  | 3 => .ok .web
  | 4 => .ok .parquet
  | _ => .error .runtimeError

/-- `_get_dataset_type_by_id` (mixtera_data_collection.py:471-488). -/
def Db.typeById (db : Db) (did : Nat) : Except Err DsClass :=
  match db.datasets.find? fun d => d.id == did with
  | none => .error .runtimeError
  | some d => fromTypeId d.dtype

/-- `_get_dataset_func_by_id` (mixtera_data_collection.py:457-469); dill is the identity. -/
def Db.funcById (db : Db) (did : Nat) : Except Err PyStr :=
  match db.datasets.find? fun d => d.id == did with
  | none => .error .runtimeError
  | some d => .ok d.func

/-- `_get_file_path_by_id` (mixtera_data_collection.py:490-502). -/
def Db.pathById (db : Db) (fid : Nat) : Except Err PyStr :=
  match db.files.find? fun f => f.id == fid with
  | none => .error .runtimeError
  | some f => .ok f.loc

/-- A dictionary comprehension `{x: get(x) for x in ids}`. -/
def lookupAll {α : Type} (get : Nat → Except Err α) : List Nat → Except Err (Dict Nat α)
  | [] => .ok []
  | i :: ids =>
    match get i with
    | .error e => .error e
    | .ok a => match lookupAll get ids with
      | .error e => .error e
      | .ok d => .ok ((i, a) :: d)

/-- `QueryResult._meta` (query_result.py:151-156). -/
structure ResultMeta where
  dtype : Dict Nat DsClass
  func : Dict Nat PyStr
  path : Dict Nat PyStr
  length : Nat

/-- `_parse_meta` (query_result.py:145-156). `enum` is the order in which a set of ids is iterated. -/
def parseMeta (enum : List Nat → List Nat) (db : Db) (table : List TRow) : Except Err ResultMeta :=
  match lookupAll db.typeById (enum (table.map TRow.ds).dedup) with
  | .error e => .error e
  | .ok ts => match lookupAll db.funcById (enum (table.map TRow.ds).dedup) with
    | .error e => .error e
    | .ok fs => match lookupAll db.pathById (enum (table.map TRow.file).dedup) with
      | .error e => .error e
      | .ok ps => .ok ⟨ts, fs, ps, table.length⟩

/-- The files, and what the libraries make of a file: its lines, the samples of a tar file, the row groups of a Parquet file.
`iterBatches` is how `iter_batches` cuts the rows of a file, `toBatches` how a slice of a table is cut. -/
structure FileWorld (β ρ : Type) where
  content : PyStr → β
  lines : β → List ρ
  tar : β → List ρ
  groups : β → List (List ρ)
  iterBatches : List (List ρ) → List (List ρ)
  toBatches : List ρ → List (List ρ)

variable {β ρ α : Type}

/-- A metadata parser class: `get_properties`, and what its `parse` passes to `add_metadata` (metadata_parser.py:40-60). -/
structure ParserClass (ρ : Type) where
  props : List (Meta.MProp PyStr)
  extract : Nat → ρ → Except Err (Dict PyStr (Meta.MVal PyStr))

/-- `inform_metadata_parser` of the classes (jsonl_dataset.py:31-35, web_dataset.py:25-32, parquet_dataset.py:28-36,
dataset.py:48-60). -/
def informFile (w : FileWorld β ρ) (p : ParserClass ρ) (schema : Dict PyStr (Meta.MProp PyStr)) (loc : PyStr) :
    DsClass → Except Err (List (Meta.Record PyStr))
  | .generic => .error .notImplemented
  | .jsonl => Meta.inform schema p.extract (w.lines (w.content loc))
  | .web => Meta.inform schema p.extract (w.tar (w.content loc))
  | .parquet => Meta.informBatches schema p.extract 0 (w.iterBatches (w.groups (w.content loc)))

/-- A property value as a cell of the Arrow table (mixtera_data_collection.py:340, 358-361). -/
def cellOf : Meta.MVal PyStr → Cell
  | .null => .null
  | .one v => .str v
  | .many l => .list (l.map some)

/-- The cell of a field. The number of the sample is not a property value (NULL here); it is never asked for. -/
def fieldCell : Meta.Field PyStr → Cell
  | .num _ => .null
  | .val v => cellOf v

/-- A metadata record as `_insert_samples_with_metadata` reads it (mixtera_data_collection.py:335-341): `sample["sample_id"]`
has to be a number, as the column is one (line 353). -/
def parsedOf (r : Meta.Record PyStr) : Except Err ParsedSample :=
  match r.get? Meta.sampleId with
  | some (.num n) => .ok (n, r.map fun kv => (kv.1, fieldCell kv.2))
  | some (.val _) => .error .typeError
  | none => .error .keyError

/-- `process_file_for_metadata` (mixtera_data_collection.py:23-32): a new parser, and its records. -/
def processFile (w : FileWorld β ρ) (p : ParserClass ρ) (c : DsClass) (loc : PyStr) : Except Err (List ParsedSample) :=
  match Meta.newParser p.props with
  | .error e => .error e
  | .ok schema => match informFile w p schema loc c with
    | .error e => .error e
    | .ok rs => rs.mapM parsedOf

/-- A call `register_dataset(name, loc, cls, func, parser)` (mixtera_data_collection.py:144-151) with one of the classes of
Mixtera; `files` is what `iterate_files(loc)` yields, `parser` is `none` if the name of the parser is not registered. -/
structure RegCall (ρ : Type) where
  name : PyStr
  loc : PyStr
  cls : DsClass
  func : PyStr
  files : List PyStr
  parser : Option (ParserClass ρ)

/-- What `register_dataset` works with (mixtera_data_collection.py:153-202, 204-216). -/
def RegCall.args (w : FileWorld β ρ) (k : RegCall ρ) : RegArgs where
  name := k.name
  loc := k.loc
  validType := decide (k.cls.typeId ≠ 0)
  dtype := k.cls.typeId
  func := k.func
  files := k.files
  props := k.parser.map fun p => p.props.map fun q => (q.name, q.multiple)
  parse := fun f => match k.parser with
    | none => .error .keyError
    | some p => processFile w p k.cls f

/-- `read_ranges_from_files` for one file (jsonl_dataset.py:37-44, web_dataset.py:34-41, parquet_dataset.py:38-45,
dataset.py:62-82). `parse` is the parsing function. -/
def readFile (w : FileWorld β ρ) (parse : ρ → α) (loc : PyStr) (ranges : List (Nat × Nat)) : DsClass → Yields α
  | .generic => ([], some .notImplemented)
  | .jsonl => jsonlReadFile parse (w.lines (w.content loc)) ranges
  | .web => webReadFile parse (w.tar (w.content loc)) ranges
  | .parquet => (parquetRead parse w.toBatches (w.groups (w.content loc)) ranges, none)

/-- One turn of `_get_iterator_for_workload_st` (result_chunk.py:355-359); `apply` is what a parsing function does. A missing
id is a `KeyError`. -/
def readItem (w : FileWorld β ρ) (apply : PyStr → ρ → α) (m : ResultMeta) (did fid : Nat) (ranges : List (Nat × Nat)) :
    Yields α :=
  match m.path.get? fid, m.dtype.get? did, m.func.get? did with
  | some loc, some c, some func => readFile w (apply func) loc ranges c
  | _, _, _ => ([], some .keyError)

/-- `Query.execute` (query.py:73-163) and the parts of `QueryResult.__init__` that depend on the database
(query_result.py:65-70): the index, then the metadata. -/
def queryResult {K : Type} [DecidableEq K] (leG : Group → Group → Bool) (split : List TRow → List (List TRow))
    (reorder : CppIndex → CppIndex) (mk : PyStr → K) (threads : Int) (enum : List Nat → List Nat) (db : Db) (q : Sel) :
    Except Err (Dict K Entries × ResultMeta) :=
  match baseData db q db.samples with
  | .error e => .error e
  | .ok base => match createChunkerIndex reorder mk (split ((queryIntervals leG base).map rowOf)) threads with
    | .error e => .error e
    | .ok idx => match parseMeta enum db ((queryIntervals leG base).map rowOf) with
      | .error e => .error e
      | .ok m => .ok (idx, m)

end Mixtera
