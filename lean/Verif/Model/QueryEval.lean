import Verif.Model.Database
import Verif.Model.Select
import Verif.Model.Intervals
import Verif.Model.Chunker

/-!
# Executing a query

Models how `Query.execute` (/repo/mixtera/core/query/query.py:73-163) and `QueryResult.__init__`
(/repo/mixtera/core/query/query_result.py:65, 158-183) go from the database to the chunker index: read the schema, generate
the statement, select, group into intervals, and build the index from the Arrow table.
-/

namespace Mixtera

/-- The group columns of a selected sample: `dataset_id`, `file_id` and the property columns (query.py:115-118). -/
abbrev Group := Nat × Nat × List (PyStr × Cell)

/-- A row of the query result as the chunker sees it (query.py:143-149, chunker.cpp:94-119). -/
def rowOf (r : IvRow Group) : TRow := ⟨r.g.2.2, r.g.1, r.g.2.1, r.start, r.stop⟩

/-- A row of the table `samples` as SQL sees it: columns that the row's parser did not fill are NULL
(mixtera_data_collection.py:108-116). -/
def SampleRow.sqlRow (r : SampleRow) : SRow := fun name => (Dict.get? r.cells name).getD .null

/-- `sorted([col for col in columns if col not in ["sample_id", "dataset_id", "file_id"]])` (query.py:116-118). -/
def groupCols (db : Db) : List PyStr := sortBy (fun a b => decide (a ≤ b)) db.columns.keys

/-- The group of a row (query.py:116-121). -/
def SampleRow.group (cols : List PyStr) (r : SampleRow) : Group :=
  (r.dataset, r.file, cols.map fun c => (c, r.sqlRow c))

/-- The CTE `base_data` (query.py:104-105, 125-127): the rows the generated statement selects, with their group. The
statement either runs on all rows or is rejected. -/
def baseData (db : Db) (q : Sel) : List SampleRow → Except Err (List (Group × Nat))
  | [] => .ok []
  | r :: l =>
    match selectRow db.columns q r.sqlRow with
    | none => .error .runtimeError
    | some b => (baseData db q l).map fun rest => if b then (r.group (groupCols db), r.sample) :: rest else rest

/-- `Query.execute` followed by `create_chunker_index` (query.py:73-163, query_result.py:65, 158-183): `leG` is DuckDB's
order on the group columns, `split` how DuckDB cuts the result into Arrow batches, `threads` the number of threads of
the chunker extension and `reorder` the iteration order of its hash maps. -/
def queryIndex {K : Type} [DecidableEq K] (leG : Group → Group → Bool) (split : List TRow → List (List TRow))
    (reorder : CppIndex → CppIndex) (mk : PyStr → K) (threads : Int) (db : Db) (q : Sel) : Except Err (Dict K Entries) := do
  let base ← baseData db q db.samples
  createChunkerIndex reorder mk (split ((queryIntervals leG base).map rowOf)) threads

end Mixtera
