import Verif.Model.Database

/-! # What the tables of the data collection mean -/

namespace Mixtera

/-- Everything a user sees of the dataset called `n`: its row, its files and its samples. -/
structure DatasetView where
  rows : List DatasetRow
  files : List FileRow
  samples : List SampleRow

/-- The view of dataset `n`. -/
def Db.view (db : Db) (n : PyStr) : DatasetView where
  rows := db.datasets.filter fun d => d.name == n
  files := db.files.filter fun f => (db.idsOf n).contains f.dataset
  samples := db.samples.filter fun s => (db.idsOf n).contains s.dataset

/-- The tables' constraints, and ids below their sequences. -/
structure Db.WF (db : Db) : Prop where
  /-- UNIQUE(name) -/
  names : (db.datasets.map DatasetRow.name).Nodup
  /-- PRIMARY KEY(id) -/
  ids : (db.datasets.map DatasetRow.id).Nodup
  idsLt : ∀ d ∈ db.datasets, d.id < db.nextDataset
  /-- PRIMARY KEY(id) of files -/
  fileIds : (db.files.map FileRow.id).Nodup
  fileIdsLt : ∀ f ∈ db.files, f.id < db.nextFile
  /-- the foreign key of files -/
  fileDs : ∀ f ∈ db.files, ∃ d ∈ db.datasets, d.id = f.dataset
  /-- PRIMARY KEY of samples -/
  keys : (db.samples.map SampleRow.key).Nodup
  /-- samples only carry dataset ids that have been handed out -/
  sampleDs : ∀ s ∈ db.samples, s.dataset < db.nextDataset

/-- Several programs over a shared state, run statement by statement in the order given by a schedule of thread
numbers; finished or unknown threads do nothing. -/
def interleave {σ α : Type} : List Nat → List (Prog σ α) → σ → List (Prog σ α) × σ
  | [], ps, s => (ps, s)
  | t :: sched, ps, s =>
    match ps[t]? with
    | some (.stmt f k) => interleave sched (ps.set t (k s)) (f s)
    | _ => interleave sched ps s

/-- An operation on the data collection. -/
inductive DbOp where
  | register (a : RegArgs)
  | remove (n : PyStr)

/-- The dataset an operation is about. -/
def DbOp.name : DbOp → PyStr
  | .register a => a.name
  | .remove n => n

/-- The program of an operation. -/
def DbOp.prog : DbOp → Prog Db Bool
  | .register a => registerDataset a
  | .remove n => removeDataset n

end Mixtera
