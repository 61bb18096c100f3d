import Verif.Model.Dict

/-!
# Calculating properties

Models /repo/mixtera/core/processing/property_calculation/{executor,local_executor}.py and `add_property` of
/repo/mixtera/core/datacollection/mixtera_data_collection.py:504-591.

The user's `calc_func` gets the executor, on which it may keep state, and a batch; here it is a function from a state and
a batch to a new state and its predictions or an exception. Not modelled: numpy (arrays are lists), the progress bar, Ray
(a file of comments).
-/

namespace Mixtera.Calc

/-- The exceptions of this layer; `user` is one raised by the user's functions. -/
inductive CalcErr | runtime | notImplemented | attribute | user
  deriving DecidableEq, Repr

/-- One entry of a batch: `data`, `file_id`, `dataset_id`, `line_id` (local_executor.py:45-48). -/
structure Item (γ : Type) where
  data : γ
  file : Nat
  dataset : Nat
  line : Nat
deriving DecidableEq

/-- What is known of a file: its id, the id of its data set, whether the data set is a `JSONLDataset`, and its lines
(`none` if it does not exist). -/
structure CalcFile (γ : Type) where
  file : Nat
  dataset : Nat
  jsonl : Bool
  lines : Option (List γ)

/-- One result (local_executor.py:84-89). -/
structure Result (ρ : Type) where
  dataset : Nat
  file : Nat
  sample : Nat
  value : ρ
deriving DecidableEq

variable {γ ρ S : Type}

/-- `ExecutionMode` (execution_mode.py): only `LOCAL` is implemented. -/
inductive Mode | local_ | other
  deriving DecidableEq

/-- The executor (local_executor.py:19-30). -/
structure Executor (γ S : Type) where
  batchSize : Nat
  batches : List (List (Item γ))
  state : S

/-- `from_mode` and the constructor (executor.py:11-51, local_executor.py:13-33); `setup` is the user's `setup_func`, which
runs before the degree of parallelism is checked. -/
def fromMode (mode : Mode) (degree batchSize : Int) (setup : Except CalcErr S) : Except CalcErr (Executor γ S) :=
  if degree < 1 then .error .runtime
  else if batchSize < 1 then .error .runtime
  else if mode = .local_ then
    match setup with
    | .error e => .error e
    | .ok s => if degree > 1 then .error .notImplemented else .ok { batchSize := batchSize.toNat, batches := [], state := s }
  else .error .notImplemented

/-- `_read_samples_from_file` (local_executor.py:94-112): the lines with their numbers; `strip` is `rstrip`. -/
def readFile (strip : γ → γ) (f : CalcFile γ) : Except CalcErr (List (Item γ)) :=
  if f.jsonl then
    match f.lines with
    | none => .error .runtime
    | some ls => .ok (ls.mapIdx fun i l => { data := strip l, file := f.file, dataset := f.dataset, line := i })
  else .error .notImplemented

/-- The inner loop of `load_data` (local_executor.py:44-57) for the samples of one file: `batches` so far and the batch
being filled (`data`, `file_ids`, `dataset_ids`, `line_ids`; `count` is its length). -/
def fill (batchSize : Nat) : List (Item γ) → List (List (Item γ)) → List (Item γ) → List (List (Item γ)) × List (Item γ)
  | [], batches, cur => (batches, cur)
  | x :: xs, batches, cur =>
    if (cur ++ [x]).length = batchSize then fill batchSize xs (batches ++ [cur ++ [x]]) []
    else fill batchSize xs batches (cur ++ [x])

/-- The outer loop of `load_data` (local_executor.py:43-57). -/
def loadFiles (strip : γ → γ) (batchSize : Nat) : List (CalcFile γ) → List (List (Item γ)) → List (Item γ) →
    Except CalcErr (List (List (Item γ)) × List (Item γ))
  | [], batches, cur => .ok (batches, cur)
  | f :: fs, batches, cur =>
    match readFile strip f with
    | .error e => .error e
    | .ok items => loadFiles strip batchSize fs (fill batchSize items batches cur).1 (fill batchSize items batches cur).2

/-- `load_data` (local_executor.py:34-60). -/
def loadData (strip : γ → γ) (ex : Executor γ S) (files : List (CalcFile γ)) : Except CalcErr (Executor γ S) :=
  match loadFiles strip ex.batchSize files ex.batches [] with
  | .error e => .error e
  | .ok (batches, cur) => .ok { ex with batches := if cur.length > 0 then batches ++ [cur] else batches }

/-- The loop over the predictions of one batch (local_executor.py:76-90): `zip` of four sequences of the same length;
`okType` is the `isinstance` check. -/
def collect (okType : ρ → Bool) : List ρ → List (Item γ) → Except CalcErr (List (Result ρ))
  | p :: ps, x :: xs =>
    if okType p then
      match collect okType ps xs with
      | .error e => .error e
      | .ok rs => .ok ({ dataset := x.dataset, file := x.file, sample := x.line, value := p } :: rs)
    else .error .notImplemented
  | _, _ => .ok []

/-- `run` (local_executor.py:62-92): the state of the user's function after all calls, and the results. -/
def runBatches (calcF : S → List (Item γ) → S × Except CalcErr (List ρ)) (okType : ρ → Bool) :
    List (List (Item γ)) → S → S × Except CalcErr (List (Result ρ))
  | [], s => (s, .ok [])
  | b :: bs, s =>
    match calcF s b with
    | (s', .error e) => (s', .error e)
    | (s', .ok ps) =>
      if ps.length = b.length then
        match collect okType ps b with
        | .error e => (s', .error e)
        | .ok rs =>
          match runBatches calcF okType bs s' with
          | (s'', .error e) => (s'', .error e)
          | (s'', .ok rest) => (s'', .ok (rs ++ rest))
      else (s', .error .runtime)

/-- `executor.run()`. -/
def Executor.run (calcF : S → List (Item γ) → S × Except CalcErr (List ρ)) (okType : ρ → Bool) (ex : Executor γ S) :
    S × Except CalcErr (List (Result ρ)) := runBatches calcF okType ex.batches ex.state

/-- `from_mode`, `load_data` and `run` as `add_property` calls them (mixtera_data_collection.py:547-551). -/
def calculate (strip : γ → γ) (calcF : S → List (Item γ) → S × Except CalcErr (List ρ)) (okType : ρ → Bool) (mode : Mode)
    (degree batchSize : Int) (setup : Except CalcErr S) (files : List (CalcFile γ)) :
    Except CalcErr (S × List (Result ρ)) :=
  match fromMode (γ := γ) mode degree batchSize setup with
  | .error e => .error e
  | .ok ex =>
    match loadData strip ex files with
    | .error e => .error e
    | .ok ex =>
      match ex.run calcF okType with
      | (_, .error e) => .error e
      | (s, .ok rs) => .ok (s, rs)

/-- A property column as `_add_columns_to_samples_table` sees it: an object with a name, or the plain string that
`add_property` passes (mixtera_data_collection.py:553), which has no attribute `name`. -/
inductive Column | prop (name : String) | plain (name : String)

/-- `prop.name` in `_add_columns_to_samples_table` (mixtera_data_collection.py:287), evaluated for every column before
anything is changed; then the columns that do not exist yet are added. -/
def addColumns (existing : List String) : List Column → Except CalcErr (List String)
  | [] => .ok existing
  | .plain _ :: _ => .error .attribute
  | .prop n :: cs => addColumns (if n ∈ existing then existing else existing ++ [n]) cs

/-- The part of the database `add_property` may change: the columns of `samples`, the values stored in the new column and
the version. -/
structure PropDb (ρ : Type) where
  columns : List String
  values : List (Result ρ)
  version : Nat

/-- `_insert_property_values` (mixtera_data_collection.py:558-593): raises at the first value. -/
def insertValues (rs : List (Result ρ)) (db : PropDb ρ) : Except CalcErr (PropDb ρ) :=
  if rs = [] then .ok db else .error .notImplemented

/-- `add_property` (mixtera_data_collection.py:504-556); `numerical` is the property type, `wide` says `max_val > min_val`.
`.ok (db, b)` is the return value `b`. -/
def addProperty (name : String) (numerical wide : Bool) (numBuckets : Int) (strip : γ → γ)
    (calcF : S → List (Item γ) → S × Except CalcErr (List ρ)) (okType : ρ → Bool) (mode : Mode) (degree batchSize : Int)
    (setup : Except CalcErr S) (files : List (CalcFile γ)) (db : PropDb ρ) : PropDb ρ × Except CalcErr Bool :=
  if name.length = 0 then (db, .ok false)
  else if numerical && !wide then (db, .ok false)
  else if numBuckets < 2 then (db, .ok false)
  else if batchSize < 1 then (db, .ok false)
  else if numerical then (db, .ok false)
  else
    match calculate strip calcF okType mode degree batchSize setup files with
    | .error e => (db, .error e)
    | .ok (_, rs) =>
      match addColumns db.columns [.plain name] with
      | .error e => (db, .error e)
      | .ok cols =>
        match insertValues rs { db with columns := cols } with
        | .error e => ({ db with columns := cols }, .error e)
        | .ok db' => ({ db' with version := db'.version + 1 }, .ok true)

end Mixtera.Calc
