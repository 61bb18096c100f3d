import Verif.Model.Database

/-!
# The types of the property columns

Models what `Verif/Model/Database.lean` leaves out of /repo/mixtera/core/datacollection/mixtera_data_collection.py: the column
of a property has the type that the metadata parser of the *first* registration with that property declared, and DuckDB casts
what later registrations insert to that type, or refuses it. Every SQL statement is one atomic step, as there.

Simplified: names of columns and types are compared exactly (DuckDB ignores case); enumeration options with a quotation mark make
`CREATE TYPE` fail; the dtypes are `STRING` and `ENUM`, the only ones the parser class allows. DuckDB's text form of lists is a
parameter.
-/

namespace Mixtera.Typed

/-- A property as its parser declares it: `MetadataProperty` (metadata_parser.py:6-12) without `nullable`, which the database does
not enforce (mixtera_data_collection.py:311-313). -/
structure TProp where
  name : PyStr
  enum : Bool
  multiple : Bool
  options : Option (List PyStr)
deriving DecidableEq

/-- The type of a column: `VARCHAR` or an enumeration with these values, or a list of those. -/
structure ColType where
  list : Bool
  values : Option (List PyStr)
deriving DecidableEq

/-- The database with its enumeration types and the types of the property columns of `samples`. -/
structure TDb where
  db : Db := {}
  types : Dict PyStr (List PyStr) := []
  cols : Dict PyStr ColType := []
deriving DecidableEq

/-- The arguments of `register_dataset`, with the types of the properties (the field `props` of `base` is not used). -/
structure TArgs where
  base : RegArgs
  props : Option (List TProp)

/-- How DuckDB writes a list of strings as text, and reads one from text. -/
structure Casts where
  toText : List (Option PyStr) → PyStr
  ofText : PyStr → Option (List (Option PyStr))

/-- Name and list flag of a property, all that `Verif/Model/Database.lean` looks at. -/
def TProp.plain (p : TProp) : PyStr × Bool := (p.name, p.multiple)

/-- The same call without types. -/
def TArgs.plain (a : TArgs) : RegArgs := { a.base with props := a.props.map fun l => l.map TProp.plain }

/-- An operation on the tables. -/
def onTables {α : Type} : Prog Db α → Prog TDb α
  | .ret r => .ret r
  | .stmt f k => .stmt (fun t => { t with db := f t.db }) fun t => onTables (k t.db)

/-- Can `CREATE TYPE ... AS ENUM ('...')` be run with these options (mixtera_data_collection.py:304-306)? -/
def goodOptions (o : List PyStr) : Bool := decide o.Nodup && o.all fun s => !s.contains '\''

/-- The values of the new type: the sorted options; the text for no options is `('')`
(mixtera_data_collection.py:304-305). -/
def enumValues (o : List PyStr) : List PyStr := if o.isEmpty then [[]] else sortStr o

/-- `CREATE TYPE` (mixtera_data_collection.py:302-306); `sorted(None)` raises. -/
def createType (p : TProp) : Prog TDb Unit :=
  match p.options with
  | none => .ret (.error .typeError)
  | some o => .stmt
      (fun t => if goodOptions o && !(t.types.has p.name) then { t with types := t.types ++ [(p.name, enumValues o)] } else t)
      fun t => if goodOptions o && !(t.types.has p.name) then .ret (.ok ()) else .ret (.error .runtimeError)

/-- The type of the column to add, if it exists (mixtera_data_collection.py:292-293, 307). -/
def newType (t : TDb) (p : TProp) : Option ColType :=
  if p.enum then (t.types.get? p.name).map fun o => ⟨p.multiple, some o⟩ else some ⟨p.multiple, none⟩

/-- The new column in both tables of columns. -/
def TDb.addColumn (t : TDb) (p : TProp) (ty : ColType) : TDb :=
  { t with
    cols := t.cols ++ [(p.name, ty)]
    db := { t.db with columns := t.db.columns ++ [p.plain] } }

/-- `ALTER TABLE samples ADD COLUMN` (mixtera_data_collection.py:309-317). -/
def alterTable (p : TProp) : Prog TDb Unit :=
  .stmt
    (fun t => if t.cols.has p.name then t else match newType t p with
      | none => t
      | some ty => t.addColumn p ty)
    fun t => if t.cols.has p.name || (newType t p).isNone then .ret (.error .runtimeError) else .ret (.ok ())

/-- One iteration of the loop over the missing columns (mixtera_data_collection.py:290-317). -/
def addColumn (p : TProp) : Prog TDb Unit :=
  if p.enum then
    (Prog.exec id fun t => t.types.has p.name).bind fun there =>
      if there then alterTable p else (createType p).bind fun _ => alterTable p
  else alterTable p

/-- `_add_columns_to_samples_table` (mixtera_data_collection.py:281-319). -/
def addColumnsT (props : List TProp) : Prog TDb Unit :=
  (Prog.exec id fun t => props.filter fun p => !(t.cols.has p.name)).bind fun missing => Prog.forEach addColumn missing

/-- `pa.array(values, type=...)` accepts the value (mixtera_data_collection.py:358-359): a string for a single value, a list for a
property with several. -/
def arrowOk (multiple : Bool) : Cell → Bool
  | .null => true
  | .str _ => !multiple
  | .list _ => multiple

/-- Is the value one of the column's values? Elements of lists may be NULL. -/
def allowed (ty : ColType) : Option PyStr → Bool
  | none => true
  | some s => match ty.values with
    | none => true
    | some o => o.contains s

/-- DuckDB's cast of an inserted value to the type of the column (mixtera_data_collection.py:375): NULL stays NULL, text becomes an
enumeration value if it is one, text is read as a list, and a list is written as text, but not as an enumeration value. `none`
if the INSERT fails. -/
def castCell (c : Casts) (ty : ColType) : Cell → Option Cell
  | .null => some .null
  | .str s =>
    if ty.list then (c.ofText s).bind fun l => if l.all (allowed ty) then some (.list l) else none
    else if allowed ty (some s) then some (.str s) else none
  | .list l =>
    if ty.list then if l.all (allowed ty) then some (.list l) else none
    else if ty.values.isNone then some (.str (c.toText l)) else none

/-- A row with its values cast; the columns must exist. -/
def castRow (c : Casts) (cols : Dict PyStr ColType) (r : SampleRow) : Option SampleRow :=
  (r.cells.mapM fun x => (cols.get? x.1).bind fun ty => (castCell c ty x.2).map fun v => (x.1, v)).map fun l => { r with cells := l }

/-- All columns of a batch are converted to pyarrow arrays (mixtera_data_collection.py:349-366). -/
def arrowRows (props : List TProp) (rows : List SampleRow) : Bool :=
  rows.all fun r => r.cells.all fun x => match props.find? (fun p => p.name == x.1) with
    | none => false
    | some p => arrowOk p.multiple x.2

/-- `_insert_samples_with_metadata` (mixtera_data_collection.py:321-381) for rows that `sampleRows` has built. -/
def insertSamplesT (c : Casts) (props : List TProp) (rows : List SampleRow) : Prog TDb Unit :=
  if arrowRows props rows then
    .stmt
      (fun t => match rows.mapM (castRow c t.cols) with
        | none => t
        | some rs => if keysFree t.db rs then { t with db := { t.db with samples := t.db.samples ++ rs } } else t)
      fun t => match rows.mapM (castRow c t.cols) with
        | none => .ret (.error .runtimeError)
        | some rs => if keysFree t.db rs then .ret (.ok ()) else .ret (.error .runtimeError)
  else .ret (.error .typeError)

/-- One iteration of the loop over the slices (mixtera_data_collection.py:190-195). -/
def registerBatchT (c : Casts) (a : TArgs) (did : Nat) (props : List TProp) (tasks : List (Nat × PyStr)) : Prog TDb Unit :=
  match parseBatch a.plain did (props.map TProp.plain) tasks with
  | .error e => .ret (.error e)
  | .ok rows => insertSamplesT c props rows

/-- `register_dataset` (mixtera_data_collection.py:144-202). -/
def registerT (c : Casts) (a : TArgs) : Prog TDb Bool :=
  (onTables (insertDataset a.plain)).bind fun r => match r with
  | none => .ret (.ok false)
  | some did =>
    if a.base.files.isEmpty then .ret (.ok false)
    else match a.props with
      | none => .ret (.error .keyError)
      | some props =>
        (addColumnsT props).bind fun _ =>
        (onTables (insertFiles did a.base.files)).bind fun ids =>
        if ids.isEmpty || ids.length != a.base.files.length then .ret (.ok false)
        else
          (Prog.forEach (registerBatchT c a did props) (slices 2000 a.base.files.length (ids.zip a.base.files))).bind fun _ =>
          (onTables incrVersion).bind fun _ => .ret (.ok true)

/-- `remove_dataset` (mixtera_data_collection.py:410-441): neither columns nor types are dropped. -/
def removeT (n : PyStr) : Prog TDb Bool := onTables (removeDataset n)

end Mixtera.Typed
