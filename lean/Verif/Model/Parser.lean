import Verif.Model.Dict
import Verif.Model.MixtureKey
import Verif.Model.Utils

/-!
# Parsing metadata

Models /repo/mixtera/core/datacollection/index/parser/metadata_parser.py and the loops of
/repo/mixtera/core/datacollection/datasets/{jsonl,web,parquet}_dataset.py that number the samples of a file.
-/

namespace Mixtera.Meta

variable {α β : Type} [DecidableEq α]

/-- A property value: `None`, a single value, or a list of values. The values themselves are arbitrary. -/
inductive MVal (α : Type) | null | one (a : α) | many (l : List α)
  deriving DecidableEq

/-- A field of a metadata record: the number of the sample or a property value. -/
inductive Field (α : Type) | num (n : Nat) | val (v : MVal α)
  deriving DecidableEq

/-- `MetadataProperty` (metadata_parser.py:6-12). -/
structure MProp (α : Type) where
  name : PyStr
  isEnum : Bool
  multiple : Bool
  nullable : Bool
  options : Option (List α)

/-- A metadata record. -/
abbrev Record (α : Type) := Dict PyStr (Field α)

/-- The name under which the number of the sample is stored. -/
def sampleId : PyStr := "sample_id".toList

/-- `self._internal_keys` (metadata_parser.py:34). -/
def internalKeys : List PyStr := ["file_id".toList, "dataset_id".toList]

/-- `property_map` (metadata_parser.py:33): for equal names the last property, at the place of the first. -/
def propertyMap (props : List (MProp α)) : Dict PyStr (MProp α) := props.foldl (fun d p => d.set p.name p) []

/-- `MetadataParser.__init__` (metadata_parser.py:22-38). -/
def newParser (props : List (MProp α)) : Except Err (Dict PyStr (MProp α)) :=
  if (propertyMap props).keys.any fun k => decide (k ∈ internalKeys) then .error .runtimeError
  else .ok (propertyMap props)

/-- The enumeration check for the elements of a value (metadata_parser.py:79-91). -/
def checkEnum (p : MProp α) (l : List α) (v : MVal α) : Except Err (MVal α) :=
  if p.isEnum then
    match p.options with
    | none => .error .assertion
    | some opts => if l.all fun a => decide (a ∈ opts) then .ok v else .error .runtimeError
  else .ok v

/-- One turn of the loop of `add_metadata` (metadata_parser.py:64-91): what is stored for the property. -/
def storeValue (p : MProp α) : MVal α → Except Err (MVal α)
  | .null => if p.nullable then .ok .null else .error .runtimeError
  | .one a => if p.multiple then checkEnum p [a] (.many [a]) else checkEnum p [a] (.one a)
  | .many l => if p.multiple then checkEnum p l (.many l) else .error .runtimeError

/-- The loop of `add_metadata` (metadata_parser.py:63-91). `kwargs.get(key, None)`. -/
def fillRecord (kwargs : Dict PyStr (MVal α)) : List (PyStr × MProp α) → Record α → Except Err (Record α)
  | [], r => .ok r
  | (key, p) :: ps, r =>
    match storeValue p ((kwargs.get? key).getD .null) with
    | .error e => .error e
    | .ok v => fillRecord kwargs ps (r.set key (.val v))

/-- `add_metadata` (metadata_parser.py:60-93): the new record, which is appended to `self.metadata` if no exception was
raised. -/
def addMetadata (schema : Dict PyStr (MProp α)) (n : Nat) (kwargs : Dict PyStr (MVal α)) : Except Err (Record α) :=
  fillRecord kwargs schema [(sampleId, .num n)]

/-- Parsing the samples of a file in order, `enumerate` (jsonl_dataset.py:33-35, web_dataset.py:29-30,
parquet_dataset.py:31-36). `extract` is what the `parse` method of the parser takes from a sample; it may raise. The
result is `metadata_parser.metadata`. -/
def informFrom (schema : Dict PyStr (MProp α)) (extract : Nat → β → Except Err (Dict PyStr (MVal α))) :
    Nat → List β → Except Err (List (Record α))
  | _, [] => .ok []
  | i, x :: xs => do
    let kwargs ← extract i x
    let r ← addMetadata schema i kwargs
    let rs ← informFrom schema extract (i + 1) xs
    return r :: rs

/-- `inform_metadata_parser` of all datasets. -/
def inform (schema : Dict PyStr (MProp α)) (extract : Nat → β → Except Err (Dict PyStr (MVal α))) (samples : List β) :
    Except Err (List (Record α)) := informFrom schema extract 0 samples

/-- `ParquetDataset.inform_metadata_parser` (parquet_dataset.py:28-36): the batches are parsed one after the other with one
running row number. -/
def informBatches (schema : Dict PyStr (MProp α)) (extract : Nat → β → Except Err (Dict PyStr (MVal α))) :
    Nat → List (List β) → Except Err (List (Record α))
  | _, [] => .ok []
  | i, b :: bs => do
    let rs ← informFrom schema extract i b
    let rest ← informBatches schema extract (i + b.length) bs
    return rs ++ rest

/-! ### A parser of the collection -/

/-- `class_label` (parser_collection.py:75-80). -/
def classLabel : PyStr := "class_label".toList

/-- The properties of the ImageNet parser (parser_collection.py:74-82). -/
def imagenetProps : List (MProp PyStr) := [⟨classLabel, false, false, false, none⟩]

/-- `str(payload.get(".cls"))` (parser_collection.py:85-89): the text `None` if there is no label. -/
def imagenetExtract (_ : Nat) (cls : Option PyStr) : Except Err (Dict PyStr (MVal PyStr)) :=
  .ok [(classLabel, .one (cls.getD "None".toList))]

end Mixtera.Meta
