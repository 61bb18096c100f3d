import Verif.Model.Parser

/-!
# The collection of metadata parsers

Models /repo/mixtera/core/datacollection/index/parser/parser_collection.py. A payload is what `json.loads` returns; numbers
are integers. (The ImageNet parser is in `Verif/Model/Parser.lean`.)
-/

namespace Mixtera.Meta

/-- JSON values. Objects are dictionaries in the order of insertion. -/
inductive Json
  | null
  | bool (b : Bool)
  | num (n : Int)
  | str (s : PyStr)
  | arr (l : List Json)
  | obj (d : List (PyStr × Json))

/-- Python's `==` on JSON values (apart from `1 == True` and the order of objects, which none of the parsers depends on). -/
noncomputable instance : DecidableEq Json := Classical.decEq _

/-- The first value under a name; `json.loads` keeps one value per name. -/
def lookup : List (PyStr × Json) → PyStr → Option Json
  | [], _ => none
  | (a, v) :: d, k => if a = k then some v else lookup d k

/-- `payload.get("meta", {})` as the dictionary it must be for the following `.get(...)`: only dictionaries have `get`
(parser_collection.py:18, 22, 55, 168). -/
def metaOf : Json → Except Err (List (PyStr × Json))
  | .obj d => match (lookup d "meta".toList).getD (.obj []) with
    | .obj m => .ok m
    | _ => .error .attributeError
  | _ => .error .attributeError

/-- Python's truth value. -/
def truthy : Json → Bool
  | .null => false
  | .bool b => b
  | .num n => decide (n ≠ 0)
  | .str s => decide (s ≠ [])
  | .arr l => !l.isEmpty
  | .obj d => !d.isEmpty

/-- How `add_metadata` sees a value: `None`, a list, or a single value (metadata_parser.py:64-77). -/
def toVal : Json → MVal Json
  | .null => .null
  | .arr l => .many l
  | v => .one v

/-- `lang["name"]` (parser_collection.py:21). -/
def nameOf : Json → Except Err Json
  | .obj d => match lookup d "name".toList with
    | none => .error .keyError
    | some v => .ok v
  | _ => .error .typeError

/-- `[lang["name"] for lang in languages]` (parser_collection.py:21): strings and dictionaries can be iterated, but their
elements are strings, which cannot be indexed by a name. -/
def namesOf : Json → Except Err (List Json)
  | .arr l => l.mapM nameOf
  | _ => .error .typeError

/-- `RedPajamaMetadataParser.get_properties` (parser_collection.py:9-14). -/
def redProps : List (MProp Json) :=
  [⟨"language".toList, false, true, true, none⟩, ⟨"publication_date".toList, false, false, true, none⟩]

/-- The languages (parser_collection.py:18-20). -/
def redLanguages (m : List (PyStr × Json)) : Except Err (Dict PyStr (MVal Json)) :=
  if truthy ((lookup m "language".toList).getD (.arr [])) then
    (namesOf ((lookup m "language".toList).getD (.arr []))).map fun l => [("language".toList, .many l)]
  else .ok []

/-- The publication date (parser_collection.py:22-24). -/
def redDate (m : List (PyStr × Json)) : Dict PyStr (MVal Json) :=
  if truthy ((lookup m "publication_date".toList).getD .null) then
    [("publication_date".toList, toVal ((lookup m "publication_date".toList).getD .null))]
  else []

/-- `RedPajamaMetadataParser.parse` (parser_collection.py:16-26): the arguments of `add_metadata`. -/
def redExtract (_ : Nat) (payload : Json) : Except Err (Dict PyStr (MVal Json)) :=
  match metaOf payload with
  | .error e => .error e
  | .ok m => match redLanguages m with
    | .error e => .error e
    | .ok l => .ok (l ++ redDate m)

/-- An enumeration with one value that must not be missing (parser_collection.py:34-52, 129-165). -/
def enumProps (name : PyStr) (options : List PyStr) : List (MProp Json) :=
  [⟨name, true, false, false, some (options.map .str)⟩]

/-- `parse` of SlimPajama and The Pile (parser_collection.py:54-59, 167-172). -/
def metaExtract (name : PyStr) (_ : Nat) (payload : Json) : Except Err (Dict PyStr (MVal Json)) :=
  match metaOf payload with
  | .error e => .error e
  | .ok m => match (lookup m name).getD .null with
    | .null => .error .runtimeError
    | v => .ok [(name, toVal v)]

/-- The names of SlimPajama (parser_collection.py:36, 40-48). -/
def slimName : PyStr := "redpajama_set_name".toList
def slimOptions : List PyStr :=
  ["RedPajamaCommonCrawl".toList, "RedPajamaC4".toList, "RedPajamaWikipedia".toList, "RedPajamaStackExchange".toList,
    "RedPajamaGithub".toList, "RedPajamaArXiv".toList, "RedPajamaBook".toList]

/-- The names of The Pile (parser_collection.py:131, 135-158). -/
def pileName : PyStr := "pile_set_name".toList
def pileOptions : List PyStr :=
  ["Pile-CC".toList, "PubMed Central".toList, "Books3".toList, "OpenWebText2".toList, "ArXiv".toList, "Github".toList,
    "FreeLaw".toList, "StackExchange".toList, "USPTO Backgrounds".toList, "PubMed Abstracts".toList,
    "Gutenberg (PG-19)".toList, "OpenSubtitles".toList, "Wikipedia (en)".toList, "DM Mathematics".toList,
    "Ubuntu IRC".toList, "BookCorpus2".toList, "EuroParl".toList, "HackerNews".toList, "YoutubeSubtitles".toList,
    "PhilPapers".toList, "NIH ExPorter".toList, "Enron Emails".toList]

/-- `FineWebMetadataParser.get_properties` (parser_collection.py:89-94). -/
def fineProps : List (MProp Json) :=
  [⟨"dump".toList, false, false, false, none⟩, ⟨"language".toList, true, false, false, some [.str "en".toList]⟩]

/-- `FineWebMetadataParser.parse` (parser_collection.py:96-105). -/
def fineExtract (_ : Nat) : Json → Except Err (Dict PyStr (MVal Json))
  | .obj d => .ok [("dump".toList, toVal ((lookup d "dump".toList).getD .null)),
      ("language".toList, toVal ((lookup d "language".toList).getD .null))]
  | _ => .error .attributeError

/-- `MsCocoParser` (parser_collection.py:108-123). -/
def cocoProps : List (MProp Json) := [⟨"parity".toList, false, false, false, none⟩]
def cocoExtract (n : Nat) (_ : Json) : Except Err (Dict PyStr (MVal Json)) :=
  .ok [("parity".toList, .one (.str (toString (n % 3)).toList))]

/-- The built-in parsers for JSON payloads. -/
inductive Builtin | red | slim | fine | coco | pile
deriving DecidableEq

/-- `get_properties`. -/
def Builtin.props : Builtin → List (MProp Json)
  | .red => redProps
  | .slim => enumProps slimName slimOptions
  | .fine => fineProps
  | .coco => cocoProps
  | .pile => enumProps pileName pileOptions

/-- What `parse` passes to `add_metadata`. -/
def Builtin.extract : Builtin → Nat → Json → Except Err (Dict PyStr (MVal Json))
  | .red => redExtract
  | .slim => metaExtract slimName
  | .fine => fineExtract
  | .coco => cocoExtract
  | .pile => metaExtract pileName

/-- `parse(line_number, payload)` of a parser: the new record. -/
noncomputable def Builtin.parse (p : Builtin) (n : Nat) (payload : Json) : Except Err (Record Json) := do
  let schema ← newParser p.props
  let kwargs ← p.extract n payload
  addMetadata schema n kwargs

/-! ### The factory -/

/-- `MetadataParserFactory._registry` (parser_collection.py:180-187); `γ` are the parser classes. -/
abbrev Registry (γ : Type) := Dict PyStr γ

/-- `add_parser` (parser_collection.py:189-211). -/
def addParser {γ : Type} (r : Registry γ) (name : PyStr) (c : γ) (overwrite : Bool) : Registry γ × Bool :=
  if !r.has name || overwrite then (r.set name c, true) else (r, false)

/-- `remove_parser` (parser_collection.py:213-224). -/
def removeParser {γ : Type} (r : Registry γ) (name : PyStr) : Registry γ := if r.has name then r.pop name else r

/-- `create_metadata_parser` (parser_collection.py:226-246): the class that is instantiated; `ModuleNotFoundError` if there
is none. -/
def createParser {γ : Type} (r : Registry γ) (name : PyStr) : Except Err γ :=
  match r.get? name with
  | some c => .ok c
  | none => .error .notImplemented

/-- A call on the factory. -/
inductive FOp (γ : Type)
  | add (name : PyStr) (c : γ) (overwrite : Bool)
  | remove (name : PyStr)

/-- A call changes the registry. -/
def FOp.step {γ : Type} (r : Registry γ) : FOp γ → Registry γ
  | .add n c o => (addParser r n c o).1
  | .remove n => removeParser r n

/-- A sequence of calls. -/
def runFactory {γ : Type} (r : Registry γ) (ops : List (FOp γ)) : Registry γ := ops.foldl FOp.step r

end Mixtera.Meta
