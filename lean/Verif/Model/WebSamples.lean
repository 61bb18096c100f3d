import Verif.Model.Dict
import Verif.Model.MixtureKey
import Verif.Model.Utils

/-!
# The samples of a web dataset file

Models /repo/mixtera/utils/webdataset_utils.py: `IndexedTarSamples` and `decode`. The tar file is the list of its members
(`MMIndexedTar`: `names()` and `get_file(i)`); `splitname` and the decoders (gzip, UTF-8, `int`, PIL, json, numpy, pickle)
are parameters. `group_by_key` of the library wids, which is not part of the repository, is modelled as it is documented
there: neighbouring members with the same key form a sample, members without an extension are ignored.
-/

namespace Mixtera.Web

variable {B V : Type}

/-- What a sample holds for a name: its key, a stream that has not been read, a stream that has been read to its end, or a
decoded value. -/
inductive Item (B V : Type)
  | key (k : PyStr)
  | stream (b : B)
  | drained (b : B)
  | value (v : V)
deriving DecidableEq

/-- The decoders of webdataset_utils.py:68-100. Each of them may raise. -/
structure Decoders (B V : Type) where
  gunzip : B → Except Err B
  text : B → Except Err V
  int : B → Except Err V
  image : B → Except Err V
  json : B → Except Err V
  npy : B → Except Err V
  pickle : B → Except Err V

/-- `key.split(".")` (webdataset_utils.py:64). -/
def splitDot : PyStr → List PyStr
  | [] => [[]]
  | c :: s =>
    if c = '.' then [] :: splitDot s
    else match splitDot s with
      | [] => [[c]]
      | p :: ps => (c :: p) :: ps

/-- The cascade of extensions (webdataset_utils.py:77-100); `none` if the entry stays as it is. -/
def Decoders.pick (D : Decoders B V) (images : Bool) (e : PyStr) : Option (B → Except Err V) :=
  if e ∈ ["txt".toList, "text".toList] then some D.text
  else if e ∈ ["cls".toList, "cls2".toList] then some D.int
  else if e ∈ ["jpg".toList, "png".toList, "ppm".toList, "pgm".toList, "pbm".toList, "pnm".toList] ∧ images = true then
    some D.image
  else if e = "json".toList then some D.json
  else if e = "npy".toList then some D.npy
  else if e ∈ ["pickle".toList, "pkl".toList] then some D.pickle
  else none

/-- `stream.read()`; a `str` has no `read` (`AttributeError`), and nothing else occurs. -/
def Item.read : Item B V → Except Err B
  | .stream b => .ok b
  | _ => .error .attributeError

/-- `__`. -/
def internal : PyStr := "__".toList

/-- The cascade at the end of the loop of `decode` (webdataset_utils.py:75-100): `entry` is what the sample holds if nothing
is assigned to it, `contents` what reading the stream gives. -/
def finish (D : Decoders B V) (images : Bool) (key e : PyStr) (entry : Item B V) (contents : Except Err B) :
    Except Err (Item B V) :=
  if internal <+: key then .ok entry
  else match D.pick images e, contents with
    | none, _ => .ok entry
    | some _, .error err => .error err
    | some f, .ok b => (f b).map .value

/-- One turn of the loop of `decode` (webdataset_utils.py:63-100). After a `.gz` entry has been read, the variable `stream`
is a new stream of the decompressed bytes, but the entry itself still is the old stream. -/
def decodeItem (D : Decoders B V) (images : Bool) (key : PyStr) (item : Item B V) : Except Err (Item B V) :=
  match (splitDot key).reverse with
  | [] => .ok item
  | e :: rest =>
    if e = "gz".toList then
      match item.read with
      | .error err => .error err
      | .ok b => match D.gunzip b with
        | .error err => .error err
        | .ok u => match rest with
          | [] => .ok (.stream u)
          | e2 :: _ => finish D images key e2 (.drained b) (.ok u)
    else finish D images key e item item.read

/-- `decode` (webdataset_utils.py:58-101): every entry is visited once, in order, and only the entry being visited is
assigned to. -/
def decode (D : Decoders B V) (images : Bool) : Dict PyStr (Item B V) → Except Err (Dict PyStr (Item B V))
  | [] => .ok []
  | (k, x) :: d => do
    let y ← decodeItem D images k x
    let r ← decode D images d
    return (k, y) :: r

/-- `key = key or k` (webdataset_utils.py:145): an empty key counts as none. -/
def orKey (key : Option PyStr) (k : PyStr) : PyStr :=
  match key with
  | none => k
  | some [] => k
  | some x => x

/-- The loop of `__getitem__` (webdataset_utils.py:142-148) over the members of a sample: key, extension and contents. -/
def gather : List (PyStr × PyStr × B) → Option PyStr → Dict PyStr (Item B V) →
    Except Err (Option PyStr × Dict PyStr (Item B V))
  | [], key, sample => .ok (key, sample)
  | (k, ext, b) :: ms, key, sample =>
    if orKey key k = k then gather ms (some (orKey key k)) (sample.set ext (.stream b)) else .error .assertion

/-- `__key__`. -/
def keyName : PyStr := "__key__".toList

/-- A tar file: the names of its members and their contents. -/
abbrev Tar (B : Type) := List (PyStr × B)

/-- The members of a sample by their positions (`reader.get_file(i)`, `splitname`, webdataset_utils.py:143-144). -/
def membersAt (split : PyStr → PyStr × PyStr) (tar : Tar B) (idx : List Nat) : List (PyStr × PyStr × B) :=
  idx.filterMap fun i => (tar[i]?).map fun m => ((split m.1).1, (split m.1).2, m.2)

/-- `group_by_key(names)`: the positions of the samples' members. `cur` is the group being built and its key. -/
def groupFrom (split : PyStr → PyStr × PyStr) : Nat → List PyStr → Option (PyStr × List Nat) → List (List Nat)
  | _, [], none => []
  | _, [], some (_, g) => [g]
  | i, n :: ns, cur =>
    if '.' ∉ n ∨ n = ['.'] then groupFrom split (i + 1) ns cur
    else match cur with
      | none => groupFrom split (i + 1) ns (some ((split n).1, [i]))
      | some (k, g) =>
        if (split n).1 = k then groupFrom split (i + 1) ns (some (k, g ++ [i]))
        else g :: groupFrom split (i + 1) ns (some ((split n).1, [i]))

/-- `self.samples` (webdataset_utils.py:118-119). -/
def groups (split : PyStr → PyStr × PyStr) (tar : Tar B) : List (List Nat) := groupFrom split 0 (tar.map Prod.fst) none

/-- The sample before decoding (webdataset_utils.py:138-149); `key` is a string because no group is empty. -/
def rawSample (split : PyStr → PyStr × PyStr) (tar : Tar B) (idx : List Nat) : Except Err (Dict PyStr (Item B V)) := do
  let (key, sample) ← gather (membersAt split tar idx) none []
  return sample.set keyName (.key (key.getD []))

/-- `IndexedTarSamples.__getitem__` (webdataset_utils.py:136-151). -/
def getItem (split : PyStr → PyStr × PyStr) (D : Decoders B V) (images : Bool) (tar : Tar B) (i : Nat) :
    Except Err (Dict PyStr (Item B V)) :=
  match (groups split tar)[i]? with
  | none => .error .indexError
  | some idx => do
    let s ← rawSample split tar idx
    decode D images s

/-- `IndexedTarSamples.__len__` (webdataset_utils.py:133-134). -/
def size (split : PyStr → PyStr × PyStr) (tar : Tar B) : Nat := (groups split tar).length

end Mixtera.Web
