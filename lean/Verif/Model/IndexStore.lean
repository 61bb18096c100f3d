import Verif.Model.Component

/-!
# Storing and loading the chunker index

Models `serialize_chunker_index` and `deserialize_chunker_index` (/repo/mixtera/utils/utils.py:309-438).
Pickle and `np.save`/`np.load` are taken to reproduce what was written (interval bounds fit into 64 bits).
-/

namespace Mixtera

variable {K : Type} [DecidableEq K]

/-- One `file_<f>.npy`: the number of the mixture key's directory, dataset id, file id, intervals. -/
structure StoredFile where
  keyIdx : Nat
  ds : Nat
  file : Nat
  ranges : List Rng
deriving DecidableEq

/-- The directory written for an index: the pickled keys (`mixture_keys_order.pkl` and one `mixture_key.pkl` per
directory have the same keys) and the files. -/
structure Stored (K : Type) where
  keys : List K
  files : List StoredFile

/-- The files of one key's entries (utils.py:338-342). -/
def entryFiles (i : Nat) (e : Entries) : List StoredFile :=
  e.flatMap fun df => df.2.map fun fr => ⟨i, df.1, fr.1, fr.2⟩

/-- The files of the keys numbered from `i` (utils.py:330-342). -/
def indexFiles : Nat → Dict K Entries → List StoredFile
  | _, [] => []
  | i, (_, e) :: d => entryFiles i e ++ indexFiles (i + 1) d

/-- `serialize_chunker_index` (utils.py:318-360). The pool writes the files in any order; they have different paths. -/
def serializeIndex (index : Dict K Entries) : Stored K := ⟨index.keys, indexFiles 0 index⟩

/-- One step of the merge loop (utils.py:424-432): `datasets` is created on first use. -/
def putFile (e : Entries) (r : StoredFile) : Entries := e.upsert r.ds fun o => (o.getD []).set r.file r.ranges

/-- The merge loop: `chunker_index_per_mixture_key` is a list of dictionaries, each with at most the directory's own
key (utils.py:419-432). -/
def mergeFiles (keys : List K) (results : List StoredFile) (acc : List (Dict K Entries)) : List (Dict K Entries) :=
  results.foldl (fun acc r =>
    match keys[r.keyIdx]? with
    | none => acc
    | some k => acc.modify r.keyIdx fun d => d.upsert k fun o => putFile (o.getD []) r) acc

/-- `dict.update` (utils.py:435-436). -/
def dictUpdate (d d' : Dict K Entries) : Dict K Entries := d'.foldl (fun d kv => d.set kv.1 kv.2) d

/-- `deserialize_chunker_index` (utils.py:370-438); `results` are the loaded files in the order in which the directory
listing and the worker pool delivered them. -/
def deserializeIndex (keys : List K) (results : List StoredFile) : Dict K Entries :=
  (mergeFiles keys results (keys.map fun _ => [])).foldl dictUpdate []

end Mixtera
