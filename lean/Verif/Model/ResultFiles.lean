import Verif.Model.Session
import Verif.Model.IndexStore
import Verif.Model.Random

/-!
# The directory of a stored query result

Models `QueryResult.to_cache` and `QueryResult.from_cache` (/repo/mixtera/core/query/query_result.py:647-689, 741-796) on the
level of files: the chunker index goes through `serialize_chunker_index` and `deserialize_chunker_index`
(/repo/mixtera/utils/utils.py:309-438), everything else through pickle and dill, which reproduce what was written. The order in
which a generator visits the keys is not stored: the new generator computes it from the loaded index.
-/

namespace Mixtera

variable {K R : Type} [DecidableEq K]

/-- The files of a stored query result (query_result.py:665-685): the attributes that are pickled, and the directory of the
chunker index. The generator, the lock and the chunk counter are left out. -/
structure ResultDir (K : Type) where
  index : Stored K
  stopOnNone : Bool
  mixture : MixView K
  numReturns : Nat
  isReplay : Bool
  log : List (Nat × MixView K)
  keyIds : Dict K Nat

/-- `to_cache` (query_result.py:656-685). -/
def Sess.writeDir (s : Sess K) : ResultDir K :=
  { index := serializeIndex s.index, stopOnNone := s.stopOnNone, mixture := s.heap s.mixRef,
    numReturns := s.numReturns, isReplay := s.isReplay, log := s.log, keyIds := s.keyIds }

/-- `from_cache` (query_result.py:750-796): `loaded` are the index files in the order in which the directory listing and the
worker pool delivered them, `rng` is the state of the random number generator in the process that loads. -/
def ResultDir.read (lib : RandomLib R) (hash : PyStr → Nat) (ops : KeyOps K) (text : K → PyStr) (fuel ref : Nat) (rng : R)
    (d : ResultDir K) (loaded : List StoredFile) : Except Err (Sess K) :=
  let index := deserializeIndex d.index.keys loaded
  fromCache ops fuel ref
    { index := index, order := (keyOrder lib hash ops text index.keys rng).1, stopOnNone := d.stopOnNone, mixture := d.mixture,
      numReturns := d.numReturns, isReplay := d.isReplay, log := d.log, keyIds := d.keyIds }

/-- What `execute_query` does with a query result from the cache (/repo/mixtera/core/client/local/local_stub.py:82-90): the key
ids are reset, and the job's own mixture object `ref`, whose view after `process_index` is `v`, replaces the stored one. The
assertion that nothing was returned yet is `none` here. The change of the log directory is not modelled. -/
def Sess.reuse (ops : KeyOps K) (s : Sess K) (ref : Nat) (v : MixView K) : Option (Sess K) :=
  if s.numReturns = 0 then some ({ s with keyIds := [] }.update ops ref v) else none

end Mixtera
