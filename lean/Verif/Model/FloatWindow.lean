import Verif.Model.Float64
import Verif.Model.ChunkRead

/-!
# Reading a chunk with float shares

The counts of a window, the numbers of reader processes and the mixture inferred from a chunk
(/repo/mixtera/core/query/result_chunk.py), with every float operation rounded to binary64.
-/

namespace Mixtera.F64

variable {K : Type} [DecidableEq K]

/-- `int(window_size * (value / chunk_size))` (result_chunk.py:479): the quotient of two integers is rounded once. -/
def windowShare (window chunk value : Nat) : Int := pyInt (fl (fl window * fl ((value : ℚ) / chunk)))

/-- `_get_element_counts` (result_chunk.py:467-489). -/
def elementCounts (window chunk : Nat) (mixture : List (K × Nat)) : List (K × Int) :=
  let initial := mixture.map fun kv => (kv.1, windowShare window chunk kv.2)
  let remainder := (window : Int) - (initial.map Prod.snd).sum
  match initial with
  | [] => []
  | (k, n) :: l => (k, n + remainder) :: l

/-- `int((val / chunk_size) * reader_count)` (result_chunk.py:344). -/
def readerShare (readers chunk value : Nat) : Int := pyInt (fl (fl ((value : ℚ) / chunk) * fl readers))

/-- `_get_process_counts` (result_chunk.py:325-348). -/
def processCounts (readers chunk : Nat) (mixture : List (K × Nat)) : List (K × Int) :=
  let initial := mixture.map fun kv => (kv.1, readerShare readers chunk kv.2)
  match initial with
  | [] => []
  | (k, n) :: l => (k, n + ((readers : Int) - (initial.map Prod.snd).sum)) :: l

/-- `_infer_mixture` (result_chunk.py:256-257). -/
def inferChunkMixture (sum : List ℚ → ℚ) (content : Dict K Entries) : Except Err (Dict K Nat) :=
  match inferMixture content with
  | .error e => .error e
  | .ok (total, m) => staticMixture sum total m

end Mixtera.F64
