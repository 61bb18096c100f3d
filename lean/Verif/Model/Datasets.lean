import Verif.Model.Dict
import Verif.Model.Utils

/-!
# Reading row ranges from files

Models `_read_ranges_from_file` of /repo/mixtera/core/datacollection/datasets/{jsonl,web,parquet}_dataset.py. A generator
is modelled by what it yields and by the error that ends it, if any. The parsing function is applied to every yielded
line or row. Row numbers are natural numbers.
-/

namespace Mixtera

variable {α β : Type}

/-- The result of a generator: what it yields, and the exception it ends with. -/
abbrev Yields (α : Type) := List α × Option Err

/-- First yield, then go on. -/
def Yields.after (l : List α) (r : Yields α) : Yields α := (l ++ r.1, r.2)

/-- `JSONLDataset._read_ranges_from_file` (jsonl_dataset.py:46-73). `lines` is what is left of the file, `lastRead` is
`last_line_read` and `lastStart` is `last_r_start` (which starts as -1). `islice` with a negative length raises
`ValueError`; at the end of the file it simply yields less. -/
def jsonlRead (parse : α → β) : List α → Nat → Int → List (Nat × Nat) → Yields β
  | _, _, _, [] => ([], none)
  | lines, lastRead, lastStart, (start, stop) :: ranges =>
    if (start : Int) < lastStart then ([], some .runtimeError)
    else if lastRead > start then ([], some .runtimeError)
    else if stop < start then ([], some .valueError)
    else
      Yields.after (((lines.drop (start - lastRead)).take (stop - start)).map parse)
        (jsonlRead parse ((lines.drop (start - lastRead)).drop (stop - start)) stop start ranges)

/-- Reading from the beginning of a file. -/
def jsonlReadFile (parse : α → β) (lines : List α) (ranges : List (Nat × Nat)) : Yields β :=
  jsonlRead parse lines 0 (-1) ranges

/-- The loop `for line in range(r_start, r_end)` of the web dataset (web_dataset.py:62): `samples[line]` raises
`IndexError` past the end. -/
def webRange (parse : α → β) (samples : List α) : Nat → Nat → Yields β
  | _, 0 => ([], none)
  | line, n + 1 => match samples[line]? with
    | none => ([], some .indexError)
    | some x => Yields.after [parse x] (webRange parse samples (line + 1) n)

/-- Go on only if there was no exception. -/
def Yields.andThen (r : Yields β) (next : Yields β) : Yields β :=
  match r.2 with
  | none => Yields.after r.1 next
  | some e => (r.1, some e)

/-- `WebDataset._read_ranges_from_file` (web_dataset.py:43-64). -/
def webRead (parse : α → β) (samples : List α) : Nat → Int → List (Nat × Nat) → Yields β
  | _, _, [] => ([], none)
  | lastRead, lastStart, (start, stop) :: ranges =>
    if (start : Int) < lastStart then ([], some .runtimeError)
    else if lastRead > start then ([], some .runtimeError)
    else (webRange parse samples start (stop - start)).andThen (webRead parse samples stop start ranges)

/-- Reading a web dataset file. -/
def webReadFile (parse : α → β) (samples : List α) (ranges : List (Nat × Nat)) : Yields β :=
  webRead parse samples 0 (-1) ranges

/-! ## Parquet -/

/-- The offsets of the row groups (parquet_dataset.py:60-66): number, first row, and the row after the last. -/
def groupOffsets (row : Nat) (idx : Nat) : List Nat → List (Nat × Nat × Nat)
  | [] => []
  | n :: ns => (idx, row, row + n) :: groupOffsets (row + n) (idx + 1) ns

/-- The two-pointer loop that maps ranges to row groups (parquet_dataset.py:71-106): the parts `(group, (start, end))` in
the order in which they are appended. The two pointers are the suffixes of the lists. Every iteration shortens one of
the lists, so the sum of their lengths is enough `fuel`. -/
def mapRanges : Nat → List (Nat × Nat) → List (Nat × Nat × Nat) → List (Nat × (Nat × Nat))
  | 0, _, _ => []
  | _, [], _ => []
  | _, _, [] => []
  | fuel + 1, (start, stop) :: rs, (g, gs, ge) :: gr =>
    if stop ≤ gs then mapRanges fuel rs ((g, gs, ge) :: gr)
    else if ge ≤ start then mapRanges fuel ((start, stop) :: rs) gr
    else
      (g, (max start gs - gs, min stop ge - gs)) ::
        (if stop ≤ ge then mapRanges fuel rs ((g, gs, ge) :: gr) else mapRanges fuel ((start, stop) :: rs) gr)

/-- `row_group_ranges` (parquet_dataset.py:71, 94-96): the parts by row group, in insertion order. -/
def groupParts (parts : List (Nat × (Nat × Nat))) : Dict Nat (List (Nat × Nat)) :=
  parts.foldl (fun d p => d.upsert p.1 fun o => o.getD [] ++ [p.2]) []

/-- `ParquetDataset._read_ranges_from_file` (parquet_dataset.py:47-118) on a file with the given row groups.
`batches` is how `to_batches` cuts a slice (at most 32000 rows, and along the chunks of the table). -/
def parquetRead (parse : α → β) (batches : List α → List (List α)) (groups : List (List α)) (ranges : List (Nat × Nat)) :
    List β :=
  (groupParts (mapRanges (ranges.length + groups.length) ranges (groupOffsets 0 0 (groups.map List.length)))).flatMap
    fun gp => gp.2.flatMap fun se =>
      (batches ((((groups[gp.1]?).getD []).drop se.1).take (se.2 - se.1))).flatMap fun b => b.map parse

end Mixtera
