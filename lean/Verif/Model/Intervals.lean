import Verif.Model.Sort
import Mathlib.Data.List.Dedup

/-!
# Grouping selected samples into intervals

Models the outer SQL query of `Query.execute` (/repo/mixtera/core/query/query.py:108-151), clause by clause.
`G` is the tuple of group columns (`dataset_id, file_id` and all property columns; SQL's `PARTITION BY` and `GROUP BY`
compare NULLs and lists as equal when they are identical, i.e. with `=` on `G`).  DuckDB's evaluation of window
functions, `GROUP BY` and `ORDER BY` is modelled by their SQL definition; DuckDB itself is not modelled.
-/

namespace Mixtera

variable {G : Type} [DecidableEq G]

/-- `OVER (PARTITION BY g ORDER BY sample_id)`: the sample ids of one partition in window order. -/
def partitionIds (base : List (G × Nat)) (g : G) : List Nat :=
  sortBy (fun a b => decide (a ≤ b)) ((base.filter fun r => decide (r.1 = g)).map Prod.snd)

/-- `sample_id - LAG(sample_id, 1, sample_id)` after a row with id `prev` (query.py:128-129). -/
def lagAfter : Nat → List Nat → List (Nat × Int)
  | _, [] => []
  | prev, x :: l => (x, (x : Int) - prev) :: lagAfter x l

/-- `sample_id - LAG(sample_id, 1, sample_id)`: the first row of a partition gets difference 0 (query.py:128-129). -/
def lagDiffs : List Nat → List (Nat × Int)
  | [] => []
  | x :: l => (x, 0) :: lagAfter x l

/-- The CTE `grouped_samples` (query.py:125-132): every row with its difference. -/
def groupedSamples (base : List (G × Nat)) : List (G × Nat × Int) :=
  (base.map Prod.fst).dedup.flatMap fun g => (lagDiffs (partitionIds base g)).map fun r => (g, r)

/-- A row of the CTE `intervals`. -/
structure IvRow (G : Type) where
  g : G
  gid : Nat
  start : Nat
  stop : Nat
deriving DecidableEq

/-- `SUM(CASE WHEN diff != 1 THEN 1 ELSE 0 END) OVER (PARTITION BY g ORDER BY sample_id)` with SQL's default frame
`RANGE UNBOUNDED PRECEDING` (query.py:136-137). -/
def runningBreaks (rows : List (G × Nat × Int)) (g : G) (id : Nat) : Nat :=
  rows.countP fun r => decide (r.1 = g ∧ r.2.1 ≤ id ∧ r.2.2 ≠ 1)

/-- The CTE `intervals` (query.py:133-142): `GROUP BY g, diff, sample_id` leaves one row per combination; the window
function is evaluated on the grouped rows; `MIN`/`MAX` of the single value are the value. -/
def intervalRows (rows : List (G × Nat × Int)) : List (IvRow G) :=
  rows.dedup.map fun r => ⟨r.1, runningBreaks rows.dedup r.1 r.2.1, r.2.1, r.2.1 + 1⟩

/-- `MIN` over the rows of a group. -/
def ivMin : List Nat → Nat
  | [] => 0
  | [a] => a
  | a :: l => min a (ivMin l)

/-- `MAX` over the rows of a group. -/
def ivMax : List Nat → Nat
  | [] => 0
  | [a] => a
  | a :: l => max a (ivMax l)

/-- The final `SELECT … GROUP BY g, group_id` (query.py:143-149). -/
def mergeGroups (iv : List (IvRow G)) : List (IvRow G) :=
  (iv.map fun r => (r.g, r.gid)).dedup.map fun k =>
    let grp := iv.filter fun r => decide (r.g = k.1 ∧ r.gid = k.2)
    ⟨k.1, k.2, ivMin (grp.map IvRow.start), ivMax (grp.map IvRow.stop)⟩

/-- `ORDER BY g, interval_start` (query.py:150); `leG` is the database's order on the group columns. -/
def orderRows (leG : G → G → Bool) (iv : List (IvRow G)) : List (IvRow G) :=
  sortBy (fun a b => if a.g = b.g then decide (a.start ≤ b.start) else leG a.g b.g) iv

/-- The whole query on the selected rows (query.py:121-151). -/
def queryIntervals (leG : G → G → Bool) (base : List (G × Nat)) : List (IvRow G) :=
  orderRows leG (mergeGroups (intervalRows (groupedSamples base)))

end Mixtera
