import Verif.Model.Chunker

/-!
# Select operators

Models /repo/mixtera/core/query/operators/select.py and the insertion of operators into a query plan
(/repo/mixtera/core/query/query_plan.py). The generated statement is kept as a syntax tree whose leaves have
positional `?` placeholders; `Where.run` is SQL's three-valued evaluation with the parameters bound from left to
right. The SQL engine itself is not modelled. Values are strings.
-/

namespace Mixtera

/-- The value of a condition: `None`, a single value, or a list (whose elements may be `None`). -/
inductive CondVal where
  | none
  | one (s : PyStr)
  | many (l : List (Option PyStr))
deriving DecidableEq

/-- A condition `(field, op, value)`. -/
structure Cond where
  field : PyStr
  op : PyStr
  value : CondVal
deriving DecidableEq

/-- The supported operators. -/
inductive SqlOp where
  | eq | ne | gt | lt | ge | le
deriving DecidableEq

/-- `op_map.get(op)` (select.py:43-47). -/
def opMap (op : PyStr) : Option SqlOp :=
  if op = ['=', '='] then some .eq
  else if op = ['!', '='] then some .ne
  else if op = ['>'] then some .gt
  else if op = ['<'] then some .lt
  else if op = ['>', '='] then some .ge
  else if op = ['<', '='] then some .le
  else none

/-- The clauses `process_conditions` appends; `n` is the number of placeholders (select.py:49-107). -/
inductive Clause where
  /-- `field IS NULL` -/
  | isNull (f : PyStr)
  /-- `field IS NOT NULL` -/
  | isNotNull (f : PyStr)
  /-- `[NOT] array_has_any(field, [?, …])` -/
  | hasAny (neg : Bool) (f : PyStr) (n : Nat)
  /-- `[NOT] array_contains(field, ?)` -/
  | contains (neg : Bool) (f : PyStr)
  /-- `any_value(field) op ?` -/
  | anyValue (f : PyStr) (op : SqlOp)
  /-- `field [NOT] IN (?, …)` -/
  | inList (neg : Bool) (f : PyStr) (n : Nat)
  /-- `(field op ? OR …)` -/
  | orCmp (f : PyStr) (op : SqlOp) (n : Nat)
  /-- `field op ?` -/
  | cmp (f : PyStr) (op : SqlOp)
deriving DecidableEq

/-- A bound parameter; `none` is NULL. -/
abbrev Param := Option PyStr

/-- One condition (select.py:36-107): the clause and its parameters, or nothing if the condition is skipped.
`schema` tells for each column whether it is an array. -/
def genCond (schema : Dict PyStr Bool) (c : Cond) : Option (Clause × List Param) :=
  match schema.get? c.field with
  | none => none
  | some isArray =>
    match opMap c.op with
    | none => none
    | some op =>
      match c.value with
      | .none =>
        match op with
        | .eq => some (.isNull c.field, [])
        | .ne => some (.isNotNull c.field, [])
        | _ => none
      | .one v =>
        if isArray then
          match op with
          | .eq => some (.contains false c.field, [some v])
          | .ne => some (.contains true c.field, [some v])
          | op => some (.anyValue c.field op, [some v])
        else some (.cmp c.field op, [some v])
      | .many [] => none
      | .many [v] =>
        if isArray then
          match op with
          | .eq => some (.hasAny false c.field 1, [v])
          | .ne => some (.hasAny true c.field 1, [v])
          | op => some (.anyValue c.field op, [v])
        else some (.cmp c.field op, [v])
      | .many (v :: w :: l) =>
        if isArray then
          match op with
          | .eq => some (.hasAny false c.field (l.length + 2), v :: w :: l)
          | .ne => some (.hasAny true c.field (l.length + 2), v :: w :: l)
          | op => some (.anyValue c.field op, [v])
        else
          match op with
          | .eq => some (.inList false c.field (l.length + 2), v :: w :: l)
          | .ne => some (.inList true c.field (l.length + 2), v :: w :: l)
          | op => some (.orCmp c.field op (l.length + 2), v :: w :: l)

/-- One iteration of `process_conditions` (select.py:36-107). -/
def addCond (schema : Dict PyStr Bool) (acc : List Clause × List Param) (c : Cond) : List Clause × List Param :=
  match genCond schema c with
  | none => acc
  | some cp => (acc.1 ++ [cp.1], acc.2 ++ cp.2)

/-- `process_conditions` (select.py:33-108). -/
def processConditions (schema : Dict PyStr Bool) (conds : List Cond) : List Clause × List Param :=
  conds.foldl (addCond schema) ([], [])

/-- A Select operator with its children (select.py:12-20). -/
inductive Sel where
  | node (conds : List Cond) (children : List Sel)

/-- A where clause: `(a AND b …)` for one operator, or a parenthesised disjunction for a child. -/
inductive Where where
  | conj (l : List Clause)
  | disj (l : List Where)

mutual
/-- `_generate_conditions` (select.py:110-135): the disjuncts and the parameters; no disjunct is the empty clause. -/
def genWhere (schema : Dict PyStr Bool) : Sel → List Where × List Param
  | .node conds children =>
    let own := processConditions schema conds
    let ch := genChildren schema children
    if own.1.isEmpty then ch
    else (.conj own.1 :: ch.1, own.2 ++ ch.2)

/-- The loop over the children (select.py:120-128): a child with an empty clause is skipped. -/
def genChildren (schema : Dict PyStr Bool) : List Sel → List Where × List Param
  | [] => ([], [])
  | s :: l =>
    let w := genWhere schema s
    let rest := genChildren schema l
    if w.1.isEmpty then rest
    else (.disj w.1 :: rest.1, w.2 ++ rest.2)
end

/-- `Select.insert` through `QueryPlan.add` (select.py:140-145, query_plan.py:24-39): the first select becomes the root,
every further one a child of the root. -/
def addSelect (root : Option Sel) (conds : List Cond) : Option Sel :=
  match root with
  | none => some (.node conds [])
  | some (.node c ch) => some (.node c (ch ++ [.node conds []]))

/-- `Query.for_job(…).select(…).select(…)…` -/
def buildQuery (selects : List (List Cond)) : Option Sel := selects.foldl addSelect none

/-! ### SQL -/

/-- A row of the samples table. -/
abbrev SRow := PyStr → Cell

/-- A SQL comparison of two non-null strings. -/
def SqlOp.holds (op : SqlOp) (a b : PyStr) : Bool :=
  match op with
  | .eq => decide (a = b)
  | .ne => decide (a ≠ b)
  | .gt => decide (b < a)
  | .lt => decide (a < b)
  | .ge => decide (b ≤ a)
  | .le => decide (a ≤ b)

/-- Comparison with NULL gives NULL. A list cell compared with a string would be a type error; it does not occur for
rows that conform to the schema. -/
def SqlOp.eval (op : SqlOp) (c : Cell) (p : Param) : Option Bool :=
  match c, p with
  | .str a, some b => some (op.holds a b)
  | _, _ => none

/-- SQL's `OR`. -/
def or3 : Option Bool → Option Bool → Option Bool
  | some true, _ => some true
  | _, some true => some true
  | some false, some false => some false
  | _, _ => none

/-- SQL's `AND`. -/
def and3 : Option Bool → Option Bool → Option Bool
  | some false, _ => some false
  | _, some false => some false
  | some true, some true => some true
  | _, _ => none

/-- SQL's `NOT`. -/
def not3 (a : Option Bool) : Option Bool := a.map (!·)

/-- `array_has_any(field, [p, …])`: NULL on a NULL list, NULL elements are not compared. -/
def arrayHasAny (c : Cell) (ps : List Param) : Option Bool :=
  match c with
  | .list vs => some (ps.any fun p => p.isSome && vs.contains p)
  | _ => none

/-- The value of a clause for its own parameters. -/
def Clause.eval (row : SRow) (ps : List Param) : Clause → Option Bool
  | .isNull f => some (decide (row f = .null))
  | .isNotNull f => some (decide (row f ≠ .null))
  | .hasAny false f _ => arrayHasAny (row f) ps
  | .hasAny true f _ => not3 (arrayHasAny (row f) ps)
  | .contains false f => arrayHasAny (row f) ps
  | .contains true f => not3 (arrayHasAny (row f) ps)
  | .anyValue _ _ => none
  | .inList false f _ => ps.foldr (fun p a => or3 (SqlOp.eval .eq (row f) p) a) (some false)
  | .inList true f _ => not3 (ps.foldr (fun p a => or3 (SqlOp.eval .eq (row f) p) a) (some false))
  | .orCmp f op _ => ps.foldr (fun p a => or3 (SqlOp.eval op (row f) p) a) (some false)
  | .cmp f op => SqlOp.eval op (row f) ((ps.head?).getD none)

/-- The number of placeholders in the text of a clause. -/
def Clause.holes : Clause → Nat
  | .isNull _ => 0
  | .isNotNull _ => 0
  | .hasAny _ _ n => n
  | .contains _ _ => 1
  | .anyValue _ _ => 1
  | .inList _ _ n => n
  | .orCmp _ _ n => n
  | .cmp _ _ => 1

/-- A clause takes as many parameters as it has placeholders; too few parameters are an error, and so is an aggregate
(`any_value`) in a `WHERE`. -/
def Clause.run (row : SRow) (ps : List Param) (cl : Clause) : Option (Option Bool × List Param) :=
  match cl with
  | .anyValue _ _ => none
  | cl => if ps.length < cl.holes then none else some (cl.eval row (ps.take cl.holes), ps.drop cl.holes)

/-- A conjunction, binding parameters from left to right. -/
def runConj (row : SRow) : List Param → List Clause → Option (Option Bool × List Param)
  | ps, [] => some (some true, ps)
  | ps, cl :: l => do
    let (a, ps) ← cl.run row ps
    let (b, ps) ← runConj row ps l
    return (and3 a b, ps)

mutual
/-- A parenthesised clause. -/
def Where.run (row : SRow) : List Param → Where → Option (Option Bool × List Param)
  | ps, .conj l => runConj row ps l
  | ps, .disj l => runDisj row ps l

/-- A disjunction, binding parameters from left to right. -/
def runDisj (row : SRow) : List Param → List Where → Option (Option Bool × List Param)
  | ps, [] => some (some false, ps)
  | ps, w :: l => do
    let (a, ps) ← Where.run row ps w
    let (b, ps) ← runDisj row ps l
    return (or3 a b, ps)
end

/-- Executing `SELECT * FROM samples WHERE …` (select.py:22-30) on one row: is it selected? All parameters must be used.
Without a where clause every row is. -/
def selectRow (schema : Dict PyStr Bool) (s : Sel) (row : SRow) : Option Bool :=
  let w := genWhere schema s
  if w.1.isEmpty then (if w.2.isEmpty then some true else none)
  else
    match runDisj row w.2 w.1 with
    | some (v, []) => some (v == some true)
    | _ => none

end Mixtera
