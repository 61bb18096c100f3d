import Verif.Model.Database
import Verif.Model.Select

/-!
# The query cache

Models /repo/mixtera/core/query/query_cache.py, the text of a query (/repo/mixtera/core/query/query_plan.py,
/repo/mixtera/core/query/operators/_base.py, select.py) and how a query is executed
(/repo/mixtera/core/client/local/local_stub.py:72-97).  The file system operations of one lookup are taken as one step,
as is the evaluation of a query (its SQL statements and the look-up of file paths and parsing functions).  What a query
evaluates to is a parameter `eval`; pickling is the identity.
-/

namespace Mixtera

/-! ## The text of a query -/

/-- The quote `repr` uses for a string: `"` if the string contains `'` but no `"`, and `'` otherwise. -/
def reprQuote (s : PyStr) : Char := if s.contains '\'' && !(s.contains '"') then '"' else '\''

/-- Escaping of one character inside quotes `q`. Simplification: characters that are not printable, other than the line
feed, are left as they are. -/
def reprChar (q c : Char) : PyStr :=
  if c = '\\' then ['\\', '\\'] else if c = q then ['\\', c] else if c = '\n' then ['\\', 'n'] else [c]

/-- `repr(s)` of a string. -/
def reprStr (s : PyStr) : PyStr := reprQuote s :: (s.flatMap (reprChar (reprQuote s)) ++ [reprQuote s])

/-- `', '.join(...)` -/
def reprSep {α : Type} (f : α → PyStr) : List α → PyStr
  | [] => []
  | [a] => f a
  | a :: b :: l => f a ++ [',', ' '] ++ reprSep f (b :: l)

/-- `repr` of a list. -/
def reprList {α : Type} (f : α → PyStr) (l : List α) : PyStr := '[' :: (reprSep f l ++ [']'])

/-- `repr` of `None` or a string. -/
def reprOpt : Option PyStr → PyStr
  | none => ['N', 'o', 'n', 'e']
  | some s => reprStr s

/-- `repr` of a condition's value. -/
def reprVal : CondVal → PyStr
  | .none => ['N', 'o', 'n', 'e']
  | .one s => reprStr s
  | .many l => reprList reprOpt l

/-- `repr` of a condition `(field, op, value)`. -/
def reprCond (c : Cond) : PyStr :=
  '(' :: (reprStr c.field ++ [',', ' '] ++ reprStr c.op ++ [',', ' '] ++ reprVal c.value ++ [')'])

/-- `Select.__str__` (select.py:137-138). -/
def selectStr (conds : List Cond) : PyStr := "select<>(".toList ++ reprList reprCond conds ++ [')']

/-- A chain of selects: the conditions of the first one and of those chained to it. -/
abbrev SelectChain := List Cond × List (List Cond)

/-- `str(query)` (_base.py:54-73, query_plan.py:38-45): the first select at level 0, the others, its children, at level
1, without the final line feed. -/
def queryText (q : SelectChain) : PyStr :=
  selectStr q.1 ++ q.2.flatMap fun c => ['\n', '-', '>', ' '] ++ selectStr c

/-! ## The cache -/

/-- The file `meta.pkl`: not there, incomplete because the process died while writing it, or complete with the version
and the query's text. -/
inductive MetaFile where
  | missing
  | torn
  | full (version : Nat) (text : PyStr)
deriving DecidableEq

/-- A directory `<hash>/<number>`: `meta.pkl` and the results, which are missing if the process died before they were
completely written. -/
structure CacheDir (R : Type) where
  num : Nat
  info : MetaFile
  results : Option R
deriving DecidableEq

/-- The database and the cache directory. -/
structure Sys (R : Type) where
  db : Db
  cache : Dict PyStr (List (CacheDir R)) := []

/-- What is left open about a query cache: the text of a query, the hash function, the order in which a directory is
listed, and the result of a query on a database. -/
structure CacheEnv (Q R : Type) where
  text : Q → PyStr
  hash : PyStr → PyStr
  order : List (CacheDir R) → List (CacheDir R)
  eval : Db → Q → R

variable {Q R : Type}

/-- The number of the directory to create (query_cache.py:34-38). -/
def nextNumber : List (CacheDir R) → Nat
  | [] => 0
  | d :: l => max (d.num + 1) (nextNumber l)

/-- The outcome of a lookup. -/
inductive Found (R : Type) where
  /-- `None` -/
  | miss
  /-- `None`, after removing the directory with this number -/
  | stale (num : Nat)
  | hit (r : R)
  /-- `pickle.load` or `QueryResult.from_cache` raises because a file is incomplete -/
  | broken

/-- The loop over the directories (query_cache.py:77-104). -/
def scan (text : PyStr) (version : Nat) : List (CacheDir R) → Found R
  | [] => .miss
  | d :: l =>
    match d.info with
    | .missing => scan text version l
    | .torn => .broken
    | .full v t =>
      if t = text then
        if v ≠ version then .stale d.num
        else match d.results with
          | some r => .hit r
          | none => .broken
      else scan text version l

/-- `get_queryresults_if_cached` (query_cache.py:58-104): what it finds. -/
def lookup (E : CacheEnv Q R) (q : Q) (s : Sys R) : Found R :=
  match s.cache.get? (E.hash (E.text q)) with
  | none => .miss
  | some dirs => scan (E.text q) s.db.version (E.order dirs)

/-- What it removes (query_cache.py:72-75, 91-97). -/
def lookupCache (E : CacheEnv Q R) (q : Q) (s : Sys R) : Sys R :=
  let h := E.hash (E.text q)
  match s.cache.get? h with
  | none => s
  | some dirs =>
    if dirs.isEmpty then { s with cache := s.cache.pop h }
    else
      match lookup E q s with
      | .stale n =>
        let rest := dirs.filter fun d => d.num != n
        if rest.isEmpty then { s with cache := s.cache.pop h } else { s with cache := s.cache.set h rest }
      | _ => s

/-- Creating the directory for the results (query_cache.py:30-41). -/
def cacheMkdir (E : CacheEnv Q R) (q : Q) (s : Sys R) : Sys R :=
  { s with cache := s.cache.upsert (E.hash (E.text q)) fun o =>
      let dirs := o.getD []
      dirs ++ [⟨nextNumber dirs, .missing, none⟩] }

/-- Changing the directory `n`. -/
def cacheUpdate (E : CacheEnv Q R) (q : Q) (n : Nat) (f : CacheDir R → CacheDir R) (s : Sys R) : Sys R :=
  { s with cache := s.cache.upsert (E.hash (E.text q)) fun o =>
      (o.getD []).map fun d => if d.num = n then f d else d }

/-- `cache_query` (query_cache.py:26-56): create the directory, read the version the database has now, write it with
the query's text (the file is there before it is complete), write the results. -/
def cacheQuery (E : CacheEnv Q R) (q : Q) (r : R) : Prog (Sys R) Unit := do
  let n ← Prog.exec (cacheMkdir E q) fun s => nextNumber ((s.cache.get? (E.hash (E.text q))).getD [])
  let v ← Prog.exec id fun s => s.db.version
  Prog.exec (cacheUpdate E q n fun d => { d with info := .torn }) fun _ => ()
  Prog.exec (cacheUpdate E q n fun d => { d with info := .full v (E.text q) }) fun _ => ()
  Prog.exec (cacheUpdate E q n fun d => { d with results := some r }) fun _ => ()

/-- Looking up, then executing and caching if nothing was found (local_stub.py:81-94). Returns the results the job is
started with. -/
def executeQuery (E : CacheEnv Q R) (q : Q) : Prog (Sys R) R :=
  .stmt (lookupCache E q) fun s =>
    match lookup E q s with
    | .hit r => .ret (.ok r)
    | .broken => .ret (.error .runtimeError)
    | _ =>
      (Prog.exec id fun s => E.eval s.db q).bind fun r =>
        (cacheQuery E q r).bind fun _ => .ret (.ok r)

/-- A database operation as a program on the whole system. -/
def onDb {α : Type} : Prog Db α → Prog (Sys R) α
  | .ret r => .ret r
  | .stmt f k => .stmt (fun s => { s with db := f s.db }) fun s => onDb (k s.db)

end Mixtera
