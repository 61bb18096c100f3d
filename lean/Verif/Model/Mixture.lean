import Verif.Model.ChunkGen
import Verif.Model.MixtureKey

/-!
# Mixtures

Models /repo/mixtera/core/query/mixture/{static_mixture,hierarchical_static_mixture,inferring_mixture,
mixture_schedule,dynamic_mixture}.py. Floats are exact rationals, chunk sizes are natural numbers.
-/

namespace Mixtera

variable {K : Type} [DecidableEq K]

/-! ### StaticMixture -/

/-- `floor_counts` (static_mixture.py:48-49). -/
def floorCounts (chunk : Nat) (m : Dict K ℚ) : Dict K Nat := m.map fun kv => (kv.1, (pyInt (chunk * kv.2)).toNat)

/-- `fractions[k]` for a key with weight `v` (static_mixture.py:50). -/
def fraction (chunk : Nat) (v : ℚ) : ℚ := chunk * v - pyInt (chunk * v)

/-- `sorted(fractions.keys(), key=..., reverse=True)` (static_mixture.py:60): descending, equal fractions keep their
order. -/
def sortedKeys (chunk : Nat) (m : Dict K ℚ) : List K :=
  (sortBy (fun a b => decide (fraction chunk b.2 ≤ fraction chunk a.2)) m).map Prod.fst

/-- The `while diff > 0` loop (static_mixture.py:61-67). `index % num_keys` raises for zero keys. -/
def addRemainder (keys : List K) : Nat → Nat → Dict K Nat → Except Err (Dict K Nat)
  | 0, _, d => .ok d
  | diff + 1, index, d =>
    match keys[index % keys.length]? with
    | none => .error .zeroDivision
    | some k => addRemainder keys diff (index + 1) (d.upsert k fun o => o.getD 0 + 1)

/-- `StaticMixture.parse_user_mixture` (static_mixture.py:40-70). -/
def parseUserMixture (chunk : Nat) (m : Dict K ℚ) : Except Err (Dict K Nat) :=
  if m.any (fun kv => decide (kv.2 < 0)) then .error .assertion
  else if chunk < (floorCounts chunk m).values.sum then .error .assertion
  else
    match addRemainder (sortedKeys chunk m) (chunk - (floorCounts chunk m).values.sum) 0 (floorCounts chunk m) with
    | .error e => .error e
    | .ok out => if out.values.sum = chunk then .ok out else .error .assertion

/-- `math.isclose(t, 1.0, rel_tol=1e-3)` (static_mixture.py:32). -/
def closeToOne (t : ℚ) : Prop := |t - 1| ≤ 1 / 1000 * max |t| 1

instance (t : ℚ) : Decidable (closeToOne t) := inferInstanceAs (Decidable (_ ≤ _))

/-- `StaticMixture(chunk, m).mixture_in_rows()` (static_mixture.py:14-38). -/
def staticMixture (chunk : Nat) (m : Dict K ℚ) : Except Err (Dict K Nat) :=
  if ¬ closeToOne m.values.sum then .error .valueError
  else parseUserMixture chunk (m.map fun kv => (kv.1, kv.2 / m.values.sum))

/-! ### HierarchicalStaticMixture -/

/-- The components of a `MixtureNode`; a submixture is given by its property name and its components
(hierarchical_static_mixture.py:11-21). -/
inductive MComps
  | nil
  | leaf (values : List PyStr) (weight : ℚ) (rest : MComps)
  | sub (values : List PyStr) (weight : ℚ) (name : PyStr) (comps : MComps) (rest : MComps)

/-- `MixtureNode`. -/
structure MNode where
  name : PyStr
  comps : MComps

/-- Sorted names with sorted values: dictionaries compare keys by contents (`RawKey.canon` in the proofs). -/
def normKey (a : RawKey) : RawKey := a.names.map fun k => (k, sortStr (a.vals k))

/-- The inner loop of `convert_to_mixture_key_format` (hierarchical_static_mixture.py:64-66): adds the property to
every key of the converted submixture and stores it under the new key. -/
def addProperty (name : PyStr) (values : List PyStr) (weight : ℚ) (result acc : Dict RawKey ℚ) : Dict RawKey ℚ :=
  result.foldl (fun acc kv => acc.set (normKey (kv.1.set name values)) (kv.2 * weight)) acc

/-- `convert_to_mixture_key_format` (hierarchical_static_mixture.py:59-69) on the components of a node with property
`name`; `acc` is `mixture_keys`. -/
def convert (name : PyStr) : MComps → Dict RawKey ℚ → Dict RawKey ℚ
  | .nil, acc => acc
  | .leaf values weight rest, acc => convert name rest (acc.set (normKey [(name, values)]) weight)
  | .sub values weight sname comps rest, acc =>
    convert name rest (addProperty name values weight (convert sname comps []) acc)

/-- `HierarchicalStaticMixture(chunk, node).mixture_in_rows()` (hierarchical_static_mixture.py:28-57). With no key at
all, `list(mixture.keys())[0]` raises. -/
def hierarchicalMixture (chunk : Nat) (node : MNode) : Except Err (Dict RawKey Nat) :=
  let m := convert node.name node.comps []
  if m.any (fun kv => decide (kv.2 < 0)) then .error .assertion
  else
    let rows := floorCounts chunk m
    if chunk - rows.values.sum > 0 then
      match rows with
      | [] => .error .indexError
      | (k, r) :: rest => .ok ((k, r + (chunk - rows.values.sum)) :: rest)
    else .ok rows

/-! ### InferringMixture -/

/-- `infer_mixture_from_chunkerindex` (/repo/mixtera/core/datacollection/index/index_utils.py:4-30). -/
def inferMixture (index : Dict K Entries) : Except Err (Nat × Dict K ℚ) :=
  let masses : Dict K Nat := index.map fun kv => (kv.1, entriesSize kv.2)
  let total := masses.values.sum
  if index ≠ [] ∧ total = 0 then .error .zeroDivision
  else .ok (total, masses.map fun kv => (kv.1, (kv.2 : ℚ) / total))

/-- `InferringMixture.process_index` (inferring_mixture.py:32-50): the new rows. -/
def inferRows (chunk : Nat) (index : Dict K Entries) : Except Err (Dict K Nat) :=
  match inferMixture index with
  | .error e => .error e
  | .ok (total, m) =>
    if total = 0 then (if m = [] then .ok [] else .error .assertion)
    else parseUserMixture chunk m

/-- A static, hierarchical, arbitrary (`inferring = false`) or inferring mixture object. -/
structure BaseMix (K : Type) where
  inferring : Bool
  chunk : Nat
  rows : Dict K Nat
  strict : Bool

/-- `process_index` (static_mixture.py:79-80, arbitrary_mixture.py, inferring_mixture.py:32-50). -/
def BaseMix.processIndex (index : Dict K Entries) (b : BaseMix K) : Except Err (BaseMix K) :=
  if b.inferring then
    match inferRows b.chunk index with
    | .error e => .error e
    | .ok rows => .ok { b with rows := rows }
  else .ok b

/-! ### MixtureSchedule -/

/-- `MixtureSchedule` (mixture_schedule.py:18-44). -/
structure Schedule (K : Type) where
  chunk : Nat
  entries : List (Int × BaseMix K)
  step : Int

/-- `MixtureSchedule.__init__` (mixture_schedule.py:23-44): `chunk_size` of every entry is overwritten, the entries are
sorted by start step (stable). -/
def Schedule.mk? (chunk : Nat) (entries : List (Int × BaseMix K)) : Except Err (Schedule K) :=
  if entries = [] then .error .runtimeError
  else .ok ⟨chunk, sortBy (fun a b => decide (a.1 ≤ b.1)) (entries.map fun e => (e.1, { e.2 with chunk := chunk })), 0⟩

/-- `current_mixture` (mixture_schedule.py:64-77): the entry. -/
def Schedule.current (s : Schedule K) : Option (Int × BaseMix K) :=
  match s.entries.reverse.find? (fun e => decide (e.1 ≤ s.step)) with
  | some e => some e
  | none => s.entries.head?

/-- `process_client_feedback` (mixture.py:60-79): reports a training step. -/
def Schedule.report (s : Schedule K) (n : Int) : Schedule K := { s with step := max s.step n }

/-- What the chunk generator sees of a schedule (query_result.py:321-322, mixture_schedule.py:32,46-53): the rows are those
of the current entry, the chunk size is the schedule's, and `strict` is the default of the base class (`True`,
mixture.py:16-26), whatever the entries say. -/
def Schedule.view (s : Schedule K) : MixView K :=
  { rows := match s.current with
      | some e => e.2.rows
      | none => []
    strict := true
    chunkSize := s.chunk }

/-- Position of `current_mixture` in `schedule`. -/
def Schedule.currentIdx (s : Schedule K) : Nat :=
  match s.entries.reverse.findIdx? (fun e => decide (e.1 ≤ s.step)) with
  | some i => s.entries.length - 1 - i
  | none => 0

/-- `process_index` (mixture_schedule.py:55-62). Simplification: no mixture object occurs in two entries. -/
def Schedule.processIndex (index : Dict K Entries) (s : Schedule K) : Except Err (Schedule K) :=
  match s.entries[s.currentIdx]? with
  | none => .ok s
  | some e =>
    match e.2.processIndex index with
    | .error err => .error err
    | .ok b => .ok { s with entries := s.entries.set s.currentIdx (e.1, b) }

/-! ### DynamicMixture -/

/-- `DynamicMixture` (dynamic_mixture.py:15-42); the mixing algorithm is outside the model, its results are arguments
of `processLosses`. -/
structure Dyn (K : Type) where
  chunk : Nat
  strict : Bool
  cur : BaseMix K
  ids : Option (Dict K Nat)
  informed : Bool
  told : List ℚ

/-- `DynamicMixture.__init__` (dynamic_mixture.py:30-42): the initial mixture's chunk size is overwritten; `told` is the
algorithm's `initial_mixture`, at first `[-1]` (dynamic_mixing.py:25). -/
def Dyn.init (chunk : Nat) (strict : Bool) (initial : BaseMix K) : Dyn K :=
  ⟨chunk, strict, { initial with chunk := chunk }, none, false, [-1]⟩

/-- `initial_mix` before the division (dynamic_mixture.py:74-76): `zeros(size)`, then one assignment per mixture key. -/
def initialMix (ids : Dict K Nat) : Dict K Nat → List ℚ → Except Err (List ℚ)
  | [], l => .ok l
  | (k, r) :: m, l =>
    match ids.get? k with
    | none => .error .keyError
    | some i => initialMix ids m (l.set i r)

/-- `process_id_map` (dynamic_mixture.py:63-85): new state, and the error if one is raised (the maps are set before).
An all-zero mixture gives NaNs, which fail the assertion. -/
def Dyn.processIdMap (d : Dyn K) (ids : Dict K Nat) : Dyn K × Option Err :=
  let d' := { d with ids := some ids }
  if d.informed then (d', none)
  else
    match ids.values.max? with
    | none => (d', some .valueError)
    | some n =>
      match initialMix ids d.cur.rows (List.replicate (n + 1) 0) with
      | .error e => (d', some e)
      | .ok l => if l.sum = 0 then (d', some .assertion) else ({ d' with informed := true, told := l.map fun x => x / l.sum }, none)

/-- `self._id_key_map[i]` for `{value: key for key, value in key_id_map.items()}`: the last key with this id. -/
def idKey (ids : Dict K Nat) (i : Nat) : Option K :=
  (ids.reverse.find? fun kv => decide (kv.2 = i)).map Prod.fst

/-- `weight_map` (dynamic_mixture.py:101): `i` is the index of the first listed weight. -/
def weightMap (ids : Dict K Nat) : Nat → List ℚ → Dict K ℚ → Except Err (Dict K ℚ)
  | _, [], acc => .ok acc
  | i, w :: ws, acc =>
    if w > 0 then
      match idKey ids i with
      | none => .error .keyError
      | some k => weightMap ids (i + 1) ws (acc.set k w)
    else weightMap ids (i + 1) ws acc

/-- `np.isclose(s, 1)` with default tolerances. -/
def npCloseToOne (s : ℚ) : Prop := |s - 1| ≤ 1 / 100000000 + 1 / 100000

instance (t : ℚ) : Decidable (npCloseToOne t) := inferInstanceAs (Decidable (_ ≤ _))

/-- `_process_losses` (dynamic_mixture.py:87-104); `out` is what the mixing algorithm returned. An exception leaves the
state as it is. -/
def Dyn.processLosses (d : Dyn K) (mixtureId : Int) (out : Option (List ℚ)) : Dyn K × Option Err :=
  match d.ids with
  | none => (d, some .assertion)
  | some ids =>
    if ¬ d.informed ∨ mixtureId < 0 then (d, some .assertion)
    else
      match out with
      | none => (d, none)
      | some w =>
        if ¬ npCloseToOne w.sum then (d, some .assertion)
        else
          match weightMap ids 0 w [] with
          | .error e => (d, some e)
          | .ok m =>
            match staticMixture d.chunk m with
            | .error e => (d, some e)
            | .ok rows => ({ d with cur := ⟨false, d.chunk, rows, d.strict⟩ }, none)

/-- `process_index` (dynamic_mixture.py:59-61). -/
def Dyn.processIndex (d : Dyn K) (index : Dict K Entries) : Dyn K × Option Err :=
  match d.cur.processIndex index with
  | .error e => (d, some e)
  | .ok b => ({ d with cur := b }, none)

end Mixtera
