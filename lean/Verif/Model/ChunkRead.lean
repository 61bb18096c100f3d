import Verif.Model.Component
import Verif.Model.Utils

/-!
# Reading the samples of a chunk

Models /repo/mixtera/core/query/result_chunk.py: how the samples of a chunk are ordered.  An iterator over a property
combination's samples is the list of what it still yields; a Python generator is the list of what it yields.  `K` are
the property combinations.  The shuffles are seeded with the list that is shuffled, so they are a fixed function of it.
-/

namespace Mixtera

variable {K α : Type} [DecidableEq K]

/-! ## Overall mixture -/

/-- The state of `_iterate_overall_mixture`: the iterators, the finished keys, and what has been yielded. -/
structure ReadState (K α : Type) where
  it : K → List α
  deleted : List K
  out : List (K × α)

/-- `next(active_iterators[k])` succeeding: the iterator moves on. -/
def advance (it : K → List α) (k : K) : K → List α := fun k' => if k' = k then (it k).tail else it k'

/-- One iteration of the `for` loop (result_chunk.py:458-465). -/
def overallStep (s : ReadState K α) (n : K) : ReadState K α :=
  if n ∈ s.deleted then s
  else match s.it n with
    | [] => { s with deleted := s.deleted ++ [n] }
    | x :: _ => { s with it := advance s.it n, out := s.out ++ [(n, x)] }

/-- The `while` loop (result_chunk.py:457-465); `none` if it has not ended after `fuel` iterations. -/
def overallLoop (names : List K) : Nat → ReadState K α → Option (ReadState K α)
  | 0, s => if s.deleted.length < names.length then none else some s
  | fuel + 1, s =>
    if s.deleted.length < names.length then overallLoop names fuel (names.foldl overallStep s) else some s

/-- `_iterate_overall_mixture` (result_chunk.py:443-465) on the iterators of `names` (already shuffled). -/
def iterateOverall (names : List K) (it : K → List α) (fuel : Nat) : Option (List (K × α)) :=
  (overallLoop names fuel ⟨it, [], []⟩).map ReadState.out

/-! ## Windows -/

/-- `_get_element_counts` (result_chunk.py:467-489): the share of each key of a window, rounded down; the first key gets
what is missing. `value / chunk_size` is taken exactly. -/
def elementCounts (window chunk : Nat) (mixture : List (K × Nat)) : List (K × Int) :=
  let initial := mixture.map fun kv => (kv.1, ((window * kv.2 / chunk : Nat) : Int))
  let remainder := (window : Int) - (initial.map Prod.snd).sum
  match initial with
  | [] => []
  | (k, n) :: l => (k, n + remainder) :: l

/-- The state of `_iterate_window_mixture`. -/
structure WinState (K α : Type) where
  it : K → List α
  deleted : List K
  proc : K → Nat
  yielded : Nat
  stop : Bool
  out : List (K × α)

/-- Yielding a sample of `k` (result_chunk.py:427-430). -/
def WinState.give (s : WinState K α) (k : K) (x : α) : WinState K α :=
  { s with
    it := advance s.it k
    proc := fun k' => if k' = k then s.proc k + 1 else s.proc k'
    yielded := s.yielded + 1
    out := s.out ++ [(k, x)] }

/-- The `for` loop of a window (result_chunk.py:418-439), which is left when the window is full. The flag is
`nothing_yielded_window`. -/
def winFor (W : Nat) : List (K × Int) → WinState K α → Bool → WinState K α × Bool
  | [], s, nothing => (s, nothing)
  | (k, c) :: cs, s, nothing =>
    if k ∈ s.deleted ∨ c ≤ (s.proc k : Int) then winFor W cs s nothing
    else match s.it k with
      | [] => winFor W cs { s with deleted := s.deleted ++ [k], stop := true } nothing
      | x :: _ =>
        if W ≤ s.yielded + 1 then (s.give k x, false) else winFor W cs (s.give k x) false

/-- One window (result_chunk.py:416-441). -/
def winLoop (W : Nat) (cs : List (K × Int)) : Nat → WinState K α → Option (WinState K α)
  | 0, s => if s.deleted.length < cs.length ∧ s.yielded < W then none else some s
  | fuel + 1, s =>
    if s.deleted.length < cs.length ∧ s.yielded < W then
      if (winFor W cs s true).2 then some (winFor W cs s true).1 else winLoop W cs fuel (winFor W cs s true).1
    else some s

/-- The loop over the windows (result_chunk.py:411-441). A window needs at most `W + 1` rounds of its loop, which is what
`winLoop` gets here; the result would be `none` if it needed more. -/
def windowsLoop (W : Nat) (bestEffort : Bool) (cs : List (K × Int)) : Nat → WinState K α → Option (WinState K α)
  | 0, s => if s.deleted.length < cs.length ∧ (bestEffort = true ∨ s.stop = false) then none else some s
  | fuel + 1, s =>
    if s.deleted.length < cs.length ∧ (bestEffort = true ∨ s.stop = false) then
      (winLoop W cs (W + 1) { s with proc := fun _ => 0, yielded := 0 }).bind fun s' =>
        windowsLoop W bestEffort cs fuel s'
    else some s

/-- `_iterate_window_mixture` (result_chunk.py:388-441) with the (shuffled) element counts `cs`, one for each
iterator. -/
def iterateWindows (W : Nat) (bestEffort : Bool) (cs : List (K × Int)) (it : K → List α) (fuel : Nat) :
    Option (List (K × α)) :=
  (windowsLoop W bestEffort cs fuel ⟨it, [], fun _ => 0, 0, false, []⟩).map WinState.out

/-! ## Skipping -/

/-- `_iterate_samples` (result_chunk.py:259-274) on what the yield source gives: the index, the key's id and the
sample. -/
def iterateSamples {α : Type} (keyId : K → Nat) (source : List (K × α)) (skip : Nat) : List (Nat × Nat × α) :=
  ((source.drop skip).zipIdx).map fun p => (p.2 + skip, keyId p.1.1, p.1.2)

/-! ## Reader processes -/

/-- `_prepare_workloads` (result_chunk.py:601-621) for one key: its files in shuffled order. -/
def prepareWorkload {β : Type} (shuffle : List (Nat × Nat × β) → List (Nat × Nat × β))
    (entries : Dict Nat (Dict Nat β)) : List (Nat × Nat × β) :=
  shuffle (entries.flatMap fun d => d.2.map fun f => (d.1, f.1, f.2))

/-- `_get_process_counts` (result_chunk.py:325-348). -/
def processCounts (readers chunk : Nat) (mixture : List (K × Nat)) : List (K × Int) :=
  let initial := mixture.map fun kv => (kv.1, ((kv.2 * readers / chunk : Nat) : Int))
  match initial with
  | [] => []
  | (k, n) :: l => (k, n + ((readers : Int) - (initial.map Prod.snd).sum)) :: l

/-- The partition boundaries `list(range(0, n, size)) + [n]` and the slices between them
(result_chunk.py:521-540). -/
def partitions {β : Type} (size : Nat) : Nat → List β → List (List β)
  | 0, _ => []
  | k + 1, l => if l.isEmpty then [] else l.take size :: partitions size k (l.drop size)

/-- `_spin_up_readers` for one key (result_chunk.py:491-550): the workloads of its processes. -/
def readerWorkloads {β : Type} (count : Int) (workload : List β) : List (List β) :=
  let count := if count < 1 then 1 else count.toNat
  partitions (max 1 (workload.length / count)) workload.length workload

/-- What a reader process puts into its queue (result_chunk.py:553-599): the samples of its files and the end marker.
`read` yields the samples of a file's ranges. The marker is a value like any other (`END_OF_STREAM_OBJECT`, line 37,
the string `"END_OF_STREAM"`). The branch in which the parent process has died (580-592) is not modelled. -/
def readerOutput {β : Type} (read : β → List α) (eos : α) (workload : List β) : List α :=
  workload.flatMap read ++ [eos]

/-- Everything that runs when the samples of one key are read by processes `P`.
`todo p` is what process `p` has yet to put into its queue, `buf p` is the queue; `active` is the consumer's list
`processes`, `pos` what is left of it in the current round of the `for` loop and `removed` is `processes_to_remove`;
`timedOut` if `queue.get` has raised `Empty` and the process has not yet been looked at. -/
structure MtState (P α : Type) where
  todo : P → List α
  buf : P → List α
  active : List P
  pos : List P
  removed : List P
  timedOut : Bool
  error : Bool
  out : List (P × α)

/-- What the scheduler may do next. -/
inductive MtAct (P : Type) where
  /-- a process puts its next item into its queue -/
  | produce (p : P)
  /-- the consumer gets an item, or begins a new round -/
  | consume
  /-- `queue.get` times out -/
  | expire
  /-- after a timeout, the consumer looks whether the process is alive -/
  | check
  /-- a process dies -/
  | crash (p : P)

section
variable {P : Type} [DecidableEq P]

/-- A function changed at one place. -/
def setAt {β : Type} (f : P → β) (p : P) (b : β) : P → β := fun q => if q = p then b else f q

/-- A process puts an item into its queue. -/
def mtProduce (s : MtState P α) (p : P) : MtState P α :=
  match s.todo p with
  | [] => s
  | x :: xs => { s with todo := setAt s.todo p xs, buf := setAt s.buf p (s.buf p ++ [x]) }

/-- The consumer (result_chunk.py:361-386): it gets the next item of the process it is at, if there is one; at the end of
a round it forgets the finished processes. -/
def mtConsume [DecidableEq α] (eos : α) (s : MtState P α) : MtState P α :=
  if s.timedOut = true ∨ s.error = true then s
  else match s.pos with
    | [] => { s with
        active := s.active.filter (· ∉ s.removed)
        pos := s.active.filter (· ∉ s.removed)
        removed := [] }
    | p :: ps => match s.buf p with
      | [] => s
      | x :: xs =>
        if x = eos then { s with buf := setAt s.buf p xs, removed := s.removed ++ [p], pos := ps }
        else { s with buf := setAt s.buf p xs, out := s.out ++ [(p, x)], pos := ps }

/-- `queue.get` times out (result_chunk.py:369-371). -/
def mtExpire (s : MtState P α) : MtState P α :=
  match s.pos with
  | [] => s
  | p :: _ => if s.buf p = [] then { s with timedOut := true } else s

/-- After a timeout the consumer drops the process if it is not alive, and fails otherwise (result_chunk.py:372-378). A
process is alive as long as it has something to put into its queue. -/
def mtCheck (s : MtState P α) : MtState P α :=
  if s.timedOut = true then
    match s.pos with
    | [] => s
    | p :: ps =>
      if s.todo p = [] then { s with timedOut := false, removed := s.removed ++ [p], pos := ps }
      else { s with timedOut := false, error := true }
  else s

/-- A step of the system. An action that is not possible does nothing. -/
def mtStep [DecidableEq α] (eos : α) (s : MtState P α) : MtAct P → MtState P α
  | .produce p => mtProduce s p
  | .consume => mtConsume eos s
  | .expire => mtExpire s
  | .check => mtCheck s
  | .crash p => { s with todo := setAt s.todo p [] }

/-- The beginning (result_chunk.py:491-550): every process has everything to do. -/
def mtInit (procs : List P) (stream : P → List α) : MtState P α :=
  ⟨stream, fun _ => [], procs, procs, [], false, false, []⟩

/-- The iteration has ended: `while processes` is left. -/
def MtState.finished (s : MtState P α) : Prop := s.active = [] ∧ s.error = false

end

end Mixtera
