import Verif.Model.Utils

/-!
# Tokenizing and prefetching iterators

Models /repo/mixtera/utils/tokenizing_iterator.py and /repo/mixtera/utils/prefetch_iterator.py. The wrapped iterator is
the list of texts it still yields. The tokenizer encodes each text of a batch on its own (`batch_encode_plus`), so it is
a function from a text to its tokens.
-/

namespace Mixtera

/-- The arguments of the iterators (tokenizing_iterator.py:6-24, 99-117). `bos`/`eos` are the tokens to add, if any; the
checks that the tokenizer has such tokens (28-31) are not modelled. -/
structure TokCfg (α : Type) where
  encode : α → List Nat
  seqLen : Nat
  batch : Nat
  atLeastOne : Bool
  overlap : Bool
  bos : Option Nat
  eos : Option Nat

variable {α : Type}

/-- `_step_size` (tokenizing_iterator.py:26). -/
def TokCfg.step (c : TokCfg α) : Nat := if c.overlap then c.seqLen else c.seqLen + 1

/-- The tokens of a text, with the begin and end token (tokenizing_iterator.py:58-66). -/
def TokCfg.tokens (c : TokCfg α) (text : α) : List Nat := c.bos.toList ++ c.encode text ++ c.eos.toList

/-- The state of a `TokenizingIterator` (tokenizing_iterator.py:17, 33-36). -/
structure TokState (α : Type) where
  rest : List α
  buffer : List Nat
  idx : Nat
  atEnd : Bool
  yielded : Nat

/-- `__init__` (tokenizing_iterator.py:6-36). -/
def TokState.init (texts : List α) : TokState α := ⟨texts, [], 0, false, 0⟩

/-- `fetch_data` (tokenizing_iterator.py:41-68): the next batch of texts; the end is noticed if there are fewer than
`batch` texts left. -/
def TokState.fetch (c : TokCfg α) (s : TokState α) : TokState α :=
  { s with
    rest := s.rest.drop c.batch
    buffer := s.buffer ++ (s.rest.take c.batch).flatMap c.tokens
    atEnd := s.atEnd || decide (s.rest.length < c.batch) }

/-- The padded sample (tokenizing_iterator.py:88-92): what there is, repeated. -/
def padTokens (len : Nat) (tokens : List Nat) : List Nat :=
  let needed := len - tokens.length
  let repeats := (needed + tokens.length - 1) / tokens.length
  ((List.replicate (1 + repeats) tokens).flatten).take len

/-- `__next__` (tokenizing_iterator.py:70-96): `none` if it has not returned after `fuel` rounds of its loop; otherwise
the sample, or `none` for `StopIteration`. -/
def tokNext (c : TokCfg α) : Nat → TokState α → Option (Option (List Nat) × TokState α)
  | 0, _ => none
  | fuel + 1, s =>
    if c.seqLen + 1 ≤ s.buffer.length - s.idx then
      some (some ((s.buffer.drop s.idx).take (c.seqLen + 1)),
        { s with idx := s.idx + c.step, yielded := s.yielded + 1 })
    else if s.atEnd = false then tokNext c fuel (s.fetch c)
    else if s.yielded = 0 ∧ 0 < s.buffer.length - s.idx ∧ c.atLeastOne = true then
      some (some (padTokens (c.seqLen + 1) (s.buffer.drop s.idx)), { s with yielded := s.yielded + 1 })
    else some (none, s)

/-- Iterating: everything that is yielded until `StopIteration`. `none` if that takes more than `fuel` samples or a
sample more than `fuel` rounds. -/
def tokAll (c : TokCfg α) (inner : Nat) : Nat → TokState α → Option (List (List Nat))
  | 0, _ => none
  | fuel + 1, s => match tokNext c inner s with
    | none => none
    | some (none, _) => some []
    | some (some x, s') => (tokAll c inner fuel s').map (x :: ·)

/-! ## The threaded iterator -/

/-- The worker thread and the consumer of a `ThreadedTokenizingIterator`. `waiting` if the consumer is in
`condition.wait()`; `dead` if the worker has been ended by an exception of the wrapped iterator; `done` if the consumer
has got `StopIteration`. -/
structure ThrState (α : Type) where
  rest : List α
  buffer : List Nat
  idx : Nat
  atEnd : Bool
  yielded : Nat
  waiting : Bool
  dead : Bool
  done : Bool
  out : List (List Nat)

/-- Who runs next: the worker runs one round of its loop, or the consumer the part of `__next__` that holds the lock.
Only the worker changes `rest`, and what it does before it takes the lock is not visible to the consumer, so a round is
one step. -/
inductive ThrAct where
  | worker
  | consumer
deriving DecidableEq

/-- One round of `prefetch_loop` (tokenizing_iterator.py:140-175). `raises` if the wrapped iterator ends with an
exception instead of `StopIteration`. -/
def thrWorker (c : TokCfg α) (raises : Bool) (s : ThrState α) : ThrState α :=
  if s.atEnd = true ∨ s.dead = true then s
  else if raises = true ∧ s.rest.length < c.batch then { s with dead := true }
  else if (s.rest.take c.batch).isEmpty then { s with atEnd := true, waiting := false }
  else { s with
    rest := s.rest.drop c.batch
    buffer := s.buffer ++ (s.rest.take c.batch).flatMap c.tokens
    atEnd := decide (s.rest.length < c.batch)
    waiting := false }

/-- The consumer calling `__next__` again and again (tokenizing_iterator.py:177-202). -/
def thrConsumer (c : TokCfg α) (s : ThrState α) : ThrState α :=
  if s.waiting = true ∨ s.done = true then s
  else if c.seqLen + 1 ≤ s.buffer.length - s.idx then
    { s with
      idx := s.idx + c.step
      yielded := s.yielded + 1
      out := s.out ++ [(s.buffer.drop s.idx).take (c.seqLen + 1)] }
  else if s.atEnd = true then
    if s.yielded = 0 ∧ 0 < s.buffer.length - s.idx ∧ c.atLeastOne = true then
      { s with
        yielded := s.yielded + 1
        out := s.out ++ [padTokens (c.seqLen + 1) (s.buffer.drop s.idx)] }
    else { s with done := true }
  else { s with waiting := true }

/-- A step. -/
def thrStep (c : TokCfg α) (raises : Bool) (s : ThrState α) : ThrAct → ThrState α
  | .worker => thrWorker c raises s
  | .consumer => thrConsumer c s

/-- `__init__` (tokenizing_iterator.py:99-135). -/
def ThrState.init (texts : List α) : ThrState α := ⟨texts, [], 0, false, 0, false, false, false, []⟩

/-- The state after `t` steps of a schedule. -/
def thrRun (c : TokCfg α) (raises : Bool) (s : ThrState α) (σ : Nat → ThrAct) : Nat → ThrState α
  | 0 => s
  | t + 1 => thrStep c raises (thrRun c raises s σ t) (σ t)

/-! ## Prefetching -/

/-- What a call of `next` on an iterator does: it yields an item (`none` is Python's `None`), or it ends, or it raises an
exception. A source is the list of what its calls do; after the end of the list it raises `StopIteration`. -/
inductive Pull (α : Type) where
  | item (x : Option α)
  | stop
  | fail
deriving DecidableEq

/-- `next(iterator)`. -/
def pull (src : List (Pull α)) : Pull α × List (Pull α) :=
  match src with
  | [] => (.stop, [])
  | x :: xs => (x, xs)

/-- The state of a `PrefetchFirstItemIterator` (prefetch_iterator.py:8-13). -/
structure PreState (α : Type) where
  src : List (Pull α)
  consumed : Bool
  first : Option α

/-- `__init__` with `_prefetch` (prefetch_iterator.py:8-22). The thread runs to its end before the first item is returned
(`prefetch_event.wait()`), and nothing else uses the iterator until then. An exception other than `StopIteration` ends the
thread after the event has been set, and `first_item` keeps its initial value. -/
def preInit (src : List (Pull α)) : PreState α :=
  match pull src with
  | (.item x, r) => ⟨r, false, x⟩
  | (.stop, r) => ⟨r, false, none⟩
  | (.fail, r) => ⟨r, false, none⟩

/-- `__next__` (prefetch_iterator.py:24-33). -/
def preNext (s : PreState α) : Pull α × PreState α :=
  if s.consumed = false then
    match s.first with
    | some x => (.item (some x), { s with consumed := true })
    | none => (.stop, { s with consumed := true })
  else ((pull s.src).1, { s with src := (pull s.src).2 })

/-- The first `n` calls of `next` on the prefetching iterator. -/
def preCalls : Nat → PreState α → List (Pull α)
  | 0, _ => []
  | n + 1, s => (preNext s).1 :: preCalls n (preNext s).2

/-- The first `n` calls of `next` on the wrapped iterator. -/
def srcCalls : Nat → List (Pull α) → List (Pull α)
  | 0, _ => []
  | n + 1, src => (pull src).1 :: srcCalls n (pull src).2

end Mixtera
