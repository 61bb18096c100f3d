import Verif.Model.Utils

/-!
# Sharding of the HuggingFace dataset

Models /repo/mixtera/hf/mixtera_hf_dataset.py: how an iteration of a `MixteraHFDataset`, on one data parallel rank and in one
data loader worker, arrives at the worker id with which it streams from Mixtera, and where its assertions fire.

The library `datasets` itself is not in /repo. What is used of it is what the comments in lines 73-76 say: `shard_data_sources`
is called with (number of ranks, rank) if the dataset was split by node, and then with (number of loader workers, loader worker)
if there are loader worker processes; each call replaces the iterable for the rest of the iteration, not the one stored in
the dataset. `split_dataset_by_node`, `map` etc. return a plain `IterableDataset` over the same iterable, so that the checks in
`MixteraHFDataset.__iter__` are only made for datasets that were not transformed (`plain`).
-/

namespace Mixtera.HF

/-- What the iteration depends on: the query's `num_workers` and `dp_groups`, the dp group of this process, the split by node
(world size, rank), and the loader workers (their number, the id of the current one). -/
structure Setup where
  numWorkers : Nat
  dpGroups : Nat
  dpGroup : Nat
  split : Option (Nat × Nat)
  loader : Option (Nat × Nat)
  plain : Bool

/-- The state of a `_MixteraHFIterable`: `_shard_call_count` and `_res_str_args.worker_id` (which starts as the default of
`ResultStreamingArgs`, `initial`). -/
structure Iterable where
  calls : Nat
  worker : Nat

/-- `MixteraTorchDataset.worker_id` (torch/mixtera_torch_dataset.py:185-196). -/
def torchWorker (c : Setup) : Except Err Nat :=
  let w := match c.loader with
    | none => 0
    | some (_, id) => id
  if w < max c.numWorkers 1 then .ok w else .error .assertion

/-- `shard_data_sources` (mixtera_hf_dataset.py:70-99). -/
def shard (c : Setup) (it : Iterable) (n index : Nat) : Except Err Iterable :=
  if n = max c.numWorkers 1 ∨ n = c.dpGroups then .ok { calls := it.calls + 1, worker := index } else .error .assertion

/-- The calls of the library for one iteration. -/
def prepare (c : Setup) (it : Iterable) : Except Err Iterable := do
  let it ← match c.split with
    | none => .ok it
    | some (world, rank) => shard c it world rank
  match c.loader with
    | none => .ok it
    | some (n, id) => shard c it n id

/-- `validate_state` (mixtera_hf_dataset.py:101-121): the worker id of the iterable afterwards. -/
def validate (c : Setup) (it : Iterable) : Except Err Nat :=
  if it.calls = 0 then .error .assertion
  else if 2 < it.calls then .error .assertion
  else if it.calls = 1 then
    if c.numWorkers = 0 then
      if it.worker = c.dpGroup then do
        let t ← torchWorker c
        if t = 0 then .ok 0 else .error .assertion
      else .error .assertion
    else do
      let t ← torchWorker c
      if t = it.worker then .ok it.worker else .error .assertion
  else .ok it.worker

/-- The checks of `MixteraHFDataset.__iter__` (mixtera_hf_dataset.py:165-179). -/
def plainChecks (c : Setup) : Except Err Unit :=
  if c.plain = false then .ok ()
  else match c.split with
    | some (world, rank) => if world = c.dpGroups ∧ rank = c.dpGroup then .ok () else .error .assertion
    | none => if c.dpGroups = 1 ∧ c.dpGroup = 0 then .ok () else .error .assertion

/-- The start of an iteration: the worker id with which samples are streamed. The last check is the write to the status array
at the start of `MixteraTorchDataset.__iter__` (torch/mixtera_torch_dataset.py:262). -/
def begin (c : Setup) (initial : Nat) : Except Err Nat := do
  plainChecks c
  let it ← prepare c { calls := 0, worker := initial }
  let w ← validate c it
  if w < max c.numWorkers 1 then .ok w else .error .indexError

/-- The end of an iteration, when the stream is exhausted: the log message of `MixteraHFDataset.__iter__`
(mixtera_hf_dataset.py:181-185) asks the stored iterable, which was never sharded, for its worker id (65-68). -/
def atEnd (c : Setup) : Except Err Unit := if c.plain then .error .assertion else .ok ()

end Mixtera.HF
