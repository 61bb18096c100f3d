import Verif.Model.Utils

/-!
# Finding the Mixtera dataset behind a data loader

Models /repo/mixtera/utils/dataset_utils.py. Python objects are the elements of a type `O` (identity is equality); what is
known about them is a record of functions. Simplified: an object's attributes do not change while it is searched, and an
object that an attribute computes anew every time is a new element of `O` for every place in the search (so `O` may be
infinite); ids of freed objects are not reused. Names of attributes and exceptions of `getattr` are left out: `attrs` are the
values that are obtained.
-/

namespace Mixtera.Find

/-- What the search sees of the objects. -/
structure Heap (O : Type) where
  /-- `isinstance(o, MixteraTorchDataset)` -/
  isTorch : O → Bool
  /-- the attribute values, in the order of `dir`, without special ones and those that raise -/
  attrs : O → List O
  /-- the elements of a list, tuple or set, the values of a dict -/
  items : O → Option (List O)
  /-- has a `__dict__` or `__slots__` -/
  hasDict : O → Bool
  /-- `isinstance(o, (MixteraHFDataset, _MixteraHFIterable))`, resp. the first and the second one only -/
  isHFDataset : O → Bool
  isHFIterable : O → Bool
  /-- the attributes `_ex_iterable` and `ex_iterable`, if not `None` -/
  exIterable1 : O → Option O
  exIterable2 : O → Option O
  /-- `isinstance(o, datasets.IterableDataset)` -/
  isIterable : O → Bool
  /-- a `DataLoader`, with its dataset -/
  loader : O → Option O
  /-- `isinstance(o, torch.utils.data.Dataset)` -/
  isDataset : O → Bool
  /-- the local variable `dataloader` of a generator's frame -/
  frameLoader : O → Option O

/-- The result of a search. -/
inductive Res (O : Type)
  | found (o : O)
  | nothing
  | recursionError
  deriving DecidableEq

variable {O : Type} [DecidableEq O]

/-- Searching the elements of a collection (dataset_utils.py:41-49), where `f` is the recursive call and the set of visited
objects is passed along. -/
def searchItems (f : List O → O → Res O × List O) : List O → List O → Res O × List O
  | vis, [] => (.nothing, vis)
  | vis, o :: l => match f vis o with
    | (.nothing, vis') => searchItems f vis' l
    | r => r

/-- What is done with one attribute value (dataset_utils.py:38-53). -/
def searchValue (h : Heap O) (f : List O → O → Res O × List O) (vis : List O) (v : O) : Res O × List O :=
  if h.isTorch v then (.found v, vis)
  else match h.items v with
    | some l => searchItems f vis l
    | none => if h.hasDict v then f vis v else (.nothing, vis)

/-- The loop over the attributes (dataset_utils.py:27-53). -/
def searchAttrs (h : Heap O) (f : List O → O → Res O × List O) : List O → List O → Res O × List O
  | vis, [] => (.nothing, vis)
  | vis, v :: l => match searchValue h f vis v with
    | (.nothing, vis') => searchAttrs h f vis' l
    | r => r

/-- `_find_mixtera_torch_dataset_in_attrs` (dataset_utils.py:9-55); the number is the depth of recursion that is left. -/
def findObj (h : Heap O) : Nat → List O → O → Res O × List O
  | 0, vis, _ => (.recursionError, vis)
  | n + 1, vis, o =>
    if o ∈ vis then (.nothing, vis)
    else if h.isTorch o then (.found o, o :: vis)
    else searchAttrs h (findObj h n) (o :: vis) (h.attrs o)

/-- The loop of `_get_mixtera_hf_dataset_or_client_from_iterabledataset` (dataset_utils.py:84-105); `to_visit` is a stack with
its top first. -/
def findHF (h : Heap O) : Nat → List O → List O → Option O
  | 0, _, _ => none
  | _ + 1, _, [] => none
  | n + 1, vis, o :: stack =>
    if o ∈ vis then findHF h n vis stack
    else if h.isHFDataset o || h.isHFIterable o then some o
    else findHF h n (o :: vis) ((h.exIterable2 o).toList ++ ((h.exIterable1 o).toList ++ stack))

/-- The dataset of the argument (dataset_utils.py:130-155). -/
def datasetOf (h : Heap O) (x : O) : O :=
  match h.loader x with
  | some d => d
  | none => if h.isDataset x then x
    else match h.frameLoader x with
      | some l => (h.loader l).getD x
      | none => x

/-- `_recover_mixtera_dataset` (dataset_utils.py:108-203). `installed`: the package `datasets` can be imported; `limit` is the
recursion limit and `fuel` bounds the loop of `findHF`. -/
def recover (h : Heap O) (installed : Bool) (limit fuel : Nat) (x : O) : Res O :=
  if h.isTorch (datasetOf h x) then .found (datasetOf h x)
  else if installed = false then .nothing
  else if h.isIterable (datasetOf h x) = false then (findObj h limit [] (datasetOf h x)).1
  else match findHF h fuel [] [datasetOf h x] with
    | none => .nothing
    | some d =>
      match (if h.isHFDataset d then h.exIterable1 d else some d) with
      | none => .nothing
      | some e => if h.isHFIterable e then .found e else .nothing

end Mixtera.Find
