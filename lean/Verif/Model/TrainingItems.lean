import Verif.Model.TrainingRun
import Verif.Model.ResultMeta

/-!
# A training run on records

The loaders of `Model/TrainingRun.lean`, reading the files of the registered datasets.
Models /repo/mixtera/core/query/result_chunk.py:120-275, 350-359, 443-465, 601-621 with the metadata of the query result.
-/

namespace Mixtera.Torch

variable {K α β ρ R : Type} [DecidableEq K]

/-- `_iterate_samples` (result_chunk.py:259-274) as `iterateSeeded`, with any way `reader` to read the ranges of a file. -/
def iterateItems (lib : RandomLib R) (hash : PyStr → Nat) (text : K → PyStr) (cfg : Configured K) (c : RChunk K)
    (reader : Nat × Nat × List Rng → List α) (fuel : Nat) (r : R) : Except Err (List (K × α)) × R :=
  let w := openWorkloads lib hash text c.content r
  let it : K → List α := fun k => ((w.1.get? k).getD []).flatMap reader
  if cfg.mixtureType = "token" ∨ cfg.mixtureType = "window" then
    match cfg.mixture with
    | none => (.error .assertion, w.2)
    | some m =>
      let counts := elementCounts cfg.window.toNat c.chunkSize m
      let s := seedAndShuffle lib hash (counts.map (countText text)) counts w.2
      (iterateChunk id (fun _ => s.1) cfg c it fuel, s.2)
  else
    let s := seedAndShuffle lib hash (c.content.keys.map text) c.content.keys w.2
    (iterateChunk (fun _ => s.1) id cfg c it fuel, s.2)

/-- The reading of a chunk in a loader as `readWith`, from the files `w`: the path of a file, the class and the parsing function
of a dataset come from the metadata `m` of the query result (result_chunk.py:350-359), `apply` is what a parsing function does.
Simplified: if a file cannot be read, its samples end there (in the code the exception ends the loader); C83 shows that this
does not happen for the chunks that are delivered. -/
def readRecords (lib : RandomLib R) (hash : PyStr → Nat) (text : K → PyStr) (isStub : Bool) (loads : Nat → Bool)
    (args : StreamArgs) (w : FileWorld β ρ) (apply : PyStr → ρ → α) (m : ResultMeta) (fuel : RChunk K → Nat) (r : R)
    (c : RChunk K) : List (K × α) :=
  match configureChunk isStub loads args c with
  | .error _ => []
  | .ok cfg =>
    match (iterateItems lib hash text cfg c (fun x => (readItem w apply m x.1 x.2.1 x.2.2).1) (fuel c) r).1 with
    | .error _ => []
    | .ok out => out

end Mixtera.Torch
