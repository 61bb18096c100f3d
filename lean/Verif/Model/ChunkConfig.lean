import Verif.Model.ChunkGen
import Verif.Model.ChunkRead
import Verif.Model.Mixture

/-!
# Configuring a chunk for reading

Models `ResultChunk.configure_result_streaming` and what it needs (/repo/mixtera/core/query/result_chunk.py:140-257).
-/

namespace Mixtera

variable {K : Type} [DecidableEq K]

/-- `ResultStreamingArgs` (/repo/mixtera/core/client/mixtera_client.py:33-67) without the identification of the node
and without the flags that are only copied. -/
structure StreamArgs where
  tunnel : Bool
  degree : Int
  mixtureType : String
  window : Int
  bestEffort : Bool
  tokenizer : String
  sequenceLen : Int
  tokenizationBs : Int

/-- The attributes of a `ResultChunk` that `configure_result_streaming` sets (result_chunk.py:150-251). -/
structure Configured (K : Type) where
  viaServer : Bool
  degree : Int
  mixtureType : String
  window : Int
  bestEffort : Bool
  mixture : Option (Dict K Nat)
  sequenceLen : Int
  tokenizationBs : Int

/-- `_infer_mixture` (result_chunk.py:256-257). -/
def inferChunkMixture (content : Dict K Entries) : Except Err (Dict K Nat) :=
  match inferMixture content with
  | .error e => .error e
  | .ok (total, m) => staticMixture total m

/-- The window size that is used in mode `"window"` (result_chunk.py:179-193). -/
def chosenWindow (w : Int) (chunk : Nat) : Int :=
  let w := if w > (chunk : Int) then (chunk : Int) else w
  if w < 1 then 128 else w

/-- Whether a mixture is inferred (result_chunk.py:197-199). -/
def needsMixture (mixtureType : String) (degree : Int) (mixture : Option (Dict K Nat)) : Bool :=
  ((mixtureType == "window" || mixtureType == "token") || decide (degree > 1)) &&
    (match mixture with
      | none => true
      | some m => m.isEmpty)

/-- The mixture with which the chunk is read, before zero-valued keys are dropped (result_chunk.py:197-202). -/
def mixtureInUse (mixtureType : String) (degree : Int) (c : RChunk K) : Except Err (Option (Dict K Nat)) :=
  if needsMixture mixtureType degree c.mixture then
    match inferChunkMixture c.content with
    | .error e => .error e
    | .ok m => .ok (some m)
  else .ok c.mixture

/-- Zero-valued keys are dropped (result_chunk.py:204-212). -/
def dropZeros (m : Dict K Nat) : Dict K Nat :=
  if m.values.any (· == 0) then m.filter fun kv => decide (kv.2 > 0) else m

/-- `a.keys() == b.keys()` (result_chunk.py:215): equality of sets. -/
def sameKeys (a b : List K) : Bool := a.length == b.length && a.all fun k => decide (k ∈ b)

/-- The check that the mixture supports the chunk (result_chunk.py:204-221). -/
def checkedMixture (content : Dict K Entries) : Option (Dict K Nat) → Except Err (Option (Dict K Nat))
  | none => .ok none
  | some m => if sameKeys (dropZeros m).keys content.keys then .ok (some (dropZeros m)) else .error .runtimeError

/-- `AutoTokenizer.from_pretrained` is tried up to five times (result_chunk.py:236-243): `loads i` says whether attempt
`i` would succeed. What the last attempt raises is not modelled beyond being an exception. -/
def tokenizerLoads (loads : Nat → Bool) : Bool := (List.range 5).any loads

/-- The options of mode `"token"` (result_chunk.py:224-251). -/
def tokenOptions (args : StreamArgs) (loads : Nat → Bool) (chunk : Nat) (cfg : Configured K) :
    Except Err (Configured K) :=
  if args.sequenceLen < 1 then .error .runtimeError
  else if args.tokenizer = "" then .error .runtimeError
  else if tokenizerLoads loads = false then .error .valueError
  else if args.tokenizationBs < 1 then .error .runtimeError
  else .ok { cfg with
    window := chunk
    sequenceLen := args.sequenceLen
    tokenizationBs := args.tokenizationBs
    bestEffort := false }

/-- `configure_result_streaming` (result_chunk.py:140-251). `isStub`: the client is a `ServerStub`. A fresh chunk has
sequence length and batch size -1 (lines 128-129). Simplification: if an exception is raised, what was already set on
the chunk is not modelled. -/
def configureChunk (isStub : Bool) (loads : Nat → Bool) (args : StreamArgs) (c : RChunk K) :
    Except Err (Configured K) :=
  if ¬ (args.mixtureType = "simple" ∨ args.mixtureType = "window" ∨ args.mixtureType = "token") then .error .assertion
  else if args.tunnel = true ∧ isStub = false then .error .runtimeError
  else
    let degree := if args.degree < 1 then 1 else args.degree
    let window := if args.mixtureType = "window" then chosenWindow args.window c.chunkSize else args.window
    match mixtureInUse args.mixtureType degree c with
    | .error e => .error e
    | .ok m =>
      match checkedMixture c.content m with
      | .error e => .error e
      | .ok m =>
        let cfg : Configured K :=
          { viaServer := args.tunnel, degree := degree, mixtureType := args.mixtureType, window := window,
            bestEffort := args.bestEffort, mixture := m, sequenceLen := -1, tokenizationBs := -1 }
        if args.mixtureType = "token" then tokenOptions args loads c.chunkSize cfg else .ok cfg

/-! ## Iterating -/

/-- Reading a file's ranges: the samples at the listed positions in order (result_chunk.py:350-359 and the data sets'
`read_ranges_from_files`, for which see C45 and C46). -/
def readRanges {α : Type} (line : Nat × Nat × Nat → α) (w : Nat × Nat × List Rng) : List α :=
  w.2.2.flatMap fun r => (List.range' r.1 (r.2 - r.1)).map fun x => line (w.1, w.2.1, x)

/-- `_get_iterator_for_workload_st` on the key's workload (result_chunk.py:285-289, 350-359, 601-621); the shuffle is
seeded with the key. -/
def keyStream {α : Type} (shuffle : K → List (Nat × Nat × List Rng) → List (Nat × Nat × List Rng))
    (line : Nat × Nat × Nat → α) (content : Dict K Entries) (k : K) : List α :=
  (prepareWorkload (shuffle k) ((content.get? k).getD [])).flatMap (readRanges line)

/-- `_iterate_samples` (result_chunk.py:259-274) of a configured chunk whose active iterators are `it`: in modes
`"token"` and `"window"` by windows, otherwise overall. `mixKeys` and `mixCounts` are the two shuffles (lines 399-400,
452-453). The window size is positive when it is used: see `c76_settings`. Without a mixture there are no element counts
(the assertion of line 475 fails). -/
def iterateChunk {α : Type} (mixKeys : List K → List K) (mixCounts : List (K × Int) → List (K × Int)) (cfg : Configured K)
    (c : RChunk K) (it : K → List α) (fuel : Nat) : Except Err (List (K × α)) :=
  if cfg.mixtureType = "token" ∨ cfg.mixtureType = "window" then
    match cfg.mixture with
    | none => .error .assertion
    | some m =>
      let counts := mixCounts (elementCounts cfg.window.toNat c.chunkSize m)
      if sameKeys (counts.map Prod.fst) c.content.keys then
        match iterateWindows cfg.window.toNat cfg.bestEffort counts it fuel with
        | none => .error .outOfFuel
        | some out => .ok out
      else .error .assertion
  else
    match iterateOverall (mixKeys c.content.keys) it fuel with
    | none => .error .outOfFuel
    | some out => .ok out

end Mixtera
