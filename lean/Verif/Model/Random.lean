import Mathlib.Data.List.OfFn
import Mathlib.Logic.Equiv.Defs
import Verif.Model.ChunkConfig
import Verif.Model.MixtureKey
import Verif.Model.Session

/-!
# Seeded shuffles

Models `hash_list`, `seed_everything_from_list` and `seed_everything` (/repo/mixtera/utils/utils.py:92-111, 150-178) and the
four places where lists are shuffled (/repo/mixtera/core/query/query_result.py:288-297,
/repo/mixtera/core/query/result_chunk.py:396-399, 450-453, 616-619), with the state of the process's global random number
generator passed along explicitly.

`random.shuffle` exchanges positions that it draws from the generator, so what it does depends on the state and on the length
of the list only; the generator itself is arbitrary. `hash` stands for xxhash. Only the state of the module `random` is
modelled (`np.random` and `PYTHONHASHSEED` are set alongside, and not used here).
-/

namespace Mixtera

variable {R α : Type}

/-- `random.seed(n)`, and the exchange of positions that `random.shuffle` makes on a list of a given length, with the state
afterwards. -/
structure RandomLib (R : Type) where
  seed : Nat → R
  draw : R → (n : Nat) → Equiv.Perm (Fin n) × R

/-- `random.shuffle(l)`. -/
def RandomLib.shuffle (lib : RandomLib R) (l : List α) (r : R) : List α × R :=
  (List.ofFn fun i => l.get ((lib.draw r l.length).1 i), (lib.draw r l.length).2)

/-- `hash_list` (utils.py:92-111). -/
def hashList (hash : PyStr → Nat) (l : List PyStr) : Nat := hash (joinStr ['\x00'] (sortStr l))

/-- `seed_everything_from_list` and `seed_everything` (utils.py:150-178) on the texts `str(x)` of the elements: the state before
is forgotten. -/
def reseed (lib : RandomLib R) (hash : PyStr → Nat) (texts : List PyStr) (_ : R) : R :=
  lib.seed (hashList hash texts % 2 ^ 32)

/-- Seed with a list's texts and shuffle another list. -/
def seedAndShuffle (lib : RandomLib R) (hash : PyStr → Nat) (texts : List PyStr) (l : List α) (r : R) : List α × R :=
  lib.shuffle l (reseed lib hash texts r)

section Keys

variable {K : Type} [DecidableEq K]

/-- The order in which a new generator visits the keys of the index (query_result.py:288-297): the seed comes from the keys as
they are listed in the index, then they are sorted and shuffled. `text` is `str` on keys. -/
def keyOrder (lib : RandomLib R) (hash : PyStr → Nat) (ops : KeyOps K) (text : K → PyStr) (keys : List K) (r : R) : List K × R :=
  seedAndShuffle lib hash (keys.map text) (ops.sort keys) r

/-- `_prepare_workloads` (result_chunk.py:601-621): for every key its files, shuffled with a seed from the key. -/
def openWorkloads (lib : RandomLib R) (hash : PyStr → Nat) (text : K → PyStr) :
    Dict K Entries → R → Dict K (List (Nat × Nat × List Rng)) × R
  | [], r => ([], r)
  | (k, e) :: rest, r =>
    let s := seedAndShuffle lib hash [text k] (prepareWorkload id e) r
    let t := openWorkloads lib hash text rest s.2
    ((k, s.1) :: t.1, t.2)

/-- `str` of a pair of a key and a number: `(key, number)`, with `repr` of the key, which is its `str`. -/
def countText (text : K → PyStr) (kc : K × Int) : PyStr := ['('] ++ text kc.1 ++ [',', ' '] ++ (toString kc.2).toList ++ [')']

/-- `_iterate_samples` (result_chunk.py:259-274) with the three shuffles; all of them happen before the first sample is
yielded. Everything after the shuffles is `iterateChunk` on the shuffled lists. -/
def iterateSeeded (lib : RandomLib R) (hash : PyStr → Nat) (text : K → PyStr) (cfg : Configured K) (c : RChunk K)
    (line : Nat × Nat × Nat → α) (fuel : Nat) (r : R) : Except Err (List (K × α)) × R :=
  let w := openWorkloads lib hash text c.content r
  let it : K → List α := fun k => ((w.1.get? k).getD []).flatMap (readRanges line)
  if cfg.mixtureType = "token" ∨ cfg.mixtureType = "window" then
    match cfg.mixture with
    | none => (.error .assertion, w.2)
    | some m =>
      let counts := elementCounts cfg.window.toNat c.chunkSize m
      let s := seedAndShuffle lib hash (counts.map (countText text)) counts w.2
      (iterateChunk id (fun _ => s.1) cfg c it fuel, s.2)
  else
    let s := seedAndShuffle lib hash (c.content.keys.map text) c.content.keys w.2
    (iterateChunk (fun _ => s.1) id cfg c it fuel, s.2)

end Keys

end Mixtera
