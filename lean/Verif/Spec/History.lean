import Verif.Model.ChunkGen
import Verif.Spec.Samples

/-!
# Histories of a query result

Vocabulary for the statements about the chunk generator: a history is any list of requests, each with
its own heap of mixture objects (so mixtures may be exchanged and mutated in place between requests in
any way), the mixture reference and target index that are sent, and a bound on the model's loops.
-/

namespace Mixtera

/-- One request: `generator.send((mixture, target))` with the mixture objects as they are at that time. -/
structure Req (K : Type) where
  heap : Nat → MixView K
  mix : Nat
  target : Nat
  fuel : Nat

variable {K : Type} [DecidableEq K]

/-- The mixture objects hold dictionaries: no key occurs twice. -/
def HeapOk (heap : Nat → MixView K) : Prop := ∀ i, (heap i).rows.keys.Nodup

/-- Answer a list of requests one after another. -/
def Gen.play (ops : KeyOps K) (replay : Bool) : Gen K → List (Req K) → Gen K × List (Out K)
  | g, [] => (g, [])
  | g, r :: rs =>
    let (g1, o) := g.send ops r.fuel replay r.heap r.mix r.target
    let (g2, os) := Gen.play ops replay g1 rs
    (g2, o :: os)

/-- The mixture that a request is served with: the one sent, except right after an unserved
request, where the generator keeps the one it had (see C10). -/
def Gen.eff (g : Gen K) (r : Req K) : MixView K :=
  r.heap (if g.susp = .afterNone then g.base else r.mix)

/-- The chunk index a request is served with (see `Gen.eff`). -/
def Gen.effTarget (g : Gen K) (r : Req K) : Nat := if g.susp = .afterNone then g.target else r.target

/-- Positions delivered by one answer. -/
def Out.samples : Out K → List Pos
  | .chunk c => contentSamples c.content
  | _ => []

/-- The query's result set is a dictionary of dictionaries and its keys are enumerated by `order`. -/
structure IndexOk (index : Dict K Entries) (order : List K) : Prop where
  keys : index.keys.Nodup
  order : order.Perm index.keys
  ds : ∀ k e, (k, e) ∈ index → e.keys.Nodup
  files : ∀ k e, (k, e) ∈ index → ∀ d fs, (d, fs) ∈ e → fs.keys.Nodup

/-- Per-file ranges of every property combination are well formed, sorted and pairwise disjoint. -/
def IndexSorted (index : Dict K Entries) : Prop :=
  ∀ k e, (k, e) ∈ index → ∀ d fs, (d, fs) ∈ e → ∀ f rs, (f, rs) ∈ fs →
    rs.Pairwise (fun a b => a.2 ≤ b.1) ∧ ∀ r ∈ rs, r.1 ≤ r.2

end Mixtera
