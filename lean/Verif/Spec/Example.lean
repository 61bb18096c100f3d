import Verif.Spec.History

/-!
# A small concrete query result

Used by the `example`s that show that the hypotheses of the theorems are met by non-trivial cases.
Keys are numbers; component `c` matches mixture key `k` iff `k` is its last digit, so that several
components match one mixture key.
-/

namespace Mixtera.Ex

instance : DecidableEq (Nat × List Pos) := instDecidableEqProd

def ops : KeyOps Nat := ⟨fun a b => decide (a ≤ b), fun a b => a == b % 10⟩

def index : Dict Nat Entries :=
  [(11, [(0, [(0, [(0, 3), (5, 7)])])]), (1, [(0, [(0, [(3, 5)])])]), (2, [(0, [(1, [(0, 10)])])])]

def order : List Nat := [2, 11, 1]

def strictMix : MixView Nat := ⟨[(1, 3), (2, 2)], true, 5⟩
def bestMix : MixView Nat := ⟨[(2, 2), (1, 3)], false, 5⟩
def arbMix : MixView Nat := ⟨[], true, 4⟩

/-- A request with a fixed mixture. -/
def req (m : MixView Nat) (t : Nat) : Req Nat := ⟨fun _ => m, 0, t, 20⟩

/-- The observable part of an answer. -/
def see : Out Nat → Option (List (Nat × List Pos))
  | .chunk c => some (c.content.map fun (k, e) => (k, entriesSamples e))
  | _ => none

/-- Did the request deliver a chunk? -/
def isChunk : Out Nat → Bool
  | .chunk _ => true
  | _ => false

theorem index_ok : IndexOk index order := by
  constructor
  · decide
  · decide
  · intro k e h
    simp only [index, List.mem_cons, Prod.mk.injEq, List.not_mem_nil, or_false] at h
    rcases h with ⟨_, rfl⟩ | ⟨_, rfl⟩ | ⟨_, rfl⟩ <;> decide
  · intro k e h d fs h2
    simp only [index, List.mem_cons, Prod.mk.injEq, List.not_mem_nil, or_false] at h
    rcases h with ⟨_, rfl⟩ | ⟨_, rfl⟩ | ⟨_, rfl⟩ <;>
      (simp only [List.mem_cons, Prod.mk.injEq, List.not_mem_nil, or_false] at h2; obtain ⟨_, rfl⟩ := h2; decide)

theorem index_sorted : IndexSorted index := by
  intro k e h d fs h2 f rs h3
  simp only [index, List.mem_cons, Prod.mk.injEq, List.not_mem_nil, or_false] at h
  rcases h with ⟨_, rfl⟩ | ⟨_, rfl⟩ | ⟨_, rfl⟩ <;>
    (simp only [List.mem_cons, Prod.mk.injEq, List.not_mem_nil, or_false] at h2; obtain ⟨_, rfl⟩ := h2
     simp only [List.mem_cons, Prod.mk.injEq, List.not_mem_nil, or_false] at h3; obtain ⟨_, rfl⟩ := h3; decide)

theorem index_nodup : (contentSamples index).Nodup := by decide

theorem heap_ok (m : MixView Nat) (h : m.rows.keys.Nodup) (t : Nat) : HeapOk (req m t).heap := fun _ => h

end Mixtera.Ex
