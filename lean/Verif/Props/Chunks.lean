import Verif.Lemmas.History
import Verif.Spec.Example

/-!
# C02 - C06, C11, C12: what a chunk contains

All theorems quantify over an arbitrary query result (`index`, with an arbitrary shuffled key `order`),
an arbitrary `history` of requests (any mixtures, any in-place mutations, any target indices) and one
more request `r`. `g` is the generator after the history, `Gen.eff` the mixture the request is served
with.
-/

set_option linter.unusedSectionVars false

namespace Mixtera

variable {K : Type} [DecidableEq K]

/-- The generator after a history of requests. -/
def after (ops : KeyOps K) (replay : Bool) (index : Dict K Entries) (order : List K)
    (history : List (Req K)) : Gen K :=
  ((Gen.init index order).play ops replay history).1

theorem after_inv (ops : KeyOps K) (replay : Bool) {index : Dict K Entries} {order : List K}
    (hi : IndexOk index order) (history : List (Req K)) (hh : ∀ r ∈ history, HeapOk r.heap) :
    GenInv (after ops replay index order history) :=
  (play_rel ops replay _ (genInv_init hi) history hh).2

theorem after_suffix (ops : KeyOps K) (replay : Bool) {index : Dict K Entries} {order : List K}
    (hi : IndexOk index order) (history : List (Req K)) (hh : ∀ r ∈ history, HeapOk r.heap) (c : K) :
    samples (itOf (after ops replay index order history).iters c) <:+ samples (itOf (Gen.init index order).iters c) :=
  (play_rel ops replay _ (genInv_init hi) history hh).1.suffix c

/-- The facts about a request that was answered with a chunk. -/
theorem chunk_facts (ops : KeyOps K) (replay : Bool) {g : Gen K} (hg : GenInv g) (r : Req K)
    (hr : HeapOk r.heap) {g' : Gen K} {c : RChunk K}
    (h : g.send ops r.fuel replay r.heap r.mix r.target = (g', .chunk c)) :
    ∃ g1, GenRel g g1 [] ∧ GenInv g1 ∧
      (((g.eff r).rows ≠ [] ∧ MixChunk ops g1.iters (g.eff r) c g'.iters) ∨
        ((g.eff r).rows = [] ∧ ArbChunk g1.order g1.iters (g.eff r) c g'.iters)) := by
  rcases send_spec ops replay g hg r hr h with ⟨_, h1, _⟩ | ⟨h1, _⟩ | ⟨g1, h1, h2, _, h3⟩
  · simp at h1
  · simp at h1
  · exact ⟨g1, h1, h2, (h3.chunk c rfl).2⟩

/-- C02. A chunk obtained under a strict mixture lists, for every key, exactly the number of samples
the mixture prescribes, lists no other key, and reports the requested mixture. -/
theorem c02_strict_chunk (ops : KeyOps K) (replay : Bool) (index : Dict K Entries) (order : List K)
    (hi : IndexOk index order) (history : List (Req K)) (hh : ∀ r ∈ history, HeapOk r.heap)
    (r : Req K) (hr : HeapOk r.heap) (g g' : Gen K) (c : RChunk K)
    (hg : g = after ops replay index order history)
    (h : g.send ops r.fuel replay r.heap r.mix r.target = (g', .chunk c))
    (hne : (g.eff r).rows ≠ []) (hs : (g.eff r).strict = true) :
    c.mixture = some (g.eff r).rows ∧ c.strict = true ∧
    (∀ k, (keySamples c.content k).length = ((g.eff r).rows.get? k).getD 0) ∧
    (∀ k ∈ c.content.keys, k ∈ (g.eff r).rows.keys) := by
  have hgi : GenInv g := hg ▸ after_inv ops replay hi history hh
  obtain ⟨g1, _, _, ⟨_, hm⟩ | ⟨h0, _⟩⟩ := chunk_facts ops replay hgi r hr h
  · obtain ⟨att, hsp, hc, hmx, _, _⟩ := hm.ex
    have hmx' := hsp.strictMix hs
    refine ⟨by rw [hmx, hmx'], by rw [hm.strict, hs], ?_, ?_⟩
    · intro k
      have := hsp.inv.bal k
      rw [hsp.done rfl k] at this
      simp only [Att.ce, Att.mix, hmx', hc, Nat.add_zero] at this
      rw [keySamples, length_entriesSamples]
      exact this
    · intro k hk
      rw [← hc] at hk
      exact hsp.inv.chunkSub k hk
  · exact absurd h0 hne

/-- C03. A chunk obtained under a best-effort mixture has the size of the requested mixture; the mixture
it reports is its true composition and mentions only requested keys. -/
theorem c03_best_effort_chunk (ops : KeyOps K) (replay : Bool) (index : Dict K Entries) (order : List K)
    (hi : IndexOk index order) (history : List (Req K)) (hh : ∀ r ∈ history, HeapOk r.heap)
    (r : Req K) (hr : HeapOk r.heap) (g g' : Gen K) (c : RChunk K)
    (hg : g = after ops replay index order history)
    (h : g.send ops r.fuel replay r.heap r.mix r.target = (g', .chunk c))
    (hne : (g.eff r).rows ≠ []) :
    (contentSamples c.content).length = (g.eff r).rows.values.sum ∧ c.strict = (g.eff r).strict ∧
    ∃ m, c.mixture = some m ∧ m.keys.Nodup ∧
      (∀ k, (keySamples c.content k).length = (m.get? k).getD 0) ∧
      (∀ k ∈ m.keys, k ∈ (g.eff r).rows.keys) ∧
      (∀ k ∈ c.content.keys, k ∈ (g.eff r).rows.keys) := by
  have hgi : GenInv g := hg ▸ after_inv ops replay hi history hh
  obtain ⟨g1, _, _, ⟨_, hm⟩ | ⟨h0, _⟩⟩ := chunk_facts ops replay hgi r hr h
  · obtain ⟨att, hsp, hc, hmx, _, _⟩ := hm.ex
    refine ⟨?_, hm.strict, att.mixture, hmx, hsp.inv.mixNodup, ?_, hsp.inv.mixSub, ?_⟩
    · rw [← hc, hsp.inv.chunkSize (hsp.done rfl), hsp.inv.sum (hsp.ne rfl)]
    · intro k
      have := hsp.inv.bal k
      rw [hsp.done rfl k] at this
      simp only [Att.ce, Att.mix, hc, Nat.add_zero] at this
      rw [keySamples, length_entriesSamples]
      exact this
    · intro k hk
      rw [← hc] at hk
      exact hsp.inv.chunkSub k hk
  · exact absurd h0 hne

/-- C04. Over any history, everything delivered in all chunks together is a sub-multiset of the query's
result set. -/
theorem c04_delivered_subperm (ops : KeyOps K) (replay : Bool) (index : Dict K Entries) (order : List K)
    (hi : IndexOk index order) (history : List (Req K)) (hh : ∀ r ∈ history, HeapOk r.heap) :
    (((Gen.init index order).play ops replay history).2.flatMap Out.samples).Subperm (contentSamples index) := by
  have h := (play_rel ops replay _ (genInv_init hi) history hh).1
  rw [List.subperm_ext_iff]
  intro p _
  have h1 := h.cons p
  have h2 := (init_unread hi).count_eq p
  rw [count_allUnread] at h2
  omega

/-- C04, in the words of the property: no position is delivered twice and every delivered position was
selected by the query. -/
theorem c04_no_duplicates (ops : KeyOps K) (replay : Bool) (index : Dict K Entries) (order : List K)
    (hi : IndexOk index order) (hd : (contentSamples index).Nodup)
    (history : List (Req K)) (hh : ∀ r ∈ history, HeapOk r.heap) :
    (((Gen.init index order).play ops replay history).2.flatMap Out.samples).Nodup ∧
    ∀ p ∈ ((Gen.init index order).play ops replay history).2.flatMap Out.samples, p ∈ contentSamples index := by
  have h := c04_delivered_subperm ops replay index order hi history hh
  refine ⟨?_, fun p hp => h.subset hp⟩
  obtain ⟨l, hl, hs⟩ := h
  exact hl.nodup_iff.mp (hs.nodup hd)

/-- C05. Every sample listed under key `k` belongs to a property combination of the query's result that
matches `k` (without mixture: that is `k`). -/
theorem c05_listed_under_matching_key (ops : KeyOps K) (replay : Bool) (index : Dict K Entries) (order : List K)
    (hi : IndexOk index order) (history : List (Req K)) (hh : ∀ r ∈ history, HeapOk r.heap)
    (r : Req K) (hr : HeapOk r.heap) (g g' : Gen K) (c : RChunk K)
    (hg : g = after ops replay index order history)
    (h : g.send ops r.fuel replay r.heap r.mix r.target = (g', .chunk c)) (k : K) (p : Pos)
    (hp : p ∈ keySamples c.content k) :
    ∃ comp e, (comp, e) ∈ index ∧ p ∈ entriesSamples e ∧
      (if (g.eff r).rows = [] then comp = k else ops.isMatch k comp = true) := by
  have hgi : GenInv g := hg ▸ after_inv ops replay hi history hh
  -- positions of a component at any time belong to that component's entry in the index
  have key : ∀ (g1 : Gen K), GenRel g g1 [] → ∀ comp, p ∈ samples (itOf g1.iters comp) →
      ∃ e, (comp, e) ∈ index ∧ p ∈ entriesSamples e := by
    intro g1 h1 comp hp1
    have hp2 := (h1.suffix comp).subset hp1
    rw [hg] at hp2
    have hp3 := (after_suffix ops replay hi history hh comp).subset hp2
    by_cases hc : comp ∈ order
    · rw [itOf_init comp hc] at hp3
      have hc' := hi.order.mem_iff.mp hc
      obtain ⟨e, he⟩ := (Dict.mem_keys_iff _ _).mp hc'
      refine ⟨e, Dict.mem_of_get? he, ?_⟩
      rw [he] at hp3
      exact (flattenSorted_perm e).mem_iff.mp hp3
    · rw [itOf_init_none comp hc] at hp3
      simp at hp3
  obtain ⟨g1, h1, _, ⟨hne, hm⟩ | ⟨h0, hm⟩⟩ := chunk_facts ops replay hgi r hr h
  · obtain ⟨att, hsp, hc, hmx, _, _⟩ := hm.ex
    have hpos : 0 < entW (countW p) (att.ce k) := by
      rw [← count_entriesSamples, List.count_pos_iff]
      simpa [keySamples, Att.ce, hc] using hp
    obtain ⟨comp, _, hmatch, hp'⟩ := hsp.inv.prov k p hpos
    obtain ⟨e, he, hpe⟩ := key g1 h1 comp hp'
    exact ⟨comp, e, he, hpe, by rw [if_neg hne]; exact hmatch⟩
  · obtain ⟨comp, out, hc, _, _, hout, _⟩ := hm.ex
    rw [keySamples, hc, Dict.get?_cons] at hp
    by_cases hk : comp = k
    · rw [if_pos hk] at hp
      have hp' : p ∈ samples (itOf g1.iters comp) := by
        have : p ∈ samples out := by
          rw [← List.count_pos_iff, ← count_nestSegs, List.count_pos_iff]; exact hp
        rw [hout] at this
        exact List.mem_of_mem_take this
      obtain ⟨e, he, hpe⟩ := key g1 h1 comp hp'
      exact ⟨comp, e, he, hpe, by rw [if_pos h0]; exact hk⟩
    · rw [if_neg hk] at hp
      simp [entriesSamples] at hp

/-! ### C06 -/

theorem flattenSorted_segSorted {e : Entries} (h1 : e.keys.Nodup) (h2 : ∀ d fs, (d, fs) ∈ e → fs.keys.Nodup)
    (h3 : ∀ d fs, (d, fs) ∈ e → ∀ f rs, (f, rs) ∈ fs →
      rs.Pairwise (fun a b => a.2 ≤ b.1) ∧ ∀ r ∈ rs, r.1 ≤ r.2) : SegSorted (flattenSorted e) := by
  unfold flattenSorted
  have p1 := sortBy_perm (fun a b => decide (a.1 ≤ b.1)) e
  have key1 : ∀ d fs, (d, fs) ∈ e → SegSorted ((sortBy (fun a b => decide (a.1 ≤ b.1)) fs).flatMap
      fun (f, rs) => rs.map fun r => (⟨d, f, r.1, r.2⟩ : Seg)) := by
    intro d fs hd
    have p2 := sortBy_perm (fun a b => decide (a.1 ≤ b.1)) fs
    constructor
    · rw [List.pairwise_flatMap]
      constructor
      · rintro ⟨f, rs⟩ hf
        rw [List.pairwise_map]
        exact (h3 d fs hd f rs (p2.mem_iff.mp hf)).1.imp (fun h _ _ => h)
      · have hn : ((sortBy (fun a b => decide (a.1 ≤ b.1)) fs).map Prod.fst).Nodup :=
          (p2.map _).nodup_iff.mpr (h2 d fs hd)
        have hn' := List.pairwise_map.mp hn
        refine hn'.imp ?_
        rintro ⟨f, rs⟩ ⟨f', rs'⟩ hne a ha b hb _ hfile
        simp only [List.mem_map] at ha hb
        obtain ⟨_, _, rfl⟩ := ha
        obtain ⟨_, _, rfl⟩ := hb
        exact absurd hfile hne
    · intro s hs
      simp only [List.mem_flatMap, List.mem_map] at hs
      obtain ⟨⟨f, rs⟩, hf, r, hr, rfl⟩ := hs
      exact (h3 d fs hd f rs (p2.mem_iff.mp hf)).2 r hr
  constructor
  · rw [List.pairwise_flatMap]
    constructor
    · rintro ⟨d, fs⟩ hd
      exact (key1 d fs (p1.mem_iff.mp hd)).1
    · have hn : ((sortBy (fun a b => decide (a.1 ≤ b.1)) e).map Prod.fst).Nodup :=
        (p1.map _).nodup_iff.mpr h1
      have hn' := List.pairwise_map.mp hn
      refine hn'.imp ?_
      rintro ⟨d, fs⟩ ⟨d', fs'⟩ hne a ha b hb hds _
      simp only [List.mem_flatMap, List.mem_map] at ha hb
      obtain ⟨⟨_, _⟩, _, _, _, rfl⟩ := ha
      obtain ⟨⟨_, _⟩, _, _, _, rfl⟩ := hb
      exact absurd hds hne
  · intro s hs
    rw [List.mem_flatMap] at hs
    obtain ⟨⟨d, fs⟩, hd, hs⟩ := hs
    exact (key1 d fs (p1.mem_iff.mp hd)).2 s hs

theorem init_sorted {index : Dict K Entries} {order : List K} (hi : IndexOk index order) (hs : IndexSorted index) (c : K) :
    SegSorted (itOf (Gen.init index order).iters c) := by
  by_cases hc : c ∈ order
  · rw [itOf_init c hc]
    obtain ⟨e, he⟩ := (Dict.mem_keys_iff _ _).mp (hi.order.mem_iff.mp hc)
    have hm := Dict.mem_of_get? he
    rw [he]
    exact flattenSorted_segSorted (hi.ds c e hm) (hi.files c e hm) (hs c e hm)
  · rw [itOf_init_none c hc]; exact SegSorted.nil

/-- Ranges whose positions are listed without repetition do not overlap. -/
theorem disjoint_of_nodup {d f : Nat} {rs : List Rng} (hs : SortedByStart rs)
    (hn : (rs.flatMap fun r => Seg.samples ⟨d, f, r.1, r.2⟩).Nodup) :
    rs.Pairwise fun a b => a.1 < a.2 → b.1 < b.2 → a.2 ≤ b.1 := by
  have hn' := (List.nodup_flatMap.mp hn).2
  refine (hs.and hn').imp ?_
  rintro ⟨a1, a2⟩ ⟨b1, b2⟩ ⟨hab, hdis⟩ ha hb
  dsimp only at *
  by_contra hlt
  apply hdis (a := (d, f, b1))
  · simp only [Seg.samples, List.mem_map, List.mem_range'_1, Prod.mk.injEq, true_and, exists_eq_right]
    omega
  · simp only [Seg.samples, List.mem_map, List.mem_range'_1, Prod.mk.injEq, true_and, exists_eq_right]
    omega

/-- C06. If the query's per-file ranges are sorted and all its positions are distinct, then in every
delivered chunk, for every key, data set and file, the ranges are sorted by start and no two non-empty
ranges overlap (each ends before the next begins). -/
theorem c06_ranges_sorted_disjoint (ops : KeyOps K) (replay : Bool) (index : Dict K Entries) (order : List K)
    (hi : IndexOk index order) (hso : IndexSorted index) (hd : (contentSamples index).Nodup)
    (history : List (Req K)) (hh : ∀ r ∈ history, HeapOk r.heap)
    (r : Req K) (hr : HeapOk r.heap) (g g' : Gen K) (c : RChunk K)
    (hg : g = after ops replay index order history)
    (h : g.send ops r.fuel replay r.heap r.mix r.target = (g', .chunk c))
    (k : K) (e : Entries) (hk : (k, e) ∈ c.content) (d : Nat) (fs : Dict Nat (List Rng)) (hdm : (d, fs) ∈ e)
    (f : Nat) (rs : List Rng) (hf : (f, rs) ∈ fs) :
    rs.Pairwise (fun a b => a.1 ≤ b.1) ∧ rs.Pairwise (fun a b => a.1 < a.2 → b.1 < b.2 → a.2 ≤ b.1) := by
  have hrel := play_rel ops replay _ (genInv_init hi) history hh
  have hgi : GenInv g := hg ▸ hrel.2
  have hgs : ∀ c, SegSorted (itOf g.iters c) := by
    rw [hg]; exact hrel.1.sorted (init_sorted hi hso)
  have hsorted : SortedByStart rs := by
    obtain ⟨g1, h1, _, ⟨hne, hm⟩ | ⟨h0, hm⟩⟩ := chunk_facts ops replay hgi r hr h
    · exact hm.sorted (h1.sorted hgs) k e hk d fs hdm f rs hf
    · obtain ⟨comp, out, hc, _, _, _, _, _, hsort⟩ := hm.ex
      rw [hc] at hk
      simp only [List.mem_singleton, Prod.mk.injEq] at hk
      obtain ⟨rfl, rfl⟩ := hk
      exact nestSegs_sorted (hsort (h1.sorted hgs _)) d fs hdm f rs hf
  refine ⟨hsorted, ?_⟩
  apply disjoint_of_nodup (d := d) (f := f) hsorted
  -- the chunk's positions are distinct
  have hcn : (contentSamples c.content).Nodup := by
    have h4 := c04_no_duplicates ops replay index order hi hd (history ++ [r])
      (by intro r' hr'; rcases List.mem_append.mp hr' with h | h
          · exact hh r' h
          · simp only [List.mem_singleton] at h; subst h; exact hr)
    have happ : ∀ (g0 : Gen K) (hs : List (Req K)),
        (g0.play ops replay (hs ++ [r])).2 = (g0.play ops replay hs).2 ++
          [((g0.play ops replay hs).1.send ops r.fuel replay r.heap r.mix r.target).2] := by
      intro g0 hs
      induction hs generalizing g0 with
      | nil => simp [Gen.play]
      | cons a hs ih => simp [Gen.play, ih]
    have h5 := h4.1
    rw [happ, List.flatMap_append] at h5
    have h6 := (List.nodup_append.mp h5).2.1
    have : ((Gen.init index order).play ops replay history).1 = g := hg.symm
    rw [this, h] at h6
    simpa [Out.samples] using h6
  have hn1 : (entriesSamples e).Nodup := (List.nodup_flatMap.mp hcn).1 (k, e) hk
  have hn2 := (List.nodup_flatMap.mp hn1).1 (d, fs) hdm
  exact (List.nodup_flatMap.mp hn2).1 (f, rs) hf

/-! ### The hypotheses are met: a strict, a best-effort and an arbitrary chunk of the example, with the
merge of two components (11 and 1) into one key and one file. -/

example : ((Gen.init Ex.index Ex.order).play Ex.ops false
      [Ex.req Ex.strictMix 0, Ex.req Ex.strictMix 1, Ex.req Ex.bestMix 2, Ex.req Ex.arbMix 3]).2.map Ex.see =
    [some [(1, [(0, 0, 0), (0, 0, 3), (0, 0, 4)]), (2, [(0, 1, 0), (0, 1, 1)])],
     some [(1, [(0, 0, 1), (0, 0, 2), (0, 0, 5)]), (2, [(0, 1, 2), (0, 1, 3)])],
     some [(1, [(0, 0, 6)]), (2, [(0, 1, 4), (0, 1, 5), (0, 1, 6), (0, 1, 7)])],
     some [(2, [(0, 1, 8), (0, 1, 9)])]] := by
  decide +kernel

example : IndexOk Ex.index Ex.order ∧ IndexSorted Ex.index ∧ (contentSamples Ex.index).Nodup ∧
    HeapOk (Ex.req Ex.strictMix 0).heap :=
  ⟨Ex.index_ok, Ex.index_sorted, Ex.index_nodup, Ex.heap_ok _ (by decide) _⟩

end Mixtera
