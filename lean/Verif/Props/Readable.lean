import Verif.Lemmas.Chain
import Verif.Props.Chunks
import Verif.Props.Datasets

/-!
# The ranges of a chunk can be read (C06)
-/

set_option linter.unusedSectionVars false

namespace Mixtera

variable {K : Type} [DecidableEq K]

theorem Follow.sortedFrom {rs : List Rng} (h : Follow rs) : ∀ n, (∀ r ∈ rs, n ≤ r.1) → SortedFrom n rs := by
  induction rs with
  | nil => intro n _; trivial
  | cons r rs ih =>
    intro n hn
    have hp := List.pairwise_cons.mp h.1
    exact ⟨hn r (by simp), h.2 r (by simp), ih ⟨hp.2, fun x hx => h.2 x (by simp [hx])⟩ _ hp.1⟩

theorem seg_apart {s t : Seg} (h1 : s.ds = t.ds) (h2 : s.file = t.file) (hs : s.lo < s.hi) (ht : t.lo < t.hi)
    (h : ∀ p, p ∈ s.samples → p ∈ t.samples → False) : s.hi ≤ t.lo ∨ t.hi ≤ s.lo := by
  by_contra hc
  rw [not_or] at hc
  apply h (s.ds, s.file, max s.lo t.lo)
  · simp only [Seg.samples, List.mem_map, List.mem_range'_1, Prod.mk.injEq, true_and, exists_eq_right]
    omega
  · simp only [Seg.samples, List.mem_map, List.mem_range'_1, Prod.mk.injEq]
    exact ⟨max s.lo t.lo, by omega, h1.symm, h2.symm, rfl⟩

/-- Positions of different property combinations are different. -/
theorem components_apart {index : Dict K Entries} {order : List K} (hi : IndexOk index order)
    (hd : (contentSamples index).Nodup) {c c' : K} (hne : c ≠ c') {p : Pos}
    (h : p ∈ samples (itOf (Gen.init index order).iters c)) (h' : p ∈ samples (itOf (Gen.init index order).iters c')) :
    False := by
  have key : ∀ c, p ∈ samples (itOf (Gen.init index order).iters c) → ∃ e, (c, e) ∈ index ∧ p ∈ entriesSamples e := by
    intro c hc
    by_cases ho : c ∈ order
    · rw [itOf_init c ho] at hc
      obtain ⟨e, he⟩ := (Dict.mem_keys_iff _ _).mp (hi.order.mem_iff.mp ho)
      rw [he] at hc
      exact ⟨e, Dict.mem_of_get? he, (flattenSorted_perm e).mem_iff.mp hc⟩
    · rw [itOf_init_none c ho] at hc
      simp [samples] at hc
  obtain ⟨e, he, hp⟩ := key c h
  obtain ⟨e', he', hp'⟩ := key c' h'
  have hpw := (List.nodup_flatMap.mp hd).2
  have h1 : index.Pairwise fun a b => a ≠ b → ∀ p, p ∈ entriesSamples a.2 → p ∈ entriesSamples b.2 → False :=
    hpw.imp fun hab _ p ha hb => hab ha hb
  have h2 : index.Pairwise fun a b => b ≠ a → ∀ p, p ∈ entriesSamples b.2 → p ∈ entriesSamples a.2 → False :=
    hpw.imp fun {a b} (hab : ∀ ⦃p⦄, p ∈ entriesSamples a.2 → p ∈ entriesSamples b.2 → False) _ p ha hb => hab hb ha
  have := List.Pairwise.forall_of_forall_of_flip (R := fun a b : K × Entries => a ≠ b →
    ∀ p, p ∈ entriesSamples a.2 → p ∈ entriesSamples b.2 → False) (l := index)
    (fun x _ hx => absurd rfl hx) h1 h2
  exact this he he' (fun e0 => hne (congrArg Prod.fst e0)) p hp hp'

/-- **C06** (readable). In every delivered chunk, the ranges listed for a file under a key - empty ones included, which the
generator produces when a key needs nothing more - follow one another: each starts where the previous one ended, or later. So
the readers of the datasets accept them (C45, C46). -/
theorem c06_ranges_readable (ops : KeyOps K) (replay : Bool) (index : Dict K Entries) (order : List K)
    (hi : IndexOk index order) (hso : IndexSorted index) (hd : (contentSamples index).Nodup)
    (history : List (Req K)) (hh : ∀ r ∈ history, HeapOk r.heap)
    (r : Req K) (hr : HeapOk r.heap) (g g' : Gen K) (c : RChunk K)
    (hg : g = after ops replay index order history)
    (h : g.send ops r.fuel replay r.heap r.mix r.target = (g', .chunk c))
    (k : K) (e : Entries) (hk : (k, e) ∈ c.content) (d : Nat) (fs : Dict Nat (List Rng)) (hdm : (d, fs) ∈ e)
    (f : Nat) (rs : List Rng) (hf : (f, rs) ∈ fs) : SortedFrom 0 rs := by
  have hrel := play_rel ops replay _ (genInv_init hi) history hh
  have hgi : GenInv g := hg ▸ hrel.2
  have hgs : ∀ c, SegSorted (itOf g.iters c) := by
    rw [hg]; exact hrel.1.sorted (init_sorted hi hso)
  obtain ⟨g1, h1, _, ⟨hne, hm⟩ | ⟨h0, hm⟩⟩ := chunk_facts ops replay hgi r hr h
  · obtain ⟨att, _, hc, _, _, ha⟩ := hm.ex
    have hsub : ∀ c p, p ∈ samples (itOf g1.iters c) → p ∈ samples (itOf (Gen.init index order).iters c) := by
      intro c p hp
      have hp1 := (h1.suffix c).subset hp
      rw [hg] at hp1
      exact (hrel.1.suffix c).subset hp1
    have hinv := attempt_follow ops g1.iters (g.eff r) att true ha (h1.sorted hgs) (by
      intro c1 c2 hne s hs t ht e1 e2 l1 l2
      apply seg_apart e1 e2 l1 l2
      intro p hp1 hp2
      exact components_apart hi hd hne (hsub c1 p (List.mem_flatMap.mpr ⟨s, hs, hp1⟩))
        (hsub c2 p (List.mem_flatMap.mpr ⟨t, ht, hp2⟩)))
    rw [← hc] at hk
    exact (hinv.follow k e hk d fs hdm f rs hf).sortedFrom 0 (fun _ _ => Nat.zero_le _)
  · obtain ⟨comp, out, hc, _, _, _, _, _, hsort⟩ := hm.ex
    rw [hc] at hk
    simp only [List.mem_singleton, Prod.mk.injEq] at hk
    obtain ⟨rfl, rfl⟩ := hk
    exact (nestSegs_follow (hsort (h1.sorted hgs _)) d fs hdm f rs hf).sortedFrom 0 (fun _ _ => Nat.zero_le _)

/-- **C06** (files). Every file listed in a delivered chunk - even with empty ranges only - is one from which the index lists
samples. -/
theorem c06_files_listed (ops : KeyOps K) (replay : Bool) (index : Dict K Entries) (order : List K)
    (hi : IndexOk index order) (hso : IndexSorted index)
    (history : List (Req K)) (hh : ∀ r ∈ history, HeapOk r.heap)
    (r : Req K) (hr : HeapOk r.heap) (g g' : Gen K) (c : RChunk K)
    (hg : g = after ops replay index order history)
    (h : g.send ops r.fuel replay r.heap r.mix r.target = (g', .chunk c))
    (k : K) (e : Entries) (hk : (k, e) ∈ c.content) (d : Nat) (fs : Dict Nat (List Rng)) (hdm : (d, fs) ∈ e)
    (f : Nat) (rs : List Rng) (hf : (f, rs) ∈ fs) : ∃ i, (d, f, i) ∈ contentSamples index := by
  have hrel := play_rel ops replay _ (genInv_init hi) history hh
  have hgi : GenInv g := hg ▸ hrel.2
  have hgs : ∀ c, SegSorted (itOf g.iters c) := by
    rw [hg]; exact hrel.1.sorted (init_sorted hi hso)
  obtain ⟨g1, h1, _, hm⟩ := chunk_facts ops replay hgi r hr h
  have hseg : ∀ c, ∀ s ∈ itOf g1.iters c, s.lo < s.hi → ∃ i, (s.ds, s.file, i) ∈ contentSamples index := by
    intro c s hs hlt
    have hp : (s.ds, s.file, s.lo) ∈ samples (itOf g1.iters c) := by
      refine List.mem_flatMap.mpr ⟨s, hs, ?_⟩
      simp only [Seg.samples, List.mem_map, List.mem_range'_1, Prod.mk.injEq, true_and, exists_eq_right]
      omega
    have hp1 := (h1.suffix c).subset hp
    rw [hg] at hp1
    have hp2 := (hrel.1.suffix c).subset hp1
    by_cases ho : c ∈ order
    · rw [itOf_init c ho] at hp2
      obtain ⟨e, he⟩ := (Dict.mem_keys_iff _ _).mp (hi.order.mem_iff.mp ho)
      rw [he] at hp2
      exact ⟨s.lo, List.mem_flatMap.mpr ⟨(c, e), Dict.mem_of_get? he, (flattenSorted_perm e).mem_iff.mp hp2⟩⟩
    · rw [itOf_init_none c ho] at hp2
      simp [samples] at hp2
  rcases hm with ⟨-, hm⟩ | ⟨-, hm⟩
  · obtain ⟨att, _, hc, _, _, ha⟩ := hm.ex
    rw [← hc] at hk
    exact attempt_within ops (fun d f => ∃ i, (d, f, i) ∈ contentSamples index) g1.iters (g.eff r) att true ha (h1.sorted hgs)
      hseg k e hk d fs hdm f rs hf
  · obtain ⟨out, rfl, ho⟩ := hm.files k e hk
    refine within_nestSegs (S := fun d f => ∃ i, (d, f, i) ∈ contentSamples index) ?_ d fs hdm f rs hf
    intro o hoo
    obtain ⟨s, hs, e1, e2, e3⟩ := ho o hoo
    rw [← e1, ← e2]
    exact hseg k s hs e3

/-- The ranges of an answer: key, dataset, file and range. -/
def listedRanges : Out Nat → Option (List (List Nat))
  | .chunk c => some (c.content.flatMap fun ke => ke.2.flatMap fun df => df.2.flatMap fun fr =>
      fr.2.map fun r => [ke.1, df.1, fr.1, r.1, r.2])
  | _ => none

/-! A mixture with a key that needs nothing: an empty range is listed for it, and the range of the next chunk follows. -/

example : ((Gen.init Ex.index Ex.order).play Ex.ops false
      [Ex.req ⟨[(1, 4), (2, 0)], true, 4⟩ 0, Ex.req ⟨[(1, 1), (2, 3)], true, 4⟩ 1]).2.map listedRanges =
    [some [[1, 0, 0, 0, 2], [1, 0, 0, 3, 5], [2, 0, 1, 0, 0]], some [[1, 0, 0, 2, 3], [2, 0, 1, 0, 3]]] := by
  decide +kernel

example : HeapOk (Ex.req ⟨[(1, 4), (2, 0)], true, 4⟩ 0).heap := Ex.heap_ok _ (by decide) _

end Mixtera
