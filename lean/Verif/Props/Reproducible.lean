import Verif.Model.Random
import Verif.Props.Chunker
import Verif.Props.ChunkConfig

/-!
# C78: the same query gives the same chunks and the same order of samples

Specification: `Sess.run` (answers of a query result to any operations) for two indices that were built from the same table.
-/

set_option linter.unusedSectionVars false

namespace Mixtera

variable {R α : Type}

/-- A shuffle is a permutation. -/
theorem shuffle_perm (lib : RandomLib R) (l : List α) (r : R) : (lib.shuffle l r).1.Perm l := by
  unfold RandomLib.shuffle
  have : (List.ofFn fun i => l.get ((lib.draw r l.length).1 i)).Perm (List.ofFn l.get) :=
    Equiv.Perm.ofFn_comp_perm (lib.draw r l.length).1 l.get
  refine this.trans ?_
  rw [show List.ofFn l.get = l from List.ofFn_get l]

theorem seedAndShuffle_perm (lib : RandomLib R) (hash : PyStr → Nat) (texts : List PyStr) (l : List α) (r : R) :
    (seedAndShuffle lib hash texts l r).1.Perm l := shuffle_perm _ _ _

/-- Seeding forgets the state. -/
theorem seedAndShuffle_state (lib : RandomLib R) (hash : PyStr → Nat) (texts : List PyStr) (l : List α) (r r' : R) :
    seedAndShuffle lib hash texts l r = seedAndShuffle lib hash texts l r' := rfl

/-- The seed does not depend on the order of the list. -/
theorem reseed_perm (lib : RandomLib R) (hash : PyStr → Nat) {a b : List PyStr} (h : a.Perm b) (r : R) :
    reseed lib hash a r = reseed lib hash b r := by
  unfold reseed hashList
  rw [sortStr_congr h]

section Keys

variable {K : Type} [DecidableEq K]

/-- **C78** (the order of the keys). The order in which a query result visits the keys of its index is a permutation of them
that depends on neither the state of the random number generator nor the order in which the index lists the keys. -/
theorem c78_key_order (lib : RandomLib R) (hash : PyStr → Nat) {ops : KeyOps K} (ht : ops.Total) (text : K → PyStr)
    (a b : List K) (h : a.Perm b) (r r' : R) :
    keyOrder lib hash ops text a r = keyOrder lib hash ops text b r' ∧ (keyOrder lib hash ops text a r).1.Perm a := by
  constructor
  · unfold keyOrder
    rw [sort_congr ops ht h]
    unfold seedAndShuffle
    rw [reseed_perm lib hash (h.map text) r]
    rfl
  · exact (seedAndShuffle_perm ..).trans (sortBy_perm _ _)

/-! ## Chunks -/

/-- Two query results that differ in their index only, and there only in the order of keys, datasets and files. -/
structure SameSess (a b : Sess K) : Prop where
  keys : a.index.keys.Perm b.index.keys
  read : ∀ k, (a.index.get? k).map flattenSorted = (b.index.get? k).map flattenSorted
  order : a.order = b.order
  stopOnNone : a.stopOnNone = b.stopOnNone
  heap : a.heap = b.heap
  mixRef : a.mixRef = b.mixRef
  gen : a.gen = b.gen
  idx : a.idx = b.idx
  numReturns : a.numReturns = b.numReturns
  isReplay : a.isReplay = b.isReplay
  log : a.log = b.log
  keyIds : a.keyIds = b.keyIds

theorem init_congr {a b : Dict K Entries} (h : ∀ k, (a.get? k).map flattenSorted = (b.get? k).map flattenSorted)
    (order : List K) : Gen.init a order = Gen.init b order := by
  unfold Gen.init
  have : (order.map fun k => (k, flattenSorted ((a.get? k).getD []))) = order.map fun k => (k, flattenSorted ((b.get? k).getD [])) := by
    apply List.map_congr_left
    intro k _
    have := h k
    cases h1 : a.get? k with
    | none => rw [h1] at this; cases h2 : b.get? k with
      | none => rfl
      | some e => rw [h2] at this; cases this
    | some e => rw [h1] at this; cases h2 : b.get? k with
      | none => rw [h2] at this; cases this
      | some e' => rw [h2] at this; simp only [Option.map_some, Option.some.injEq] at this; simp [this]
  rw [this]

theorem updateKeyIds_congr {ops : KeyOps K} (ht : ops.Total) (rows : List K) {a b : List K} (h : a.Perm b) (m : Dict K Nat) :
    updateKeyIds ops rows a m = updateKeyIds ops rows b m := by
  unfold updateKeyIds
  rw [sort_congr ops ht (h.append_left rows)]

theorem SameSess.theGen {a b : Sess K} (h : SameSess a b) : a.theGen = b.theGen := by
  unfold Sess.theGen
  rw [h.gen, h.log, h.order, init_congr h.read]

theorem SameSess.next {ops : KeyOps K} (ht : ops.Total) (fuel : Nat) {a b : Sess K} (h : SameSess a b) :
    SameSess (a.next ops fuel).1 (b.next ops fuel).1 ∧ (a.next ops fuel).2 = (b.next ops fuel).2 := by
  have hg := h.theGen
  unfold Sess.next
  simp only [← hg, ← h.gen, ← h.numReturns, ← h.isReplay, ← h.heap, ← h.mixRef, ← h.idx, ← h.keyIds]
  split
  · exact ⟨⟨h.keys, h.read, h.order, h.stopOnNone, rfl, rfl, rfl, rfl, rfl, rfl, h.log, rfl⟩, rfl⟩
  · refine ⟨⟨h.keys, h.read, h.order, h.stopOnNone, rfl, rfl, rfl, rfl, rfl, rfl, rfl, ?_⟩, rfl⟩
    simp only
    split
    · rfl
    · exact updateKeyIds_congr ht _ h.keys _

theorem SameSess.run {ops : KeyOps K} (ht : ops.Total) (fuel : Nat) : ∀ (os : List (SOp K)) {a b : Sess K}, SameSess a b →
    SameSess (a.run ops fuel os).1 (b.run ops fuel os).1 ∧ (a.run ops fuel os).2 = (b.run ops fuel os).2 := by
  intro os
  induction os with
  | nil => intro a b h; exact ⟨h, rfl⟩
  | cons o os ih =>
    intro a b h
    have hstep : SameSess (a.op ops fuel o).1 (b.op ops fuel o).1 ∧ (a.op ops fuel o).2 = (b.op ops fuel o).2 := by
      cases o with
      | update ref v =>
        refine ⟨{ h with heap := ?_, mixRef := rfl, keyIds := ?_ }, rfl⟩
        · simp only [Sess.op, Sess.update, h.heap]
        · simp only [Sess.op, Sess.update, h.keyIds]
          exact updateKeyIds_congr ht _ h.keys _
      | feedback v =>
        refine ⟨{ h with heap := ?_ }, rfl⟩
        simp only [Sess.op, Sess.feedback, h.heap, h.mixRef]
      | next =>
        have := SameSess.next ht fuel h
        exact ⟨this.1, by simp only [Sess.op, this.2]⟩
    have := ih hstep.1
    exact ⟨this.1, by simp only [Sess.run, hstep.2, this.2]⟩

/-- Intervals in another order, as long as every file's intervals stay in order. -/
theorem Describes.of_perm {idx : Dict K Entries} {xs ys : List (Item K)} (h : Describes idx xs) (hp : xs.Perm ys)
    (hs : SortedItems xs) (hs' : SortedItems ys) : Describes idx ys := by
  have hr : ∀ k d f, rangesOf xs k d f = rangesOf ys k d f := by
    intro k d f
    refine ((hp.filter _).map _).eq_of_pairwise ?_ (hs k d f) (hs' k d f)
    intro a b _ _ h1 h2
    have h1 := of_decide_eq_false h1
    have h2 := of_decide_eq_false h2
    exact Prod.ext (by omega) (by omega)
  refine ⟨h.nodup, h.wf, ?_, ?_, ?_⟩
  · intro k d f; rw [h.look, hr]
  · intro k d; rw [h.ds]; exact exists_congr fun it => and_congr hp.mem_iff Iff.rfl
  · intro k; rw [h.key]; exact exists_congr fun it => and_congr hp.mem_iff Iff.rfl

end Keys

/-- What the chunker builds from a table, whatever the threads, batches and hash maps. -/
theorem chunkerIndex_describes (reorder : CppIndex → CppIndex) (hre : ∀ i xs, Describes i xs → SameIndex i (reorder i))
    (batches : List (List TRow)) (n : Int) (hn : 0 ≤ n) (hv : ∀ r ∈ batches.flatten, r.start ≤ r.stop)
    (hplain : ∀ r ∈ batches.flatten, PlainCells r.cells)
    (hcoh : ∀ r ∈ batches.flatten, ∀ r' ∈ batches.flatten,
      SameContents (rowProps r.cells) (rowProps r'.cells) → r.cells = r'.cells)
    (hs : TableSorted batches.flatten) :
    ∃ idx, createChunkerIndex reorder ckeyOf batches n = .ok idx ∧
      Describes idx ((batches.flatten.map TRow.item).map fun it => (ckeyOf it.1, it.2)) ∧
      SortedItems ((batches.flatten.map TRow.item).map fun it => (ckeyOf it.1, it.2)) := by
  have hinj : ∀ r ∈ batches.flatten, ∀ r' ∈ batches.flatten, ckeyOf (keyText r.cells) = ckeyOf (keyText r'.cells) →
      r.cells = r'.cells := by
    intro r hr r' hr' e
    unfold ckeyOf at e
    rw [toCKey_eq_iff, c34_round_trip_partial _ (hplain r hr), c34_round_trip_partial _ (hplain r' hr')] at e
    exact hcoh r hr r' hr' e
  have hlt : ∀ a b : TRow, a.start < b.start → rngLt (b.start, b.stop) (a.start, a.stop) = false := by
    intro a b h
    apply decide_eq_false
    show ¬ (b.start < a.start ∨ (b.start = a.start ∧ b.stop < a.stop))
    omega
  have hsort : SortedItems (batches.flatten.map TRow.item) := by
    intro k d f
    unfold rangesOf
    rw [List.filter_map, List.map_map, List.pairwise_map]
    refine (hs.filter _).imp_of_mem ?_
    intro a b ha hb hab
    obtain ⟨ha, ha'⟩ := List.mem_filter.mp ha
    obtain ⟨hb, hb'⟩ := List.mem_filter.mp hb
    have ha' := of_decide_eq_true ha'
    have hb' := of_decide_eq_true hb'
    exact hlt a b (hab (hinj a ha b hb (congrArg ckeyOf (ha'.1.trans hb'.1.symm))) (ha'.2.1.trans hb'.2.1.symm) (ha'.2.2.trans hb'.2.2.symm))
  have hsort' : SortedItems ((batches.flatten.map TRow.item).map fun it => (ckeyOf it.1, it.2)) := by
    intro k d f
    unfold rangesOf
    rw [List.map_map, List.filter_map, List.map_map, List.pairwise_map]
    refine (hs.filter _).imp_of_mem ?_
    intro a b ha hb hab
    obtain ⟨ha, ha'⟩ := List.mem_filter.mp ha
    obtain ⟨hb, hb'⟩ := List.mem_filter.mp hb
    have ha' := of_decide_eq_true ha'
    have hb' := of_decide_eq_true hb'
    exact hlt a b (hab (hinj a ha b hb (ha'.1.trans hb'.1.symm)) (ha'.2.1.trans hb'.2.1.symm) (ha'.2.2.trans hb'.2.2.symm))
  obtain ⟨l, h1, h2⟩ := c33_cpp_index reorder hre batches (max n 1).toNat (by omega) hv hsort
  have h3 := h2.reorder (hre _ _ h2)
  have hkey : ∀ k ∈ (reorder (mergeIndices reorder l)).keys, ∃ r ∈ batches.flatten, keyText r.cells = k := by
    intro k hk
    obtain ⟨it, hi, e⟩ := (h3.key k).mp hk
    obtain ⟨r, hr, rfl⟩ := List.mem_map.mp hi
    exact ⟨r, hr, e⟩
  have h4 := describes_py ckeyOf h3 (by
    intro k hk k' hk' e
    obtain ⟨r, hr, rfl⟩ := hkey k hk
    obtain ⟨r', hr', rfl⟩ := hkey k' hk'
    rw [hinj r hr r' hr' e])
  refine ⟨buildPyIndex ckeyOf (reorder (mergeIndices reorder l)), ?_, h4, hsort'⟩
  unfold createChunkerIndex
  rw [if_neg (by omega), h1]; rfl

/-- A query result on the index that the chunker builds: the constructor, with the order of keys that its generator will use. -/
def freshFrom (lib : RandomLib R) (hash : PyStr → Nat) (idx : Dict CKey Entries) (rng : R) (stopOnNone : Bool) (ref : Nat)
    (v : MixView CKey) : Sess CKey :=
  Sess.fresh ckeyOps idx (keyOrder lib hash ckeyOps (fun k => k.1.str) idx.keys rng).1 stopOnNone ref v

/-- **C78** (the same chunks). Two runs of a query whose result tables have the same rows - in any order that keeps every file's
intervals in order, in any batches, with any numbers of threads, any iteration order of the hash maps and any state of the
random number generator - give the same answers, chunk for chunk, to every sequence of requests, mixture updates and feedback.
`_partial`: as in C33, names and values must be free of the separators and rows with the same property contents must list the
values in the same order. -/
theorem c78_same_chunks_partial (lib : RandomLib R) (hash : PyStr → Nat)
    (reorder reorder' : CppIndex → CppIndex) (hre : ∀ i xs, Describes i xs → SameIndex i (reorder i))
    (hre' : ∀ i xs, Describes i xs → SameIndex i (reorder' i))
    (batches batches' : List (List TRow)) (n n' : Int) (hn : 0 ≤ n) (hn' : 0 ≤ n')
    (hp : batches.flatten.Perm batches'.flatten) (hv : ∀ r ∈ batches.flatten, r.start ≤ r.stop)
    (hplain : ∀ r ∈ batches.flatten, PlainCells r.cells)
    (hcoh : ∀ r ∈ batches.flatten, ∀ r' ∈ batches.flatten,
      SameContents (rowProps r.cells) (rowProps r'.cells) → r.cells = r'.cells)
    (hs : TableSorted batches.flatten) (hs' : TableSorted batches'.flatten)
    (rng rng' : R) (stopOnNone : Bool) (ref : Nat) (v : MixView CKey) (fuel : Nat) (os : List (SOp CKey)) :
    ∃ idx idx', createChunkerIndex reorder ckeyOf batches n = .ok idx ∧
      createChunkerIndex reorder' ckeyOf batches' n' = .ok idx' ∧
      ((freshFrom lib hash idx rng stopOnNone ref v).run ckeyOps fuel os).2 =
        ((freshFrom lib hash idx' rng' stopOnNone ref v).run ckeyOps fuel os).2 ∧
      ((freshFrom lib hash idx rng stopOnNone ref v).run ckeyOps fuel os).1.keyIds =
        ((freshFrom lib hash idx' rng' stopOnNone ref v).run ckeyOps fuel os).1.keyIds := by
  obtain ⟨idx, h1, d1, s1⟩ := chunkerIndex_describes reorder hre batches n hn hv hplain hcoh hs
  obtain ⟨idx', h2, d2, s2⟩ := chunkerIndex_describes reorder' hre' batches' n' hn'
    (fun r hr => hv r (hp.mem_iff.mpr hr)) (fun r hr => hplain r (hp.mem_iff.mpr hr))
    (fun r hr r' hr' => hcoh r (hp.mem_iff.mpr hr) r' (hp.mem_iff.mpr hr')) hs'
  have d1' := d1.of_perm ((hp.map _).map _) s1 s2
  have hk : idx.keys.Perm idx'.keys := by
    refine (List.perm_ext_iff_of_nodup d1'.nodup d2.nodup).mpr ?_
    intro k; rw [d1'.key, d2.key]
  refine ⟨idx, idx', h1, h2, ?_⟩
  have hsame : SameSess (freshFrom lib hash idx rng stopOnNone ref v) (freshFrom lib hash idx' rng' stopOnNone ref v) := by
    have ho := (c78_key_order lib hash c26_generator_order (fun k : CKey => k.1.str) idx.keys idx'.keys hk rng rng').1
    refine ⟨hk, c33_thread_independent d1' d2, ?_, rfl, rfl, rfl, rfl, rfl, rfl, rfl, rfl, ?_⟩
    · exact congrArg Prod.fst ho
    · exact updateKeyIds_congr c26_generator_order v.rows.keys hk []
  have := SameSess.run c26_generator_order fuel os hsame
  exact ⟨this.2, this.1.keyIds⟩

/-! ## Reading -/

section Reading

variable {K : Type} [DecidableEq K]

/-- The fixed function that a seeded shuffle amounts to. -/
def fixedShuffle (lib : RandomLib R) (hash : PyStr → Nat) (texts : List PyStr) (l : List α) : List α :=
  (lib.shuffle l (lib.seed (hash (joinStr ['\x00'] (sortStr texts)) % 2 ^ 32))).1

theorem openWorkloads_get (lib : RandomLib R) (hash : PyStr → Nat) (text : K → PyStr) (k : K) :
    ∀ (content : Dict K Entries) (r : R), (openWorkloads lib hash text content r).1.get? k =
      (content.get? k).map fun e => prepareWorkload (fixedShuffle lib hash [text k]) e := by
  intro content
  induction content with
  | nil => intro r; rfl
  | cons ke rest ih =>
    intro r
    obtain ⟨k', e⟩ := ke
    simp only [openWorkloads, Dict.get?]
    by_cases h : k' = k
    · subst h
      simp only [if_true, Option.map_some]
      rfl
    · simp only [if_neg h]
      exact ih _

/-- **C78** (the same order of samples). Reading a configured chunk in this process amounts to reading it with fixed shuffles:
what is yielded, and in which order, does not depend on the state of the random number generator - so neither on what was read
before nor on which process, node or run reads the chunk. -/
theorem c78_reading (lib : RandomLib R) (hash : PyStr → Nat) (text : K → PyStr) (cfg : Configured K) (c : RChunk K)
    (line : Nat × Nat × Nat → α) (fuel : Nat) (r : R) :
    (iterateSeeded lib hash text cfg c line fuel r).1 =
      iterateChunk (fun l => fixedShuffle lib hash (l.map text) l)
        (fun l => fixedShuffle lib hash (l.map (countText text)) l) cfg c
        (keyStream (fun k => fixedShuffle lib hash [text k]) line c.content) fuel := by
  have hit : (fun k => (((openWorkloads lib hash text c.content r).1.get? k).getD []).flatMap (readRanges line)) =
      keyStream (fun k => fixedShuffle lib hash [text k]) line c.content := by
    funext k
    rw [openWorkloads_get]
    unfold keyStream
    cases hk : c.content.get? k with
    | none =>
      have : prepareWorkload (fixedShuffle lib hash [text k]) ([] : Entries) = [] :=
        (shuffle_perm lib _ _).eq_nil
      simp only [Option.map_none, Option.getD_none, List.flatMap_nil, this]
    | some e => rfl
  unfold iterateSeeded
  simp only
  rw [hit]
  by_cases hw : cfg.mixtureType = "token" ∨ cfg.mixtureType = "window"
  · rw [if_pos hw]
    cases hm : cfg.mixture with
    | none => simp only [iterateChunk, if_pos hw, hm]
    | some m => simp only [iterateChunk, if_pos hw, hm]; rfl
  · rw [if_neg hw]
    simp only [iterateChunk, if_neg hw]; rfl

/-- The shuffles of `c78_reading` are permutations, so that C76 applies to it: with the window type `"simple"`, exactly the
chunk's samples are read, each once, in an order that depends on the chunk only. -/
theorem c78_read_once_partial (lib : RandomLib R) (hash : PyStr → Nat) (text : K → PyStr)
    (ops : KeyOps K) (replay : Bool) (index : Dict K Entries) (order : List K)
    (hi : IndexOk index order) (history : List (Req K)) (hh : ∀ r ∈ history, HeapOk r.heap)
    (q : Req K) (hq : HeapOk q.heap) (g g' : Gen K) (c : RChunk K)
    (hg : g = after ops replay index order history)
    (h : g.send ops q.fuel replay q.heap q.mix q.target = (g', .chunk c)) (hs : SoundRequest (g.eff q))
    (isStub : Bool) (loads : Nat → Bool) (args : StreamArgs) (hv : ValidArgs isStub loads args)
    (hkind : args.mixtureType = "simple") (line : Pos → α) :
    ∃ cfg out n, configureChunk isStub loads args c = .ok cfg ∧ (out.map Prod.snd).Perm ((contentSamples c.content).map line) ∧
      ∀ fuel, n ≤ fuel → ∀ r : R, (iterateSeeded lib hash text cfg c line fuel r).1 = .ok out := by
  obtain ⟨cfg, out, n, h1, h2, -, h4⟩ := c76_read_partial ops replay index order hi history hh q hq g g' c hg h hs isStub loads
    args hv hkind (fun l => fixedShuffle lib hash (l.map text) l) (fun l => shuffle_perm _ _ _)
    (fun l => fixedShuffle lib hash (l.map (countText text)) l) line
    (keyStream (fun k => fixedShuffle lib hash [text k]) line c.content)
    (c76_single_process _ (fun k l => shuffle_perm _ _ _) line c.content)
  exact ⟨cfg, out, n, h1, h4, fun fuel hf r => by rw [c78_reading]; exact h2 fuel hf⟩

/-- **C78** (side effect). Reading a non-empty chunk sets the process's global random number generator: its state afterwards is
the same whatever it was before, so random numbers that the training loop draws between chunks repeat with the chunks. -/
theorem c78_resets_generator (lib : RandomLib R) (hash : PyStr → Nat) (text : K → PyStr) (cfg : Configured K) (c : RChunk K)
    (hc : c.content ≠ []) (line : Nat × Nat × Nat → α) (fuel : Nat) (r r' : R) :
    (iterateSeeded lib hash text cfg c line fuel r).2 = (iterateSeeded lib hash text cfg c line fuel r').2 := by
  have : ∀ (content : Dict K Entries), content ≠ [] →
      (openWorkloads lib hash text content r).2 = (openWorkloads lib hash text content r').2 := by
    intro content hne
    cases content with
    | nil => exact absurd rfl hne
    | cons ke rest =>
      simp only [openWorkloads]
      rw [seedAndShuffle_state lib hash [text ke.1] _ r r']
  unfold iterateSeeded
  simp only
  by_cases hw : cfg.mixtureType = "token" ∨ cfg.mixtureType = "window"
  · rw [if_pos hw, if_pos hw]
    cases hm : cfg.mixture with
    | none => exact this _ hc
    | some m => rfl
  · rw [if_neg hw, if_neg hw]
    rfl

end Reading

/-! ## Concrete cases -/

/-- A library whose shuffle reverses the list, whatever the state. -/
def reversing : RandomLib Nat := ⟨id, fun r n => (Fin.revPerm, r + n)⟩

/-- **C78** (what the order does depend on). The order in which the keys of a chunk are read depends on the order in which the
chunk lists them: unlike the keys of the index, they are not sorted before they are shuffled. Chunks with the same contents, made
by different histories, may be read in different orders. -/
theorem c78_chunk_order_matters :
    let cfg : Configured Nat := ⟨false, 1, "simple", 128, false, none, -1, -1⟩
    let text : Nat → PyStr := fun k => [Char.ofNat (65 + k)]
    let a : RChunk Nat := ⟨[(0, [(0, [(0, [(0, 1)])])]), (1, [(0, [(1, [(0, 1)])])])], 2, 0, none, true⟩
    let b : RChunk Nat := ⟨[(1, [(0, [(1, [(0, 1)])])]), (0, [(0, [(0, [(0, 1)])])])], 2, 0, none, true⟩
    a.content.Perm b.content ∧
    (iterateSeeded reversing List.length text cfg a id 10 0).1.toOption = some [(1, (0, 1, 0)), (0, (0, 0, 0))] ∧
    (iterateSeeded reversing List.length text cfg b id 10 0).1.toOption = some [(0, (0, 0, 0)), (1, (0, 1, 0))] := by
  refine ⟨List.Perm.swap _ _ _, by decide +kernel, by decide +kernel⟩

/-- The order of the keys of an index, listed in two ways. -/
example : (keyOrder reversing List.length ⟨fun a b => decide (a ≤ b), fun a b => decide (a = b)⟩ (fun k => [Char.ofNat (65 + k)])
      [2, 0, 1] 5).1 = [2, 1, 0] ∧
    (keyOrder reversing List.length ⟨fun a b => decide (a ≤ b), fun a b => decide (a = b)⟩ (fun k => [Char.ofNat (65 + k)])
      [1, 2, 0] 7).1 = [2, 1, 0] := by decide +kernel

/-- Two tables with the same rows that meet the hypotheses of `c78_same_chunks_partial`. -/
example : let t : TRow := ⟨[("lang".toList, .list [some "de".toList]), ("lic".toList, .null)], 0, 0, 0, 5⟩
    let t' : TRow := { t with start := 7, stop := 9 }
    let u : TRow := { t with cells := [("lang".toList, .null), ("lic".toList, .str "MIT".toList)] }
    let batches : List (List TRow) := [[t, u], [t']]
    let batches' : List (List TRow) := [[u], [t], [t']]
    batches.flatten.Perm batches'.flatten ∧ (∀ r ∈ batches.flatten, PlainCells r.cells) ∧
      (∀ r ∈ batches.flatten, ∀ r' ∈ batches.flatten, SameContents (rowProps r.cells) (rowProps r'.cells) → r.cells = r'.cells) ∧
      TableSorted batches.flatten ∧ TableSorted batches'.flatten := by
  refine ⟨List.Perm.swap _ _ _, ?_, ?_, by unfold TableSorted; decide, by unfold TableSorted; decide⟩
  · intro r hr
    simp only [List.flatten_cons, List.flatten_nil, List.append_nil, List.cons_append, List.nil_append, List.mem_cons,
      List.not_mem_nil, or_false] at hr
    rcases hr with rfl | rfl | rfl <;> exact ⟨by decide, by decide, by decide, by decide⟩
  · intro r hr r' hr' h
    simp only [List.flatten_cons, List.flatten_nil, List.append_nil, List.cons_append, List.nil_append, List.mem_cons,
      List.not_mem_nil, or_false] at hr hr'
    have hl := h "lang".toList
    rcases hr with rfl | rfl | rfl <;> rcases hr' with rfl | rfl | rfl <;> first
      | rfl
      | exact absurd hl (by simp [rowProps, Dict.get?])

end Mixtera
