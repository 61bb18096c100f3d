import Verif.Props.RestoreFiles
import Verif.Props.EndToEndAny
import Verif.Props.QueryCache

/-!
# Jobs that find their query in the cache (C82)

Composes C36 (what the cache returns), C31 (the stored index), C63 (from the database to the index) and C78 (what does not
depend on the order of the index).
-/

set_option linter.unusedSectionVars false

namespace Mixtera

variable {K R : Type} [DecidableEq K]

theorem alike_reused (ops : KeyOps K) (index : Dict K Entries) (order : List K) (stopOnNone : Bool) (heap : Nat → MixView K)
    (ref0 ref : Nat) (v : MixView K) :
    Alike (fun r => r = ref)
      (Sess.update ops (Sess.mk index order stopOnNone heap ref0 none 0 0 false [] []) ref v)
      (Sess.fresh ops index order stopOnNone ref v) where
  index := rfl
  order := rfl
  son := rfl
  mixRef := rfl
  mixT := rfl
  heap := by rintro r rfl; simp [Sess.update, Sess.fresh]
  fresh := rfl
  gen := rfl
  pair := by intro h; cases h
  idx := rfl
  num := rfl
  replay := rfl
  log := rfl
  ids := rfl

/-- **C82** (a cached result is as good as a new one). A job executes a query and its result is stored; nothing was taken from
it. Later another job finds it in the cache: the files are loaded in any order by a process with any state of its random number
generator, and the job sets its own mixture. To every sequence of requests, mixture updates and feedback this job gets the same
answers, the same key ids and the same mixture log as if the query had been executed anew - also if the new execution lists
keys, datasets and files in another order. -/
theorem c82_reused_like_fresh (lib : RandomLib R) (hash : PyStr → Nat) (ops : KeyOps K) (ht : ops.Total) (text : K → PyStr)
    (fuel : Nat) (rng rng' rng'' : R) (index : Dict K Entries) (hi : IndexFilled index) (stopOnNone : Bool)
    (firstRef : Nat) (firstMix : MixView K) (loaded : List StoredFile)
    (hl : loaded.Perm (serializeIndex index).files)
    (again : Dict K Entries) (hk : index.keys.Perm again.keys)
    (hr : ∀ k, (index.get? k).map flattenSorted = (again.get? k).map flattenSorted)
    (ref : Nat) (v : MixView K) :
    let first := Sess.fresh ops index (keyOrder lib hash ops text index.keys rng).1 stopOnNone firstRef firstMix
    let new := Sess.fresh ops again (keyOrder lib hash ops text again.keys rng'').1 stopOnNone ref v
    ∃ r t, first.writeDir.read lib hash ops text fuel firstRef rng' loaded = .ok r ∧ r.reuse ops ref v = some t ∧
      ∀ later : List (SOp K),
        (t.run ops fuel later).2 = (new.run ops fuel later).2 ∧
        (t.run ops fuel later).1.keyIds = (new.run ops fuel later).1.keyIds ∧
        (t.run ops fuel later).1.log = (new.run ops fuel later).1.log := by
  intro first new
  rcases readDir_same lib hash ht text fuel firstRef rng' rng first hi rfl loaded hl with ⟨e, -, h4⟩ | ⟨r, b, h3, h4, h5⟩
  · cases h4
  · have hb : b = Sess.mk index first.order stopOnNone (fun _ => firstMix) firstRef none 0 0 false [] first.keyIds := by
      have : fromCache ops fuel firstRef first.toCache =
          .ok (Sess.mk index first.order stopOnNone (fun _ => firstMix) firstRef none 0 0 false [] first.keyIds) := by
        unfold fromCache Sess.replay
        rfl
      rw [this] at h4
      exact (Except.ok.inj h4).symm
    have hnum : r.numReturns = 0 := by rw [h5.numReturns, hb]
    refine ⟨r, _, h3, if_pos hnum, fun later => ?_⟩
    have h6 : SameSess ({ r with keyIds := [] }.update ops ref v) ({ b with keyIds := [] }.update ops ref v) := by
      apply SameSess.update ht
      exact ⟨h5.keys, h5.read, h5.order, h5.stopOnNone, h5.heap, h5.mixRef, h5.gen, h5.idx, h5.numReturns, h5.isReplay, h5.log,
        rfl⟩
    obtain ⟨a1, a2⟩ := SameSess.run ht fuel later h6
    have h7 := alike_reused ops index first.order stopOnNone (fun _ => firstMix) firstRef ref v
    obtain ⟨b1, b2, b3⟩ := alike_run ops fuel later h7
    have h8 : SameSess (Sess.fresh ops index first.order stopOnNone ref v) new := by
      refine ⟨hk, hr, ?_, rfl, rfl, rfl, rfl, rfl, rfl, rfl, rfl, updateKeyIds_congr ht v.rows.keys hk []⟩
      exact congrArg Prod.fst (c78_key_order lib hash ht text index.keys again.keys hk rng rng'').1
    obtain ⟨c1, c2⟩ := SameSess.run ht fuel later h8
    rw [hb] at a1 a2
    exact ⟨a2.trans (b1.trans c2), a1.keyIds.trans (b2.trans c1.keyIds), a1.log.trans (b3.trans c1.log)⟩

/-- **C82** (a cached result is as good as a new one, from the query's table). Two executions of a query whose result tables
have the same rows, as in C78. Any job that reuses the stored result of the first one gets the answers of the second one.
`_partial`: as in C33, names and values must be free of the separators and rows with the same property contents must list the
values in the same order. -/
theorem c82_reused_table_partial (lib : RandomLib R) (hash : PyStr → Nat)
    (reorder reorder' : CppIndex → CppIndex) (hre : ∀ i xs, Describes i xs → SameIndex i (reorder i))
    (hre' : ∀ i xs, Describes i xs → SameIndex i (reorder' i))
    (batches batches' : List (List TRow)) (n n' : Int) (hn : 0 ≤ n) (hn' : 0 ≤ n')
    (hp : batches.flatten.Perm batches'.flatten) (hv : ∀ r ∈ batches.flatten, r.start ≤ r.stop)
    (hplain : ∀ r ∈ batches.flatten, PlainCells r.cells)
    (hcoh : ∀ r ∈ batches.flatten, ∀ r' ∈ batches.flatten,
      SameContents (rowProps r.cells) (rowProps r'.cells) → r.cells = r'.cells)
    (hs : TableSorted batches.flatten) (hs' : TableSorted batches'.flatten)
    (rng rng' rng'' : R) (stopOnNone : Bool) (firstRef : Nat) (firstMix : MixView CKey) (ref : Nat) (v : MixView CKey)
    (fuel : Nat) :
    ∃ idx idx', createChunkerIndex reorder ckeyOf batches n = .ok idx ∧
      createChunkerIndex reorder' ckeyOf batches' n' = .ok idx' ∧
      ∀ loaded, loaded.Perm (serializeIndex idx).files →
        ∃ r t, (freshFrom lib hash idx rng stopOnNone firstRef firstMix).writeDir.read lib hash ckeyOps (fun k => k.1.str) fuel
            firstRef rng' loaded = .ok r ∧ r.reuse ckeyOps ref v = some t ∧
          ∀ later : List (SOp CKey),
            (t.run ckeyOps fuel later).2 = ((freshFrom lib hash idx' rng'' stopOnNone ref v).run ckeyOps fuel later).2 ∧
            (t.run ckeyOps fuel later).1.keyIds =
              ((freshFrom lib hash idx' rng'' stopOnNone ref v).run ckeyOps fuel later).1.keyIds := by
  obtain ⟨idx, h1, d1, s1⟩ := chunkerIndex_describes reorder hre batches n hn hv hplain hcoh hs
  obtain ⟨idx', h2, d2, s2⟩ := chunkerIndex_describes reorder' hre' batches' n' hn'
    (fun r hr => hv r (hp.mem_iff.mpr hr)) (fun r hr => hplain r (hp.mem_iff.mpr hr))
    (fun r hr r' hr' => hcoh r (hp.mem_iff.mpr hr) r' (hp.mem_iff.mpr hr')) hs'
  have d1' := d1.of_perm ((hp.map _).map _) s1 s2
  have hk : idx.keys.Perm idx'.keys := by
    refine (List.perm_ext_iff_of_nodup d1'.nodup d2.nodup).mpr ?_
    intro k; rw [d1'.key, d2.key]
  refine ⟨idx, idx', h1, h2, fun loaded hl => ?_⟩
  obtain ⟨r, t, h3, h4, h5⟩ := c82_reused_like_fresh lib hash ckeyOps c26_generator_order (fun k : CKey => k.1.str) fuel rng
    rng' rng'' idx d1.filled stopOnNone firstRef firstMix loaded hl idx' hk (c33_thread_independent d1' d2) ref v
  exact ⟨r, t, h3, h4, fun later => ⟨(h5 later).1, (h5 later).2.1⟩⟩

/-! ## From the database -/

theorem queryIndex_describes (db : Db) (hwf : db.WF) (hp : ReadableDb db) (sels : List (List Cond)) (hone : OneOrder db sels)
    (hq : GoodQuery db sels)
    (q : Sel) (hb : buildQuery sels = some q) :
    ∃ base, baseData db q db.samples = .ok base ∧
      ∀ (leG : Group → Group → Bool), TotalOrder leG → ∀ (split : List TRow → List (List TRow)), (∀ l, (split l).flatten = l) →
      ∀ (reorder : CppIndex → CppIndex), (∀ i xs, Describes i xs → SameIndex i (reorder i)) → ∀ threads : Int, 0 ≤ threads →
      ∃ idx, queryIndex leG split reorder ckeyOf threads db q = .ok idx ∧
        Describes idx ((((queryIntervals leG base).map rowOf).map TRow.item).map fun it => (ckeyOf it.1, it.2)) ∧
        SortedItems ((((queryIntervals leG base).map rowOf).map TRow.item).map fun it => (ckeyOf it.1, it.2)) := by
  obtain ⟨base, h1, l', hsub, hbase, hmem⟩ := baseData_eq hq hb db.samples hp.types
  refine ⟨base, h1, ?_⟩
  intro leG hle split hsplit reorder hre threads hth
  have hkeys : (l'.map SampleRow.key).Nodup := (hsub.map _).nodup hwf.keys
  have hb' : ∀ s, s ∈ base ↔ ∃ r ∈ l', s = ((r.dataset, r.file, r.cellsOf db), r.sample) := by
    intro s
    rw [hbase, List.mem_map]
    constructor
    · rintro ⟨r, hr, rfl⟩; exact ⟨r, hr, rfl⟩
    · rintro ⟨r, hr, rfl⟩; exact ⟨r, hr, rfl⟩
  have hn : base.Nodup := by
    rw [hbase]
    apply List.Nodup.of_map (fun s : Group × Nat => (s.1.1, s.1.2.1, s.2))
    rw [List.map_map]
    exact hkeys
  have hplain : ∀ s ∈ base, PlainCells s.1.2.2 := by
    intro s hs
    obtain ⟨r, hr, rfl⟩ := (hb' s).mp hs
    exact hp.plainCells ((hmem r).mp hr).1
  have hcoh : ∀ s ∈ base, ∀ s' ∈ base, SameContents (rowProps s.1.2.2) (rowProps s'.1.2.2) → s.1.2.2 = s'.1.2.2 := by
    intro s hs s' hs' e
    obtain ⟨r, hr, rfl⟩ := (hb' s).mp hs
    obtain ⟨r', hr', rfl⟩ := (hb' s').mp hs'
    obtain ⟨c, hc⟩ := hp.has_self ((hmem r').mp hr').1
    have hc' : r.Has db c.1 := sampleHas_iff.mpr (e.trans (sampleHas_iff.mp hc))
    have hcell := hp.nulls r ((hmem r).mp hr).1 r' ((hmem r').mp hr').1
      (hone r ((hmem r).mp hr).1 r' ((hmem r').mp hr').1 ((hmem r).mp hr).2 ((hmem r').mp hr').2 c.1 hc' hc)
    show r.cellsOf db = r'.cellsOf db
    unfold SampleRow.cellsOf
    apply List.map_congr_left
    intro n hn
    rw [hcell n (mem_groupCols.mp hn)]
  have hsd := c32_sorted_disjoint_maximal leG hle.total hle.trans hle.antisymm base hn
  have hin : ∀ r ∈ queryIntervals leG base, (r.g, r.start) ∈ base := fun r hr =>
    (c32_coverage leG base r.g r.start).mpr ⟨r, hr, rfl, Nat.le_refl _, hsd.1 r hr⟩
  have hfl := hsplit ((queryIntervals leG base).map rowOf)
  have hmem' : ∀ r ∈ (split ((queryIntervals leG base).map rowOf)).flatten, ∃ r0 ∈ queryIntervals leG base, rowOf r0 = r := by
    intro r hr; rw [hfl] at hr; exact List.mem_map.mp hr
  obtain ⟨idx, h2, h3, h4⟩ := chunkerIndex_describes reorder hre (split ((queryIntervals leG base).map rowOf)) threads hth
    (by intro r hr
        obtain ⟨r0, hr0, rfl⟩ := hmem' r hr
        exact Nat.le_of_lt (hsd.1 r0 hr0))
    (by intro r hr
        obtain ⟨r0, hr0, rfl⟩ := hmem' r hr
        exact hplain _ (hin r0 hr0))
    (by intro r hr r' hr' e
        obtain ⟨r0, hr0, rfl⟩ := hmem' r hr
        obtain ⟨r1, hr1, rfl⟩ := hmem' r' hr'
        exact hcoh _ (hin r0 hr0) _ (hin r1 hr1) e)
    (by rw [hfl, TableSorted, List.pairwise_map]
        refine hsd.2.imp_of_mem ?_
        intro a b ha hb h e1 e2 e3
        have hg : a.g = b.g := Prod.ext e2 (Prod.ext e3 e1)
        rw [if_pos hg] at h
        have := hsd.1 a ha
        show a.start < b.start
        omega)
  rw [hfl] at h3 h4
  refine ⟨idx, ?_, h3, h4⟩
  unfold queryIndex
  rw [h1]
  exact h2

/-- Two executions of a query on the same database content give indices that differ only in their order. -/
theorem queryIndex_same (db : Db) (hwf : db.WF) (hp : ReadableDb db) (sels : List (List Cond)) (hone : OneOrder db sels)
    (hq : GoodQuery db sels)
    (q : Sel) (hb : buildQuery sels = some q) (leG leG' : Group → Group → Bool) (hle : TotalOrder leG) (hle' : TotalOrder leG')
    (split split' : List TRow → List (List TRow)) (hsplit : ∀ l, (split l).flatten = l) (hsplit' : ∀ l, (split' l).flatten = l)
    (reorder reorder' : CppIndex → CppIndex) (hre : ∀ i xs, Describes i xs → SameIndex i (reorder i))
    (hre' : ∀ i xs, Describes i xs → SameIndex i (reorder' i)) (threads threads' : Int) (hth : 0 ≤ threads) (hth' : 0 ≤ threads') :
    ∃ idx idx', queryIndex leG split reorder ckeyOf threads db q = .ok idx ∧
      queryIndex leG' split' reorder' ckeyOf threads' db q = .ok idx' ∧ IndexFilled idx ∧ idx.keys.Perm idx'.keys ∧
      ∀ k, (idx.get? k).map flattenSorted = (idx'.get? k).map flattenSorted := by
  obtain ⟨base, -, h⟩ := queryIndex_describes db hwf hp sels hone hq q hb
  obtain ⟨idx, h1, d1, s1⟩ := h leG hle split hsplit reorder hre threads hth
  obtain ⟨idx', h2, d2, s2⟩ := h leG' hle' split' hsplit' reorder' hre' threads' hth'
  have hperm : (queryIntervals leG base).Perm (queryIntervals leG' base) :=
    (sortBy_perm _ _).trans (sortBy_perm _ _).symm
  have d1' := d1.of_perm (((hperm.map rowOf).map _).map _) s1 s2
  refine ⟨idx, idx', h1, h2, d1.filled, ?_, c33_thread_independent d1' d2⟩
  refine (List.perm_ext_iff_of_nodup d1'.nodup d2.nodup).mpr ?_
  intro k; rw [d1'.key, d2.key]

theorem baseData_congr {db db' : Db} (h : db.columns = db'.columns) (q : Sel) (l : List SampleRow) :
    baseData db q l = baseData db' q l := by
  induction l with
  | nil => rfl
  | cons r l ih => simp only [baseData, h, ih, groupCols]

theorem baseData_scan {db db' : Db} (hcol : db.columns = db'.columns) (hperm : db.samples.Perm db'.samples) (hwf : db.WF)
    (ht : ∀ r ∈ db.samples, Conforms db.columns r.sqlRow) {sels : List (List Cond)} (hq : GoodQuery db sels) {q : Sel} (hb : buildQuery sels = some q) :
    ∃ base base', baseData db q db.samples = .ok base ∧ baseData db' q db'.samples = .ok base' ∧ base.Nodup ∧ base.Perm base' := by
  obtain ⟨base, h1, l1, hsub1, hbase1, hmem1⟩ := baseData_eq hq hb db.samples ht
  obtain ⟨base', h2, l2, hsub2, hbase2, hmem2⟩ := baseData_eq hq hb db'.samples fun r hr => ht r (hperm.mem_iff.mpr hr)
  rw [baseData_congr hcol] at h2
  have hs : db.samples.Nodup := List.Nodup.of_map _ hwf.keys
  have hl : l1.Perm l2 := by
    refine (List.perm_ext_iff_of_nodup (hsub1.nodup hs) (hsub2.nodup (hperm.nodup_iff.mp hs))).mpr fun r => ?_
    rw [hmem1, hmem2, hperm.mem_iff]
  refine ⟨base, base', h1, h2, ?_, ?_⟩
  · rw [hbase1]
    apply List.Nodup.of_map (fun s : Group × Nat => (s.1.1, s.1.2.1, s.2))
    rw [List.map_map]
    exact (hsub1.map SampleRow.key).nodup hwf.keys
  · rw [hbase1, hbase2]
    exact hl.map _

/-- **C78** (the order of the table). It does not matter in which order the rows of the sample table are stored or scanned: the
index of a query is the same, whatever the property values. `_partial`: for queries that can be expressed (C35). -/
theorem c78_scan_order_partial (db db' : Db) (hcol : db.columns = db'.columns) (hperm : db.samples.Perm db'.samples) (hwf : db.WF)
    (ht : ∀ r ∈ db.samples, Conforms db.columns r.sqlRow) (sels : List (List Cond)) (hq : GoodQuery db sels) (q : Sel)
    (hb : buildQuery sels = some q) (leG : Group → Group → Bool) (hle : TotalOrder leG) (split : List TRow → List (List TRow)) (reorder : CppIndex → CppIndex)
    (threads : Int) :
    queryIndex leG split reorder ckeyOf threads db q = queryIndex leG split reorder ckeyOf threads db' q := by
  obtain ⟨base, base', h1, h2, hn, hpb⟩ := baseData_scan hcol hperm hwf ht hq hb
  have h3 := c32_scan_order leG hle.total hle.trans hle.antisymm base base' hn hpb
  have h4 : (queryIntervals leG base).map rowOf = (queryIntervals leG base').map rowOf := by
    have : ∀ l : List (IvRow Group), l.map rowOf =
        (l.map fun r => (r.g, r.start, r.stop)).map fun x => ⟨x.1.2.2, x.1.1, x.1.2.1, x.2.1, x.2.2⟩ := by
      intro l; rw [List.map_map]; rfl
    rw [this, this, h3]
  unfold queryIndex
  rw [h1, h2]
  show createChunkerIndex _ _ (split ((queryIntervals leG base).map rowOf)) _ = _
  rw [h4]
  rfl

/-- **C78** (from the database). Two executions of a query on the same database content - whatever the order of DuckDB's groups,
the cut into batches, the numbers of threads, the iteration order of the hash maps and the states of the random number
generators - give query results with the same answers, chunk for chunk, and the same key ids, for every sequence of requests,
mixture updates and feedback. `_partial`: for values without separators that are listed in one order (`c78_database_iff`: the
latter is necessary) and queries that can be expressed (C35). -/
theorem c78_database_partial (lib : RandomLib R) (hash : PyStr → Nat) (db : Db) (hwf : db.WF) (hp : ReadableDb db)
    (sels : List (List Cond)) (hone : OneOrder db sels) (hq : GoodQuery db sels) (q : Sel) (hb : buildQuery sels = some q)
    (leG leG' : Group → Group → Bool) (hle : TotalOrder leG) (hle' : TotalOrder leG')
    (split split' : List TRow → List (List TRow)) (hsplit : ∀ l, (split l).flatten = l) (hsplit' : ∀ l, (split' l).flatten = l)
    (reorder reorder' : CppIndex → CppIndex) (hre : ∀ i xs, Describes i xs → SameIndex i (reorder i))
    (hre' : ∀ i xs, Describes i xs → SameIndex i (reorder' i)) (threads threads' : Int) (hth : 0 ≤ threads) (hth' : 0 ≤ threads')
    (rng rng' : R) (stopOnNone : Bool) (ref : Nat) (v : MixView CKey) (fuel : Nat) (os : List (SOp CKey)) :
    ∃ idx idx', queryIndex leG split reorder ckeyOf threads db q = .ok idx ∧
      queryIndex leG' split' reorder' ckeyOf threads' db q = .ok idx' ∧
      ((freshFrom lib hash idx rng stopOnNone ref v).run ckeyOps fuel os).2 =
        ((freshFrom lib hash idx' rng' stopOnNone ref v).run ckeyOps fuel os).2 ∧
      ((freshFrom lib hash idx rng stopOnNone ref v).run ckeyOps fuel os).1.keyIds =
        ((freshFrom lib hash idx' rng' stopOnNone ref v).run ckeyOps fuel os).1.keyIds := by
  obtain ⟨idx, idx', h1, h2, -, hk, hr⟩ := queryIndex_same db hwf hp sels hone hq q hb leG leG' hle hle' split split' hsplit hsplit'
    reorder reorder' hre hre' threads threads' hth hth'
  refine ⟨idx, idx', h1, h2, ?_⟩
  have hsame : SameSess (freshFrom lib hash idx rng stopOnNone ref v) (freshFrom lib hash idx' rng' stopOnNone ref v) := by
    refine ⟨hk, hr, ?_, rfl, rfl, rfl, rfl, rfl, rfl, rfl, rfl, ?_⟩
    · exact congrArg Prod.fst (c78_key_order lib hash c26_generator_order (fun k : CKey => k.1.str) idx.keys idx'.keys hk rng rng').1
    · exact updateKeyIds_congr c26_generator_order v.rows.keys hk []
  have := SameSess.run c26_generator_order fuel os hsame
  exact ⟨this.2, this.1.keyIds⟩

/-- What is left open about the execution of queries: the order of DuckDB's groups, the cut into batches, the iteration order of
the hash maps and the number of threads. -/
structure Engine where
  leG : Group → Group → Bool
  split : List TRow → List (List TRow)
  reorder : CppIndex → CppIndex
  threads : Int

/-- What is assumed of it. -/
structure Engine.OK (e : Engine) : Prop where
  order : TotalOrder e.leG
  batches : ∀ l, (e.split l).flatten = l
  maps : ∀ i xs, Describes i xs → SameIndex i (e.reorder i)
  threads : 0 ≤ e.threads

/-- The index of a chain of selects (`Query.execute`); a chain of selects always has a first one. -/
def Engine.index (e : Engine) (db : Db) (q : SelectChain) : Except Err (Dict CKey Entries) :=
  match buildQuery (q.1 :: q.2) with
  | some s => queryIndex e.leG e.split e.reorder ckeyOf e.threads db s
  | none => .error .runtimeError

/-- The query cache in front of the engine: what is stored stands for the index; a query that raises does so again each time. -/
def Engine.cached (e : Engine) (hash : PyStr → PyStr)
    (order : List (CacheDir (Except Err (Dict CKey Entries))) → List (CacheDir (Except Err (Dict CKey Entries)))) :
    CacheEnv SelectChain (Except Err (Dict CKey Entries)) :=
  ⟨queryText, hash, order, e.index⟩

theorem engine_ok (e : Engine) (hash : PyStr → PyStr)
    (order : List (CacheDir (Except Err (Dict CKey Entries))) → List (CacheDir (Except Err (Dict CKey Entries))))
    (ho : ∀ l d, d ∈ order l ↔ d ∈ l) : (e.cached hash order).OK where
  inj := c36_text_identifies_query
  order := ho
  sees := by
    intro db db' q h
    simp only [Db.visible, Prod.mk.injEq] at h
    show e.index db q = e.index db' q
    unfold Engine.index queryIndex
    rw [h.2.1]
    simp only [baseData_congr h.1]

theorem buildQuery_cons (c : List Cond) (cs : List (List Cond)) : ∃ sel, buildQuery (c :: cs) = some sel := by
  unfold buildQuery
  rw [List.foldl_cons]
  have : ∀ (l : List (List Cond)) (x : Sel), ∃ sel, l.foldl addSelect (some x) = some sel := by
    intro l
    induction l with
    | nil => intro x; exact ⟨x, rfl⟩
    | cons c l ih => intro x; cases x; exact ih _
  exact this _ _

/-- **C82** (from the database, through the cache). In every state that any sequence of completed registrations and removals,
crashed registrations, and completed or crashed queries leads to: executing a query whose directory in the cache is intact (or
missing) gives an index, from the cache or newly computed. A job that starts from it - directly, or from its files, stored with
the mixture of any earlier job and loaded in any order - gets to every sequence of requests, mixture updates and feedback the same
answers and key ids as a job for which any other engine executes the query on the present content of the database.
`_partial`: as in C36 (crashed removals and races are excluded) and C63. -/
theorem c82_execute_query_partial (lib : RandomLib R) (hash : PyStr → Nat) (e e' : Engine) (he : e.OK) (he' : e'.OK)
    (dirHash : PyStr → PyStr)
    (order : List (CacheDir (Except Err (Dict CKey Entries))) → List (CacheDir (Except Err (Dict CKey Entries))))
    (ho : ∀ l d, d ∈ order l ↔ d ∈ l) (s : Sys (Except Err (Dict CKey Entries))) (hs : CacheReach (e.cached dirHash order) s)
    (q : SelectChain) (hp : ReadableDb s.db) (hone : OneOrder s.db (q.1 :: q.2)) (hq : GoodQuery s.db (q.1 :: q.2)) (found : Except Err (Dict CKey Entries))
    (hrun : ((executeQuery (e.cached dirHash order) q).run s).2 = .ok found) :
    ∃ idx now, found = .ok idx ∧ e'.index s.db q = .ok now ∧
      ∀ (rng rng' rng'' : R) (stopOnNone : Bool) (ref : Nat) (v : MixView CKey) (fuel : Nat) (later : List (SOp CKey)),
        let job := (freshFrom lib hash now rng'' stopOnNone ref v).run ckeyOps fuel later
        ((freshFrom lib hash idx rng stopOnNone ref v).run ckeyOps fuel later).2 = job.2 ∧
        ((freshFrom lib hash idx rng stopOnNone ref v).run ckeyOps fuel later).1.keyIds = job.1.keyIds ∧
        ∀ (firstRef : Nat) (firstMix : MixView CKey) (loaded : List StoredFile), loaded.Perm (serializeIndex idx).files →
          ∃ r t, (freshFrom lib hash idx rng stopOnNone firstRef firstMix).writeDir.read lib hash ckeyOps (fun k => k.1.str) fuel
              firstRef rng' loaded = .ok r ∧ r.reuse ckeyOps ref v = some t ∧
            (t.run ckeyOps fuel later).2 = job.2 ∧ (t.run ckeyOps fuel later).1.keyIds = job.1.keyIds := by
  have hE := engine_ok e dirHash order ho
  have hwf : s.db.WF := (cacheReach_inv hE hs).wf
  have hfound : found = e.index s.db q := c36_current_result_partial _ hE hs q found hrun
  obtain ⟨sel, hsel⟩ := buildQuery_cons q.1 q.2
  obtain ⟨idx, now, h1, h2, hfill, hk, hr⟩ := queryIndex_same s.db hwf hp _ hone hq sel hsel e.leG e'.leG he.order he'.order e.split
    e'.split he.batches he'.batches e.reorder e'.reorder he.maps he'.maps e.threads e'.threads he.threads he'.threads
  refine ⟨idx, now, ?_, ?_, ?_⟩
  · rw [hfound]; unfold Engine.index; rw [hsel]; exact h1
  · unfold Engine.index; rw [hsel]; exact h2
  · intro rng rng' rng'' stopOnNone ref v fuel later job
    have hsame : SameSess (freshFrom lib hash idx rng stopOnNone ref v) (freshFrom lib hash now rng'' stopOnNone ref v) := by
      refine ⟨hk, hr, ?_, rfl, rfl, rfl, rfl, rfl, rfl, rfl, rfl, ?_⟩
      · exact congrArg Prod.fst (c78_key_order lib hash c26_generator_order (fun k : CKey => k.1.str) idx.keys now.keys hk rng
          rng'').1
      · exact updateKeyIds_congr c26_generator_order v.rows.keys hk []
    have h3 := SameSess.run c26_generator_order fuel later hsame
    refine ⟨h3.2, h3.1.keyIds, ?_⟩
    intro firstRef firstMix loaded hl
    obtain ⟨r, t, h4, h5, h6⟩ := c82_reused_like_fresh lib hash ckeyOps c26_generator_order (fun k : CKey => k.1.str) fuel rng
      rng' rng'' idx hfill stopOnNone firstRef firstMix loaded hl now hk hr ref v
    exact ⟨r, t, h4, h5, (h6 later).1, (h6 later).2.1⟩

/-! ## Concrete cases -/

/-- Non-vacuity of `c78_scan_order_partial`: the database of `EndToEnd`, which meets the other hypotheses, and the same rows in
reverse order. -/
example : let db' : Db := { e2eDb with samples := e2eDb.samples.reverse }
    e2eDb.columns = db'.columns ∧ e2eDb.samples.Perm db'.samples ∧
      e2eDb.samples.map SampleRow.key ≠ db'.samples.map SampleRow.key :=
  ⟨rfl, (List.reverse_perm _).symm, by decide +kernel⟩

/-- C82 with a stored result: executed with one mixture, reused with another. The key ids are those of the second one. -/
example : let text : Nat → PyStr := fun k => [Char.ofNat (65 + k)]
    let first := Sess.fresh Ex.ops Ex.index (keyOrder reversing List.length Ex.ops text Ex.index.keys 0).1 false 0 Ex.strictMix
    let r := (first.writeDir.read reversing List.length Ex.ops text 20 0 5 first.writeDir.index.files.reverse).toOption
    let t := r.bind fun r => r.reuse Ex.ops 7 ⟨[(12, 1), (2, 3)], true, 4⟩
    let t' := r.bind fun r => r.reuse Ex.ops 7 ⟨[(2, 4)], true, 4⟩
    first.keyIds = [(1, 0), (2, 1), (11, 2)] ∧ t.map (·.keyIds) = some [(1, 0), (2, 1), (11, 2), (12, 3)] ∧
    laterSeen [.next, .next, .next] t' =
      some [.chunk [(2, [(0, 1, 0), (0, 1, 1), (0, 1, 2), (0, 1, 3)])], .chunk [(2, [(0, 1, 4), (0, 1, 5), (0, 1, 6), (0, 1, 7)])],
        .none] := by
  decide +kernel

/-- A result from which a chunk was taken is not reused: the assertion fails. -/
example : ((Sess.fresh Ex.ops Ex.index Ex.order false 0 Ex.strictMix).run Ex.ops 20 [.next]).1.reuse Ex.ops 1 Ex.bestMix = none := by
  have : ((Sess.fresh Ex.ops Ex.index Ex.order false 0 Ex.strictMix).run Ex.ops 20 [.next]).1.numReturns = 1 := by decide +kernel
  unfold Sess.reuse
  rw [this]
  rfl


/-- `select(l == e)` -/
def hitQuery : SelectChain := ([⟨['l'], "==".toList, .one ['e']⟩], [])

/-- The database after a registration. -/
def hitDb : Db := ((registerDataset Ex.regA).run {}).1

/-- Non-vacuity of `c82_execute_query_partial`, for any engine: a dataset was registered and the query executed; the second
execution finds the result in the cache. -/
example (e : Engine) : let E := e.cached id id
    let s := ((executeQuery E hitQuery).run ⟨hitDb, []⟩).1
    CacheReach E s ∧ (ReadableDb s.db ∧ OneOrder s.db (hitQuery.1 :: hitQuery.2)) ∧
      GoodQuery s.db (hitQuery.1 :: hitQuery.2) ∧ s.db.samples.length = 3 ∧
      lookup E hitQuery s = .hit (e.index hitDb hitQuery) ∧
      ((executeQuery E hitQuery).run s).2 = .ok (e.index hitDb hitQuery) := by
  intro E s
  have hdb : s.db = hitDb := rfl
  refine ⟨.query hitQuery (.op (.register Ex.regA) .init) (Prog.run_mem_states _ _), ?_, ?_, by rw [hdb]; decide +kernel, ?_, ?_⟩
  · rw [hdb]
    have hcol : hitDb.columns = [(['l'], false)] := by decide +kernel
    suffices h : PlainDb hitDb from ⟨h.readable, h.oneOrder _⟩
    refine ⟨?_, by rw [hcol]; decide, by rw [hcol]; decide, ?_, order_of_check _ (by decide +kernel)⟩
    · intro r hr f arr hf
      rw [hcol] at hf
      have hf' := Dict.mem_of_get? hf
      simp only [List.mem_cons, List.not_mem_nil, or_false, Prod.mk.injEq] at hf'
      obtain ⟨rfl, rfl⟩ := hf'
      have key : ∀ r ∈ hitDb.samples, r.sqlRow ['l'] = .null ∨ r.sqlRow ['l'] = .str ['e'] ∨ r.sqlRow ['l'] = .str ['f'] := by
        decide +kernel
      rcases key r hr with h | h | h
      · exact Or.inl h
      · exact Or.inr ⟨_, h⟩
      · exact Or.inr ⟨_, h⟩
    · intro r hr n vs hv
      have hn : n ∈ hitDb.columns.keys := by
        by_contra hc
        simp [SampleRow.prop, hc] at hv
      have key : ∀ r ∈ hitDb.samples, ∀ n ∈ hitDb.columns.keys, ∀ vs ∈ (r.prop hitDb n).toList,
          (∀ v ∈ vs, ',' ∉ v ∧ ';' ∉ v) ∧ vs.getLast? ≠ some [] := by decide +kernel
      exact key r hr n hn vs (by rw [hv]; simp)
  · rw [hdb]
    refine ⟨by decide, ?_, ?_⟩
    · intro c hc d hd
      rw [usable_iff]
      revert c d
      decide +kernel
    · intro c hc d hd
      refine ⟨?_, ?_⟩
      · intro l hl v hv
        simp only [hitQuery, List.mem_cons, List.not_mem_nil, or_false] at hc
        subst hc
        simp only [List.mem_cons, List.not_mem_nil, or_false] at hd
        subst hd
        simp at hl
      · intro _ _
        left
        revert c d
        decide
  · rfl
  · rfl

end Mixtera
