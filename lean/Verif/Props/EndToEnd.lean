import Verif.Model.QueryEval
import Verif.Spec.Database
import Verif.Props.Chunker
import Verif.Props.Select
import Verif.Props.Chunks
import Verif.Props.Arbitrary
import Mathlib.Order.Extension.Linear

/-!
# C63: from the registered samples to the delivered chunks
-/

set_option linter.unusedSectionVars false

namespace Mixtera

/-! ### Specification -/

/-- The values of a property of a sample; `none` if it is NULL. -/
def Cell.values : Cell → Option (List PyStr)
  | .null => none
  | .str s => some [s]
  | .list vs => some (vs.filterMap id)

/-- The values of property `name` of a registered sample. -/
def SampleRow.prop (db : Db) (r : SampleRow) (name : PyStr) : Option (List PyStr) :=
  if name ∈ db.columns.keys then (r.sqlRow name).values else none

/-- The sample has exactly the properties of `c`, with the same values in any order. -/
def SampleRow.Has (db : Db) (r : SampleRow) (c : RawKey) : Prop :=
  ∀ name, match r.prop db name, c.get? name with
    | none, none => True
    | some v, some w => v.Perm w
    | _, _ => False

/-- The sample satisfies all conditions of at least one of the chained selects. -/
def SampleRow.Wanted (sels : List (List Cond)) (r : SampleRow) : Prop := ∃ s ∈ sels, ∀ c ∈ s, c.sat r.sqlRow

/-- What the end-to-end claim needs of the table: the cells have their columns' types, names and values are free of the
separators of C34, and two samples with the same values list them in the same order (C33). -/
structure PlainDb (db : Db) : Prop where
  types : ∀ r ∈ db.samples, Conforms db.columns r.sqlRow
  cols : db.columns.keys.Nodup
  name : ∀ n ∈ db.columns.keys, ':' ∉ n ∧ ';' ∉ n
  value : ∀ r ∈ db.samples, ∀ n vs, r.prop db n = some vs → (∀ v ∈ vs, ',' ∉ v ∧ ';' ∉ v) ∧ vs.getLast? ≠ some []
  order : ∀ r ∈ db.samples, ∀ r' ∈ db.samples, ∀ c, r.Has db c → r'.Has db c →
    ∀ n ∈ db.columns.keys, r.sqlRow n = r'.sqlRow n

/-- The query can be expressed (C35): every select has conditions, none of which is skipped. -/
structure GoodQuery (db : Db) (sels : List (List Cond)) : Prop where
  nonempty : ∀ s ∈ sels, s ≠ []
  usable : ∀ s ∈ sels, ∀ c ∈ s, Usable db.columns c
  expressible : ∀ s ∈ sels, ∀ c ∈ s, Expressible db.columns c

/-- The order of the group columns is a total order. -/
structure TotalOrder {G : Type} (le : G → G → Bool) : Prop where
  total : ∀ a b, le a b = true ∨ le b a = true
  trans : ∀ a b c, le a b = true → le b c = true → le a c = true
  antisymm : ∀ a b, le a b = true → le b a = true → a = b

/-! ### Positions of an index -/

theorem mem_seg {s : Seg} {d f x : Nat} : (d, f, x) ∈ s.samples ↔ s.ds = d ∧ s.file = f ∧ s.lo ≤ x ∧ x < s.hi := by
  unfold Seg.samples
  simp only [List.mem_map, List.mem_range'_1, Prod.mk.injEq]
  constructor
  · rintro ⟨i, ⟨h1, h2⟩, h3, h4, rfl⟩
    exact ⟨h3, h4, h1, by omega⟩
  · rintro ⟨h1, h2, h3, h4⟩
    exact ⟨x, ⟨h3, by omega⟩, h1, h2, rfl⟩

theorem seg_nodup (s : Seg) : s.samples.Nodup := by
  unfold Seg.samples
  apply List.Nodup.map
  · intro a b h
    simpa using h
  · exact List.nodup_range'

theorem mem_entriesSamples {e : Entries} {d f x : Nat} :
    (d, f, x) ∈ entriesSamples e ↔ ∃ fs rs, (d, fs) ∈ e ∧ (f, rs) ∈ fs ∧ ∃ r ∈ rs, r.1 ≤ x ∧ x < r.2 := by
  unfold entriesSamples
  simp only [List.mem_flatMap, mem_seg]
  constructor
  · rintro ⟨⟨d', fs⟩, h1, ⟨f', rs⟩, h2, r, h3, rfl, rfl, h4⟩
    exact ⟨fs, rs, h1, h2, r, h3, h4⟩
  · rintro ⟨fs, rs, h1, h2, r, h3, h4⟩
    exact ⟨(d, fs), h1, (f, rs), h2, r, h3, rfl, rfl, h4⟩

theorem mem_entriesSamples_look {e : Entries} (h : EntriesWF e) {d f x : Nat} :
    (d, f, x) ∈ entriesSamples e ↔ ∃ rs, e.look d f = some rs ∧ ∃ r ∈ rs, r.1 ≤ x ∧ x < r.2 := by
  rw [mem_entriesSamples]
  constructor
  · rintro ⟨fs, rs, h1, h2, h3⟩
    exact ⟨rs, by rw [Entries.look, Dict.get?_of_mem h.1 h1, Option.bind_some, Dict.get?_of_mem (h.2 _ h1) h2], h3⟩
  · rintro ⟨rs, h1, h2⟩
    unfold Entries.look at h1
    rw [Option.bind_eq_some_iff] at h1
    obtain ⟨fs, h3, h4⟩ := h1
    exact ⟨fs, rs, Dict.mem_of_get? h3, Dict.mem_of_get? h4, h2⟩

theorem mem_keySamples_look {K : Type} [DecidableEq K] {idx : Dict K Entries} (h : ∀ ke ∈ idx, EntriesWF ke.2) {k : K}
    {d f x : Nat} :
    (d, f, x) ∈ keySamples idx k ↔ ∃ rs, idxLook idx k d f = some rs ∧ ∃ r ∈ rs, r.1 ≤ x ∧ x < r.2 := by
  unfold keySamples
  rw [mem_entriesSamples_look (wf_of_get? h k)]
  unfold idxLook
  cases hk : idx.get? k with
  | none => simp [Entries.look, Dict.get?]
  | some e => simp

theorem entriesSamples_nodup {e : Entries} (h : EntriesWF e)
    (hs : ∀ d fs, (d, fs) ∈ e → ∀ f rs, (f, rs) ∈ fs → rs.Pairwise fun a b => a.2 ≤ b.1) : (entriesSamples e).Nodup := by
  unfold entriesSamples
  rw [List.nodup_flatMap]
  refine ⟨?_, ?_⟩
  · rintro ⟨d, fs⟩ hd
    simp only
    rw [List.nodup_flatMap]
    refine ⟨?_, ?_⟩
    · rintro ⟨f, rs⟩ hf
      simp only
      rw [List.nodup_flatMap]
      refine ⟨fun r _ => seg_nodup _, ?_⟩
      refine (hs d fs hd f rs hf).imp ?_
      intro a b hab
      rw [Function.onFun, List.disjoint_left]
      rintro ⟨d', f', x⟩ h1 h2
      rw [mem_seg] at h1 h2
      simp only at h1 h2
      omega
    · have hn : (fs.map Prod.fst).Nodup := h.2 _ hd
      rw [List.Nodup, List.pairwise_map] at hn
      refine hn.imp ?_
      rintro ⟨f, rs⟩ ⟨f', rs'⟩ hne
      rw [Function.onFun, List.disjoint_left]
      rintro ⟨d', g, x⟩ h1 h2
      simp only [List.mem_flatMap, mem_seg] at h1 h2
      obtain ⟨_, _, _, rfl, _⟩ := h1
      obtain ⟨_, _, _, e2, _⟩ := h2
      exact hne e2.symm
  · have hn : (e.map Prod.fst).Nodup := h.1
    rw [List.Nodup, List.pairwise_map] at hn
    refine hn.imp ?_
    rintro ⟨d, fs⟩ ⟨d', fs'⟩ hne
    rw [Function.onFun, List.disjoint_left]
    rintro ⟨g, f', x⟩ h1 h2
    simp only [List.mem_flatMap, mem_seg] at h1 h2
    obtain ⟨_, _, _, _, rfl, _⟩ := h1
    obtain ⟨_, _, _, _, e2, _⟩ := h2
    exact hne e2.symm

theorem contentSamples_nodup {K : Type} [DecidableEq K] {idx : Dict K Entries} (hn : idx.keys.Nodup)
    (hwf : ∀ ke ∈ idx, EntriesWF ke.2) (hs : IndexSorted idx)
    (hd : ∀ k k' p, p ∈ keySamples idx k → p ∈ keySamples idx k' → k = k') : (contentSamples idx).Nodup := by
  unfold contentSamples
  rw [List.nodup_flatMap]
  refine ⟨?_, ?_⟩
  · rintro ⟨k, e⟩ hk
    exact entriesSamples_nodup (hwf _ hk) fun d fs h1 f rs h2 => (hs k e hk d fs h1 f rs h2).1
  · have hn' : (idx.map Prod.fst).Nodup := hn
    rw [List.Nodup, List.pairwise_map] at hn'
    refine hn'.imp_of_mem ?_
    rintro ⟨k, e⟩ ⟨k', e'⟩ hk hk' hne
    rw [Function.onFun, List.disjoint_left]
    intro p h1 h2
    apply hne
    apply hd k k' p
    · unfold keySamples; rw [Dict.get?_of_mem hn hk]; exact h1
    · unfold keySamples; rw [Dict.get?_of_mem hn hk']; exact h2

theorem mem_contentSamples {K : Type} [DecidableEq K] {idx : Dict K Entries} (hn : idx.keys.Nodup) {p : Pos} :
    p ∈ contentSamples idx ↔ ∃ k, p ∈ keySamples idx k := by
  unfold contentSamples
  rw [List.mem_flatMap]
  constructor
  · rintro ⟨⟨k, e⟩, h1, h2⟩
    exact ⟨k, by unfold keySamples; rw [Dict.get?_of_mem hn h1]; exact h2⟩
  · rintro ⟨k, h⟩
    unfold keySamples at h
    cases hk : idx.get? k with
    | none => rw [hk] at h; simp [entriesSamples] at h
    | some e => rw [hk] at h; exact ⟨(k, e), Dict.mem_of_get? hk, h⟩

/-! ### The selected rows -/

/-- The cells of a row in the query result. -/
def SampleRow.cellsOf (db : Db) (r : SampleRow) : List (PyStr × Cell) := (groupCols db).map fun c => (c, r.sqlRow c)

theorem mem_groupCols {db : Db} {n : PyStr} : n ∈ groupCols db ↔ n ∈ db.columns.keys :=
  (sortBy_perm _ _).mem_iff

theorem rowProps_get? (cols : List PyStr) (v : PyStr → Cell) (n : PyStr) :
    (rowProps (cols.map fun c => (c, v c))).get? n = if n ∈ cols then (v n).values else none := by
  induction cols with
  | nil => rfl
  | cons c cols ih =>
    unfold rowProps at ih ⊢
    rw [List.map_cons, List.filterMap_cons]
    by_cases hc : c = n
    · subst hc
      cases hv : v c with
      | null =>
        simp only [hv, Cell.values] at ih ⊢
        rw [ih]; simp
      | str s => simp [Dict.get?, hv, Cell.values]
      | list vs => simp [Dict.get?, hv, Cell.values]
    · have hn : (n ∈ c :: cols) ↔ n ∈ cols := by
        rw [List.mem_cons]
        exact ⟨fun h => h.resolve_left fun e => hc e.symm, Or.inr⟩
      cases hv : v c with
      | null =>
        simp only [hv]
        rw [ih]; simp only [hn]
      | str s =>
        simp only [hv, hn]
        rw [← ih]; simp [Dict.get?, hc]
      | list vs =>
        simp only [hv, hn]
        rw [← ih]; simp [Dict.get?, hc]

theorem sampleHas_iff {db : Db} {r : SampleRow} {c : RawKey} : r.Has db c ↔ SameContents (rowProps (r.cellsOf db)) c := by
  unfold SampleRow.Has SameContents
  have : ∀ n, (rowProps (r.cellsOf db)).get? n = r.prop db n := by
    intro n
    unfold SampleRow.cellsOf SampleRow.prop
    rw [rowProps_get?]
    simp only [mem_groupCols]
  simp only [this]
  apply forall_congr'
  intro n
  cases r.prop db n <;> cases c.get? n <;> exact Iff.rfl

/-- The selected rows in the order of the table. -/
theorem baseData_eq {db : Db} {sels : List (List Cond)} (hq : GoodQuery db sels) {q : Sel}
    (hb : buildQuery sels = some q) (l : List SampleRow) (ht : ∀ r ∈ l, Conforms db.columns r.sqlRow) :
    ∃ base, baseData db q l = .ok base ∧ ∃ l' : List SampleRow, l'.Sublist l ∧ base = l'.map (fun r => (r.group (groupCols db), r.sample)) ∧
      ∀ r, r ∈ l' ↔ r ∈ l ∧ r.Wanted sels := by
  induction l with
  | nil => exact ⟨[], rfl, [], List.Sublist.refl _, rfl, by simp⟩
  | cons r l ih =>
    obtain ⟨base, h1, l', h2, h3, h4⟩ := ih fun r' hr' => ht r' (by simp [hr'])
    obtain ⟨b, h5, h6⟩ := c35_or_of_ands_partial db.columns r.sqlRow (ht r (by simp)) sels hq.nonempty hq.usable
      hq.expressible q hb
    have e : baseData db q (r :: l) = .ok (if b then (r.group (groupCols db), r.sample) :: base else base) := by
      simp only [baseData, h5, h1]; rfl
    cases b with
    | true =>
      refine ⟨_, e, r :: l', h2.cons₂ r, by simp [h3], ?_⟩
      intro r'
      rw [List.mem_cons, List.mem_cons, h4]
      constructor
      · rintro (rfl | ⟨h7, h8⟩)
        · exact ⟨Or.inl rfl, h6.mp rfl⟩
        · exact ⟨Or.inr h7, h8⟩
      · rintro ⟨h7 | h7, h8⟩
        · exact Or.inl h7
        · exact Or.inr ⟨h7, h8⟩
    | false =>
      refine ⟨_, e, l', h2.cons r, h3, ?_⟩
      intro r'
      rw [List.mem_cons, h4]
      constructor
      · rintro ⟨h7, h8⟩; exact ⟨Or.inr h7, h8⟩
      · rintro ⟨h7 | h7, h8⟩
        · subst h7
          have := h6.mpr h8
          simp at this
        · exact ⟨h7, h8⟩

theorem plainCells {db : Db} (hp : PlainDb db) {r : SampleRow} (hr : r ∈ db.samples) : PlainCells (r.cellsOf db) := by
  have hprop : ∀ nv ∈ rowProps (r.cellsOf db), r.prop db nv.1 = some nv.2 := by
    intro nv h
    unfold rowProps SampleRow.cellsOf at h
    rw [List.mem_filterMap] at h
    obtain ⟨nc, h1, h2⟩ := h
    obtain ⟨c, h3, rfl⟩ := List.mem_map.mp h1
    rw [mem_groupCols] at h3
    simp only at h2
    cases hv : r.sqlRow c <;> simp only [hv, reduceCtorEq, Option.some.injEq] at h2 <;> subst h2 <;>
      simp [SampleRow.prop, h3, hv, Cell.values]
  refine ⟨?_, ?_, ?_, ?_⟩
  · have : (r.cellsOf db).map Prod.fst = groupCols db := by simp [SampleRow.cellsOf, List.map_map, Function.comp_def]
    rw [this]
    exact (sortBy_perm _ _).nodup_iff.mpr hp.cols
  · intro nc h
    obtain ⟨c, h3, rfl⟩ := List.mem_map.mp h
    exact hp.name _ (mem_groupCols.mp h3)
  · intro nv h
    exact (hp.value r hr _ _ (hprop nv h)).1
  · intro nv h
    exact (hp.value r hr _ _ (hprop nv h)).2

theorem has_self (db : Db) (hp : PlainDb db) {r : SampleRow} (hr : r ∈ db.samples) : ∃ c : CKey, r.Has db c.1 := by
  obtain ⟨c, h, _⟩ := c26_canonical_form (rowProps (r.cellsOf db)) (rowProps_nodup (plainCells hp hr))
  exact ⟨c, sampleHas_iff.mpr h⟩

/-! ### C63 -/

/-- **C63** (the index): for every database content, every chain of selects, every order of DuckDB's groups, every cut
into batches, number of threads and iteration order of the hash maps, executing the query succeeds; the index lists
under a property combination exactly the registered samples that satisfy the query and have exactly these properties;
no sample is listed twice; and the ranges of every file are sorted and disjoint. -/
theorem c63_index_partial (db : Db) (hwf : db.WF) (hp : PlainDb db) (sels : List (List Cond)) (hq : GoodQuery db sels)
    (q : Sel) (hb : buildQuery sels = some q) (leG : Group → Group → Bool) (hle : TotalOrder leG)
    (split : List TRow → List (List TRow)) (hsplit : ∀ l, (split l).flatten = l)
    (reorder : CppIndex → CppIndex) (hre : ∀ i xs, Describes i xs → SameIndex i (reorder i))
    (threads : Int) (hth : 0 ≤ threads) :
    ∃ idx, queryIndex leG split reorder ckeyOf threads db q = .ok idx ∧
      (∀ order : List CKey, order.Perm idx.keys → IndexOk idx order) ∧ IndexSorted idx ∧
      (contentSamples idx).Nodup ∧
      ∀ (c : CKey) (p : Pos), p ∈ keySamples idx c ↔
        ∃ r ∈ db.samples, (r.dataset, r.file, r.sample) = p ∧ r.Wanted sels ∧ r.Has db c.1 := by
  obtain ⟨base, h1, l', hsub, hbase, hmem⟩ := baseData_eq hq hb db.samples hp.types
  have hkeys : (l'.map SampleRow.key).Nodup := (hsub.map _).nodup hwf.keys
  have hinj : ∀ r ∈ l', ∀ r' ∈ l', r.key = r'.key → r = r' := List.inj_on_of_nodup_map hkeys
  have hb' : ∀ s, s ∈ base ↔ ∃ r ∈ l', s = ((r.dataset, r.file, r.cellsOf db), r.sample) := by
    intro s
    rw [hbase, List.mem_map]
    constructor
    · rintro ⟨r, hr, rfl⟩; exact ⟨r, hr, rfl⟩
    · rintro ⟨r, hr, rfl⟩; exact ⟨r, hr, rfl⟩
  have hn : base.Nodup := by
    rw [hbase]
    apply List.Nodup.of_map (fun s : Group × Nat => (s.1.1, s.1.2.1, s.2))
    rw [List.map_map]
    exact hkeys
  obtain ⟨idx, h2, hnd, hew, hsorted, hlook⟩ := c33_selected_samples_partial reorder hre leG hle.total hle.trans
    hle.antisymm base hn
    (by intro s hs
        obtain ⟨r, hr, rfl⟩ := (hb' s).mp hs
        exact plainCells hp ((hmem r).mp hr).1)
    (by intro s hs s' hs' e
        obtain ⟨r, hr, rfl⟩ := (hb' s).mp hs
        obtain ⟨r', hr', rfl⟩ := (hb' s').mp hs'
        obtain ⟨c, hc⟩ := has_self db hp ((hmem r').mp hr').1
        have hc' : r.Has db c.1 := sampleHas_iff.mpr (e.trans (sampleHas_iff.mp hc))
        have hcell := hp.order r ((hmem r).mp hr).1 r' ((hmem r').mp hr').1 c.1 hc' hc
        show r.cellsOf db = r'.cellsOf db
        unfold SampleRow.cellsOf
        apply List.map_congr_left
        intro n hn
        rw [hcell n (mem_groupCols.mp hn)])
    (split ((queryIntervals leG base).map rowOf)) (hsplit _) threads hth
  have hks : ∀ (c : CKey) (p : Pos), p ∈ keySamples idx c ↔
      ∃ r ∈ db.samples, (r.dataset, r.file, r.sample) = p ∧ r.Wanted sels ∧ r.Has db c.1 := by
    rintro c ⟨d, f, x⟩
    rw [mem_keySamples_look hew, hlook]
    constructor
    · rintro ⟨cells, h3, h4⟩
      obtain ⟨r, hr, e⟩ := (hb' _).mp h3
      simp only [Prod.mk.injEq] at e
      obtain ⟨⟨rfl, rfl, rfl⟩, rfl⟩ := e
      exact ⟨r, ((hmem r).mp hr).1, rfl, ((hmem r).mp hr).2, sampleHas_iff.mpr h4⟩
    · rintro ⟨r, hr, e, hw, hh⟩
      simp only [Prod.mk.injEq] at e
      obtain ⟨rfl, rfl, rfl⟩ := e
      exact ⟨r.cellsOf db, (hb' _).mpr ⟨r, (hmem r).mpr ⟨hr, hw⟩, rfl⟩, sampleHas_iff.mp hh⟩
  refine ⟨idx, ?_, ?_, hsorted, ?_, hks⟩
  · unfold queryIndex
    rw [h1]
    exact h2
  · intro order ho
    exact ⟨hnd, ho, fun k e h => (hew _ h).1, fun k e h d fs h' => (hew _ h).2 _ h'⟩
  · apply contentSamples_nodup hnd hew hsorted
    intro k k' p h3 h4
    obtain ⟨r, hr, rfl, hw, hh⟩ := (hks k p).mp h3
    obtain ⟨r', hr', e, hw', hh'⟩ := (hks k' _).mp h4
    have : r' = r := hinj r' ((hmem r').mpr ⟨hr', hw'⟩) r ((hmem r).mpr ⟨hr, hw⟩) e
    subst this
    rw [sampleHas_iff] at hh hh'
    have hn1 := rowProps_nodup (plainCells hp hr)
    obtain ⟨c, _, hu⟩ := c26_canonical_form _ hn1
    rw [hu k hh, hu k' hh']

/-- **C63** (training): for every database content, query and sequence of chunk requests (any mixtures, changed at any
time): no sample is delivered twice; every delivered sample is registered and satisfies the query; and a sample listed
under a mixture key has, for each property of the key, one of the key's values (both have none if the key's list is
empty), while without a mixture the key is exactly its property combination. -/
theorem c63_training_partial (db : Db) (hwf : db.WF) (hp : PlainDb db) (sels : List (List Cond)) (hq : GoodQuery db sels)
    (q : Sel) (hb : buildQuery sels = some q) (leG : Group → Group → Bool) (hle : TotalOrder leG)
    (split : List TRow → List (List TRow)) (hsplit : ∀ l, (split l).flatten = l)
    (reorder : CppIndex → CppIndex) (hre : ∀ i xs, Describes i xs → SameIndex i (reorder i))
    (threads : Int) (hth : 0 ≤ threads) :
    ∃ idx, queryIndex leG split reorder ckeyOf threads db q = .ok idx ∧
      ∀ (order : List CKey), order.Perm idx.keys → ∀ (replay : Bool) (history : List (Req CKey)),
        (∀ r ∈ history, HeapOk r.heap) →
        (((Gen.init idx order).play ckeyOps replay history).2.flatMap Out.samples).Nodup ∧
        (∀ p ∈ ((Gen.init idx order).play ckeyOps replay history).2.flatMap Out.samples,
          ∃ r ∈ db.samples, (r.dataset, r.file, r.sample) = p ∧ r.Wanted sels) ∧
        ∀ (rq : Req CKey), HeapOk rq.heap → ∀ (g g' : Gen CKey) (ch : RChunk CKey),
          g = after ckeyOps replay idx order history →
          g.send ckeyOps rq.fuel replay rq.heap rq.mix rq.target = (g', .chunk ch) →
          ∀ (k : CKey) (p : Pos), p ∈ keySamples ch.content k →
            ∃ r ∈ db.samples, (r.dataset, r.file, r.sample) = p ∧ r.Wanted sels ∧
              (if (g.eff rq).rows = [] then r.Has db k.1
               else ∀ n vs, k.1.get? n = some vs → ∃ ws, r.prop db n = some ws ∧
                ((∃ v, v ∈ vs ∧ v ∈ ws) ∨ (vs = [] ∧ ws = []))) := by
  obtain ⟨idx, h1, hok, _, hnd, hks⟩ := c63_index_partial db hwf hp sels hq q hb leG hle split hsplit reorder hre threads
    hth
  refine ⟨idx, h1, ?_⟩
  intro order ho replay history hh
  have hi := hok order ho
  obtain ⟨h2, h3⟩ := c04_no_duplicates ckeyOps replay idx order hi hnd history hh
  refine ⟨h2, ?_, ?_⟩
  · intro p hp'
    obtain ⟨k, hk⟩ := (mem_contentSamples hi.keys).mp (h3 p hp')
    obtain ⟨r, hr, e, hw, _⟩ := (hks k p).mp hk
    exact ⟨r, hr, e, hw⟩
  · intro rq hrq g g' ch hg hsend k p hpk
    obtain ⟨comp, e, hmem, hpe, hmatch⟩ := c05_listed_under_matching_key ckeyOps replay idx order hi history hh rq hrq g
      g' ch hg hsend k p hpk
    have hpc : p ∈ keySamples idx comp := by
      unfold keySamples; rw [Dict.get?_of_mem hi.keys hmem]; exact hpe
    obtain ⟨r, hr, er, hw, hhas⟩ := (hks comp p).mp hpc
    refine ⟨r, hr, er, hw, ?_⟩
    split
    · rename_i h0
      rw [if_pos h0] at hmatch
      rw [← hmatch]; exact hhas
    · rename_i h0
      rw [if_neg h0] at hmatch
      intro n vs hvs
      obtain ⟨w, hw', hc⟩ := (c28_match_iff k.1 comp.1 k.2.1).mp hmatch n vs hvs
      have := hhas n
      rw [hw'] at this
      cases hpr : r.prop db n with
      | none => rw [hpr] at this; exact this.elim
      | some ws =>
        rw [hpr] at this
        refine ⟨ws, rfl, ?_⟩
        rcases hc with ⟨x, hx1, hx2⟩ | ⟨e1, e2⟩
        · exact Or.inl ⟨x, hx1, this.mem_iff.mpr hx2⟩
        · subst e2; exact Or.inr ⟨e1, List.perm_nil.mp this⟩

/-- **C63** (completeness): if iterating with ArbitraryMixture ends without an error, the samples delivered are exactly
the registered samples that satisfy the query, each once. -/
theorem c63_complete_partial (db : Db) (hwf : db.WF) (hp : PlainDb db) (sels : List (List Cond)) (hq : GoodQuery db sels)
    (q : Sel) (hb : buildQuery sels = some q) (leG : Group → Group → Bool) (hle : TotalOrder leG)
    (split : List TRow → List (List TRow)) (hsplit : ∀ l, (split l).flatten = l)
    (reorder : CppIndex → CppIndex) (hre : ∀ i xs, Describes i xs → SameIndex i (reorder i))
    (threads : Int) (hth : 0 ≤ threads) :
    ∃ idx, queryIndex leG split reorder ckeyOf threads db q = .ok idx ∧
      ∀ (order : List CKey), order.Perm idx.keys → ∀ (replay : Bool) (fuel : Nat) (sizes : List Nat),
        Out.stop ∈ ((Gen.init idx order).play ckeyOps replay (arbReqs fuel 0 sizes)).2 →
        (∀ e, Out.raised e ∉ ((Gen.init idx order).play ckeyOps replay (arbReqs fuel 0 sizes)).2) →
        (((Gen.init idx order).play ckeyOps replay (arbReqs fuel 0 sizes)).2.flatMap Out.samples).Nodup ∧
        ∀ p, p ∈ ((Gen.init idx order).play ckeyOps replay (arbReqs fuel 0 sizes)).2.flatMap Out.samples ↔
          ∃ r ∈ db.samples, (r.dataset, r.file, r.sample) = p ∧ r.Wanted sels := by
  obtain ⟨idx, h1, hok, _, hnd, hks⟩ := c63_index_partial db hwf hp sels hq q hb leG hle split hsplit reorder hre threads
    hth
  refine ⟨idx, h1, ?_⟩
  intro order ho replay fuel sizes hstop hno
  have hi := hok order ho
  have h2 := c07_delivers_everything ckeyOps replay idx order hi fuel sizes hstop hno
  refine ⟨h2.nodup_iff.mpr hnd, ?_⟩
  intro p
  rw [h2.mem_iff, mem_contentSamples hi.keys]
  constructor
  · rintro ⟨k, hk⟩
    obtain ⟨r, hr, e, hw, _⟩ := (hks k p).mp hk
    exact ⟨r, hr, e, hw⟩
  · rintro ⟨r, hr, e, hw⟩
    obtain ⟨c, hc⟩ := has_self db hp hr
    exact ⟨c, (hks c p).mpr ⟨r, hr, e, hw, hc⟩⟩

/-! ### Examples -/

/-- The same values in any order. -/
def optPerm : Option (List PyStr) → Option (List PyStr) → Bool
  | none, none => true
  | some v, some w => v.isPerm w
  | _, _ => false

/-- A condition for `PlainDb.order` that can be evaluated. -/
theorem order_of_check (db : Db)
    (h : ∀ r ∈ db.samples, ∀ r' ∈ db.samples,
      (∀ n ∈ db.columns.keys, optPerm (r.prop db n) (r'.prop db n) = true) →
      ∀ n ∈ db.columns.keys, r.sqlRow n = r'.sqlRow n) :
    ∀ r ∈ db.samples, ∀ r' ∈ db.samples, ∀ c, r.Has db c → r'.Has db c →
      ∀ n ∈ db.columns.keys, r.sqlRow n = r'.sqlRow n := by
  intro r hr r' hr' c h1 h2
  apply h r hr r' hr'
  intro n _
  have h3 := h1 n
  have h4 := h2 n
  cases hr1 : r.prop db n with
  | none =>
    cases hr2 : r'.prop db n with
    | none => rfl
    | some w =>
      rw [hr1] at h3; rw [hr2] at h4
      cases hc : c.get? n <;> rw [hc] at h3 h4 <;> first | exact h3.elim | exact h4.elim
  | some v =>
    cases hr2 : r'.prop db n with
    | none =>
      rw [hr1] at h3; rw [hr2] at h4
      cases hc : c.get? n <;> rw [hc] at h3 h4 <;> first | exact h3.elim | exact h4.elim
    | some w =>
      rw [hr1] at h3; rw [hr2] at h4
      cases hc : c.get? n with
      | none => rw [hc] at h3; exact h3.elim
      | some u =>
        rw [hc] at h3 h4
        exact List.isPerm_iff.mpr (h3.trans h4.symm)

/-- Two datasets with different parsers: `lang` holds lists, `lic` single values. -/
def e2eDb : Db where
  datasets := [⟨1, "a".toList, "x".toList, 1, []⟩, ⟨2, "b".toList, "y".toList, 1, []⟩]
  files := [⟨1, 1, "x/1".toList⟩, ⟨2, 2, "y/1".toList⟩]
  samples :=
    [⟨1, 1, 0, [("lang".toList, .list [some "de".toList, some "en".toList])]⟩,
     ⟨1, 1, 1, [("lang".toList, .list [some "de".toList, some "en".toList])]⟩,
     ⟨1, 1, 2, [("lang".toList, .list [some "fr".toList])]⟩,
     ⟨1, 1, 3, [("lang".toList, .list [some "de".toList, some "en".toList])]⟩,
     ⟨2, 2, 0, [("lic".toList, .str "MIT".toList)]⟩,
     ⟨2, 2, 1, [("lic".toList, .str "GPL".toList)]⟩]
  columns := [("lang".toList, true), ("lic".toList, false)]
  nextDataset := 3
  nextFile := 3

/-- `select(lang == de).select(lic == [MIT, BSD])` -/
def e2eSels : List (List Cond) :=
  [[⟨"lang".toList, "==".toList, .one "de".toList⟩],
   [⟨"lic".toList, "==".toList, .many [some "MIT".toList, some "BSD".toList]⟩]]

/-- Non-vacuity: the database is well formed and plain, the query is expressible. -/
theorem e2e_ok : e2eDb.WF ∧ PlainDb e2eDb ∧ GoodQuery e2eDb e2eSels ∧ (buildQuery e2eSels).isSome = true := by
  refine ⟨⟨by decide, by decide, by decide, by decide, by decide, by decide, by decide, by decide⟩, ?_, ?_, by decide⟩
  · refine ⟨?_, by decide, by decide, ?_, order_of_check _ (by decide +kernel)⟩
    · intro r hr f arr hf
      have hf' := Dict.mem_of_get? hf
      simp only [e2eDb, List.mem_cons, List.not_mem_nil, or_false, Prod.mk.injEq] at hr hf'
      rcases hr with rfl | rfl | rfl | rfl | rfl | rfl <;> rcases hf' with ⟨rfl, rfl⟩ | ⟨rfl, rfl⟩ <;>
        first
        | exact Or.inl (by decide +kernel)
        | exact Or.inr ⟨_, rfl⟩
    · intro r hr n vs hv
      have hn : n ∈ e2eDb.columns.keys := by
        by_contra hc
        simp [SampleRow.prop, hc] at hv
      have key : ∀ r ∈ e2eDb.samples, ∀ n ∈ e2eDb.columns.keys, ∀ vs ∈ (r.prop e2eDb n).toList,
          (∀ v ∈ vs, ',' ∉ v ∧ ';' ∉ v) ∧ vs.getLast? ≠ some [] := by decide +kernel
      exact key r hr n hn vs (by rw [hv]; simp)
  · refine ⟨by decide, ?_, ?_⟩
    · intro s hs c hc
      rw [usable_iff]
      revert s c
      decide
    · intro s hs c hc
      refine ⟨?_, ?_⟩
      · intro l hl v hv
        simp only [e2eSels, List.mem_cons, List.not_mem_nil, or_false] at hs
        rcases hs with rfl | rfl <;> simp only [List.mem_cons, List.not_mem_nil, or_false] at hc <;> subst hc
        · simp at hl
        · simp only [CondVal.many.injEq] at hl
          subst hl
          revert v; decide
      · intro _ _
        left
        revert s c
        decide

/-- Non-vacuity: there is a total order of the groups. -/
theorem exists_totalOrder : ∃ leG : Group → Group → Bool, TotalOrder leG := by
  classical
  haveI : IsPartialOrder Group (fun a b : Group => a = b) :=
    { refl := fun _ => rfl, trans := fun _ _ _ h h' => h.trans h', antisymm := fun _ _ h _ => h }
  obtain ⟨le, h, _⟩ := extend_partialOrder (fun a b : Group => a = b)
  refine ⟨fun a b => decide (le a b), ?_, ?_, ?_⟩
  · intro a b
    simp only [decide_eq_true_eq]
    exact total_of le a b
  · intro a b c
    simp only [decide_eq_true_eq]
    exact trans_of le
  · intro a b
    simp only [decide_eq_true_eq]
    exact antisymm_of le

/-- An order of the groups for the examples: by position only. -/
def e2eLe (a b : Group) : Bool := decide (a.1 < b.1 ∨ (a.1 = b.1 ∧ a.2.1 ≤ b.2.1))

/-- What the query finds in the example. -/
example : (buildQuery e2eSels).map (fun q =>
      match queryIndex e2eLe (fun l => [l]) id ckeyOf 1 e2eDb q with
      | .ok idx => idx.map fun ke => (ke.1.1, ke.2)
      | .error _ => []) =
    some [([("lang".toList, ["de".toList, "en".toList])], [(1, [(1, [(0, 2), (3, 4)])])]),
      ([("lic".toList, ["MIT".toList])], [(2, [(2, [(0, 1)])])])] := by rfl

/-- C63 fails if two samples list the same values in different orders: of the four samples with language `de` only
one reaches the index. -/
theorem c63_value_order_loses :
    let db : Db := { e2eDb with samples := e2eDb.samples ++
      [⟨1, 1, 4, [("lang".toList, .list [some "en".toList, some "de".toList])]⟩] }
    (buildQuery [[⟨"lang".toList, "==".toList, .one "de".toList⟩]]).map (fun q =>
      match queryIndex e2eLe (fun l => [l]) id ckeyOf 1 db q with
      | .ok idx => contentSamples idx
      | .error _ => []) = some [(1, 1, 4)] := by decide +kernel

end Mixtera
