import Verif.Props.EndToEnd
import Verif.Props.ChunkerExact
import Verif.Model.Datasets

/-!
# C63 for arbitrary property values

Without conditions on property names and values: nothing is delivered twice, nothing is delivered that is not registered
or not wanted, and what is missing is determined by the texts of the property combinations.
-/

set_option linter.unusedSectionVars false

namespace Mixtera

/-! ### Specification -/

/-- The text of a registered sample's property combination (all columns in alphabetical order). -/
def SampleRow.text (db : Db) (r : SampleRow) : PyStr := comboText (r.cellsOf db)

/-- No text of a wanted sample shares its Python key with another text. -/
def TextsDistinct (db : Db) (sels : List (List Cond)) : Prop :=
  ∀ r ∈ db.samples, ∀ r' ∈ db.samples, r.Wanted sels → r'.Wanted sels →
    ckeyOf (r.text db) = ckeyOf (r'.text db) → r.text db = r'.text db

/-- What reading the chunks needs of the table: the cells have their columns' types, names and values are free of the
separators of C34, and samples with equal values do not differ in NULLs inside their lists. Unlike in `PlainDb`, samples
may list the same values in different orders. -/
structure ReadableDb (db : Db) : Prop where
  types : ∀ r ∈ db.samples, Conforms db.columns r.sqlRow
  cols : db.columns.keys.Nodup
  name : ∀ n ∈ db.columns.keys, ':' ∉ n ∧ ';' ∉ n
  value : ∀ r ∈ db.samples, ∀ n vs, r.prop db n = some vs → (∀ v ∈ vs, ',' ∉ v ∧ ';' ∉ v) ∧ vs.getLast? ≠ some []
  nulls : ∀ r ∈ db.samples, ∀ r' ∈ db.samples, (∀ n, r.prop db n = r'.prop db n) →
    ∀ n ∈ db.columns.keys, r.sqlRow n = r'.sqlRow n

/-- Wanted samples with the same property combination list the values of each property in the same order. -/
def OneOrder (db : Db) (sels : List (List Cond)) : Prop :=
  ∀ r ∈ db.samples, ∀ r' ∈ db.samples, r.Wanted sels → r'.Wanted sels →
    ∀ c, r.Has db c → r'.Has db c → ∀ n, r.prop db n = r'.prop db n

/-! ### Positions -/

theorem entriesSamples_nodup_any {e : Entries} (h : EntriesWF e)
    (hs : ∀ d fs, (d, fs) ∈ e → ∀ f rs, (f, rs) ∈ fs →
      rs.Pairwise fun a b => ∀ x, ¬ (a.1 ≤ x ∧ x < a.2 ∧ b.1 ≤ x ∧ x < b.2)) : (entriesSamples e).Nodup := by
  unfold entriesSamples
  rw [List.nodup_flatMap]
  refine ⟨?_, ?_⟩
  · rintro ⟨d, fs⟩ hd
    simp only
    rw [List.nodup_flatMap]
    refine ⟨?_, ?_⟩
    · rintro ⟨f, rs⟩ hf
      simp only
      rw [List.nodup_flatMap]
      refine ⟨fun r _ => seg_nodup _, ?_⟩
      refine (hs d fs hd f rs hf).imp ?_
      intro a b hab
      rw [Function.onFun, List.disjoint_left]
      rintro ⟨d', f', x⟩ h1 h2
      rw [mem_seg] at h1 h2
      simp only at h1 h2
      exact hab x ⟨h1.2.2.1, h1.2.2.2, h2.2.2.1, h2.2.2.2⟩
    · have hn : (fs.map Prod.fst).Nodup := h.2 _ hd
      rw [List.Nodup, List.pairwise_map] at hn
      refine hn.imp ?_
      rintro ⟨f, rs⟩ ⟨f', rs'⟩ hne
      rw [Function.onFun, List.disjoint_left]
      rintro ⟨d', g, x⟩ h1 h2
      simp only [List.mem_flatMap, mem_seg] at h1 h2
      obtain ⟨_, _, _, rfl, _⟩ := h1
      obtain ⟨_, _, _, e2, _⟩ := h2
      exact hne e2.symm
  · have hn : (e.map Prod.fst).Nodup := h.1
    rw [List.Nodup, List.pairwise_map] at hn
    refine hn.imp ?_
    rintro ⟨d, fs⟩ ⟨d', fs'⟩ hne
    rw [Function.onFun, List.disjoint_left]
    rintro ⟨g, f', x⟩ h1 h2
    simp only [List.mem_flatMap, mem_seg] at h1 h2
    obtain ⟨_, _, _, _, rfl, _⟩ := h1
    obtain ⟨_, _, _, _, e2, _⟩ := h2
    exact hne e2.symm

theorem contentSamples_nodup_any {K : Type} [DecidableEq K] {idx : Dict K Entries} (hn : idx.keys.Nodup)
    (hwf : ∀ ke ∈ idx, EntriesWF ke.2)
    (hs : ∀ k d f, ((idxLook idx k d f).getD []).Pairwise fun a b => ∀ x, ¬ (a.1 ≤ x ∧ x < a.2 ∧ b.1 ≤ x ∧ x < b.2))
    (hd : ∀ k k' p, p ∈ keySamples idx k → p ∈ keySamples idx k' → k = k') : (contentSamples idx).Nodup := by
  unfold contentSamples
  rw [List.nodup_flatMap]
  refine ⟨?_, ?_⟩
  · rintro ⟨k, e⟩ hk
    refine entriesSamples_nodup_any (hwf _ hk) fun d fs h1 f rs h2 => ?_
    have hl : idxLook idx k d f = some rs := by
      unfold idxLook
      rw [Dict.get?_of_mem hn hk, Option.bind_some, Entries.look, Dict.get?_of_mem (hwf _ hk).1 h1, Option.bind_some,
        Dict.get?_of_mem ((hwf _ hk).2 _ h1) h2]
    have := hs k d f
    rw [hl] at this
    exact this
  · have hn' : (idx.map Prod.fst).Nodup := hn
    rw [List.Nodup, List.pairwise_map] at hn'
    refine hn'.imp_of_mem ?_
    rintro ⟨k, e⟩ ⟨k', e'⟩ hk hk' hne
    rw [Function.onFun, List.disjoint_left]
    intro p h1 h2
    apply hne
    apply hd k k' p
    · unfold keySamples; rw [Dict.get?_of_mem hn hk]; exact h1
    · unfold keySamples; rw [Dict.get?_of_mem hn hk']; exact h2

/-! ### C63 -/

theorem base_nodup {db : Db} (hwf : db.WF) {l' : List SampleRow} (hsub : l'.Sublist db.samples) :
    (l'.map fun r => (r.group (groupCols db), r.sample)).Nodup := by
  apply List.Nodup.of_map (fun s : Group × Nat => (s.1.1, s.1.2.1, s.2))
  rw [List.map_map]
  exact (hsub.map SampleRow.key).nodup hwf.keys

theorem query_rows_valid {db : Db} (hwf : db.WF) (ht : ∀ r ∈ db.samples, Conforms db.columns r.sqlRow)
    {sels : List (List Cond)} (hq : GoodQuery db sels) {q : Sel} (hb : buildQuery sels = some q)
    {leG : Group → Group → Bool} (hle : TotalOrder leG) {base : List (Group × Nat)}
    (h0 : baseData db q db.samples = .ok base) : ∀ r ∈ (queryIntervals leG base).map rowOf, r.start ≤ r.stop := by
  obtain ⟨base', h1, l', hsub, hbase, hmem⟩ := baseData_eq hq hb db.samples ht
  rw [h0] at h1
  injection h1 with h1
  subst h1
  have hn : base.Nodup := by rw [hbase]; exact base_nodup hwf hsub
  have hsd := c32_sorted_disjoint_maximal leG hle.total hle.trans hle.antisymm base hn
  intro r hr
  obtain ⟨r0, hr0, rfl⟩ := List.mem_map.mp hr
  exact Nat.le_of_lt (hsd.1 r0 hr0)

theorem index_of_keeps {db : Db} (hwf : db.WF) (ht : ∀ r ∈ db.samples, Conforms db.columns r.sqlRow)
    {sels : List (List Cond)} (hq : GoodQuery db sels) {q : Sel} (hb : buildQuery sels = some q)
    {leG : Group → Group → Bool} (hle : TotalOrder leG) {base : List (Group × Nat)}
    (h0 : baseData db q db.samples = .ok base) {idx : Dict CKey Entries} {kept : CKey → PyStr}
    (hk : KeepsTexts ((queryIntervals leG base).map rowOf) kept idx) :
      (∀ order : List CKey, order.Perm idx.keys → IndexOk idx order) ∧
      (contentSamples idx).Nodup ∧
      (∀ c, c ∈ idx.keys ↔ ∃ r ∈ db.samples, r.Wanted sels ∧ ckeyOf (r.text db) = c) ∧
      (∀ c ∈ idx.keys, ckeyOf (kept c) = c ∧ ∃ r ∈ db.samples, r.Wanted sels ∧ r.text db = kept c) ∧
      ∀ (c : CKey) (p : Pos), p ∈ keySamples idx c ↔
        ∃ r ∈ db.samples, (r.dataset, r.file, r.sample) = p ∧ r.Wanted sels ∧ ckeyOf (r.text db) = c ∧
          r.text db = kept c := by
  obtain ⟨base', h1, l', hsub, hbase, hmem⟩ := baseData_eq hq hb db.samples ht
  rw [h0] at h1
  injection h1 with h1
  subst h1
  have hkeys : (l'.map SampleRow.key).Nodup := (hsub.map _).nodup hwf.keys
  have hinj : ∀ r ∈ l', ∀ r' ∈ l', r.key = r'.key → r = r' := List.inj_on_of_nodup_map hkeys
  have hb' : ∀ s, s ∈ base ↔ ∃ r ∈ l', s = ((r.dataset, r.file, r.cellsOf db), r.sample) := by
    intro s
    rw [hbase, List.mem_map]
    constructor
    · rintro ⟨r, hr, rfl⟩; exact ⟨r, hr, rfl⟩
    · rintro ⟨r, hr, rfl⟩; exact ⟨r, hr, rfl⟩
  have hn : base.Nodup := by
    rw [hbase]
    apply List.Nodup.of_map (fun s : Group × Nat => (s.1.1, s.1.2.1, s.2))
    rw [List.map_map]
    exact hkeys
  have hsd := c32_sorted_disjoint_maximal leG hle.total hle.trans hle.antisymm base hn
  have hcov := c32_coverage leG base
  generalize hrows : (queryIntervals leG base).map rowOf = rows at hk
  have hmr : ∀ r, r ∈ rows ↔ ∃ r0 ∈ queryIntervals leG base, rowOf r0 = r := by
    intro r; rw [← hrows]; exact List.mem_map
  -- a row of the query result is a run of wanted samples with its cells
  have hrow : ∀ r0 ∈ queryIntervals leG base, ∀ x, r0.start ≤ x → x < r0.stop →
      ∃ r ∈ l', (r.dataset, r.file, r.sample) = (r0.g.1, r0.g.2.1, x) ∧ r.cellsOf db = r0.g.2.2 := by
    intro r0 hr0 x hx1 hx2
    obtain ⟨r, hr, e⟩ := (hb' _).mp ((hcov r0.g x).mpr ⟨r0, hr0, rfl, hx1, hx2⟩)
    rw [Prod.mk.injEq] at e
    obtain ⟨e1, e2⟩ := e
    refine ⟨r, hr, ?_, ?_⟩
    · rw [e1, e2]
    · rw [e1]
  have hrow' : ∀ r ∈ l', ∃ r0 ∈ queryIntervals leG base, r0.g = (r.dataset, r.file, r.cellsOf db) ∧ r0.start ≤ r.sample ∧
      r.sample < r0.stop := fun r hr => (hcov _ _).mp ((hb' _).mpr ⟨r, hr, rfl⟩)
  have hks : ∀ (c : CKey) (p : Pos), p ∈ keySamples idx c ↔
        ∃ r ∈ db.samples, (r.dataset, r.file, r.sample) = p ∧ r.Wanted sels ∧ ckeyOf (r.text db) = c ∧
          r.text db = kept c := by
    rintro c ⟨d, f, x⟩
    rw [mem_keySamples_look hk.wf]
    have hlook : (∃ rs, idxLook idx c d f = some rs ∧ ∃ r ∈ rs, r.1 ≤ x ∧ x < r.2) ↔
        ∃ r ∈ (idxLook idx c d f).getD [], r.1 ≤ x ∧ x < r.2 := by
      cases idxLook idx c d f <;> simp
    rw [hlook]
    constructor
    · rintro ⟨r, hr, hx⟩
      have hc : c ∈ idx.keys := by
        by_contra hc
        unfold idxLook at hr
        rw [(Dict.get?_eq_none_iff _ _).mpr hc] at hr
        simp at hr
      rw [(hk.ranges c hc d f).mem_iff] at hr
      unfold textRanges at hr
      simp only [List.mem_map, List.mem_filter, decide_eq_true_eq] at hr
      obtain ⟨t, ⟨ht, h3, h4, h5⟩, rfl⟩ := hr
      obtain ⟨r0, hr0, rfl⟩ := (hmr t).mp ht
      obtain ⟨r, hr, e1, e2⟩ := hrow r0 hr0 x hx.1 hx.2
      have htext : r.text db = kept c := by
        unfold SampleRow.text
        rw [e2]; exact h3
      refine ⟨r, ((hmem r).mp hr).1, ?_, ((hmem r).mp hr).2, ?_, htext⟩
      · rw [e1]
        exact Prod.ext h4 (Prod.ext h5 rfl)
      · rw [htext]; exact (hk.chosen c hc).1
    · rintro ⟨r, hr, e, hw, h3, h4⟩
      simp only [Prod.mk.injEq] at e
      obtain ⟨rfl, rfl, rfl⟩ := e
      obtain ⟨r0, hr0, hg, hx⟩ := hrow' r ((hmem r).mpr ⟨hr, hw⟩)
      have hrw : rowOf r0 ∈ rows := (hmr _).mpr ⟨r0, hr0, rfl⟩
      have hcells : (rowOf r0).cells = r.cellsOf db := by show r0.g.2.2 = _; rw [hg]
      have hc : c ∈ idx.keys := (hk.keys c).mpr ⟨rowOf r0, hrw, by rw [hcells]; exact h3⟩
      refine ⟨(r0.start, r0.stop), ?_, hx⟩
      rw [(hk.ranges c hc r.dataset r.file).mem_iff]
      unfold textRanges
      refine List.mem_map.mpr ⟨rowOf r0, List.mem_filter.mpr ⟨hrw, ?_⟩, rfl⟩
      simp only [decide_eq_true_eq]
      refine ⟨by rw [hcells]; exact h4, ?_, ?_⟩
      · show r0.g.1 = _; rw [hg]
      · show r0.g.2.1 = _; rw [hg]
  refine ⟨?_, ?_, ?_, ?_, hks⟩
  · intro order ho
    exact ⟨hk.nodup, ho, fun k e h => (hk.wf _ h).1, fun k e h d fs h' => (hk.wf _ h).2 _ h'⟩
  · apply contentSamples_nodup_any hk.nodup hk.wf
    · intro c d f
      by_cases hc : c ∈ idx.keys
      · have hp := hk.ranges c hc d f
        have hsym : Std.Symm fun a b : Rng => ∀ x, ¬ (a.1 ≤ x ∧ x < a.2 ∧ b.1 ≤ x ∧ x < b.2) :=
          ⟨fun a b h x hx => h x ⟨hx.2.2.1, hx.2.2.2, hx.1, hx.2.1⟩⟩
        rw [hp.pairwise_iff (fun {a b} h => hsym.symm a b h)]
        unfold textRanges
        rw [List.pairwise_map, ← hrows, List.filter_map, List.pairwise_map]
        refine (hsd.2.filter _).imp_of_mem ?_
        intro a b ha hb1 hab x hx
        obtain ⟨ha, ha'⟩ := List.mem_filter.mp ha
        obtain ⟨hb1, hb1'⟩ := List.mem_filter.mp hb1
        simp only [Function.comp_apply, decide_eq_true_eq] at ha' hb1'
        obtain ⟨r, hr, e1, e2⟩ := hrow a ha x hx.1 hx.2.1
        obtain ⟨r', hr', e1', e2'⟩ := hrow b hb1 x hx.2.2.1 hx.2.2.2
        have hda : a.g.1 = b.g.1 := ha'.2.1.trans hb1'.2.1.symm
        have hfa : a.g.2.1 = b.g.2.1 := ha'.2.2.trans hb1'.2.2.symm
        have hrr : r = r' := hinj r hr r' hr' (by
          show (r.dataset, r.file, r.sample) = (r'.dataset, r'.file, r'.sample)
          rw [e1, e1', hda, hfa])
        have hg : a.g = b.g := Prod.ext hda (Prod.ext hfa (by rw [← e2, ← e2', hrr]))
        rw [if_pos hg] at hab
        have h3 := hx.2.1
        have h4 := hx.2.2.1
        simp only [rowOf] at h3 h4
        omega
      · unfold idxLook
        rw [(Dict.get?_eq_none_iff _ _).mpr hc]
        exact List.Pairwise.nil
    · intro k k' p h3 h4
      obtain ⟨r, hr, rfl, hw, hh, _⟩ := (hks k p).mp h3
      obtain ⟨r', hr', e, hw', hh', _⟩ := (hks k' _).mp h4
      have : r' = r := hinj r' ((hmem r').mpr ⟨hr', hw'⟩) r ((hmem r).mpr ⟨hr, hw⟩) e
      subst this
      rw [← hh, ← hh']
  · intro c
    rw [hk.keys]
    constructor
    · rintro ⟨t, ht, e⟩
      obtain ⟨r0, hr0, rfl⟩ := (hmr t).mp ht
      obtain ⟨r, hr, _, e2⟩ := hrow r0 hr0 r0.start (Nat.le_refl _) (hsd.1 r0 hr0)
      exact ⟨r, ((hmem r).mp hr).1, ((hmem r).mp hr).2, by unfold SampleRow.text; rw [e2]; exact e⟩
    · rintro ⟨r, hr, hw, e⟩
      obtain ⟨r0, hr0, hg, _⟩ := hrow' r ((hmem r).mpr ⟨hr, hw⟩)
      refine ⟨rowOf r0, (hmr _).mpr ⟨r0, hr0, rfl⟩, ?_⟩
      have hcells : (rowOf r0).cells = r.cellsOf db := by show r0.g.2.2 = _; rw [hg]
      rw [hcells]; exact e
  · intro c hc
    obtain ⟨h3, t, ht, e⟩ := hk.chosen c hc
    refine ⟨h3, ?_⟩
    obtain ⟨r0, hr0, rfl⟩ := (hmr t).mp ht
    obtain ⟨r, hr, _, e2⟩ := hrow r0 hr0 r0.start (Nat.le_refl _) (hsd.1 r0 hr0)
    exact ⟨r, ((hmem r).mp hr).1, ((hmem r).mp hr).2, by unfold SampleRow.text; rw [e2]; exact e⟩

/-- **C63, any values** (the index): for every database content whose cells have their columns' types, every expressible
chain of selects, every order of DuckDB's groups, cut into batches, number of threads and hash map order, executing the
query succeeds; the index has exactly the keys made from the wanted samples' texts; for each key it lists exactly the
wanted samples with one of the key's texts; and no sample is listed twice. -/
theorem c63_index_any_values (db : Db) (hwf : db.WF) (ht : ∀ r ∈ db.samples, Conforms db.columns r.sqlRow)
    (sels : List (List Cond)) (hq : GoodQuery db sels)
    (q : Sel) (hb : buildQuery sels = some q) (leG : Group → Group → Bool) (hle : TotalOrder leG)
    (split : List TRow → List (List TRow)) (hsplit : ∀ l, (split l).flatten = l)
    (reorder : CppIndex → CppIndex) (hre : ∀ i xs, Describes i xs → SameIndex i (reorder i))
    (threads : Int) (hth : 0 ≤ threads) :
    ∃ idx, ∃ kept : CKey → PyStr, queryIndex leG split reorder ckeyOf threads db q = .ok idx ∧
      (∀ order : List CKey, order.Perm idx.keys → IndexOk idx order) ∧
      (contentSamples idx).Nodup ∧
      (∀ c, c ∈ idx.keys ↔ ∃ r ∈ db.samples, r.Wanted sels ∧ ckeyOf (r.text db) = c) ∧
      (∀ c ∈ idx.keys, ckeyOf (kept c) = c ∧ ∃ r ∈ db.samples, r.Wanted sels ∧ r.text db = kept c) ∧
      ∀ (c : CKey) (p : Pos), p ∈ keySamples idx c ↔
        ∃ r ∈ db.samples, (r.dataset, r.file, r.sample) = p ∧ r.Wanted sels ∧ ckeyOf (r.text db) = c ∧
          r.text db = kept c := by
  obtain ⟨base, h1, l', hsub, hbase, hmem⟩ := baseData_eq hq hb db.samples ht
  have hv := query_rows_valid hwf ht hq hb hle h1
  obtain ⟨idx, kept, h2, hk⟩ := c33_any_values reorder hre (split ((queryIntervals leG base).map rowOf)) threads hth (by
    rw [hsplit]; exact hv)
  rw [hsplit] at hk
  refine ⟨idx, kept, ?_, index_of_keeps hwf ht hq hb hle h1 hk⟩
  unfold queryIndex
  rw [h1]
  exact h2

theorem PlainDb.readable {db : Db} (hp : PlainDb db) : ReadableDb db := by
  refine ⟨hp.types, hp.cols, hp.name, hp.value, ?_⟩
  intro r hr r' hr' h
  obtain ⟨c, hc⟩ := has_self db hp hr
  refine hp.order r hr r' hr' c.1 hc ?_
  intro n
  have := hc n
  rw [h n] at this
  exact this

theorem cellsOf_get? (db : Db) (r : SampleRow) (n : PyStr) : (rowProps (r.cellsOf db)).get? n = r.prop db n := by
  unfold SampleRow.cellsOf SampleRow.prop
  rw [rowProps_get?]
  simp only [mem_groupCols]

theorem ReadableDb.plainCells {db : Db} (hp : ReadableDb db) {r : SampleRow} (hr : r ∈ db.samples) :
    PlainCells (r.cellsOf db) := by
  have hfst : (r.cellsOf db).map Prod.fst = groupCols db := by
    simp [SampleRow.cellsOf, List.map_map, Function.comp_def]
  have hn : ((r.cellsOf db).map Prod.fst).Nodup := by
    rw [hfst]; exact (sortBy_perm _ _).nodup_iff.mpr hp.cols
  have hprop : ∀ nv ∈ rowProps (r.cellsOf db), r.prop db nv.1 = some nv.2 := by
    intro nv h
    rw [← cellsOf_get?]
    exact Dict.get?_of_mem (hn.sublist (rowProps_keys_sublist _)) h
  refine ⟨hn, ?_, ?_, ?_⟩
  · intro nc h
    obtain ⟨c, h3, rfl⟩ := List.mem_map.mp h
    exact hp.name _ (mem_groupCols.mp h3)
  · intro nv h
    exact (hp.value r hr _ _ (hprop nv h)).1
  · intro nv h
    exact (hp.value r hr _ _ (hprop nv h)).2

theorem ReadableDb.parse {db : Db} (hp : ReadableDb db) {r : SampleRow} (hr : r ∈ db.samples) (n : PyStr) :
    (parseKey (r.text db)).get? n = r.prop db n := by
  unfold SampleRow.text comboText
  rw [← keyText_eq, c34_round_trip_partial _ (hp.plainCells hr), cellsOf_get?]

theorem ReadableDb.text_eq_iff {db : Db} (hp : ReadableDb db) {r r' : SampleRow} (hr : r ∈ db.samples) (hr' : r' ∈ db.samples) :
    r.text db = r'.text db ↔ ∀ n, r.prop db n = r'.prop db n := by
  constructor
  · intro h n
    rw [← hp.parse hr, ← hp.parse hr', h]
  · intro h
    have := hp.nulls r hr r' hr' h
    unfold SampleRow.text SampleRow.cellsOf
    congr 1
    apply List.map_congr_left
    intro n hn
    rw [this n (mem_groupCols.mp hn)]

theorem ReadableDb.has_iff {db : Db} (hp : ReadableDb db) {r : SampleRow} (hr : r ∈ db.samples) (c : CKey) :
    r.Has db c.1 ↔ ckeyOf (r.text db) = c := by
  have : c = toCKey c.1 c.2.1 := Subtype.ext c.2.2.symm
  rw [sampleHas_iff]
  conv_rhs => rw [this]
  rw [ckeyOf, toCKey_eq_iff]
  unfold SampleRow.text comboText
  rw [← keyText_eq, c34_round_trip_partial _ (hp.plainCells hr)]

theorem PlainDb.oneOrder {db : Db} (hp : PlainDb db) (sels : List (List Cond)) : OneOrder db sels := by
  intro r hr r' hr' _ _ c hc hc' n
  unfold SampleRow.prop
  split
  · rename_i hn
    rw [hp.order r hr r' hr' c hc hc' n hn]
  · rfl

theorem ReadableDb.textsDistinct {db : Db} (hp : ReadableDb db) {sels : List (List Cond)} (ho : OneOrder db sels) :
    TextsDistinct db sels := by
  intro r hr r' hr' hw hw' e
  exact (hp.text_eq_iff hr hr').mpr
    (ho r hr r' hr' hw hw' _ ((hp.has_iff hr _).mpr rfl) ((hp.has_iff hr' _).mpr e.symm))

/-- Every sample has a property combination, which is that of a key of a query result. -/
theorem ReadableDb.has_self {db : Db} (hp : ReadableDb db) {r : SampleRow} (hr : r ∈ db.samples) : ∃ c : CKey, r.Has db c.1 :=
  ⟨_, (hp.has_iff hr _).mpr rfl⟩

/-- **C63, value orders** (the index): if samples may list the same values in different orders (but without the
separators), the index lists under a property combination exactly the wanted samples that have it with its values in one
of the occurring orders, and the ranges of every file are sorted and disjoint. -/
theorem c63_index_value_orders (db : Db) (hwf : db.WF) (hp : ReadableDb db)
    (sels : List (List Cond)) (hq : GoodQuery db sels)
    (q : Sel) (hb : buildQuery sels = some q) (leG : Group → Group → Bool) (hle : TotalOrder leG)
    (split : List TRow → List (List TRow)) (hsplit : ∀ l, (split l).flatten = l)
    (reorder : CppIndex → CppIndex) (hre : ∀ i xs, Describes i xs → SameIndex i (reorder i))
    (threads : Int) (hth : 0 ≤ threads) :
    ∃ idx, ∃ kept : CKey → PyStr → Option (List PyStr), queryIndex leG split reorder ckeyOf threads db q = .ok idx ∧
      (∀ order : List CKey, order.Perm idx.keys → IndexOk idx order) ∧ IndexSorted idx ∧
      (contentSamples idx).Nodup ∧
      (∀ r ∈ db.samples, r.Wanted sels → ∀ c : CKey, r.Has db c.1 →
        ∃ r' ∈ db.samples, r'.Wanted sels ∧ r'.Has db c.1 ∧ ∀ n, r'.prop db n = kept c n) ∧
      ∀ (c : CKey) (p : Pos), p ∈ keySamples idx c ↔
        ∃ r ∈ db.samples, (r.dataset, r.file, r.sample) = p ∧ r.Wanted sels ∧ r.Has db c.1 ∧
          ∀ n, r.prop db n = kept c n := by
  obtain ⟨base, h1, l', hsub, hbase, hmem⟩ := baseData_eq hq hb db.samples hp.types
  have hv := query_rows_valid hwf hp.types hq hb hle h1
  have hn : base.Nodup := by rw [hbase]; exact base_nodup hwf hsub
  have hsd := c32_sorted_disjoint_maximal leG hle.total hle.trans hle.antisymm base hn
  have hrow : ∀ r0 ∈ queryIntervals leG base, ∃ r ∈ db.samples, r.cellsOf db = r0.g.2.2 := by
    intro r0 hr0
    have hin := (c32_coverage leG base r0.g r0.start).mpr ⟨r0, hr0, rfl, Nat.le_refl _, hsd.1 r0 hr0⟩
    rw [hbase, List.mem_map] at hin
    obtain ⟨r, hr, e⟩ := hin
    simp only [Prod.mk.injEq] at e
    exact ⟨r, ((hmem r).mp hr).1, by rw [← e.1]; rfl⟩
  have hcells : ∀ a ∈ queryIntervals leG base, ∀ b ∈ queryIntervals leG base,
      comboText a.g.2.2 = comboText b.g.2.2 → a.g.2.2 = b.g.2.2 := by
    intro a ha b hb' e
    obtain ⟨r, hr, e1⟩ := hrow a ha
    obtain ⟨r', hr', e2⟩ := hrow b hb'
    rw [← e1, ← e2] at e ⊢
    have hsql := hp.nulls r hr r' hr' ((hp.text_eq_iff hr hr').mp e)
    unfold SampleRow.cellsOf
    apply List.map_congr_left
    intro n hn
    rw [hsql n (mem_groupCols.mp hn)]
  have hpw : ((queryIntervals leG base).map rowOf).Pairwise fun a b => comboText a.cells = comboText b.cells →
      a.ds = b.ds → a.file = b.file → a.stop < b.start := by
    rw [List.pairwise_map]
    refine hsd.2.imp_of_mem ?_
    intro a b ha hb' h e1 e2 e3
    have hg : a.g = b.g := Prod.ext e2 (Prod.ext e3 (hcells a ha b hb' e1))
    rw [if_pos hg] at h
    exact h
  obtain ⟨idx, kept, h2, hk, hlook⟩ := c33_any_values_sorted reorder hre (split ((queryIntervals leG base).map rowOf)) threads
    hth (by rw [hsplit]; exact hv) (by
      rw [hsplit]
      refine hpw.imp_of_mem ?_
      intro a b ha _ h e1 e2 e3
      have := h e1 e2 e3
      have := hv a ha
      omega)
  rw [hsplit] at hk hlook
  obtain ⟨hok, hnd, hkeys, hch, hks⟩ := index_of_keeps hwf hp.types hq hb hle h1 hk
  -- a kept text belongs to a wanted row
  have hprops : ∀ r ∈ db.samples, r.Wanted sels → ∀ c : CKey, r.Has db c.1 →
      (r.text db = kept c ↔ ∀ n, r.prop db n = (parseKey (kept c)).get? n) := by
    intro r hr hw c hc
    have hck := (hp.has_iff hr c).mp hc
    obtain ⟨h3, r', hr', hw', h4⟩ := hch c ((hkeys c).mpr ⟨r, hr, hw, hck⟩)
    rw [← h4, hp.text_eq_iff hr hr']
    simp only [hp.parse hr']
  refine ⟨idx, fun c n => (parseKey (kept c)).get? n, ?_, hok, ?_, hnd, ?_, ?_⟩
  · unfold queryIndex
    rw [h1]
    exact h2
  · intro k e hke d fs hd f rs hf
    have hkm : k ∈ idx.keys := List.mem_map_of_mem hke
    have hl : idxLook idx k d f = some rs := by
      unfold idxLook
      rw [Dict.get?_of_mem hk.nodup hke, Option.bind_some, Entries.look, Dict.get?_of_mem (hk.wf _ hke).1 hd,
        Option.bind_some, Dict.get?_of_mem ((hk.wf _ hke).2 _ hd) hf]
    have hrs := hlook k hkm d f
    rw [hl] at hrs
    simp only [Option.getD_some] at hrs
    subst hrs
    unfold textRanges
    constructor
    · rw [List.pairwise_map]
      refine (hpw.filter _).imp_of_mem ?_
      intro a b ha hb' hab
      have ha' := of_decide_eq_true (List.mem_filter.mp ha).2
      have hb'' := of_decide_eq_true (List.mem_filter.mp hb').2
      exact Nat.le_of_lt (hab (ha'.1.trans hb''.1.symm) (ha'.2.1.trans hb''.2.1.symm) (ha'.2.2.trans hb''.2.2.symm))
    · intro r hr
      obtain ⟨t, ht, rfl⟩ := List.mem_map.mp hr
      exact hv t (List.mem_filter.mp ht).1
  · intro r hr hw c hc
    have hck := (hp.has_iff hr c).mp hc
    obtain ⟨h3, r', hr', hw', h4⟩ := hch c ((hkeys c).mpr ⟨r, hr, hw, hck⟩)
    refine ⟨r', hr', hw', (hp.has_iff hr' c).mpr (by rw [h4, h3]), ?_⟩
    intro n
    show _ = (parseKey (kept c)).get? n
    rw [← h4, hp.parse hr']
  · intro c p
    rw [hks]
    constructor
    · rintro ⟨r, hr, e, hw, h3, h4⟩
      have hh := (hp.has_iff hr c).mpr h3
      exact ⟨r, hr, e, hw, hh, (hprops r hr hw c hh).mp h4⟩
    · rintro ⟨r, hr, e, hw, h3, h4⟩
      exact ⟨r, hr, e, hw, (hp.has_iff hr c).mp h3, (hprops r hr hw c h3).mpr h4⟩

/-- **C63, value orders** (training): as `c63_training_partial`, but samples may list the same values in different orders:
no sample is delivered twice; every delivered sample is registered and satisfies the query; a sample listed under a
mixture key has, for each property of the key, one of the key's values, and without a mixture the key is exactly its
property combination. -/
theorem c63_training_value_orders (db : Db) (hwf : db.WF) (hp : ReadableDb db) (sels : List (List Cond))
    (hq : GoodQuery db sels)
    (q : Sel) (hb : buildQuery sels = some q) (leG : Group → Group → Bool) (hle : TotalOrder leG)
    (split : List TRow → List (List TRow)) (hsplit : ∀ l, (split l).flatten = l)
    (reorder : CppIndex → CppIndex) (hre : ∀ i xs, Describes i xs → SameIndex i (reorder i))
    (threads : Int) (hth : 0 ≤ threads) :
    ∃ idx, queryIndex leG split reorder ckeyOf threads db q = .ok idx ∧
      ∀ (order : List CKey), order.Perm idx.keys → ∀ (replay : Bool) (history : List (Req CKey)),
        (∀ r ∈ history, HeapOk r.heap) →
        (((Gen.init idx order).play ckeyOps replay history).2.flatMap Out.samples).Nodup ∧
        (∀ p ∈ ((Gen.init idx order).play ckeyOps replay history).2.flatMap Out.samples,
          ∃ r ∈ db.samples, (r.dataset, r.file, r.sample) = p ∧ r.Wanted sels) ∧
        ∀ (rq : Req CKey), HeapOk rq.heap → ∀ (g g' : Gen CKey) (ch : RChunk CKey),
          g = after ckeyOps replay idx order history →
          g.send ckeyOps rq.fuel replay rq.heap rq.mix rq.target = (g', .chunk ch) →
          ∀ (k : CKey) (p : Pos), p ∈ keySamples ch.content k →
            ∃ r ∈ db.samples, (r.dataset, r.file, r.sample) = p ∧ r.Wanted sels ∧
              (if (g.eff rq).rows = [] then r.Has db k.1
               else ∀ n vs, k.1.get? n = some vs → ∃ ws, r.prop db n = some ws ∧
                ((∃ v, v ∈ vs ∧ v ∈ ws) ∨ (vs = [] ∧ ws = []))) := by
  obtain ⟨idx, kept, h1, hok, _, hnd, _, hks⟩ := c63_index_value_orders db hwf hp sels hq q hb leG hle split hsplit reorder
    hre threads hth
  refine ⟨idx, h1, ?_⟩
  intro order ho replay history hh
  have hi := hok order ho
  obtain ⟨h2, h3⟩ := c04_no_duplicates ckeyOps replay idx order hi hnd history hh
  refine ⟨h2, ?_, ?_⟩
  · intro p hp'
    obtain ⟨k, hk⟩ := (mem_contentSamples hi.keys).mp (h3 p hp')
    obtain ⟨r, hr, e, hw, _⟩ := (hks k p).mp hk
    exact ⟨r, hr, e, hw⟩
  · intro rq hrq g g' ch hg hsend k p hpk
    obtain ⟨comp, e, hmem, hpe, hmatch⟩ := c05_listed_under_matching_key ckeyOps replay idx order hi history hh rq hrq g
      g' ch hg hsend k p hpk
    have hpc : p ∈ keySamples idx comp := by
      unfold keySamples; rw [Dict.get?_of_mem hi.keys hmem]; exact hpe
    obtain ⟨r, hr, er, hw, hhas, _⟩ := (hks comp p).mp hpc
    refine ⟨r, hr, er, hw, ?_⟩
    split
    · rename_i h0
      rw [if_pos h0] at hmatch
      rw [← hmatch]; exact hhas
    · rename_i h0
      rw [if_neg h0] at hmatch
      intro n vs hvs
      obtain ⟨w, hw', hc⟩ := (c28_match_iff k.1 comp.1 k.2.1).mp hmatch n vs hvs
      have := hhas n
      rw [hw'] at this
      cases hpr : r.prop db n with
      | none => rw [hpr] at this; exact this.elim
      | some ws =>
        rw [hpr] at this
        refine ⟨ws, rfl, ?_⟩
        rcases hc with ⟨x, hx1, hx2⟩ | ⟨e1, e2⟩
        · exact Or.inl ⟨x, hx1, this.mem_iff.mpr hx2⟩
        · subst e2; exact Or.inr ⟨e1, List.perm_nil.mp this⟩

/-- **C63, any values** (training): with arbitrary property names and values, for every history of chunk requests: no
sample is delivered twice, every delivered sample is registered and satisfies the query, and a sample listed under a
mixture key has a text whose Python key matches it (is it, without a mixture). -/
theorem c63_training_any_values (db : Db) (hwf : db.WF) (ht : ∀ r ∈ db.samples, Conforms db.columns r.sqlRow)
    (sels : List (List Cond)) (hq : GoodQuery db sels)
    (q : Sel) (hb : buildQuery sels = some q) (leG : Group → Group → Bool) (hle : TotalOrder leG)
    (split : List TRow → List (List TRow)) (hsplit : ∀ l, (split l).flatten = l)
    (reorder : CppIndex → CppIndex) (hre : ∀ i xs, Describes i xs → SameIndex i (reorder i))
    (threads : Int) (hth : 0 ≤ threads) :
    ∃ idx, queryIndex leG split reorder ckeyOf threads db q = .ok idx ∧
      ∀ (order : List CKey), order.Perm idx.keys → ∀ (replay : Bool) (history : List (Req CKey)),
        (∀ r ∈ history, HeapOk r.heap) →
        (((Gen.init idx order).play ckeyOps replay history).2.flatMap Out.samples).Nodup ∧
        (∀ p ∈ ((Gen.init idx order).play ckeyOps replay history).2.flatMap Out.samples,
          ∃ r ∈ db.samples, (r.dataset, r.file, r.sample) = p ∧ r.Wanted sels) ∧
        ∀ (rq : Req CKey), HeapOk rq.heap → ∀ (g g' : Gen CKey) (ch : RChunk CKey),
          g = after ckeyOps replay idx order history →
          g.send ckeyOps rq.fuel replay rq.heap rq.mix rq.target = (g', .chunk ch) →
          ∀ (k : CKey) (p : Pos), p ∈ keySamples ch.content k →
            ∃ r ∈ db.samples, (r.dataset, r.file, r.sample) = p ∧ r.Wanted sels ∧
              (if (g.eff rq).rows = [] then ckeyOf (r.text db) = k
               else ∀ n vs, k.1.get? n = some vs → ∃ ws, (ckeyOf (r.text db)).1.get? n = some ws ∧
                ((∃ v, v ∈ vs ∧ v ∈ ws) ∨ (vs = [] ∧ ws = []))) := by
  obtain ⟨idx, kept, h1, hok, hnd, _, _, hks⟩ := c63_index_any_values db hwf ht sels hq q hb leG hle split hsplit reorder
    hre threads hth
  refine ⟨idx, h1, ?_⟩
  intro order ho replay history hh
  have hi := hok order ho
  obtain ⟨h2, h3⟩ := c04_no_duplicates ckeyOps replay idx order hi hnd history hh
  refine ⟨h2, ?_, ?_⟩
  · intro p hp'
    obtain ⟨k, hk⟩ := (mem_contentSamples hi.keys).mp (h3 p hp')
    obtain ⟨r, hr, e, hw, _⟩ := (hks k p).mp hk
    exact ⟨r, hr, e, hw⟩
  · intro rq hrq g g' ch hg hsend k p hpk
    obtain ⟨comp, e, hmem, hpe, hmatch⟩ := c05_listed_under_matching_key ckeyOps replay idx order hi history hh rq hrq g
      g' ch hg hsend k p hpk
    have hpc : p ∈ keySamples idx comp := by
      unfold keySamples; rw [Dict.get?_of_mem hi.keys hmem]; exact hpe
    obtain ⟨r, hr, er, hw, hc, _⟩ := (hks comp p).mp hpc
    refine ⟨r, hr, er, hw, ?_⟩
    rw [hc]
    split
    · rename_i h0
      rw [if_pos h0] at hmatch
      exact hmatch
    · rename_i h0
      rw [if_neg h0] at hmatch
      intro n vs hvs
      obtain ⟨w, hw', hc⟩ := (c28_match_iff k.1 comp.1 k.2.1).mp hmatch n vs hvs
      exact ⟨w, hw', hc⟩

/-- **C63, any values** (completeness): iterating with ArbitraryMixture to the end delivers, each once, exactly the wanted
samples whose text is the kept one of its key; these are all wanted samples if no two of their texts share a key. -/
theorem c63_complete_any_values (db : Db) (hwf : db.WF) (ht : ∀ r ∈ db.samples, Conforms db.columns r.sqlRow)
    (sels : List (List Cond)) (hq : GoodQuery db sels)
    (q : Sel) (hb : buildQuery sels = some q) (leG : Group → Group → Bool) (hle : TotalOrder leG)
    (split : List TRow → List (List TRow)) (hsplit : ∀ l, (split l).flatten = l)
    (reorder : CppIndex → CppIndex) (hre : ∀ i xs, Describes i xs → SameIndex i (reorder i))
    (threads : Int) (hth : 0 ≤ threads) :
    ∃ idx, ∃ kept : CKey → PyStr, queryIndex leG split reorder ckeyOf threads db q = .ok idx ∧
      (∀ r ∈ db.samples, r.Wanted sels → ∃ r' ∈ db.samples, r'.Wanted sels ∧ r'.text db = kept (ckeyOf (r.text db)) ∧
        ckeyOf (r'.text db) = ckeyOf (r.text db)) ∧
      ∀ (order : List CKey), order.Perm idx.keys → ∀ (replay : Bool) (fuel : Nat) (sizes : List Nat),
        Out.stop ∈ ((Gen.init idx order).play ckeyOps replay (arbReqs fuel 0 sizes)).2 →
        (∀ e, Out.raised e ∉ ((Gen.init idx order).play ckeyOps replay (arbReqs fuel 0 sizes)).2) →
        (((Gen.init idx order).play ckeyOps replay (arbReqs fuel 0 sizes)).2.flatMap Out.samples).Nodup ∧
        (∀ p, p ∈ ((Gen.init idx order).play ckeyOps replay (arbReqs fuel 0 sizes)).2.flatMap Out.samples ↔
          ∃ r ∈ db.samples, (r.dataset, r.file, r.sample) = p ∧ r.Wanted sels ∧
            r.text db = kept (ckeyOf (r.text db))) ∧
        (TextsDistinct db sels →
          ∀ p, p ∈ ((Gen.init idx order).play ckeyOps replay (arbReqs fuel 0 sizes)).2.flatMap Out.samples ↔
            ∃ r ∈ db.samples, (r.dataset, r.file, r.sample) = p ∧ r.Wanted sels) := by
  obtain ⟨idx, kept, h1, hok, hnd, hkeys, hch, hks⟩ := c63_index_any_values db hwf ht sels hq q hb leG hle split hsplit
    reorder hre threads hth
  have hkept : ∀ r ∈ db.samples, r.Wanted sels → ∃ r' ∈ db.samples, r'.Wanted sels ∧
      r'.text db = kept (ckeyOf (r.text db)) ∧ ckeyOf (r'.text db) = ckeyOf (r.text db) := by
    intro r hr hw
    obtain ⟨h2, r', hr', hw', h3⟩ := hch _ ((hkeys _).mpr ⟨r, hr, hw, rfl⟩)
    exact ⟨r', hr', hw', h3, by rw [h3, h2]⟩
  refine ⟨idx, kept, h1, hkept, ?_⟩
  intro order ho replay fuel sizes hstop hno
  have hi := hok order ho
  have h2 := c07_delivers_everything ckeyOps replay idx order hi fuel sizes hstop hno
  have h3 : ∀ p, p ∈ ((Gen.init idx order).play ckeyOps replay (arbReqs fuel 0 sizes)).2.flatMap Out.samples ↔
      ∃ r ∈ db.samples, (r.dataset, r.file, r.sample) = p ∧ r.Wanted sels ∧
        r.text db = kept (ckeyOf (r.text db)) := by
    intro p
    rw [h2.mem_iff, mem_contentSamples hi.keys]
    constructor
    · rintro ⟨k, hk⟩
      obtain ⟨r, hr, e, hw, rfl, h4⟩ := (hks k p).mp hk
      exact ⟨r, hr, e, hw, h4⟩
    · rintro ⟨r, hr, e, hw, h4⟩
      exact ⟨_, (hks _ p).mpr ⟨r, hr, e, hw, rfl, h4⟩⟩
  refine ⟨h2.nodup_iff.mpr hnd, h3, ?_⟩
  intro hdist p
  rw [h3]
  constructor
  · rintro ⟨r, hr, e, hw, _⟩
    exact ⟨r, hr, e, hw⟩
  · rintro ⟨r, hr, e, hw⟩
    obtain ⟨r', hr', hw', h4, h5⟩ := hkept r hr hw
    exact ⟨r, hr, e, hw, by rw [← h4]; exact hdist r hr r' hr' hw hw' h5.symm⟩

/-! ### Examples -/

/-- The example with a sample whose languages are listed in the other order and one whose language contains the separator. -/
def e2eOddDb : Db := { e2eDb with samples := e2eDb.samples ++
  [⟨1, 1, 4, [("lang".toList, .list [some "en".toList, some "de".toList])]⟩,
   ⟨1, 1, 5, [("lang".toList, .list [some "de".toList, some "en;lic:MIT".toList])]⟩,
   ⟨1, 1, 6, [("lang".toList, .list [some "de".toList, some "en".toList]), ("lic".toList, .str "MIT".toList)]⟩] }

/-- `select(lang == de)` -/
def e2eDeSels : List (List Cond) := [[⟨"lang".toList, "==".toList, .one "de".toList⟩]]

/-- Non-vacuity: the database is well formed and typed and the query expressible; samples 0 and 4 have one key and two
texts, samples 5 and 6 have one text although their properties differ, and the texts of the smaller database are distinct. -/
example : e2eOddDb.WF ∧ (∀ r ∈ e2eOddDb.samples, Conforms e2eOddDb.columns r.sqlRow) ∧ GoodQuery e2eOddDb e2eDeSels ∧
    (buildQuery e2eDeSels).isSome = true ∧ ¬ TextsDistinct e2eOddDb e2eDeSels ∧
    e2eOddDb.samples[7].text e2eOddDb = e2eOddDb.samples[8].text e2eOddDb ∧
    TextsDistinct e2eDb e2eDeSels := by
  refine ⟨⟨by decide, by decide, by decide, by decide, by decide, by decide, by decide, by decide⟩, ?_, ?_, by decide, ?_, ?_, ?_⟩
  · intro r hr f arr hf
    have hf' := Dict.mem_of_get? hf
    simp only [e2eOddDb, e2eDb, List.cons_append, List.nil_append, List.mem_cons, List.not_mem_nil, or_false,
      Prod.mk.injEq] at hr hf'
    rcases hr with rfl | rfl | rfl | rfl | rfl | rfl | rfl | rfl | rfl <;> rcases hf' with ⟨rfl, rfl⟩ | ⟨rfl, rfl⟩ <;>
      first
      | exact Or.inl (by decide +kernel)
      | exact Or.inr ⟨_, rfl⟩
  · refine ⟨by decide, ?_, ?_⟩
    · intro s hs c hc
      rw [usable_iff]
      revert s c
      decide
    · intro s hs c hc
      simp only [e2eDeSels, List.mem_cons, List.not_mem_nil, or_false] at hs
      subst hs
      simp only [List.mem_cons, List.not_mem_nil, or_false] at hc
      subst hc
      refine ⟨?_, ?_⟩
      · intro l hl v hv
        simp at hl
      · intro _ _
        left
        decide
  · intro h
    have hw : ∀ r ∈ [e2eOddDb.samples[0], e2eOddDb.samples[6]], r.Wanted e2eDeSels := by
      intro r hr
      refine ⟨_, List.mem_singleton.mpr rfl, ?_⟩
      intro c hc
      rw [List.mem_singleton] at hc
      subst hc
      refine ⟨.eq, rfl, ?_⟩
      simp only [List.mem_cons, List.not_mem_nil, or_false] at hr
      rcases hr with rfl | rfl
      · exact ⟨"de".toList, List.mem_singleton.mpr rfl, List.mem_cons_self⟩
      · exact ⟨"de".toList, List.mem_singleton.mpr rfl, List.mem_cons_of_mem _ List.mem_cons_self⟩
    have := h e2eOddDb.samples[0] (by decide +kernel) e2eOddDb.samples[6] (by decide +kernel) (hw _ (by simp)) (hw _ (by simp))
      (by decide +kernel)
    revert this
    decide +kernel
  · decide +kernel
  · have h : ∀ r ∈ e2eDb.samples, ∀ r' ∈ e2eDb.samples, ckeyOf (r.text e2eDb) = ckeyOf (r'.text e2eDb) →
        r.text e2eDb = r'.text e2eDb := by decide +kernel
    exact fun r hr r' hr' _ _ e => h r hr r' hr' e

/-- The example with a sample whose languages are listed in the other order. -/
def e2eOrdersDb : Db := { e2eDb with samples := e2eDb.samples ++
  [⟨1, 1, 4, [("lang".toList, .list [some "en".toList, some "de".toList])]⟩] }

/-- Non-vacuity: samples 0 and 4 list the same values in different orders. -/
theorem e2eOrders_ok : e2eOrdersDb.WF ∧ ReadableDb e2eOrdersDb ∧ e2eOrdersDb.samples[0].prop e2eOrdersDb "lang".toList ≠
    e2eOrdersDb.samples[6].prop e2eOrdersDb "lang".toList := by
  refine ⟨⟨by decide, by decide, by decide, by decide, by decide, by decide, by decide, by decide⟩,
    ⟨?_, by decide, by decide, ?_, ?_⟩, by decide +kernel⟩
  · intro r hr f arr hf
    have hf' := Dict.mem_of_get? hf
    simp only [e2eOrdersDb, e2eDb, List.cons_append, List.nil_append, List.mem_cons, List.not_mem_nil, or_false,
      Prod.mk.injEq] at hr hf'
    rcases hr with rfl | rfl | rfl | rfl | rfl | rfl | rfl <;> rcases hf' with ⟨rfl, rfl⟩ | ⟨rfl, rfl⟩ <;>
      first
      | exact Or.inl (by decide +kernel)
      | exact Or.inr ⟨_, rfl⟩
  · intro r hr n vs hv
    have hn : n ∈ e2eOrdersDb.columns.keys := by
      by_contra hc
      simp [SampleRow.prop, hc] at hv
    have key : ∀ r ∈ e2eOrdersDb.samples, ∀ n ∈ e2eOrdersDb.columns.keys, ∀ vs ∈ (r.prop e2eOrdersDb n).toList,
        (∀ v ∈ vs, ',' ∉ v ∧ ';' ∉ v) ∧ vs.getLast? ≠ some [] := by decide +kernel
    exact key r hr n hn vs (by rw [hv]; simp)
  · intro r hr r' hr' h
    have key : ∀ r ∈ e2eOrdersDb.samples, ∀ r' ∈ e2eOrdersDb.samples,
        (∀ n ∈ e2eOrdersDb.columns.keys, r.prop e2eOrdersDb n = r'.prop e2eOrdersDb n) →
        ∀ n ∈ e2eOrdersDb.columns.keys, r.sqlRow n = r'.sqlRow n := by decide +kernel
    exact key r hr r' hr' fun n _ => h n

/-- Two kinds of samples in turn in one file, with different properties and the same text `lang:de;lic:MIT`. -/
def e2eTwinDb : Db := { e2eDb with
  samples :=
    [⟨1, 1, 0, [("lang".toList, .str "de;lic:MIT".toList)]⟩,
     ⟨1, 1, 1, [("lang".toList, .str "de".toList), ("lic".toList, .str "MIT".toList)]⟩,
     ⟨1, 1, 2, [("lang".toList, .str "de;lic:MIT".toList)]⟩,
     ⟨1, 1, 3, [("lang".toList, .str "de".toList), ("lic".toList, .str "MIT".toList)]⟩]
  columns := [("lang".toList, false), ("lic".toList, false)] }

/-- The order of the groups by position, then language. -/
def e2eLangLe (a b : Group) : Bool :=
  let lang (g : Group) : PyStr := match Dict.get? g.2.2 "lang".toList with
    | some (.str s) => s
    | _ => []
  decide (a.1 < b.1 ∨ (a.1 = b.1 ∧ (a.2.1 < b.2.1 ∨ (a.2.1 = b.2.1 ∧ lang a ≤ lang b))))

/-- The ranges of all files in the chunks that ArbitraryMixture with chunk size 4 delivers for `select(lang >= de)`. -/
def e2eTwinRanges : List (List Rng) :=
  match (buildQuery [[⟨"lang".toList, ">=".toList, .one "de".toList⟩]]).map fun q =>
      queryIndex e2eLangLe (fun l => [l]) id ckeyOf 1 e2eTwinDb q with
  | some (.ok idx) => ((Gen.init idx idx.keys).play ckeyOps false (arbReqs 10 0 [4])).2.flatMap fun o =>
      match o with
      | .chunk c => c.content.flatMap fun ke => ke.2.flatMap fun df => df.2.map Prod.snd
      | _ => []
  | _ => []

/-- Samples with different properties and the same text are listed under one key, the ranges of their file not in order;
reading the chunk then fails in the middle (here after two of four samples). -/
theorem c63_shared_text_unreadable :
    e2eTwinRanges = [[(1, 2), (3, 4), (0, 1), (2, 3)]] ∧
    (jsonlReadFile id ["a", "b", "c", "d"] [(1, 2), (3, 4), (0, 1), (2, 3)]).1 = ["b", "d"] ∧
    (jsonlReadFile id ["a", "b", "c", "d"] [(1, 2), (3, 4), (0, 1), (2, 3)]).2 = some .runtimeError := by
  refine ⟨by decide +kernel, by decide +kernel, by decide +kernel⟩

end Mixtera
