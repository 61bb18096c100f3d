import Verif.Props.CacheHit

/-!
# When query results are reproducible (C78)

The result of a query does not depend on the iteration order of the hash maps if and only if the wanted samples list the values
of their properties in one order.
-/

set_option linter.unusedSectionVars false

namespace Mixtera

/-- A choice of texts that prefers a given row. -/
theorem exists_kept {rows : List TRow} {r : TRow} (hr : r ∈ rows) :
    ∃ kept : CKey → PyStr, kept (ckeyOf (comboText r.cells)) = comboText r.cells ∧
      ∀ r0 ∈ rows, ckeyOf (kept (ckeyOf (comboText r0.cells))) = ckeyOf (comboText r0.cells) ∧
        ∃ r' ∈ rows, comboText r'.cells = kept (ckeyOf (comboText r0.cells)) := by
  classical
  refine ⟨fun c => if c = ckeyOf (comboText r.cells) then comboText r.cells
      else if h : ∃ r0 ∈ rows, ckeyOf (comboText r0.cells) = c then comboText h.choose.cells else [], if_pos rfl, ?_⟩
  intro r0 hr0
  dsimp only
  by_cases hc : ckeyOf (comboText r0.cells) = ckeyOf (comboText r.cells)
  · rw [if_pos hc]
    exact ⟨hc.symm, r, hr, rfl⟩
  · have hex : ∃ r1 ∈ rows, ckeyOf (comboText r1.cells) = ckeyOf (comboText r0.cells) := ⟨r0, hr0, rfl⟩
    rw [if_neg hc, dif_pos hex]
    exact ⟨hex.choose_spec.2, hex.choose, hex.choose_spec.1, rfl⟩

/-- Whichever wanted sample one names, there is an iteration order of the hash maps for which it is in the index, and then no
sample with its property combination and other texts is. -/
theorem survivor (db : Db) (hwf : db.WF) (hp : ReadableDb db) (q : SelectChain) (hq : GoodQuery db (q.1 :: q.2))
    (e : Engine) (he : e.OK) (r : SampleRow) (hr : r ∈ db.samples) (hw : r.Wanted (q.1 :: q.2)) :
    ∃ reorder : CppIndex → CppIndex, (∀ i xs, Describes i xs → SameIndex i (reorder i)) ∧
      ∃ idx, Engine.index { e with reorder := reorder } db q = .ok idx ∧ (r.dataset, r.file, r.sample) ∈ contentSamples idx ∧
        ∀ r' ∈ db.samples, ckeyOf (r'.text db) = ckeyOf (r.text db) → r'.text db ≠ r.text db →
          (r'.dataset, r'.file, r'.sample) ∉ contentSamples idx := by
  obtain ⟨sel, hsel⟩ := buildQuery_cons q.1 q.2
  obtain ⟨base, h1, l', hsub, hbase, hmem⟩ := baseData_eq hq hsel db.samples hp.types
  have hv := query_rows_valid hwf hp.types hq hsel he.order h1
  have hrl : r ∈ l' := (hmem r).mpr ⟨hr, hw⟩
  have hin : ((r.dataset, r.file, r.cellsOf db), r.sample) ∈ base := by
    rw [hbase]; exact List.mem_map.mpr ⟨r, hrl, rfl⟩
  obtain ⟨r0, hr0, eg, -, -⟩ := (c32_coverage e.leG base _ _).mp hin
  have hrow : rowOf r0 ∈ (queryIntervals e.leG base).map rowOf := List.mem_map_of_mem hr0
  have htext : comboText (rowOf r0).cells = r.text db := by
    show comboText r0.g.2.2 = _
    rw [eg]; rfl
  obtain ⟨kept, hk1, hk2⟩ := exists_kept hrow
  rw [htext] at hk1
  obtain ⟨reorder, hre, h2⟩ := c33_any_survivor (e.split ((queryIntervals e.leG base).map rowOf)) kept
    (by rw [he.batches]; exact hk2) (by rw [he.batches]; exact hv)
  obtain ⟨idx, h3, h4⟩ := h2 e.threads he.threads
  rw [he.batches] at h4
  obtain ⟨hok, -, -, -, hks⟩ := index_of_keeps hwf hp.types hq hsel he.order h1 h4
  refine ⟨reorder, hre, idx, ?_, ?_, ?_⟩
  · unfold Engine.index
    rw [hsel]
    show queryIndex e.leG e.split reorder ckeyOf e.threads db sel = _
    unfold queryIndex
    rw [h1]
    exact h3
  · rw [mem_contentSamples h4.nodup]
    exact ⟨_, (hks _ _).mpr ⟨r, hr, rfl, hw, rfl, hk1.symm⟩⟩
  · intro r' hr' hc hne hm
    obtain ⟨c, hc'⟩ := (mem_contentSamples h4.nodup).mp hm
    obtain ⟨r1, hr1, epos, -, h5, h6⟩ := (hks _ _).mp hc'
    have : r1 = r' := List.inj_on_of_nodup_map hwf.keys hr1 hr' epos
    subst this
    rw [← h5, hc, hk1] at h6
    exact hne h6

/-- With values in one order, the index lists the wanted samples. -/
theorem engine_lists_wanted (db : Db) (hwf : db.WF) (hp : ReadableDb db) (q : SelectChain) (hone : OneOrder db (q.1 :: q.2))
    (hq : GoodQuery db (q.1 :: q.2)) (e : Engine) (he : e.OK) :
    ∃ idx, e.index db q = .ok idx ∧
      ∀ p, p ∈ contentSamples idx ↔ ∃ r ∈ db.samples, (r.dataset, r.file, r.sample) = p ∧ r.Wanted (q.1 :: q.2) := by
  obtain ⟨sel, hsel⟩ := buildQuery_cons q.1 q.2
  obtain ⟨idx, kept, h1, hok, -, hkeys, hch, hks⟩ := c63_index_any_values db hwf hp.types _ hq sel hsel e.leG he.order e.split
    he.batches e.reorder he.maps e.threads he.threads
  refine ⟨idx, ?_, ?_⟩
  · unfold Engine.index
    rw [hsel]
    exact h1
  · intro p
    rw [mem_contentSamples (hok _ (List.Perm.refl _)).keys]
    constructor
    · rintro ⟨k, hk⟩
      obtain ⟨r, hr, e1, hw, -, -⟩ := (hks k p).mp hk
      exact ⟨r, hr, e1, hw⟩
    · rintro ⟨r, hr, e1, hw⟩
      obtain ⟨h2, r', hr', hw', h3⟩ := hch _ ((hkeys _).mpr ⟨r, hr, hw, rfl⟩)
      refine ⟨_, (hks _ p).mpr ⟨r, hr, e1, hw, rfl, ?_⟩⟩
      rw [← h3]
      exact hp.textsDistinct hone r hr r' hr' hw hw' (by rw [h3, h2])

/-- **C78** (exactly when). For every database content without separators in its values, every expressible query, every order of
DuckDB's groups, cut into batches and number of threads: the samples in the query result do not depend on the iteration order of
the hash maps - which differs between processes - if and only if the wanted samples with the same property combination list the
values in the same order. (`c78_database_partial`: then all answers of the query result are the same, too.) -/
theorem c78_database_iff (db : Db) (hwf : db.WF) (hp : ReadableDb db) (q : SelectChain) (hq : GoodQuery db (q.1 :: q.2))
    (e : Engine) (he : e.OK) :
    (∀ reorder : CppIndex → CppIndex, (∀ i xs, Describes i xs → SameIndex i (reorder i)) →
      ∃ idx idx', e.index db q = .ok idx ∧ Engine.index { e with reorder := reorder } db q = .ok idx' ∧
        ∀ p, p ∈ contentSamples idx ↔ p ∈ contentSamples idx') ↔
    OneOrder db (q.1 :: q.2) := by
  constructor
  · intro h r hr r' hr' hw hw' c hc hc'
    by_contra hne
    obtain ⟨k, hk⟩ := hp.has_self hr
    have hcon : ∀ x : SampleRow, x ∈ db.samples → x.Has db c → ckeyOf (x.text db) = ckeyOf (r.text db) := by
      intro x hx hxc
      rw [(hp.has_iff hr k).mp hk]
      refine (hp.has_iff hx k).mp ?_
      rw [sampleHas_iff] at hxc hc hk ⊢
      exact hxc.trans (hc.symm.trans hk)
    have htext : r.text db ≠ r'.text db := fun e0 => hne ((hp.text_eq_iff hr hr').mp e0)
    obtain ⟨ro, hro, idx1, g1, g2, -⟩ := survivor db hwf hp q hq e he r hr hw
    obtain ⟨ro', hro', idx2, g1', -, g3'⟩ := survivor db hwf hp q hq e he r' hr' hw'
    obtain ⟨idx, i1, e1, e2, s1⟩ := h ro hro
    obtain ⟨idx0, i2, e1', e2', s2⟩ := h ro' hro'
    rw [e1] at e1'
    injection e1' with e1'
    subst e1'
    rw [g1] at e2
    injection e2 with e2
    subst e2
    rw [g1'] at e2'
    injection e2' with e2'
    subst e2'
    refine g3' r hr ?_ htext ((s2 _).mp ((s1 _).mpr g2))
    rw [hcon r hr hc, hcon r' hr' hc']
  · intro hone reorder hre
    obtain ⟨idx, h1, h2⟩ := engine_lists_wanted db hwf hp q hone hq e he
    obtain ⟨idx', h1', h2'⟩ := engine_lists_wanted db hwf hp q hone hq { e with reorder := reorder }
      ⟨he.order, he.batches, hre, he.threads⟩
    exact ⟨idx, idx', h1, h1', fun p => (h2 p).trans (h2' p).symm⟩

/-- Non-vacuity: there are engines, and both sides of `c78_database_iff` can be true. -/
example : (∃ e : Engine, e.OK) ∧ OneOrder e2eDb e2eDeSels := by
  refine ⟨?_, ?_⟩
  · obtain ⟨le, h⟩ := exists_totalOrder
    exact ⟨⟨le, fun l => [l], id, 1⟩, h, fun l => by simp, fun i xs h => sameIndex_of_perm h (List.Perm.refl _),
      show (0 : Int) ≤ 1 by omega⟩
  · exact e2e_ok.2.1.oneOrder _

theorem e2eDe_good : GoodQuery e2eOrdersDb e2eDeSels := by
  refine ⟨by decide, ?_, ?_⟩
  · intro s hs c hc
    rw [usable_iff]
    revert s c
    decide
  · intro s hs c hc
    simp only [e2eDeSels, List.mem_cons, List.not_mem_nil, or_false] at hs
    subst hs
    simp only [List.mem_cons, List.not_mem_nil, or_false] at hc
    subst hc
    refine ⟨?_, ?_⟩
    · intro l hl v hv
      simp at hl
    · intro _ _
      left
      decide

/-- **C78** fails if two samples list the same values in different orders: for every order of DuckDB's groups, cut into batches
and number of threads, there are iteration orders of the hash maps with which the same query on the same database content gives
query results with different samples; for example results without a common sample. -/
theorem c78_value_orders_vary :
    let q : SelectChain := ([⟨"lang".toList, "==".toList, .one "de".toList⟩], [])
    (∀ e : Engine, e.OK → ∃ reorder : CppIndex → CppIndex, (∀ i xs, Describes i xs → SameIndex i (reorder i)) ∧
      ∀ idx idx', e.index e2eOrdersDb q = .ok idx → Engine.index { e with reorder := reorder } e2eOrdersDb q = .ok idx' →
        ∃ p, ¬ (p ∈ contentSamples idx ↔ p ∈ contentSamples idx')) ∧
    (Engine.index ⟨e2eLe, fun l => [l], id, 1⟩ e2eOrdersDb q).toOption.map contentSamples = some [(1, 1, 4)] ∧
    (Engine.index ⟨e2eLe, fun l => [l], List.reverse, 1⟩ e2eOrdersDb q).toOption.map contentSamples =
      some [(1, 1, 0), (1, 1, 1), (1, 1, 3)] := by
  refine ⟨?_, by decide +kernel, by decide +kernel⟩
  intro e he
  obtain ⟨hwf, hp, hne⟩ := e2eOrders_ok
  by_contra hall
  push_neg at hall
  refine hne ((c78_database_iff e2eOrdersDb hwf hp ([⟨"lang".toList, "==".toList, .one "de".toList⟩], []) e2eDe_good e he).mp
    ?_ _ (by decide +kernel) _ (by decide +kernel) ?_ ?_ (ckeyOf (e2eOrdersDb.samples[0].text e2eOrdersDb)).1 ?_ ?_ _)
  · intro reorder hre
    obtain ⟨idx, idx', h1, h2, h3⟩ := hall reorder hre
    exact ⟨idx, idx', h1, h2, h3⟩
  · exact ⟨_, List.mem_singleton.mpr rfl, fun c hc => by
      rw [List.mem_singleton] at hc
      subst hc
      exact ⟨.eq, rfl, "de".toList, List.mem_singleton.mpr rfl, List.mem_cons_self⟩⟩
  · exact ⟨_, List.mem_singleton.mpr rfl, fun c hc => by
      rw [List.mem_singleton] at hc
      subst hc
      exact ⟨.eq, rfl, "de".toList, List.mem_singleton.mpr rfl, List.mem_cons_of_mem _ List.mem_cons_self⟩⟩
  · exact (hp.has_iff (by decide +kernel) _).mpr rfl
  · exact (hp.has_iff (by decide +kernel) _).mpr (by decide +kernel)

end Mixtera
