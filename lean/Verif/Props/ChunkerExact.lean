import Verif.Props.Chunker
import Mathlib.Data.List.Induction

/-!
# C33 for arbitrary property values

`c33_index_partial` assumes values without separators and value lists in one order.  Here nothing is assumed about the
property values: the index is determined up to one choice, which of the texts with the same Python key survives.
-/

set_option linter.unusedSectionVars false

namespace Mixtera

section Lists

variable {K : Type} [DecidableEq K]

theorem mem_rangesOf {items : List (Item K)} {k : K} {d f : Nat} {r : Rng} :
    r ∈ rangesOf items k d f ↔ (k, d, f, r) ∈ items := by
  unfold rangesOf
  simp only [List.mem_map, List.mem_filter, decide_eq_true_eq]
  constructor
  · rintro ⟨⟨k', d', f', r'⟩, ⟨h, rfl, rfl, rfl⟩, rfl⟩
    exact h
  · intro h
    exact ⟨_, ⟨h, rfl, rfl, rfl⟩, rfl⟩

theorem stdMerge_perm (a b : List Rng) : (stdMerge a b).Perm (a ++ b) := by
  induction a generalizing b with
  | nil => exact List.Perm.refl _
  | cons x a ih =>
    rw [stdMerge]
    induction b with
    | nil => simp [stdMerge.go]
    | cons y b ihb =>
      rw [stdMerge.go]
      split
      · refine (List.Perm.cons y ihb).trans ?_
        exact (List.perm_middle (a := y) (l₁ := x :: a) (l₂ := b)).symm
      · exact List.Perm.cons x (ih (y :: b))

/-- The index lists the given intervals: under every key, dataset and file those given for them, in some order, and it has
no further keys, datasets or files. -/
structure Lists (idx : Dict K Entries) (items : List (Item K)) : Prop where
  nodup : idx.keys.Nodup
  wf : ∀ ke ∈ idx, EntriesWF ke.2
  look : ∀ k d f, ((idxLook idx k d f).getD []).Perm (rangesOf items k d f)
  full : ∀ k d f, idxLook idx k d f ≠ some []
  ds : ∀ k d, (∃ e, idx.get? k = some e ∧ d ∈ e.keys) ↔ ∃ it ∈ items, it.1 = k ∧ it.2.1 = d
  key : ∀ k, k ∈ idx.keys ↔ ∃ it ∈ items, it.1 = k

theorem Describes.lists {idx : Dict K Entries} {items : List (Item K)} (h : Describes idx items) : Lists idx items := by
  refine ⟨h.nodup, h.wf, ?_, ?_, h.ds, h.key⟩
  · intro k d f
    rw [h.look]
    split
    · rename_i e; rw [e]; exact List.Perm.refl _
    · exact List.Perm.refl _
  · intro k d f
    rw [h.look]
    split
    · simp
    · rename_i e; simpa using e

theorem flatMap_get? {α β γ : Type} [DecidableEq α] (d : Dict α β) (hn : d.keys.Nodup) (a : α) (g : β → List γ) :
    d.flatMap (fun kv => if kv.1 = a then g kv.2 else []) = ((d.get? a).map g).getD [] := by
  induction d with
  | nil => rfl
  | cons kv d ih =>
    obtain ⟨k, v⟩ := kv
    simp only [Dict.keys, List.map_cons, List.nodup_cons] at hn
    rw [List.flatMap_cons, ih hn.2, Dict.get?_cons]
    by_cases h : k = a
    · subst h
      have : Dict.get? d k = none := (Dict.get?_eq_none_iff d k).mpr hn.1
      simp [this]
    · simp [h]

/-- All intervals of an index. -/
def flatItems (idx : Dict K Entries) : List (Item K) :=
  idx.flatMap fun ke => ke.2.flatMap fun df => df.2.flatMap fun fr => fr.2.map fun r => (ke.1, df.1, fr.1, r)

theorem rangesOf_flatMap {α : Type} (l : List α) (g : α → List (Item K)) (k : K) (d f : Nat) :
    rangesOf (l.flatMap g) k d f = l.flatMap fun a => rangesOf (g a) k d f := by
  unfold rangesOf
  rw [List.filter_flatMap, List.map_flatMap]

theorem rangesOf_flat {idx : Dict K Entries} (hn : idx.keys.Nodup) (hwf : ∀ ke ∈ idx, EntriesWF ke.2) (k : K) (d f : Nat) :
    rangesOf (flatItems idx) k d f = (idxLook idx k d f).getD [] := by
  have h1 : ∀ (k' : K) (d' f' : Nat) (rs : List Rng), rangesOf (rs.map fun r => (k', d', f', r)) k d f =
      if f' = f then (if d' = d then (if k' = k then rs else []) else []) else [] := by
    intro k' d' f' rs
    unfold rangesOf
    by_cases hf : f' = f
    · by_cases hd : d' = d
      · by_cases hk : k' = k
        · subst hf; subst hd; subst hk
          simp [List.filter_map, Function.comp_def]
        · simp [List.filter_map, Function.comp_def, hk]
      · simp [List.filter_map, Function.comp_def, hd]
    · simp [List.filter_map, Function.comp_def, hf]
  have h2 : ∀ (k' : K) (d' : Nat) (fs : Dict Nat (List Rng)), fs.keys.Nodup →
      rangesOf (fs.flatMap fun fr => fr.2.map fun r => (k', d', fr.1, r)) k d f =
      if d' = d then (if k' = k then (fs.get? f).getD [] else []) else [] := by
    intro k' d' fs hfs
    rw [rangesOf_flatMap]
    simp only [h1]
    rw [flatMap_get? fs hfs f fun rs => if d' = d then (if k' = k then rs else []) else []]
    cases fs.get? f <;> simp
  have h3 : ∀ (k' : K) (e : Entries), EntriesWF e →
      rangesOf (e.flatMap fun df => df.2.flatMap fun fr => fr.2.map fun r => (k', df.1, fr.1, r)) k d f =
      if k' = k then (e.look d f).getD [] else [] := by
    intro k' e he
    rw [rangesOf_flatMap]
    have : (e.flatMap fun df => rangesOf (df.2.flatMap fun fr => fr.2.map fun r => (k', df.1, fr.1, r)) k d f) =
        e.flatMap fun df => if df.1 = d then (if k' = k then (Dict.get? df.2 f).getD [] else []) else [] := by
      apply List.flatMap_congr
      intro df hdf
      exact h2 k' df.1 df.2 (he.2 df hdf)
    rw [this, flatMap_get? e he.1 d fun fs => if k' = k then (Dict.get? fs f).getD [] else []]
    unfold Entries.look
    cases e.get? d <;> simp
  unfold flatItems
  rw [rangesOf_flatMap]
  have : (idx.flatMap fun ke => rangesOf (ke.2.flatMap fun df => df.2.flatMap fun fr => fr.2.map fun r =>
        (ke.1, df.1, fr.1, r)) k d f) =
      idx.flatMap fun ke => if ke.1 = k then (ke.2.look d f).getD [] else [] := by
    apply List.flatMap_congr
    intro ke hke
    exact h3 ke.1 ke.2 (hwf ke hke)
  rw [this, flatMap_get? idx hn k fun e => (e.look d f).getD []]
  unfold idxLook
  cases idx.get? k <;> simp

theorem Lists.describes {idx : Dict K Entries} {items : List (Item K)} (h : Lists idx items) :
    Describes idx (flatItems idx) := by
  have hr := rangesOf_flat h.nodup h.wf
  have hmem : ∀ it : Item K, it ∈ flatItems idx ↔ it ∈ items := by
    rintro ⟨k, d, f, r⟩
    rw [← mem_rangesOf, ← mem_rangesOf, hr]
    exact (h.look k d f).mem_iff
  refine ⟨h.nodup, h.wf, ?_, ?_, ?_⟩
  · intro k d f
    rw [hr]
    have := h.full k d f
    cases hl : idxLook idx k d f with
    | none => rfl
    | some rs =>
      rw [hl] at this
      have hne : rs ≠ [] := fun e => this (by rw [e])
      simp [hne]
  · intro k d
    rw [h.ds]
    simp only [hmem]
  · intro k
    rw [h.key]
    simp only [hmem]

theorem Lists.reorder {a b : Dict K Entries} {xs : List (Item K)} (h : Lists a xs) (hs : SameIndex a b) : Lists b xs := by
  have hd := (h.describes.reorder hs).lists
  have hr := rangesOf_flat h.nodup h.wf
  refine ⟨hd.nodup, hd.wf, ?_, hd.full, ?_, ?_⟩
  · intro k d f
    refine (hd.look k d f).trans ?_
    rw [hr]
    exact h.look k d f
  · intro k d
    rw [hd.ds, ← h.ds, h.describes.ds]
  · intro k
    rw [hd.key, ← h.key, h.describes.key]

end Lists

theorem lists_merge {a b : CppIndex} {xs ys : List (Item PyStr)} (ha : Lists a xs) (hb : Lists b ys) :
    Lists (mergeIndex a b) (xs ++ ys) := by
  have hn : (mergeIndex a b).keys.Nodup := nodup_foldl_upsert (fun o v => mergeDsMaps (o.getD []) v) b a ha.nodup
  have hkeys : ∀ k, k ∈ (mergeIndex a b).keys ↔ k ∈ a.keys ∨ k ∈ b.keys :=
    keys_foldl_upsert (fun o v => mergeDsMaps (o.getD []) v) b a
  have hm : ∀ k d f, idxLook (mergeIndex a b) k d f = optMerge mergeIv (idxLook a k d f) (idxLook b k d f) := by
    intro k d f
    unfold idxLook
    rw [get?_mergeIndex a b hb.nodup]
    cases h1 : b.get? k with
    | none => rfl
    | some e =>
      rw [optMerge, Option.bind_some, Option.bind_some, look_mergeDsMaps _ _ (hb.wf _ (Dict.mem_of_get? h1))]
      cases a.get? k with
      | none => rfl
      | some e' => rfl
  refine ⟨hn, ?_, ?_, ?_, ?_, ?_⟩
  · intro ke hke
    have hg := Dict.get?_of_mem hn hke
    rw [get?_mergeIndex a b hb.nodup] at hg
    cases he : Dict.get? b ke.1 with
    | none => rw [he] at hg; exact ha.wf _ (Dict.mem_of_get? hg)
    | some e =>
      rw [he, optMerge] at hg
      simp only [Option.some.injEq] at hg
      rw [← hg]
      exact wf_mergeDsMaps _ _ (wf_of_get? ha.wf _) (hb.wf _ (Dict.mem_of_get? he)).1
  · intro k d f
    rw [hm, rangesOf_append]
    refine List.Perm.trans ?_ ((ha.look k d f).append (hb.look k d f))
    cases idxLook b k d f with
    | none => simp [optMerge]
    | some B =>
      cases idxLook a k d f with
      | none => simp [optMerge, mergeIv]
      | some A =>
        simp only [optMerge, mergeIv, Option.getD_some]
        split
        · rename_i h
          rw [List.isEmpty_iff] at h
          subst h
          exact List.Perm.refl _
        · exact stdMerge_perm A B
  · intro k d f
    rw [hm]
    have h1 := ha.full k d f
    have h2 := hb.full k d f
    cases hB : idxLook b k d f with
    | none => simpa [optMerge] using h1
    | some B =>
      rw [hB] at h2
      have hne : B ≠ [] := fun e => h2 (by rw [e])
      cases idxLook a k d f with
      | none => simpa [optMerge, mergeIv] using hne
      | some A =>
        simp only [optMerge, mergeIv, ne_eq, Option.some.injEq]
        split
        · exact hne
        · intro e
          have hl := (stdMerge_perm A B).length_eq
          rw [e] at hl
          rw [List.length_append, List.length_nil] at hl
          exact hne (List.eq_nil_of_length_eq_zero (by omega))
  · intro k d
    have h1 : (∃ e, (mergeIndex a b).get? k = some e ∧ d ∈ e.keys) ↔
        (∃ e, a.get? k = some e ∧ d ∈ e.keys) ∨ ∃ e, b.get? k = some e ∧ d ∈ e.keys := by
      rw [get?_mergeIndex a b hb.nodup]
      have hk2 : ∀ t s : Entries, d ∈ (mergeDsMaps t s).keys ↔ d ∈ t.keys ∨ d ∈ s.keys :=
        fun t s => keys_foldl_upsert (fun o v => mergeFileMaps (o.getD []) v) s t d
      cases h1 : b.get? k with
      | none => simp [optMerge]
      | some e =>
        simp only [optMerge, Option.some.injEq, exists_eq_left']
        rw [hk2]
        cases a.get? k with
        | none => simp [Dict.keys]
        | some e' => simp
    rw [h1, ha.ds, hb.ds]
    simp only [List.mem_append, or_and_right, exists_or]
  · intro k
    rw [hkeys, ha.key, hb.key]
    simp only [List.mem_append, or_and_right, exists_or]

theorem lists_fold (reorder : CppIndex → CppIndex) (hre : ∀ i xs, Describes i xs → SameIndex i (reorder i))
    (items : Nat → List (Item PyStr)) (l : List CppIndex) (ts : List Nat)
    (h : List.Forall₂ (fun idx t => Describes idx (items t)) l ts) (acc : CppIndex) (xs : List (Item PyStr))
    (hacc : Lists acc xs) :
    Lists (l.foldl (fun t s => mergeIndex t (reorder s)) acc) (xs ++ ts.flatMap items) := by
  induction h generalizing acc xs with
  | nil => simpa using hacc
  | @cons i t l ts hi _ ih =>
    rw [List.flatMap_cons, ← List.append_assoc]
    exact ih _ _ (lists_merge hacc (hi.lists.reorder (hre _ _ hi)))

theorem lists_mergeIndices (reorder : CppIndex → CppIndex) (hre : ∀ i xs, Describes i xs → SameIndex i (reorder i))
    (items : Nat → List (Item PyStr)) (l : List CppIndex) (ts : List Nat)
    (h : List.Forall₂ (fun idx t => Describes idx (items t)) l ts) : Lists (mergeIndices reorder l) (ts.flatMap items) := by
  unfold mergeIndices
  split
  · cases h with
    | cons h1 h2 => cases h2; simpa using h1.lists
  · have := lists_fold reorder hre items l ts h [] [] describes_nil.lists
    simpa using this

/-- The merged index lists the table's intervals, whatever the threads, batches and hash orders. -/
theorem lists_cpp_index (reorder : CppIndex → CppIndex) (hre : ∀ i xs, Describes i xs → SameIndex i (reorder i))
    (batches : List (List TRow)) (n : Nat) (hn : 0 < n) (hv : ∀ r ∈ batches.flatten, r.start ≤ r.stop) :
    ∃ l, threadIndices n batches = .ok l ∧ Lists (mergeIndices reorder l) (batches.flatten.map TRow.item) := by
  have hall := threadBatches_all n hn batches
  have hflat : (List.range n).flatMap (fun t => (threadBatches n batches t).flatten.map TRow.item) =
      batches.flatten.map TRow.item := by
    conv_rhs => rw [← hall]
    simp [List.flatMap, List.map_flatten, List.flatten_flatten, Function.comp_def]
  obtain ⟨l, h1, h2⟩ := threads_ok n (List.range n) batches (by
    intro t ht r hr
    apply hv
    rw [← hall]
    obtain ⟨b, hb, hrb⟩ := List.mem_flatten.mp hr
    exact List.mem_flatten.mpr ⟨b, List.mem_flatMap.mpr ⟨t, ht, hb⟩, hrb⟩)
  refine ⟨l, h1, ?_⟩
  rw [← hflat]
  exact lists_mergeIndices reorder hre (fun t => (threadBatches n batches t).flatten.map TRow.item) l (List.range n) h2

/-! ### The Python dictionary -/

section Py

variable {K : Type} [DecidableEq K]

theorem buildPyIndex_append (mk : PyStr → K) (idx : CppIndex) (ke : PyStr × Entries) :
    buildPyIndex mk (idx ++ [ke]) = (buildPyIndex mk idx).set (mk ke.1) ke.2 := by
  unfold buildPyIndex
  rw [List.foldl_append]
  rfl

theorem buildPyIndex_keys (mk : PyStr → K) (idx : CppIndex) (c : K) :
    c ∈ (buildPyIndex mk idx).keys ↔ ∃ k ∈ idx.keys, mk k = c := by
  induction idx using List.reverseRecOn with
  | nil => simp [buildPyIndex, Dict.keys]
  | append_singleton idx ke ih =>
    rw [buildPyIndex_append, Dict.set, Dict.mem_keys_upsert, ih]
    simp only [Dict.keys, List.map_append, List.map_cons, List.map_nil, List.mem_append, List.mem_singleton]
    constructor
    · rintro (h | ⟨k, hk, e⟩)
      · exact ⟨ke.1, Or.inr rfl, h.symm⟩
      · exact ⟨k, Or.inl hk, e⟩
    · rintro ⟨k, hk | rfl, e⟩
      · exact Or.inr ⟨k, hk, e⟩
      · exact Or.inl e.symm

theorem buildPyIndex_nodup (mk : PyStr → K) (idx : CppIndex) : (buildPyIndex mk idx).keys.Nodup := by
  induction idx using List.reverseRecOn with
  | nil => simp [buildPyIndex, Dict.keys]
  | append_singleton idx ke ih =>
    rw [buildPyIndex_append]
    exact Dict.nodup_keys_upsert ih _ _

/-- The last text in iteration order that has the Python key. -/
theorem buildPyIndex_last (mk : PyStr → K) (idx : CppIndex) (c : K) :
    ((buildPyIndex mk idx).get? c = none ∧ ∀ k ∈ idx.keys, mk k ≠ c) ∨
      ∃ pre k e post, idx = pre ++ (k, e) :: post ∧ mk k = c ∧ (∀ ke ∈ post, mk ke.1 ≠ c) ∧
        (buildPyIndex mk idx).get? c = some e := by
  induction idx using List.reverseRecOn with
  | nil => exact Or.inl ⟨rfl, by simp [Dict.keys]⟩
  | append_singleton idx ke ih =>
    rw [buildPyIndex_append]
    by_cases h : mk ke.1 = c
    · right
      exact ⟨idx, ke.1, ke.2, [], rfl, h, by simp, by rw [Dict.get?_set, if_pos h]⟩
    · have hg : ((buildPyIndex mk idx).set (mk ke.1) ke.2).get? c = (buildPyIndex mk idx).get? c := by
        rw [Dict.get?_set, if_neg h]
      rw [hg]
      rcases ih with ⟨h1, h2⟩ | ⟨pre, k, e, post, rfl, h2, h3, h4⟩
      · left
        refine ⟨h1, ?_⟩
        intro k hk
        simp only [Dict.keys, List.map_append, List.map_cons, List.map_nil, List.mem_append, List.mem_singleton] at hk
        rcases hk with hk | rfl
        · exact h2 k hk
        · exact h
      · right
        refine ⟨pre, k, e, post ++ [ke], by simp, h2, ?_, h4⟩
        intro ke' hke'
        rcases List.mem_append.mp hke' with h5 | h5
        · exact h3 ke' h5
        · rw [List.mem_singleton] at h5; subst h5; exact h

end Py

/-! ### Specification -/

/-- The text of a row's property combination: `name:values` for every property that is not NULL, separated by `;`, the
values separated by `,`. -/
def comboText (cells : List (PyStr × Cell)) : PyStr := joinStr [';'] ((rowProps cells).map propText)

/-- The intervals of a file in the rows with this text, in table order. -/
def textRanges (rows : List TRow) (t : PyStr) (d f : Nat) : List Rng :=
  (rows.filter fun r => decide (comboText r.cells = t ∧ r.ds = d ∧ r.file = f)).map fun r => (r.start, r.stop)

/-- The intervals of a file in the rows whose text makes this Python key, in table order. -/
def keyRanges (rows : List TRow) (c : CKey) (d f : Nat) : List Rng :=
  (rows.filter fun r => decide (ckeyOf (comboText r.cells) = c ∧ r.ds = d ∧ r.file = f)).map fun r => (r.start, r.stop)

/-- The index has the Python keys of the rows' texts, and lists under each of them exactly the intervals of the rows with
the text `kept` for that key: intervals of rows with another text of the same key are dropped. -/
structure KeepsTexts (rows : List TRow) (kept : CKey → PyStr) (idx : Dict CKey Entries) : Prop where
  nodup : idx.keys.Nodup
  wf : ∀ ke ∈ idx, EntriesWF ke.2
  keys : ∀ c, c ∈ idx.keys ↔ ∃ r ∈ rows, ckeyOf (comboText r.cells) = c
  chosen : ∀ c ∈ idx.keys, ckeyOf (kept c) = c ∧ ∃ r ∈ rows, comboText r.cells = kept c
  ranges : ∀ c ∈ idx.keys, ∀ d f, ((idxLook idx c d f).getD []).Perm (textRanges rows (kept c) d f)

/-! ### Theorems -/

theorem rangesOf_rows (rows : List TRow) (t : PyStr) (d f : Nat) :
    rangesOf (rows.map TRow.item) t d f = textRanges rows t d f := by
  unfold rangesOf textRanges
  rw [List.filter_map, List.map_map]
  have : rows.filter ((fun it : Item PyStr => decide (it.1 = t ∧ it.2.1 = d ∧ it.2.2.1 = f)) ∘ TRow.item) =
      rows.filter fun r => decide (comboText r.cells = t ∧ r.ds = d ∧ r.file = f) := by
    apply List.filter_congr
    intro r _
    simp only [Function.comp_apply, TRow.item, keyText_eq]
    rfl
  rw [this]
  rfl

theorem createChunkerIndex_ok (reorder : CppIndex → CppIndex) (hre : ∀ i xs, Describes i xs → SameIndex i (reorder i))
    (batches : List (List TRow)) (n : Int) (hn : 0 ≤ n) (hv : ∀ r ∈ batches.flatten, r.start ≤ r.stop) :
    ∃ i : CppIndex, createChunkerIndex reorder ckeyOf batches n = .ok (buildPyIndex ckeyOf (reorder i)) ∧
      (∃ xs, Describes i xs) ∧ Lists (reorder i) (batches.flatten.map TRow.item) := by
  obtain ⟨l, h1, h2⟩ := lists_cpp_index reorder hre batches (max n 1).toNat (by omega) hv
  refine ⟨mergeIndices reorder l, ?_, ⟨_, h2.describes⟩, h2.reorder (hre _ _ h2.describes)⟩
  unfold createChunkerIndex
  rw [if_neg (by omega), h1]; rfl

/-- From the text of a key in the C++ index to what the Python index says. -/
theorem keeps_of_lists {rows : List TRow} {i : CppIndex} (hl : Lists i (rows.map TRow.item)) (kept : CKey → PyStr)
    (hk : ∀ c, (∃ k ∈ i.keys, ckeyOf k = c) → ∃ e, (kept c, e) ∈ i ∧ ckeyOf (kept c) = c ∧
      (buildPyIndex ckeyOf i).get? c = some e) : KeepsTexts rows kept (buildPyIndex ckeyOf i) := by
  have hkey : ∀ k, k ∈ i.keys ↔ ∃ r ∈ rows, comboText r.cells = k := by
    intro k
    rw [hl.key]
    constructor
    · rintro ⟨it, hi, e⟩
      obtain ⟨r, hr, rfl⟩ := List.mem_map.mp hi
      exact ⟨r, hr, by rw [← e, TRow.item, keyText_eq]; rfl⟩
    · rintro ⟨r, hr, e⟩
      exact ⟨_, List.mem_map_of_mem hr, by rw [← e, TRow.item, keyText_eq]; rfl⟩
  refine ⟨buildPyIndex_nodup _ _, ?_, ?_, ?_, ?_⟩
  · rintro ⟨c, e⟩ hke
    have hg := Dict.get?_of_mem (buildPyIndex_nodup ckeyOf i) hke
    have hc : c ∈ (buildPyIndex ckeyOf i).keys := (Dict.mem_keys_iff _ _).mpr ⟨e, hg⟩
    obtain ⟨e', h1, _, h3⟩ := hk c ((buildPyIndex_keys ckeyOf i c).mp hc)
    rw [hg] at h3
    cases h3
    exact hl.wf _ h1
  · intro c
    rw [buildPyIndex_keys]
    constructor
    · rintro ⟨k, h, rfl⟩
      obtain ⟨r, hr, rfl⟩ := (hkey k).mp h
      exact ⟨r, hr, rfl⟩
    · rintro ⟨r, hr, rfl⟩
      exact ⟨_, (hkey _).mpr ⟨r, hr, rfl⟩, rfl⟩
  · intro c hc
    obtain ⟨e, h1, h2, _⟩ := hk c ((buildPyIndex_keys ckeyOf i c).mp hc)
    exact ⟨h2, (hkey _).mp (List.mem_map_of_mem h1)⟩
  · intro c hc d f
    obtain ⟨e, h1, h2, h3⟩ := hk c ((buildPyIndex_keys ckeyOf i c).mp hc)
    have := hl.look (kept c) d f
    rw [rangesOf_rows] at this
    refine List.Perm.trans ?_ this
    unfold idxLook
    rw [h3, Dict.get?_of_mem hl.nodup h1]

/-- **C33, any values**: for every table, number of threads, cut into batches and iteration order of the hash maps - with
no condition on the property values - the index exists, has exactly the keys made from the rows' texts, and for each key
there is one text such that the index lists exactly the intervals of the rows with that text. -/
theorem c33_any_values (reorder : CppIndex → CppIndex) (hre : ∀ i xs, Describes i xs → SameIndex i (reorder i))
    (batches : List (List TRow)) (n : Int) (hn : 0 ≤ n) (hv : ∀ r ∈ batches.flatten, r.start ≤ r.stop) :
    ∃ idx kept, createChunkerIndex reorder ckeyOf batches n = .ok idx ∧ KeepsTexts batches.flatten kept idx := by
  obtain ⟨i, h1, _, h2⟩ := createChunkerIndex_ok reorder hre batches n hn hv
  have hlast : ∀ c, ∃ k, (∃ k ∈ (reorder i).keys, ckeyOf k = c) → ∃ e, (k, e) ∈ reorder i ∧ ckeyOf k = c ∧
      (buildPyIndex ckeyOf (reorder i)).get? c = some e := by
    intro c
    rcases buildPyIndex_last ckeyOf (reorder i) c with ⟨_, h3⟩ | ⟨pre, k, e, post, h3, h4, _, h5⟩
    · exact ⟨[], fun ⟨k, hk, e⟩ => absurd e (h3 k hk)⟩
    · exact ⟨k, fun _ => ⟨e, by rw [h3]; simp, h4, h5⟩⟩
  choose kept hkept using hlast
  exact ⟨_, kept, h1, keeps_of_lists h2 kept hkept⟩

/-- **C33, any values, sorted**: if the rows with the same text and file come in the order of their intervals, then the
ranges of every file are listed in the order of the table. -/
theorem c33_any_values_sorted (reorder : CppIndex → CppIndex) (hre : ∀ i xs, Describes i xs → SameIndex i (reorder i))
    (batches : List (List TRow)) (n : Int) (hn : 0 ≤ n) (hv : ∀ r ∈ batches.flatten, r.start ≤ r.stop)
    (hs : batches.flatten.Pairwise fun a b => comboText a.cells = comboText b.cells → a.ds = b.ds → a.file = b.file →
      a.start < b.start) :
    ∃ idx kept, createChunkerIndex reorder ckeyOf batches n = .ok idx ∧ KeepsTexts batches.flatten kept idx ∧
      ∀ c ∈ idx.keys, ∀ d f, (idxLook idx c d f).getD [] = textRanges batches.flatten (kept c) d f := by
  have hsort : SortedItems (batches.flatten.map TRow.item) := by
    intro k d f
    rw [rangesOf_rows]
    unfold textRanges
    rw [List.pairwise_map]
    refine (hs.filter _).imp_of_mem ?_
    intro a b ha hb hab
    have ha' := of_decide_eq_true (List.mem_filter.mp ha).2
    have hb' := of_decide_eq_true (List.mem_filter.mp hb).2
    have := hab (ha'.1.trans hb'.1.symm) (ha'.2.1.trans hb'.2.1.symm) (ha'.2.2.trans hb'.2.2.symm)
    apply decide_eq_false
    show ¬ (b.start < a.start ∨ (b.start = a.start ∧ b.stop < a.stop))
    omega
  obtain ⟨l, h1, h2⟩ := c33_cpp_index reorder hre batches (max n 1).toNat (by omega) hv hsort
  have h3 := h2.reorder (hre _ _ h2)
  have hlast : ∀ c, ∃ k, (∃ k ∈ (reorder (mergeIndices reorder l)).keys, ckeyOf k = c) →
      ∃ e, (k, e) ∈ reorder (mergeIndices reorder l) ∧ ckeyOf k = c ∧
      (buildPyIndex ckeyOf (reorder (mergeIndices reorder l))).get? c = some e := by
    intro c
    rcases buildPyIndex_last ckeyOf (reorder (mergeIndices reorder l)) c with ⟨_, h3⟩ | ⟨pre, k, e, post, h3, h4, _, h5⟩
    · exact ⟨[], fun ⟨k, hk, e⟩ => absurd e (h3 k hk)⟩
    · exact ⟨k, fun _ => ⟨e, by rw [h3]; simp, h4, h5⟩⟩
  choose kept hkept using hlast
  refine ⟨_, kept, ?_, keeps_of_lists h3.lists kept hkept, ?_⟩
  · unfold createChunkerIndex
    rw [if_neg (by omega), h1]; rfl
  · intro c hc d f
    obtain ⟨e, h4, h5, h6⟩ := hkept c ((buildPyIndex_keys ckeyOf _ c).mp hc)
    have := h3.look (kept c) d f
    rw [rangesOf_rows] at this
    unfold idxLook at this ⊢
    rw [h6, ← Dict.get?_of_mem h3.nodup h4, this]
    split
    · rename_i e0; rw [e0]; rfl
    · rfl

/-- Iterating a map in another order. -/
theorem sameIndex_of_perm {K : Type} [DecidableEq K] {a b : Dict K Entries} {xs : List (Item K)} (h : Describes a xs)
    (hp : b.Perm a) : SameIndex a b := by
  have hk : b.keys.Perm a.keys := hp.map _
  have hn : b.keys.Nodup := hk.nodup_iff.mpr h.nodup
  refine ⟨hn, fun ke hke => h.wf ke (hp.mem_iff.mp hke), fun k => hk.mem_iff.symm, ?_⟩
  intro k e e' h1 h2
  have h3 := Dict.get?_of_mem h.nodup (hp.mem_iff.mp (Dict.mem_of_get? h2))
  rw [h1] at h3
  cases h3
  exact ⟨fun _ _ => rfl, fun _ => Iff.rfl⟩

/-- The iteration order in which the kept texts come last. -/
def keptLast (kept : CKey → PyStr) (i : CppIndex) : CppIndex :=
  i.filter (fun ke => !decide (kept (ckeyOf ke.1) = ke.1)) ++ i.filter fun ke => decide (kept (ckeyOf ke.1) = ke.1)

theorem keptLast_perm (kept : CKey → PyStr) (i : CppIndex) : (keptLast kept i).Perm i := by
  have := List.filter_append_perm (fun ke : PyStr × Entries => !decide (kept (ckeyOf ke.1) = ke.1)) i
  simpa [keptLast] using this

/-- **C33, the choice is arbitrary**: whichever of its rows' texts one names for every key, there is an iteration order of
the hash maps for which exactly the rows with these texts are in the index, for all threads and batches. -/
theorem c33_any_survivor (batches : List (List TRow)) (kept : CKey → PyStr)
    (hkept : ∀ r ∈ batches.flatten, ckeyOf (kept (ckeyOf (comboText r.cells))) = ckeyOf (comboText r.cells) ∧
      ∃ r' ∈ batches.flatten, comboText r'.cells = kept (ckeyOf (comboText r.cells)))
    (hv : ∀ r ∈ batches.flatten, r.start ≤ r.stop) :
    ∃ reorder : CppIndex → CppIndex, (∀ i xs, Describes i xs → SameIndex i (reorder i)) ∧ ∀ n : Int, 0 ≤ n →
      ∃ idx, createChunkerIndex reorder ckeyOf batches n = .ok idx ∧ KeepsTexts batches.flatten kept idx := by
  have hre : ∀ i xs, Describes i xs → SameIndex i (keptLast kept i) := fun i xs h =>
    sameIndex_of_perm h (keptLast_perm kept i)
  refine ⟨keptLast kept, hre, ?_⟩
  intro n hn
  obtain ⟨i, h1, ⟨xs, h0⟩, h2⟩ := createChunkerIndex_ok _ hre batches n hn hv
  refine ⟨_, h1, keeps_of_lists h2 kept ?_⟩
  rintro c ⟨k0, hk0, rfl⟩
  obtain ⟨it, hit, e0⟩ := (h2.key k0).mp hk0
  obtain ⟨r0, hr0, rfl⟩ := List.mem_map.mp hit
  have hr0t : comboText r0.cells = k0 := by rw [← e0, TRow.item, keyText_eq]; rfl
  obtain ⟨hk1, r', hr', hk2⟩ := hkept r0 hr0
  rw [hr0t] at hk1 hk2
  have hmem : kept (ckeyOf k0) ∈ (keptLast kept i).keys := by
    rw [h2.key]
    exact ⟨_, List.mem_map_of_mem hr', by rw [← hk2, TRow.item, keyText_eq]; rfl⟩
  rcases buildPyIndex_last ckeyOf (keptLast kept i) (ckeyOf k0) with ⟨_, h3⟩ | ⟨pre, k, e, post, h3, h4, h5, h6⟩
  · exact absurd rfl (h3 k0 hk0)
  have hpw : (keptLast kept i).Pairwise fun a b => kept (ckeyOf a.1) = a.1 → kept (ckeyOf b.1) = b.1 := by
    unfold keptLast
    rw [List.pairwise_append]
    refine ⟨?_, ?_, ?_⟩
    · refine List.Pairwise.imp_of_mem (R := fun _ _ => True) ?_ (List.pairwise_of_forall fun _ _ => trivial)
      intro a b ha _ _ h
      have := (List.mem_filter.mp ha).2
      simp [h] at this
    · refine List.Pairwise.imp_of_mem (R := fun _ _ => True) ?_ (List.pairwise_of_forall fun _ _ => trivial)
      intro a b _ hb _ _
      exact of_decide_eq_true (List.mem_filter.mp hb).2
    · intro a _ b hb _
      exact of_decide_eq_true (List.mem_filter.mp hb).2
  have hkk : kept (ckeyOf k0) = k := by
    obtain ⟨e', he'⟩ := (Dict.mem_keys_iff _ _).mp hmem
    have hm := Dict.mem_of_get? he'
    rw [h3] at hm hpw
    rcases List.mem_append.mp hm with hm | hm
    · have := (List.pairwise_append.mp hpw).2.2 _ hm (k, e) (by simp)
      have := this (by simp only; rw [hk1])
      simp only at this
      rw [h4] at this
      exact this
    · rcases List.mem_cons.mp hm with hm | hm
      · exact congrArg Prod.fst hm
      · exact absurd hk1 (h5 _ hm)
  refine ⟨e, ?_, hk1, h6⟩
  rw [hkk, h3]
  simp

/-- **C33, exactly**: the index is complete for all iteration orders of the hash maps if and only if no two rows with
different texts have the same Python key. -/
theorem c33_complete_iff (batches : List (List TRow)) (n : Int) (hn : 0 ≤ n)
    (hv : ∀ r ∈ batches.flatten, r.start ≤ r.stop) :
    (∀ reorder : CppIndex → CppIndex, (∀ i xs, Describes i xs → SameIndex i (reorder i)) →
      ∃ idx, createChunkerIndex reorder ckeyOf batches n = .ok idx ∧
        ∀ c d f, ((idxLook idx c d f).getD []).Perm (keyRanges batches.flatten c d f)) ↔
    ∀ r ∈ batches.flatten, ∀ r' ∈ batches.flatten, ckeyOf (comboText r.cells) = ckeyOf (comboText r'.cells) →
      comboText r.cells = comboText r'.cells := by
  constructor
  · intro h r hr r' hr' e
    classical
    let kept : CKey → PyStr := fun c => if c = ckeyOf (comboText r'.cells) then comboText r'.cells
      else if h : ∃ r0 ∈ batches.flatten, ckeyOf (comboText r0.cells) = c then comboText h.choose.cells else []
    obtain ⟨reorder, hre, hidx⟩ := c33_any_survivor batches kept (by
      intro r0 hr0
      by_cases hc : ckeyOf (comboText r0.cells) = ckeyOf (comboText r'.cells)
      · have hk : kept (ckeyOf (comboText r0.cells)) = comboText r'.cells := if_pos hc
        rw [hk]
        exact ⟨hc.symm, r', hr', rfl⟩
      · have hex : ∃ r1 ∈ batches.flatten, ckeyOf (comboText r1.cells) = ckeyOf (comboText r0.cells) := ⟨r0, hr0, rfl⟩
        have hk : kept (ckeyOf (comboText r0.cells)) = comboText hex.choose.cells := by
          simp only [kept]
          rw [if_neg hc, dif_pos hex]
        rw [hk]
        exact ⟨hex.choose_spec.2, hex.choose, hex.choose_spec.1, rfl⟩) hv
    obtain ⟨idx, h1, h2⟩ := hidx n hn
    obtain ⟨idx', h1', h3⟩ := h reorder hre
    rw [h1] at h1'
    cases h1'
    have hc : ckeyOf (comboText r'.cells) ∈ idx.keys := (h2.keys _).mpr ⟨r', hr', rfl⟩
    have hp := (h2.ranges _ hc r.ds r.file).symm.trans (h3 (ckeyOf (comboText r'.cells)) r.ds r.file)
    have hk : kept (ckeyOf (comboText r'.cells)) = comboText r'.cells := if_pos rfl
    rw [hk] at hp
    have hlen := hp.length_eq
    unfold textRanges keyRanges at hlen
    rw [List.length_map, List.length_map] at hlen
    have hff : (batches.flatten.filter fun x => decide (comboText x.cells = comboText r'.cells ∧ x.ds = r.ds ∧
          x.file = r.file)) =
        (batches.flatten.filter fun x => decide (ckeyOf (comboText x.cells) = ckeyOf (comboText r'.cells) ∧ x.ds = r.ds ∧
          x.file = r.file)).filter fun x => decide (comboText x.cells = comboText r'.cells) := by
      rw [List.filter_filter]
      apply List.filter_congr
      intro x _
      by_cases hx : comboText x.cells = comboText r'.cells
      · simp [hx]
      · simp [hx]
    rw [hff] at hlen
    have heq := List.filter_sublist.eq_of_length hlen
    have hmem : r ∈ batches.flatten.filter fun x => decide (ckeyOf (comboText x.cells) = ckeyOf (comboText r'.cells) ∧
        x.ds = r.ds ∧ x.file = r.file) := List.mem_filter.mpr ⟨hr, by simp [e]⟩
    rw [← heq] at hmem
    exact of_decide_eq_true (List.mem_filter.mp hmem).2
  · intro h reorder hre
    obtain ⟨idx, kept, h1, h2⟩ := c33_any_values reorder hre batches n hn hv
    refine ⟨idx, h1, ?_⟩
    intro c d f
    by_cases hc : c ∈ idx.keys
    · have hp := h2.ranges c hc d f
      have hkr : textRanges batches.flatten (kept c) d f = keyRanges batches.flatten c d f := by
        unfold textRanges keyRanges
        congr 1
        apply List.filter_congr
        intro r hr
        obtain ⟨h3, r', hr', h4⟩ := h2.chosen c hc
        have hiff : comboText r.cells = kept c ↔ ckeyOf (comboText r.cells) = c := by
          constructor
          · intro e; rw [e, h3]
          · intro e
            rw [← h4]
            exact h r hr r' hr' (by rw [e, h4, h3])
        simp only [hiff]
      rw [← hkr]
      exact hp
    · have hn1 : idxLook idx c d f = none := by
        unfold idxLook
        rw [(Dict.get?_eq_none_iff _ _).mpr hc]
        rfl
      have hn2 : keyRanges batches.flatten c d f = [] := by
        unfold keyRanges
        rw [List.map_eq_nil_iff, List.filter_eq_nil_iff]
        intro r hr hd
        have := of_decide_eq_true hd
        exact hc ((h2.keys c).mpr ⟨r, hr, this.1⟩)
      rw [hn1, hn2]
      exact List.Perm.refl _

/-- Non-vacuity: the two rows of `c33_value_order_loses` and one with separators in a value; the texts of the first two
differ and have one key, so either may be lost. -/
example : let a : TRow := ⟨[("lang".toList, .list [some "de".toList, some "en".toList])], 0, 0, 0, 5⟩
    let b : TRow := ⟨[("lang".toList, .list [some "en".toList, some "de".toList])], 0, 0, 5, 9⟩
    let c : TRow := ⟨[("lang".toList, .list [some "de,en".toList])], 0, 0, 9, 11⟩
    (∀ r ∈ [a, b, c], r.start ≤ r.stop) ∧
      ([a, b, c].Pairwise fun x y => comboText x.cells = comboText y.cells → x.ds = y.ds → x.file = y.file →
        x.start < y.start) ∧ comboText a.cells ≠ comboText b.cells ∧
      comboText a.cells = comboText c.cells ∧ ckeyOf (comboText a.cells) = ckeyOf (comboText b.cells) ∧
      textRanges [a, b, c] (comboText a.cells) 0 0 = [(0, 5), (9, 11)] ∧
      textRanges [a, b, c] (comboText b.cells) 0 0 = [(5, 9)] := by
  refine ⟨by decide, by decide, by decide, by decide, ?_, by decide, by decide⟩
  rfl

end Mixtera
