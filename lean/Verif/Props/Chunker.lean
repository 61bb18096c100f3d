import Verif.Model.Chunker
import Verif.Model.QueryEval
import Verif.Props.IndexStore
import Verif.Props.MixtureKey
import Verif.Props.Intervals
import Verif.Props.Tree

/-!
# C33, C34: the C++ chunker
-/

set_option linter.unusedSectionVars false

namespace Mixtera

/-! ### C34: the text form of property combinations -/

/-- The property combination of a row: its non-null properties with their non-null values. -/
def rowProps (cells : List (PyStr × Cell)) : RawKey :=
  cells.filterMap fun nc =>
    match nc.2 with
    | .null => none
    | .str s => some (nc.1, [s])
    | .list vs => some (nc.1, vs.filterMap id)

/-- Property names without `:` and `;`, values without `,` and `;`, the last value of a property not empty. -/
structure PlainCells (cells : List (PyStr × Cell)) : Prop where
  names : (cells.map Prod.fst).Nodup
  name : ∀ nc ∈ cells, ':' ∉ nc.1 ∧ ';' ∉ nc.1
  value : ∀ nv ∈ rowProps cells, ∀ v ∈ nv.2, ',' ∉ v ∧ ';' ∉ v
  last : ∀ nv ∈ rowProps cells, nv.2.getLast? ≠ some []

theorem getlines_single (d : Char) (v : PyStr) (hd : d ∉ v) (hne : v ≠ []) : getlines d v = [v] := by
  induction v with
  | nil => exact absurd rfl hne
  | cons c v ih =>
    rw [List.mem_cons, not_or] at hd
    rw [getlines, if_neg (Ne.symm hd.1)]
    by_cases hv : v = []
    · subst hv; rfl
    · rw [ih hd.2 hv]

theorem getlines_cons (d : Char) (v s : PyStr) (hd : d ∉ v) : getlines d (v ++ d :: s) = v :: getlines d s := by
  induction v with
  | nil => rw [List.nil_append, getlines, if_pos rfl]
  | cons c v ih =>
    rw [List.mem_cons, not_or] at hd
    rw [List.cons_append, getlines, if_neg (Ne.symm hd.1), ih hd.2]

theorem getlines_join (d : Char) (vs : List PyStr) (hd : ∀ v ∈ vs, d ∉ v) (hl : vs.getLast? ≠ some []) :
    getlines d (joinStr [d] vs) = vs := by
  induction vs with
  | nil => rfl
  | cons v vs ih =>
    cases vs with
    | nil =>
      refine getlines_single d v (hd v (by simp)) ?_
      rintro rfl; exact hl rfl
    | cons w vs =>
      have e : joinStr [d] (v :: w :: vs) = v ++ d :: joinStr [d] (w :: vs) := by
        show v ++ [d] ++ joinStr [d] (w :: vs) = _
        simp
      rw [e, getlines_cons d v _ (hd v (by simp)), ih (fun x hx => hd x (by simp [hx]))]
      rwa [List.getLast?_cons_cons] at hl

theorem splitColon_pair (n vs : PyStr) (hn : ':' ∉ n) : splitColon (n ++ ':' :: vs) = some (n, vs) := by
  have h1 : (n ++ ':' :: vs).dropWhile (fun c => decide (c ≠ ':')) = ':' :: vs := by
    induction n with
    | nil => simp
    | cons c n ih =>
      rw [List.mem_cons, not_or] at hn
      rw [List.cons_append, List.dropWhile_cons_of_pos (by simpa using Ne.symm hn.1), ih hn.2]
  have h2 : (n ++ ':' :: vs).takeWhile (fun c => decide (c ≠ ':')) = n := by
    clear h1
    induction n with
    | nil => simp
    | cons c n ih =>
      rw [List.mem_cons, not_or] at hn
      rw [List.cons_append, List.takeWhile_cons_of_pos (by simpa using Ne.symm hn.1), ih hn.2]
  rw [splitColon, h1, h2]

theorem mem_joinStr {sep : PyStr} {l : List PyStr} {c : Char} (h : c ∈ joinStr sep l) : c ∈ sep ∨ ∃ v ∈ l, c ∈ v := by
  induction l with
  | nil => simp [joinStr] at h
  | cons v l ih =>
    cases l with
    | nil => exact Or.inr ⟨v, by simp, h⟩
    | cons w l =>
      have e : joinStr sep (v :: w :: l) = v ++ sep ++ joinStr sep (w :: l) := rfl
      rw [e, List.mem_append, List.mem_append] at h
      rcases h with (h | h) | h
      · exact Or.inr ⟨v, by simp, h⟩
      · exact Or.inl h
      · rcases ih h with h | ⟨x, hx, hc⟩
        · exact Or.inl h
        · exact Or.inr ⟨x, by simp [hx], hc⟩

/-- The text of one property. -/
def propText (nv : PyStr × List PyStr) : PyStr := nv.1 ++ ':' :: joinStr [','] nv.2

theorem keyText_eq (cells : List (PyStr × Cell)) : keyText cells = joinStr [';'] ((rowProps cells).map propText) := by
  unfold keyText rowProps
  rw [List.map_filterMap]
  congr 1
  apply List.filterMap_congr
  rintro ⟨n, c⟩ _
  cases c with
  | null => rfl
  | str s => simp [cellText, propText, joinStr]
  | list vs => simp [cellText, propText]

theorem rowProps_keys_sublist (cells : List (PyStr × Cell)) :
    (rowProps cells).keys.Sublist (cells.map Prod.fst) := by
  induction cells with
  | nil => simp [rowProps, Dict.keys]
  | cons nc cells ih =>
    obtain ⟨n, c⟩ := nc
    cases c with
    | null => exact ih.trans (List.sublist_cons_self _ _)
    | str s => exact ih.cons_cons n
    | list vs => exact ih.cons_cons n

/-- **C34**: parsing the text the chunker builds for a row gives back the row's property combination, for names and
values free of the separators. -/
theorem c34_round_trip_partial (cells : List (PyStr × Cell)) (h : PlainCells cells) :
    parseKey (keyText cells) = rowProps cells := by
  have hk : (rowProps cells).keys.Nodup := h.names.sublist (rowProps_keys_sublist cells)
  have hname : ∀ nv ∈ rowProps cells, ':' ∉ nv.1 ∧ ';' ∉ nv.1 := by
    intro nv hnv
    have : nv.1 ∈ cells.map Prod.fst := (rowProps_keys_sublist cells).subset (List.mem_map_of_mem hnv)
    obtain ⟨nc, hnc, e⟩ := List.mem_map.mp this
    exact e ▸ h.name nc hnc
  rw [parseKey, keyText_eq, getlines_join]
  · rw [List.foldl_map]
    have this : ∀ nv ∈ rowProps cells, ∀ d : RawKey, parsePiece d (propText nv) = d.set nv.1 nv.2 := by
      intro nv hnv d
      rw [parsePiece, propText, splitColon_pair _ _ (hname nv hnv).1]
      dsimp only
      rw [getlines_join ',' nv.2 (fun v hv => (h.value nv hnv v hv).1) (h.last nv hnv)]
    have h2 : ∀ (l : RawKey), (∀ nv ∈ l, nv ∈ rowProps cells) → ∀ d : RawKey,
        l.foldl (fun (d : RawKey) nv => parsePiece d (propText nv)) d =
          l.foldl (fun (d : RawKey) nv => d.set nv.1 nv.2) d := by
      intro l
      induction l with
      | nil => intros; rfl
      | cons nv l ih =>
        intro hl d
        rw [List.foldl_cons, List.foldl_cons, this nv (hl nv (by simp)), ih fun x hx => hl x (by simp [hx])]
    rw [h2 _ (fun _ hx => hx)]
    have := foldl_set_append Prod.fst Prod.snd (rowProps cells) [] (by simpa [Dict.keys] using hk)
    simpa using this
  · intro v hv
    obtain ⟨nv, hnv, rfl⟩ := List.mem_map.mp hv
    unfold propText
    rw [List.mem_append, List.mem_cons, not_or, not_or]
    refine ⟨(hname nv hnv).2, by decide, ?_⟩
    intro hc
    rcases mem_joinStr hc with hc | ⟨x, hx, hc⟩
    · simp at hc
    · exact (h.value nv hnv x hx).2 hc
  · intro hl
    have := List.mem_of_getLast? hl
    obtain ⟨nv, _, e⟩ := List.mem_map.mp this
    unfold propText at e
    simp at e

/-- Non-vacuity of `c34_round_trip_partial`: a list, a NULL and a string column. -/
example : PlainCells [("lang".toList, .list [some "de".toList, none, some "en".toList]), ("lic".toList, .null),
    ("src".toList, .str "a:b".toList)] ∧
    keyText [("lang".toList, .list [some "de".toList, none, some "en".toList]), ("lic".toList, .null),
      ("src".toList, .str "a:b".toList)] = "lang:de,en;src:a:b".toList := by
  refine ⟨⟨by decide, by decide, by decide, by decide⟩, by decide⟩

/-- C34 fails for values with separators: one value with a comma reads back as two values, a value with a semicolon
loses everything after it, and a list with one empty value as the empty list. -/
theorem c34_separators :
    parseKey (keyText [("lic".toList, .str "a,b".toList)]) = [("lic".toList, ["a".toList, "b".toList])] ∧
    parseKey (keyText [("lic".toList, .str "a;b".toList)]) = [("lic".toList, ["a".toList])] ∧
    parseKey (keyText [("lic".toList, .str [])]) = [("lic".toList, [])] ∧
    keyText [("lic".toList, .str "a;lang:de".toList)] =
      keyText [("lic".toList, .str "a".toList), ("lang".toList, .str "de".toList)] := by
  refine ⟨by decide, by decide, by decide, by decide⟩

/-! ### C33: what an index says -/

section Describes

variable {K : Type} [DecidableEq K]

/-- An interval under a key: key, dataset, file, interval. -/
abbrev Item (K : Type) := K × Nat × Nat × Rng

/-- The intervals listed for a key, dataset and file, in order. -/
def rangesOf (items : List (Item K)) (k : K) (d f : Nat) : List Rng :=
  (items.filter fun it => decide (it.1 = k ∧ it.2.1 = d ∧ it.2.2.1 = f)).map fun it => it.2.2.2

/-- Look up a file of a dataset under a key. -/
def idxLook (idx : Dict K Entries) (k : K) (d f : Nat) : Option (List Rng) := (idx.get? k).bind fun e => e.look d f

/-- The index lists exactly the given intervals: under every key, dataset and file those given for them, in the given
order, and it has no further keys, datasets or files. -/
structure Describes (idx : Dict K Entries) (items : List (Item K)) : Prop where
  nodup : idx.keys.Nodup
  wf : ∀ ke ∈ idx, EntriesWF ke.2
  look : ∀ k d f, idxLook idx k d f = if rangesOf items k d f = [] then none else some (rangesOf items k d f)
  ds : ∀ k d, (∃ e, idx.get? k = some e ∧ d ∈ e.keys) ↔ ∃ it ∈ items, it.1 = k ∧ it.2.1 = d
  key : ∀ k, k ∈ idx.keys ↔ ∃ it ∈ items, it.1 = k

theorem rangesOf_append (xs ys : List (Item K)) (k : K) (d f : Nat) :
    rangesOf (xs ++ ys) k d f = rangesOf xs k d f ++ rangesOf ys k d f := by
  simp [rangesOf]

theorem describes_nil : Describes ([] : Dict K Entries) [] :=
  ⟨by simp [Dict.keys], by simp, by intro k d f; rfl, by simp, by simp [Dict.keys]⟩

/-- A value merged into an optional old value. -/
def optMerge {β γ : Type} (g : Option β → γ → β) (o : Option β) : Option γ → Option β
  | none => o
  | some v => some (g o v)

/-- Lookups in a dictionary into which another one was folded. -/
theorem get?_foldl_upsert {α β γ : Type} [DecidableEq α] (g : Option β → γ → β) (s : Dict α γ) (hs : s.keys.Nodup)
    (t : Dict α β) (k : α) :
    (s.foldl (fun (t : Dict α β) kv => t.upsert kv.1 fun o => g o kv.2) t).get? k =
      optMerge g (t.get? k) (s.get? k) := by
  induction s generalizing t with
  | nil => rfl
  | cons kv s ih =>
    obtain ⟨a, v⟩ := kv
    simp only [Dict.keys, List.map_cons, List.nodup_cons] at hs
    rw [List.foldl_cons, ih hs.2, Dict.get?_cons]
    by_cases h : a = k
    · subst h
      have : Dict.get? s a = none := (Dict.get?_eq_none_iff s a).mpr hs.1
      rw [this, if_pos rfl]
      simp [optMerge]
    · rw [if_neg h]
      dsimp only
      rw [Dict.get?_upsert_ne _ h]

theorem keys_foldl_upsert {α β γ : Type} [DecidableEq α] (g : Option β → γ → β) (s : Dict α γ) (t : Dict α β) (k : α) :
    k ∈ (s.foldl (fun t kv => t.upsert kv.1 fun o => g o kv.2) t).keys ↔ k ∈ t.keys ∨ k ∈ s.keys := by
  induction s generalizing t with
  | nil => simp [Dict.keys]
  | cons kv s ih =>
    rw [List.foldl_cons, ih, Dict.mem_keys_upsert]
    simp only [Dict.keys, List.map_cons, List.mem_cons]
    tauto

theorem nodup_foldl_upsert {α β γ : Type} [DecidableEq α] (g : Option β → γ → β) (s : Dict α γ) (t : Dict α β)
    (ht : t.keys.Nodup) : (s.foldl (fun t kv => t.upsert kv.1 fun o => g o kv.2) t).keys.Nodup := by
  induction s generalizing t with
  | nil => exact ht
  | cons kv s ih => exact ih _ (Dict.nodup_keys_upsert ht _ _)

theorem look_mergeDsMaps (t s : Entries) (hs : EntriesWF s) (d f : Nat) :
    (mergeDsMaps t s).look d f = optMerge mergeIv (t.look d f) (s.look d f) := by
  unfold Entries.look mergeDsMaps
  rw [get?_foldl_upsert (fun o v => mergeFileMaps (o.getD []) v) s hs.1]
  cases h1 : s.get? d with
  | none => rfl
  | some fs =>
    simp only [Option.bind_some]
    unfold mergeFileMaps
    rw [optMerge, Option.bind_some, get?_foldl_upsert mergeIv fs (hs.2 _ (Dict.mem_of_get? h1))]
    cases Dict.get? t d with
    | none => simp
    | some fs' => rfl

theorem wf_mergeDsMaps (t s : Entries) (ht : EntriesWF t) (hs : s.keys.Nodup) : EntriesWF (mergeDsMaps t s) := by
  have h1 : (mergeDsMaps t s).keys.Nodup := nodup_foldl_upsert (fun o v => mergeFileMaps (o.getD []) v) s t ht.1
  refine ⟨h1, ?_⟩
  intro df hdf
  have hg := Dict.get?_of_mem h1 hdf
  unfold mergeDsMaps at hg
  rw [get?_foldl_upsert (fun o v => mergeFileMaps (o.getD []) v) s hs] at hg
  cases hsd : Dict.get? s df.1 with
  | none => rw [hsd] at hg; exact ht.2 _ (Dict.mem_of_get? hg)
  | some fs =>
    rw [hsd, optMerge] at hg
    simp only [Option.some.injEq] at hg
    rw [← hg]
    apply nodup_foldl_upsert mergeIv
    cases ho : t.get? df.1 with
    | none => simp [Dict.keys]
    | some fs => exact ht.2 _ (Dict.mem_of_get? ho)

theorem get?_mergeIndex (t s : CppIndex) (hs : s.keys.Nodup) (k : PyStr) :
    (mergeIndex t s).get? k = optMerge (fun o v => mergeDsMaps (o.getD []) v) (t.get? k) (s.get? k) :=
  get?_foldl_upsert (fun o v => mergeDsMaps (o.getD []) v) s hs t k

theorem wf_of_get? {idx : Dict K Entries} (h : ∀ ke ∈ idx, EntriesWF ke.2) (k : K) : EntriesWF ((idx.get? k).getD []) := by
  cases ho : idx.get? k with
  | none => exact ⟨by simp [Dict.keys], by simp⟩
  | some e => exact h _ (Dict.mem_of_get? ho)

/-- Merging two sorted lists that follow each other appends them. -/
theorem stdMerge_append (a b : List Rng) (h : ∀ x ∈ a, ∀ y ∈ b, rngLt y x = false) : stdMerge a b = a ++ b := by
  induction a with
  | nil => rfl
  | cons x a ih =>
    have ih := ih fun z hz => h z (by simp [hz])
    rw [stdMerge]
    cases b with
    | nil => simp [stdMerge.go]
    | cons y b =>
      rw [stdMerge.go, if_neg (by rw [h x (by simp) y (by simp)]; simp), ih]
      rfl

/-- The intervals of each file appear in increasing order. -/
def SortedItems (items : List (Item K)) : Prop :=
  ∀ k d f, (rangesOf items k d f).Pairwise fun a b => rngLt b a = false

theorem SortedItems.left {xs ys : List (Item K)} (h : SortedItems (xs ++ ys)) : SortedItems xs := by
  intro k d f
  have := h k d f
  rw [rangesOf_append] at this
  exact (List.pairwise_append.mp this).1

theorem SortedItems.right {xs ys : List (Item K)} (h : SortedItems (xs ++ ys)) : SortedItems ys := by
  intro k d f
  have := h k d f
  rw [rangesOf_append] at this
  exact (List.pairwise_append.mp this).2.1

theorem describes_merge {a b : CppIndex} {xs ys : List (Item PyStr)} (ha : Describes a xs) (hb : Describes b ys)
    (hs : SortedItems (xs ++ ys)) : Describes (mergeIndex a b) (xs ++ ys) := by
  have hn : (mergeIndex a b).keys.Nodup := nodup_foldl_upsert (fun o v => mergeDsMaps (o.getD []) v) b a ha.nodup
  have hkeys : ∀ k, k ∈ (mergeIndex a b).keys ↔ k ∈ a.keys ∨ k ∈ b.keys :=
    keys_foldl_upsert (fun o v => mergeDsMaps (o.getD []) v) b a
  refine ⟨hn, ?_, ?_, ?_, ?_⟩
  · intro ke hke
    have hg := Dict.get?_of_mem hn hke
    rw [get?_mergeIndex a b hb.nodup] at hg
    cases he : Dict.get? b ke.1 with
    | none => rw [he] at hg; exact ha.wf _ (Dict.mem_of_get? hg)
    | some e =>
      rw [he, optMerge] at hg
      simp only [Option.some.injEq] at hg
      rw [← hg]
      exact wf_mergeDsMaps _ _ (wf_of_get? ha.wf _) (hb.wf _ (Dict.mem_of_get? he)).1
  · intro k d f
    have hm : idxLook (mergeIndex a b) k d f = optMerge mergeIv (idxLook a k d f) (idxLook b k d f) := by
      unfold idxLook
      rw [get?_mergeIndex a b hb.nodup]
      cases h1 : b.get? k with
      | none => rfl
      | some e =>
        rw [optMerge, Option.bind_some, Option.bind_some, look_mergeDsMaps _ _ (hb.wf _ (Dict.mem_of_get? h1))]
        cases a.get? k with
        | none => rfl
        | some e' => rfl
    have hs' := hs k d f
    rw [hm, hb.look, ha.look, rangesOf_append]
    rw [rangesOf_append, List.pairwise_append] at hs'
    generalize rangesOf xs k d f = X at *
    generalize rangesOf ys k d f = Y at *
    by_cases hY : Y = []
    · subst hY; simp [optMerge]
    · have hXY : X ++ Y ≠ [] := by simp [hY]
      rw [if_neg hY, if_neg hXY, optMerge]
      by_cases hX : X = []
      · subst hX; simp [mergeIv]
      · rw [if_neg hX, mergeIv]
        rw [if_neg (by simpa using hX), stdMerge_append X Y hs'.2.2]
  · intro k d
    have h1 : (∃ e, (mergeIndex a b).get? k = some e ∧ d ∈ e.keys) ↔
        (∃ e, a.get? k = some e ∧ d ∈ e.keys) ∨ ∃ e, b.get? k = some e ∧ d ∈ e.keys := by
      rw [get?_mergeIndex a b hb.nodup]
      have hk2 : ∀ t s : Entries, d ∈ (mergeDsMaps t s).keys ↔ d ∈ t.keys ∨ d ∈ s.keys :=
        fun t s => keys_foldl_upsert (fun o v => mergeFileMaps (o.getD []) v) s t d
      cases h1 : b.get? k with
      | none => simp [optMerge]
      | some e =>
        simp only [optMerge, Option.some.injEq, exists_eq_left']
        rw [hk2]
        cases a.get? k with
        | none => simp [Dict.keys]
        | some e' => simp
    rw [h1, ha.ds, hb.ds]
    simp only [List.mem_append, or_and_right, exists_or]
  · intro k
    rw [hkeys, ha.key, hb.key]
    simp only [List.mem_append, or_and_right, exists_or]

/-- Adding one interval. -/
theorem describes_push {idx : CppIndex} {xs : List (Item PyStr)} (h : Describes idx xs) (key : PyStr) (d f : Nat) (r : Rng) :
    Describes (pushInterval idx key d f r) (xs ++ [(key, d, f, r)]) := by
  have hwf : ∀ e : Entries, EntriesWF e →
      EntriesWF (e.upsert d fun fs => (fs.getD []).upsert f fun l => l.getD [] ++ [r]) := by
    intro e he
    have hn := Dict.nodup_keys_upsert he.1 d (fun fs => (fs.getD []).upsert f fun l => l.getD [] ++ [r])
    refine ⟨hn, ?_⟩
    intro df hdf
    have hg := Dict.get?_of_mem hn hdf
    rw [Dict.get?_upsert] at hg
    split at hg
    · simp only [Option.some.injEq] at hg
      rw [← hg]
      apply Dict.nodup_keys_upsert
      cases ho : e.get? d with
      | none => simp [Dict.keys]
      | some fs => exact he.2 _ (Dict.mem_of_get? ho)
    · exact he.2 _ (Dict.mem_of_get? hg)
  have hlook : ∀ (e : Entries) (d' f' : Nat),
      Entries.look (e.upsert d fun fs => (fs.getD []).upsert f fun l => l.getD [] ++ [r]) d' f' =
        if d = d' ∧ f = f' then some ((e.look d' f').getD [] ++ [r]) else e.look d' f' := by
    intro e d' f'
    unfold Entries.look
    rw [Dict.get?_upsert]
    by_cases hd : d = d'
    · subst hd
      simp only [if_true, Option.bind_some, true_and]
      rw [Dict.get?_upsert]
      by_cases hf : f = f'
      · subst hf
        simp only [if_true]
        cases e.get? d <;> rfl
      · simp only [if_neg hf]
        cases e.get? d <;> rfl
    · simp [hd]
  have hn : (pushInterval idx key d f r).keys.Nodup := Dict.nodup_keys_upsert h.nodup _ _
  refine ⟨hn, ?_, ?_, ?_, ?_⟩
  · intro ke hke
    have hg := Dict.get?_of_mem hn hke
    unfold pushInterval at hg
    rw [Dict.get?_upsert] at hg
    split at hg
    · simp only [Option.some.injEq] at hg
      rw [← hg]
      exact hwf _ (wf_of_get? h.wf _)
    · exact h.wf _ (Dict.mem_of_get? hg)
  · intro k d' f'
    have hm : idxLook (pushInterval idx key d f r) k d' f' =
        if key = k ∧ d = d' ∧ f = f' then some ((idxLook idx k d' f').getD [] ++ [r]) else idxLook idx k d' f' := by
      unfold idxLook pushInterval
      rw [Dict.get?_upsert]
      by_cases hk : key = k
      · subst hk
        simp only [if_true, Option.bind_some, true_and]
        rw [hlook]
        cases idx.get? key with
        | none => rfl
        | some e => rfl
      · simp [hk]
    rw [hm, rangesOf_append, h.look]
    have hone : rangesOf [(key, d, f, r)] k d' f' = if key = k ∧ d = d' ∧ f = f' then [r] else [] := by
      unfold rangesOf
      by_cases hc : key = k ∧ d = d' ∧ f = f'
      · simp [hc]
      · rw [if_neg hc, List.filter_cons_of_neg (by simpa using hc)]; rfl
    rw [hone]
    by_cases hc : key = k ∧ d = d' ∧ f = f'
    · have hne : rangesOf xs k d' f' ++ [r] ≠ [] := by simp
      rw [if_pos hc, if_pos hc, if_neg hne]
      by_cases hX : rangesOf xs k d' f' = []
      · simp [hX]
      · simp [hX]
    · rw [if_neg hc, if_neg hc, List.append_nil]
  · intro k d'
    have h1 : (∃ e, (pushInterval idx key d f r).get? k = some e ∧ d' ∈ e.keys) ↔
        (∃ e, idx.get? k = some e ∧ d' ∈ e.keys) ∨ (key = k ∧ d = d') := by
      unfold pushInterval
      rw [Dict.get?_upsert]
      by_cases hk : key = k
      · subst hk
        simp only [if_true, Option.some.injEq, exists_eq_left', true_and]
        rw [Dict.mem_keys_upsert]
        cases idx.get? key with
        | none => simp [Dict.keys, eq_comm]
        | some e => simp [or_comm, eq_comm]
      · simp [hk]
    rw [h1, h.ds]
    simp only [List.mem_append, List.mem_singleton, or_and_right, exists_or, exists_eq_left]
  · intro k
    unfold pushInterval
    rw [Dict.mem_keys_upsert, h.key]
    simp only [List.mem_append, List.mem_singleton, or_and_right, exists_or, exists_eq_left]
    constructor
    · rintro (h | h)
      · exact Or.inr h.symm
      · exact Or.inl h
    · rintro (h | h)
      · exact Or.inr h
      · exact Or.inl h.symm

/-- Two indices that differ at most in the order in which their maps are iterated. -/
structure SameIndex (a b : Dict K Entries) : Prop where
  nodup : b.keys.Nodup
  wf : ∀ ke ∈ b, EntriesWF ke.2
  keys : ∀ k, k ∈ a.keys ↔ k ∈ b.keys
  same : ∀ k e e', a.get? k = some e → b.get? k = some e' → SameEntries e e'

theorem Describes.reorder {a b : Dict K Entries} {xs : List (Item K)} (h : Describes a xs) (hs : SameIndex a b) :
    Describes b xs := by
  have hnone : ∀ k, a.get? k = none ↔ b.get? k = none := by
    intro k; rw [Dict.get?_eq_none_iff, Dict.get?_eq_none_iff, hs.keys]
  refine ⟨hs.nodup, hs.wf, ?_, ?_, ?_⟩
  · intro k d f
    rw [← h.look]
    unfold idxLook
    cases ha : a.get? k with
    | none => rw [(hnone k).mp ha]
    | some e =>
      cases hb : b.get? k with
      | none => rw [(hnone k).mpr hb] at ha; simp at ha
      | some e' => exact ((hs.same k e e' ha hb).1 d f).symm
  · intro k d
    rw [← h.ds]
    cases ha : a.get? k with
    | none => rw [(hnone k).mp ha]
    | some e =>
      cases hb : b.get? k with
      | none => rw [(hnone k).mpr hb] at ha; simp at ha
      | some e' =>
        simp only [Option.some.injEq, exists_eq_left']
        exact ((hs.same k e e' ha hb).2 d).symm
  · intro k; rw [← hs.keys, h.key]

/-- The Python dictionary, when the text forms of different keys give different Python keys. -/
theorem describes_py (mk : PyStr → K) {idx : CppIndex} {xs : List (Item PyStr)} (h : Describes idx xs)
    (hinj : ∀ k ∈ idx.keys, ∀ k' ∈ idx.keys, mk k = mk k' → k = k') :
    Describes (buildPyIndex mk idx) (xs.map fun it => (mk it.1, it.2)) := by
  have hnd : (idx.map fun ke => mk ke.1).Nodup := by
    have : idx.map (fun ke => mk ke.1) = idx.keys.map mk := by simp [Dict.keys, Function.comp_def]
    rw [this]
    exact List.Nodup.map_on (fun a ha b hb e => hinj a ha b hb e) h.nodup
  have hpy : buildPyIndex mk idx = idx.map fun ke => (mk ke.1, ke.2) := by
    have := foldl_set_append (fun ke : PyStr × Entries => mk ke.1) Prod.snd idx [] (by simpa [Dict.keys] using hnd)
    simpa [buildPyIndex] using this
  have hkeys : (buildPyIndex mk idx).keys = idx.keys.map mk := by
    rw [hpy]; simp [Dict.keys, Function.comp_def]
  have hn : (buildPyIndex mk idx).keys.Nodup := by
    rw [hpy]; simpa [Dict.keys, Function.comp_def] using hnd
  have hget : ∀ k ∈ idx.keys, (buildPyIndex mk idx).get? (mk k) = idx.get? k := by
    intro k hk
    obtain ⟨e, he⟩ := (Dict.mem_keys_iff idx k).mp hk
    rw [he]
    apply Dict.get?_of_mem hn
    rw [hpy]
    exact List.mem_map.mpr ⟨(k, e), Dict.mem_of_get? he, rfl⟩
  have hit : ∀ it ∈ xs, it.1 ∈ idx.keys := fun it hit => (h.key it.1).mpr ⟨it, hit, rfl⟩
  refine ⟨hn, ?_, ?_, ?_, ?_⟩
  · intro ke hke
    rw [hpy] at hke
    obtain ⟨ke', hke', rfl⟩ := List.mem_map.mp hke
    exact h.wf ke' hke'
  · intro c d f
    by_cases hc : c ∈ (buildPyIndex mk idx).keys
    · rw [hkeys] at hc
      obtain ⟨k, hk, rfl⟩ := List.mem_map.mp hc
      have hr : rangesOf (xs.map fun it => (mk it.1, it.2)) (mk k) d f = rangesOf xs k d f := by
        unfold rangesOf
        rw [List.filter_map, List.map_map]
        have : xs.filter ((fun it : Item K => decide (it.1 = mk k ∧ it.2.1 = d ∧ it.2.2.1 = f)) ∘ fun it => (mk it.1, it.2)) =
            xs.filter fun it => decide (it.1 = k ∧ it.2.1 = d ∧ it.2.2.1 = f) := by
          apply List.filter_congr
          intro it hi
          simp only [Function.comp_apply, decide_eq_decide]
          constructor
          · rintro ⟨h1, h2⟩; exact ⟨hinj _ (hit it hi) _ hk h1, h2⟩
          · rintro ⟨h1, h2⟩; exact ⟨by rw [h1], h2⟩
        rw [this]
        rfl
      rw [hr, ← h.look]
      unfold idxLook
      rw [hget k hk]
    · have hnone := (Dict.get?_eq_none_iff _ c).mpr hc
      have hr : rangesOf (xs.map fun it => (mk it.1, it.2)) c d f = [] := by
        unfold rangesOf
        rw [List.map_eq_nil_iff, List.filter_eq_nil_iff]
        intro it hi
        obtain ⟨it', hi', rfl⟩ := List.mem_map.mp hi
        simp only [decide_eq_true_eq, not_and]
        intro e
        exfalso
        apply hc
        rw [hkeys, ← e]
        exact List.mem_map_of_mem (hit it' hi')
      rw [hr, if_pos rfl]
      unfold idxLook
      rw [hnone]; rfl
  · intro c d
    constructor
    · rintro ⟨e, he, hd⟩
      have hc : c ∈ (buildPyIndex mk idx).keys := (Dict.mem_keys_iff _ c).mpr ⟨e, he⟩
      rw [hkeys] at hc
      obtain ⟨k, hk, rfl⟩ := List.mem_map.mp hc
      rw [hget k hk] at he
      obtain ⟨it, hi, h1, h2⟩ := (h.ds k d).mp ⟨e, he, hd⟩
      exact ⟨_, List.mem_map.mpr ⟨it, hi, rfl⟩, by simp only; rw [h1], h2⟩
    · rintro ⟨it, hi, h1, h2⟩
      obtain ⟨it', hi', rfl⟩ := List.mem_map.mp hi
      obtain ⟨e, he, hd⟩ := (h.ds it'.1 d).mpr ⟨it', hi', rfl, h2⟩
      refine ⟨e, ?_, hd⟩
      rw [← h1]
      simp only
      rw [hget _ (hit it' hi')]
      exact he
  · intro c
    rw [hkeys, List.mem_map]
    constructor
    · rintro ⟨k, hk, rfl⟩
      obtain ⟨it, hi, h1⟩ := (h.key k).mp hk
      exact ⟨_, List.mem_map.mpr ⟨it, hi, rfl⟩, by simp only; rw [h1]⟩
    · rintro ⟨it, hi, h1⟩
      obtain ⟨it', hi', rfl⟩ := List.mem_map.mp hi
      exact ⟨it'.1, hit it' hi', h1⟩

end Describes

/-! ### Threads and batches -/

/-- What a row contributes. -/
def TRow.item (r : TRow) : Item PyStr := (keyText r.cells, r.ds, r.file, (r.start, r.stop))

theorem foldlM_processRow_ok (rows : List TRow) (hv : ∀ r ∈ rows, r.start ≤ r.stop) (idx : CppIndex)
    (xs : List (Item PyStr)) (h : Describes idx xs) :
    ∃ idx', rows.foldlM processRow idx = .ok idx' ∧ Describes idx' (xs ++ rows.map TRow.item) := by
  induction rows generalizing idx xs with
  | nil => exact ⟨idx, rfl, by simpa using h⟩
  | cons r rows ih =>
    have hr : ¬ r.stop < r.start := by have := hv r (by simp); omega
    obtain ⟨idx', h1, h2⟩ := ih (fun x hx => hv x (by simp [hx])) _ _
      (describes_push h (keyText r.cells) r.ds r.file (r.start, r.stop))
    refine ⟨idx', ?_, ?_⟩
    · rw [List.foldlM_cons, processRow, if_neg hr]; exact h1
    · simpa [TRow.item] using h2

theorem foldlM_processRow_err (rows : List TRow) (hv : ∃ r ∈ rows, r.stop < r.start) (idx : CppIndex) :
    rows.foldlM processRow idx = .error .runtimeError := by
  induction rows generalizing idx with
  | nil => simp at hv
  | cons r rows ih =>
    rw [List.foldlM_cons, processRow]
    by_cases hr : r.stop < r.start
    · rw [if_pos hr]; rfl
    · rw [if_neg hr]
      obtain ⟨x, hx, hlt⟩ := hv
      rcases List.mem_cons.mp hx with rfl | hx
      · exact absurd hlt hr
      · exact ih ⟨x, hx, hlt⟩ _

theorem foldlM_batches (bs : List (List TRow)) (idx : CppIndex) :
    bs.foldlM processBatch idx = bs.flatten.foldlM processRow idx := by
  induction bs generalizing idx with
  | nil => rfl
  | cons b bs ih =>
    rw [List.foldlM_cons, List.flatten_cons, List.foldlM_append]
    unfold processBatch
    cases b.foldlM processRow idx with
    | error e => rfl
    | ok i => exact ih i

theorem take_range_segments {α : Type} (l : List α) (p n : Nat) :
    (List.range n).flatMap (fun t => (l.drop (t * p)).take p) = l.take (n * p) := by
  induction n with
  | zero => simp
  | succ n ih =>
    rw [List.range_succ, List.flatMap_append, ih]
    simp only [List.flatMap_cons, List.flatMap_nil, List.append_nil]
    rw [Nat.succ_mul, List.take_add]

theorem threadBatches_eq (n : Nat) (batches : List (List TRow)) (t : Nat) :
    threadBatches n batches t =
      (batches.drop (t * ((batches.length + n - 1) / n))).take ((batches.length + n - 1) / n) := by
  unfold threadBatches
  dsimp only
  set p := (batches.length + n - 1) / n
  rcases Nat.le_total (t * p + p) batches.length with h | h
  · rw [Nat.min_eq_left h, Nat.add_sub_cancel_left]
  · rw [Nat.min_eq_right h, List.take_of_length_le (by simp), List.take_of_length_le (by simp; omega)]

/-- The threads process all batches, in order. -/
theorem threadBatches_all (n : Nat) (hn : 0 < n) (batches : List (List TRow)) :
    (List.range n).flatMap (threadBatches n batches) = batches := by
  have : threadBatches n batches = fun t =>
      (batches.drop (t * ((batches.length + n - 1) / n))).take ((batches.length + n - 1) / n) :=
    funext (threadBatches_eq n batches)
  rw [this, take_range_segments, List.take_of_length_le]
  have h1 := Nat.div_add_mod (batches.length + n - 1) n
  have h2 := Nat.mod_lt (batches.length + n - 1) hn
  omega

theorem threads_ok (n : Nat) (ts : List Nat) (batches : List (List TRow))
    (hv : ∀ t ∈ ts, ∀ r ∈ (threadBatches n batches t).flatten, r.start ≤ r.stop) :
    ∃ l, ts.mapM (threadIndex n batches) = .ok l ∧
      List.Forall₂ (fun idx t => Describes idx ((threadBatches n batches t).flatten.map TRow.item)) l ts := by
  induction ts with
  | nil => exact ⟨[], rfl, List.Forall₂.nil⟩
  | cons t ts ih =>
    obtain ⟨l, h1, h2⟩ := ih fun t ht => hv t (by simp [ht])
    obtain ⟨i, h3, h4⟩ := foldlM_processRow_ok _ (hv t (by simp)) [] [] describes_nil
    refine ⟨i :: l, ?_, List.Forall₂.cons (by simpa using h4) h2⟩
    rw [List.mapM_cons, threadIndex, foldlM_batches, h3, h1]
    rfl

theorem threads_err (n : Nat) (ts : List Nat) (batches : List (List TRow))
    (hv : ∃ t ∈ ts, ∃ r ∈ (threadBatches n batches t).flatten, r.stop < r.start) :
    ts.mapM (threadIndex n batches) = .error .runtimeError := by
  induction ts with
  | nil => simp at hv
  | cons t ts ih =>
    rw [List.mapM_cons, threadIndex, foldlM_batches]
    by_cases hb : ∃ r ∈ (threadBatches n batches t).flatten, r.stop < r.start
    · rw [foldlM_processRow_err _ hb]; rfl
    · push Not at hb
      obtain ⟨i, h3, _⟩ := foldlM_processRow_ok _ hb [] [] describes_nil
      obtain ⟨t', ht', hr⟩ := hv
      rcases List.mem_cons.mp ht' with rfl | ht'
      · obtain ⟨r, hr, hlt⟩ := hr
        have := hb r hr; omega
      · rw [h3, ih ⟨t', ht', hr⟩]; rfl

theorem merge_fold (reorder : CppIndex → CppIndex) (hre : ∀ i xs, Describes i xs → SameIndex i (reorder i))
    (items : Nat → List (Item PyStr)) (l : List CppIndex) (ts : List Nat)
    (h : List.Forall₂ (fun idx t => Describes idx (items t)) l ts) (acc : CppIndex) (xs : List (Item PyStr))
    (hacc : Describes acc xs) (hs : SortedItems (xs ++ ts.flatMap items)) :
    Describes (l.foldl (fun t s => mergeIndex t (reorder s)) acc) (xs ++ ts.flatMap items) := by
  induction h generalizing acc xs with
  | nil => simpa using hacc
  | @cons i t l ts hi _ ih =>
    rw [List.flatMap_cons, ← List.append_assoc] at hs ⊢
    exact ih _ _ (describes_merge hacc (hi.reorder (hre _ _ hi)) hs.left) hs

theorem describes_mergeIndices (reorder : CppIndex → CppIndex) (hre : ∀ i xs, Describes i xs → SameIndex i (reorder i))
    (items : Nat → List (Item PyStr)) (l : List CppIndex) (ts : List Nat)
    (h : List.Forall₂ (fun idx t => Describes idx (items t)) l ts) (hs : SortedItems (ts.flatMap items)) :
    Describes (mergeIndices reorder l) (ts.flatMap items) := by
  unfold mergeIndices
  split
  · cases h with
    | cons h1 h2 => cases h2; simpa using h1
  · have := merge_fold reorder hre items l ts h [] [] describes_nil (by simpa using hs)
    simpa using this

/-! ### The property combination as a Python key -/

/-- The canonical form of a mixture key with distinct property names. -/
def toCKey (a : RawKey) (ha : a.keys.Nodup) : CKey :=
  ⟨a.canon, by
    obtain ⟨c, hc, _⟩ := c26_canonical_form a ha
    have : a.canon = c.1 := by rw [(RawKey.canon_eq_iff ha c.2.1).mpr hc, c.2.2]
    rw [this]; exact c.2⟩

theorem toCKey_eq_iff {a b : RawKey} (ha : a.keys.Nodup) (hb : b.keys.Nodup) :
    toCKey a ha = toCKey b hb ↔ SameContents a b := by
  rw [← RawKey.canon_eq_iff ha hb]
  exact Subtype.ext_iff

theorem parseKey_nodup (s : PyStr) : (parseKey s).keys.Nodup := by
  unfold parseKey
  have : ∀ (l : List PyStr) (d : RawKey), d.keys.Nodup → (l.foldl parsePiece d).keys.Nodup := by
    intro l
    induction l with
    | nil => intro d h; exact h
    | cons p l ih =>
      intro d h
      rw [List.foldl_cons]
      apply ih
      unfold parsePiece
      split
      · exact h
      · exact Dict.nodup_keys_upsert h _ _
  exact this _ [] (by simp [Dict.keys])

/-- `MixtureKey(string_key_to_property_dict(key))` (chunker.cpp:590), up to contents. -/
def ckeyOf (s : PyStr) : CKey := toCKey (parseKey s) (parseKey_nodup s)

theorem rowProps_nodup {cells : List (PyStr × Cell)} (h : PlainCells cells) : (rowProps cells).keys.Nodup :=
  h.names.sublist (rowProps_keys_sublist cells)

/-- **C33, threads**: for any number of threads, any split of the table into record batches and any iteration order of
the hash maps, the merged index lists exactly the table's intervals, under the key texts of their rows. -/
theorem c33_cpp_index (reorder : CppIndex → CppIndex) (hre : ∀ i xs, Describes i xs → SameIndex i (reorder i))
    (batches : List (List TRow)) (n : Nat) (hn : 0 < n) (hv : ∀ r ∈ batches.flatten, r.start ≤ r.stop)
    (hs : SortedItems (batches.flatten.map TRow.item)) :
    ∃ l, threadIndices n batches = .ok l ∧ Describes (mergeIndices reorder l) (batches.flatten.map TRow.item) := by
  have hall := threadBatches_all n hn batches
  have hflat : (List.range n).flatMap (fun t => (threadBatches n batches t).flatten.map TRow.item) =
      batches.flatten.map TRow.item := by
    conv_rhs => rw [← hall]
    simp [List.flatMap, List.map_flatten, List.flatten_flatten, Function.comp_def]
  obtain ⟨l, h1, h2⟩ := threads_ok n (List.range n) batches (by
    intro t ht r hr
    apply hv
    rw [← hall]
    obtain ⟨b, hb, hrb⟩ := List.mem_flatten.mp hr
    exact List.mem_flatten.mpr ⟨b, List.mem_flatMap.mpr ⟨t, ht, hb⟩, hrb⟩)
  refine ⟨l, h1, ?_⟩
  have := describes_mergeIndices reorder hre (fun t => (threadBatches n batches t).flatten.map TRow.item) l
    (List.range n) h2 (by rw [hflat]; exact hs)
  rwa [hflat] at this

/-- **C33, errors**: an interval that ends before it starts, or a negative number of threads, is rejected, whatever the
threads and batches. -/
theorem c33_rejects {K : Type} [DecidableEq K] (reorder : CppIndex → CppIndex) (mk : PyStr → K)
    (batches : List (List TRow)) (n : Int) (h : n < 0 ∨ ∃ r ∈ batches.flatten, r.stop < r.start) :
    createChunkerIndex reorder mk batches n = .error .runtimeError := by
  unfold createChunkerIndex
  by_cases hn : n < 0
  · rw [if_pos hn]
  · rw [if_neg hn]
    obtain ⟨r, hr, hlt⟩ := h.resolve_left hn
    have hpos : 0 < (max n 1).toNat := by omega
    have hall := threadBatches_all _ hpos batches
    rw [← hall] at hr
    obtain ⟨b, hb, hrb⟩ := List.mem_flatten.mp hr
    obtain ⟨t, ht, htb⟩ := List.mem_flatMap.mp hb
    have : threadIndices (max n 1).toNat batches = .error .runtimeError :=
      threads_err _ _ batches ⟨t, ht, r, List.mem_flatten.mpr ⟨b, htb, hrb⟩, hlt⟩
    rw [this]; rfl

/-- Rows of one file with the same properties come in the order of their intervals (the query's `ORDER BY`, C32). -/
def TableSorted (rows : List TRow) : Prop :=
  rows.Pairwise fun a b => a.cells = b.cells → a.ds = b.ds → a.file = b.file → a.start < b.start

open Classical in
/-- The table's intervals of a file for a property combination, in table order. -/
noncomputable def tableRanges (rows : List TRow) (props : RawKey) (d f : Nat) : List Rng :=
  (rows.filter fun r => decide (SameContents (rowProps r.cells) props ∧ r.ds = d ∧ r.file = f)).map
    fun r => (r.start, r.stop)

/-- **C33**: for any number of threads, any batches and any iteration order of the hash maps, the Python index contains
exactly the table's intervals, each under the combination of its row's non-null property values, sorted per file -
provided that names and values are free of the separators and that rows with the same property contents list the
values in the same order. -/
theorem c33_index_partial (reorder : CppIndex → CppIndex) (hre : ∀ i xs, Describes i xs → SameIndex i (reorder i))
    (batches : List (List TRow)) (n : Int) (hn : 0 ≤ n) (hv : ∀ r ∈ batches.flatten, r.start ≤ r.stop)
    (hplain : ∀ r ∈ batches.flatten, PlainCells r.cells)
    (hcoh : ∀ r ∈ batches.flatten, ∀ r' ∈ batches.flatten,
      SameContents (rowProps r.cells) (rowProps r'.cells) → r.cells = r'.cells)
    (hs : TableSorted batches.flatten) :
    ∃ idx, createChunkerIndex reorder ckeyOf batches n = .ok idx ∧
      idx.keys.Nodup ∧
      (∀ ke ∈ idx, EntriesWF ke.2) ∧
      (∀ c : CKey, c ∈ idx.keys ↔ ∃ r ∈ batches.flatten, SameContents (rowProps r.cells) c.1) ∧
      ∀ (c : CKey) (d f : Nat), idxLook idx c d f =
        if tableRanges batches.flatten c.1 d f = [] then none else some (tableRanges batches.flatten c.1 d f) := by
  have hinj : ∀ r ∈ batches.flatten, ∀ r' ∈ batches.flatten, ckeyOf (keyText r.cells) = ckeyOf (keyText r'.cells) →
      r.cells = r'.cells := by
    intro r hr r' hr' e
    unfold ckeyOf at e
    rw [toCKey_eq_iff, c34_round_trip_partial _ (hplain r hr), c34_round_trip_partial _ (hplain r' hr')] at e
    exact hcoh r hr r' hr' e
  have htext : ∀ r ∈ batches.flatten, ∀ r' ∈ batches.flatten, keyText r.cells = keyText r'.cells →
      r.cells = r'.cells := fun r hr r' hr' e => hinj r hr r' hr' (by rw [e])
  have hsort : SortedItems (batches.flatten.map TRow.item) := by
    intro k d f
    unfold rangesOf
    rw [List.filter_map, List.map_map, List.pairwise_map]
    refine (hs.filter _).imp_of_mem ?_
    intro a b ha hb hab
    obtain ⟨ha, ha'⟩ := List.mem_filter.mp ha
    obtain ⟨hb, hb'⟩ := List.mem_filter.mp hb
    have ha' := of_decide_eq_true ha'
    have hb' := of_decide_eq_true hb'
    have := hab (htext a ha b hb (ha'.1.trans hb'.1.symm)) (ha'.2.1.trans hb'.2.1.symm) (ha'.2.2.trans hb'.2.2.symm)
    unfold TRow.item at ha' hb'
    apply decide_eq_false
    show ¬ (b.start < a.start ∨ (b.start = a.start ∧ b.stop < a.stop))
    omega
  obtain ⟨l, h1, h2⟩ := c33_cpp_index reorder hre batches (max n 1).toNat (by omega) hv hsort
  have h3 := h2.reorder (hre _ _ h2)
  have hkey : ∀ k ∈ (reorder (mergeIndices reorder l)).keys, ∃ r ∈ batches.flatten, keyText r.cells = k := by
    intro k hk
    obtain ⟨it, hi, e⟩ := (h3.key k).mp hk
    obtain ⟨r, hr, rfl⟩ := List.mem_map.mp hi
    exact ⟨r, hr, e⟩
  have h4 := describes_py ckeyOf h3 (by
    intro k hk k' hk' e
    obtain ⟨r, hr, rfl⟩ := hkey k hk
    obtain ⟨r', hr', rfl⟩ := hkey k' hk'
    rw [hinj r hr r' hr' e])
  have hsame : ∀ r ∈ batches.flatten, ∀ c : CKey,
      ckeyOf (keyText r.cells) = c ↔ SameContents (rowProps r.cells) c.1 := by
    intro r hr c
    have : c = toCKey c.1 c.2.1 := Subtype.ext c.2.2.symm
    rw [this, ckeyOf, toCKey_eq_iff, c34_round_trip_partial _ (hplain r hr), ← this]
  refine ⟨buildPyIndex ckeyOf (reorder (mergeIndices reorder l)), ?_, h4.nodup, h4.wf, ?_, ?_⟩
  · unfold createChunkerIndex
    rw [if_neg (by omega), h1]; rfl
  · intro c
    rw [h4.key]
    constructor
    · rintro ⟨it, hi, e⟩
      rw [List.map_map] at hi
      obtain ⟨r, hr, rfl⟩ := List.mem_map.mp hi
      exact ⟨r, hr, (hsame r hr c).mp e⟩
    · rintro ⟨r, hr, e⟩
      exact ⟨_, List.mem_map.mpr ⟨_, List.mem_map.mpr ⟨r, hr, rfl⟩, rfl⟩, (hsame r hr c).mpr e⟩
  · intro c d f
    rw [h4.look]
    have : rangesOf ((batches.flatten.map TRow.item).map fun it => (ckeyOf it.1, it.2)) c d f =
        tableRanges batches.flatten c.1 d f := by
      unfold rangesOf tableRanges
      rw [List.map_map, List.filter_map, List.map_map]
      apply congrArg₂ List.map rfl
      apply List.filter_congr
      intro r hr
      have := hsame r hr c
      simp only [Function.comp_apply, TRow.item]
      by_cases h1 : ckeyOf (keyText r.cells) = c
      · simp [h1, this.mp h1]
      · have h2 : ¬ SameContents (rowProps r.cells) c.1 := fun hc => h1 (this.mpr hc)
        simp [h1, h2]
    rw [this]

/-- **C33, consequence**: what the chunk generator reads of a key's entries does not depend on the number of threads, the
batches or the hash maps. -/
theorem c33_thread_independent {a b : Dict CKey Entries} {items : List (Item CKey)} (ha : Describes a items)
    (hb : Describes b items) (c : CKey) : (a.get? c).map flattenSorted = (b.get? c).map flattenSorted := by
  have hk : ∀ k, a.get? k = none ↔ b.get? k = none := by
    intro k; rw [Dict.get?_eq_none_iff, Dict.get?_eq_none_iff, ha.key, hb.key]
  cases h1 : a.get? c with
  | none => rw [(hk c).mp h1]
  | some e =>
    cases h2 : b.get? c with
    | none => rw [(hk c).mpr h2] at h1; simp at h1
    | some e' =>
      simp only [Option.map_some, Option.some.injEq]
      refine flattenSorted_same (ha.wf _ (Dict.mem_of_get? h1)) (hb.wf _ (Dict.mem_of_get? h2)) ⟨?_, ?_⟩
      · intro d f
        have e1 := ha.look c d f
        have e2 := hb.look c d f
        unfold idxLook at e1 e2
        rw [h1, Option.bind_some] at e1
        rw [h2, Option.bind_some] at e2
        rw [e1, e2]
      · intro d
        have e1 := ha.ds c d
        have e2 := hb.ds c d
        rw [h1] at e1
        rw [h2] at e2
        simp only [Option.some.injEq, exists_eq_left'] at e1 e2
        rw [e1, e2]

/-- C33 fails when two samples list the same values in different orders: the chunker's texts differ, the Python keys are
equal, and the second dictionary overwrites the first, here all samples 0-4 are lost. -/
theorem c33_value_order_loses :
    ∃ idx, createChunkerIndex id ckeyOf
        [[⟨[("lang".toList, .list [some "de".toList, some "en".toList])], 0, 0, 0, 5⟩,
          ⟨[("lang".toList, .list [some "en".toList, some "de".toList])], 0, 0, 5, 9⟩]] 1 = .ok idx ∧
      idx.map Prod.snd = [[(0, [(0, [(5, 9)])])]] := by
  refine ⟨_, rfl, by rfl⟩

/-- Iterating the maps in insertion order, or all keys in the opposite order, meets the assumption on `reorder`. -/
example : (∀ i xs, Describes i xs → SameIndex i ((id : CppIndex → CppIndex) i)) ∧
    ∀ i xs, Describes i xs → SameIndex i ((List.reverse : CppIndex → CppIndex) i) := by
  have hself : ∀ (i : CppIndex) k e e', Dict.get? i k = some e → Dict.get? i k = some e' → SameEntries e e' := by
    intro i k e e' h1 h2
    rw [h1] at h2
    cases h2
    exact ⟨fun _ _ => rfl, fun _ => Iff.rfl⟩
  refine ⟨fun i xs h => ⟨h.nodup, h.wf, fun _ => Iff.rfl, hself i⟩, fun i xs h => ?_⟩
  have hn : Dict.keys (List.reverse i : CppIndex) = (Dict.keys i).reverse := by simp [Dict.keys]
  have hnd : (Dict.keys (List.reverse i : CppIndex)).Nodup := by
    rw [hn]; exact List.nodup_reverse.mpr h.nodup
  refine ⟨hnd, fun ke hke => h.wf ke (List.mem_reverse.mp hke), fun k => by rw [hn, List.mem_reverse], ?_⟩
  intro k e e' h1 h2
  apply hself i k e e' h1
  exact Dict.get?_of_mem h.nodup (List.mem_reverse.mp (Dict.mem_of_get? h2))

/-- Non-vacuity of `c33_index_partial`: three batches, two threads. -/
example : let t : TRow := ⟨[("lang".toList, .list [some "de".toList]), ("lic".toList, .null)], 0, 0, 0, 5⟩
    let batches : List (List TRow) := [[t, { t with start := 7, stop := 9 }],
      [{ t with file := 1 }], [{ t with cells := [("lang".toList, .null), ("lic".toList, .str "MIT".toList)] }]]
    (∀ r ∈ batches.flatten, r.start ≤ r.stop) ∧ (∀ r ∈ batches.flatten, PlainCells r.cells) ∧
      TableSorted batches.flatten ∧
      (batches.flatten.map fun r => rowProps r.cells) = [[("lang".toList, ["de".toList])], [("lang".toList, ["de".toList])],
        [("lang".toList, ["de".toList])], [("lic".toList, ["MIT".toList])]] := by
  refine ⟨by decide, ?_, ?_, by decide⟩
  · intro r hr
    simp only [List.flatten_cons, List.flatten_nil, List.append_nil, List.cons_append, List.nil_append, List.mem_cons,
      List.not_mem_nil, or_false] at hr
    rcases hr with rfl | rfl | rfl | rfl <;> exact ⟨by decide, by decide, by decide, by decide⟩
  · unfold TableSorted; decide

/-! ### From the selected samples to the index -/

/-- **C32 and C33 together**: for every selection of samples (given by file, property columns and sample id, without
duplicates), the index built from the query's table, for any threads, batches and hash order, is well formed, has sorted and disjoint
ranges per file, and lists under a property combination exactly the samples with that combination. -/
theorem c33_selected_samples_partial (reorder : CppIndex → CppIndex)
    (hre : ∀ i xs, Describes i xs → SameIndex i (reorder i))
    (leG : Group → Group → Bool) (htot : ∀ a b, leG a b = true ∨ leG b a = true)
    (htr : ∀ a b c, leG a b = true → leG b c = true → leG a c = true)
    (hanti : ∀ a b, leG a b = true → leG b a = true → a = b)
    (base : List (Group × Nat)) (hn : base.Nodup)
    (hplain : ∀ s ∈ base, PlainCells s.1.2.2)
    (hcoh : ∀ s ∈ base, ∀ s' ∈ base, SameContents (rowProps s.1.2.2) (rowProps s'.1.2.2) → s.1.2.2 = s'.1.2.2)
    (batches : List (List TRow)) (hb : batches.flatten = (queryIntervals leG base).map rowOf)
    (n : Int) (hn0 : 0 ≤ n) :
    ∃ idx, createChunkerIndex reorder ckeyOf batches n = .ok idx ∧
      idx.keys.Nodup ∧ (∀ ke ∈ idx, EntriesWF ke.2) ∧ IndexSorted idx ∧
      ∀ (c : CKey) (d f x : Nat),
        (∃ rs, idxLook idx c d f = some rs ∧ ∃ r ∈ rs, r.1 ≤ x ∧ x < r.2) ↔
          ∃ cells, ((d, f, cells), x) ∈ base ∧ SameContents (rowProps cells) c.1 := by
  have hsd := c32_sorted_disjoint_maximal leG htot htr hanti base hn
  have hbase : ∀ r ∈ queryIntervals leG base, (r.g, r.start) ∈ base := fun r hr =>
    (c32_coverage leG base r.g r.start).mpr ⟨r, hr, rfl, Nat.le_refl _, hsd.1 r hr⟩
  have hmem : ∀ r ∈ batches.flatten, ∃ r0 ∈ queryIntervals leG base, rowOf r0 = r := by
    intro r hr; rw [hb] at hr; exact List.mem_map.mp hr
  obtain ⟨idx, h1, hnd, hwf, _, hlook⟩ := c33_index_partial reorder hre batches n hn0
    (by intro r hr
        obtain ⟨r0, hr0, rfl⟩ := hmem r hr
        exact Nat.le_of_lt (hsd.1 r0 hr0))
    (by intro r hr
        obtain ⟨r0, hr0, rfl⟩ := hmem r hr
        exact hplain _ (hbase r0 hr0))
    (by intro r hr r' hr' e
        obtain ⟨r0, hr0, rfl⟩ := hmem r hr
        obtain ⟨r1, hr1, rfl⟩ := hmem r' hr'
        exact hcoh _ (hbase r0 hr0) _ (hbase r1 hr1) e)
    (by rw [hb, TableSorted, List.pairwise_map]
        refine hsd.2.imp_of_mem ?_
        intro a b ha hb h e1 e2 e3
        have hg : a.g = b.g := Prod.ext e2 (Prod.ext e3 e1)
        rw [if_pos hg] at h
        have := hsd.1 a ha
        show a.start < b.start
        omega)
  refine ⟨idx, h1, hnd, hwf, ?_, ?_⟩
  · intro k e hke d fs hd f rs hf
    have hl : idxLook idx k d f = some rs := by
      unfold idxLook
      rw [Dict.get?_of_mem hnd hke, Option.bind_some, Entries.look, Dict.get?_of_mem (hwf _ hke).1 hd, Option.bind_some,
        Dict.get?_of_mem ((hwf _ hke).2 _ hd) hf]
    rw [hlook] at hl
    split at hl
    · simp at hl
    · simp only [Option.some.injEq] at hl
      subst hl
      unfold tableRanges
      rw [hb]
      constructor
      · rw [List.filter_map, List.map_map, List.pairwise_map]
        refine (hsd.2.filter _).imp_of_mem ?_
        intro a b ha hb' hab
        obtain ⟨ha, ha'⟩ := List.mem_filter.mp ha
        obtain ⟨hb', hb''⟩ := List.mem_filter.mp hb'
        simp only [Function.comp_apply, decide_eq_true_eq] at ha' hb''
        have hcells := hcoh _ (hbase a ha) _ (hbase b hb') (ha'.1.trans hb''.1.symm)
        have hg : a.g = b.g := Prod.ext (ha'.2.1.trans hb''.2.1.symm) (Prod.ext (ha'.2.2.trans hb''.2.2.symm) hcells)
        rw [if_pos hg] at hab
        exact Nat.le_of_lt hab
      · intro r hr
        simp only [List.mem_map, List.mem_filter] at hr
        obtain ⟨t, ⟨⟨r0, hr0, rfl⟩, _⟩, rfl⟩ := hr
        exact Nat.le_of_lt (hsd.1 r0 hr0)
  intro c d f x
  rw [hlook]
  have hmr : ∀ r, r ∈ tableRanges batches.flatten c.1 d f ↔
      ∃ r0 ∈ queryIntervals leG base, SameContents (rowProps r0.g.2.2) c.1 ∧ r0.g.1 = d ∧ r0.g.2.1 = f ∧
        (r0.start, r0.stop) = r := by
    intro r
    unfold tableRanges
    rw [hb]
    simp only [List.mem_map, List.mem_filter, decide_eq_true_eq]
    constructor
    · rintro ⟨t, ⟨⟨r0, hr0, rfl⟩, h1, h2, h3⟩, rfl⟩
      exact ⟨r0, hr0, h1, h2, h3, rfl⟩
    · rintro ⟨r0, hr0, h1, h2, h3, rfl⟩
      exact ⟨rowOf r0, ⟨⟨r0, hr0, rfl⟩, h1, h2, h3⟩, rfl⟩
  constructor
  · rintro ⟨rs, hrs, r, hr, hx1, hx2⟩
    split at hrs
    · simp at hrs
    · simp only [Option.some.injEq] at hrs
      rw [← hrs, hmr] at hr
      obtain ⟨r0, hr0, hc, rfl, rfl, rfl⟩ := hr
      refine ⟨r0.g.2.2, ?_, hc⟩
      exact (c32_coverage leG base r0.g x).mpr ⟨r0, hr0, rfl, hx1, hx2⟩
  · rintro ⟨cells, hx, hc⟩
    obtain ⟨r0, hr0, hg, hx1, hx2⟩ := (c32_coverage leG base (d, f, cells) x).mp hx
    have hr : (r0.start, r0.stop) ∈ tableRanges batches.flatten c.1 d f :=
      (hmr _).mpr ⟨r0, hr0, by rw [hg]; exact hc, by rw [hg], by rw [hg], rfl⟩
    have hne : tableRanges batches.flatten c.1 d f ≠ [] := by
      intro e; rw [e] at hr; simp at hr
    rw [if_neg hne]
    exact ⟨_, rfl, _, hr, hx1, hx2⟩

end Mixtera
