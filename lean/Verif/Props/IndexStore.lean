import Verif.Model.IndexStore
import Verif.Lemmas.Mixture
import Verif.Lemmas.Entries

/-!
# C31: storing and loading the chunker index
-/

set_option linter.unusedSectionVars false

namespace Mixtera

variable {K : Type} [DecidableEq K]

/-! ### Specification -/

/-- What an index says: the ranges of a file of a dataset under a key. -/
def Entries.look (e : Entries) (d f : Nat) : Option (List Rng) := (e.get? d).bind fun fs => fs.get? f

/-- A nested dictionary as Python has it: every key once on every level. -/
def EntriesWF (e : Entries) : Prop := e.keys.Nodup ∧ ∀ df ∈ e, df.2.keys.Nodup

/-! ### Proofs -/

/-- The entries the merge loop builds for one key. -/
def buildEntries (l : List StoredFile) : Entries := l.foldl putFile []

theorem EntriesWF.putFile {e : Entries} (h : EntriesWF e) (r : StoredFile) : EntriesWF (putFile e r) := by
  refine ⟨Dict.nodup_keys_upsert h.1 _ _, ?_⟩
  intro df hdf
  have hg := Dict.get?_of_mem (Dict.nodup_keys_upsert h.1 r.ds _) hdf
  rw [Dict.get?_upsert] at hg
  split at hg
  · simp only [Option.some.injEq] at hg
    rw [← hg]
    apply Dict.nodup_keys_upsert
    cases ho : e.get? r.ds with
    | none => simp [Dict.keys]
    | some fs => exact h.2 _ (Dict.mem_of_get? ho)
  · exact h.2 _ (Dict.mem_of_get? hg)

theorem look_putFile (e : Entries) (r : StoredFile) (d f : Nat) :
    (putFile e r).look d f = if r.ds = d ∧ r.file = f then some r.ranges else e.look d f := by
  unfold Entries.look putFile
  rw [Dict.get?_upsert]
  by_cases hd : r.ds = d
  · subst hd
    simp only [if_true, Option.bind_some, true_and]
    rw [Dict.get?_set]
    split
    · rfl
    · cases e.get? r.ds <;> rfl
  · simp [hd]

theorem buildEntries_wf (l : List StoredFile) (e : Entries) (h : EntriesWF e) : EntriesWF (l.foldl putFile e) := by
  induction l generalizing e with
  | nil => exact h
  | cons r l ih => exact ih _ (h.putFile r)

theorem look_build (l : List StoredFile) (e : Entries) (hn : (l.map fun r => (r.ds, r.file)).Nodup) (d f : Nat) :
    (l.foldl putFile e).look d f = match l.find? (fun r => decide (r.ds = d ∧ r.file = f)) with
      | some r => some r.ranges
      | none => e.look d f := by
  induction l generalizing e with
  | nil => rfl
  | cons r l ih =>
    simp only [List.map_cons, List.nodup_cons] at hn
    rw [List.foldl_cons, ih _ hn.2, look_putFile, List.find?_cons]
    by_cases h : r.ds = d ∧ r.file = f
    · have : l.find? (fun r => decide (r.ds = d ∧ r.file = f)) = none := by
        rw [List.find?_eq_none]
        intro x hx
        simp only [decide_eq_true_eq]
        rintro ⟨h1, h2⟩
        apply hn.1
        rw [List.mem_map]
        exact ⟨x, hx, by rw [h1, h2, h.1, h.2]⟩
      rw [this]
      simp [h]
    · simp [h]

theorem keys_build (l : List StoredFile) (e : Entries) (d : Nat) :
    d ∈ (l.foldl putFile e).keys ↔ d ∈ e.keys ∨ ∃ r ∈ l, r.ds = d := by
  induction l generalizing e with
  | nil => simp
  | cons r l ih =>
    rw [List.foldl_cons, ih]
    unfold putFile
    rw [Dict.mem_keys_upsert]
    simp only [List.mem_cons, exists_eq_or_imp]
    constructor
    · rintro ((h | h) | h)
      · exact Or.inr (Or.inl h.symm)
      · exact Or.inl h
      · exact Or.inr (Or.inr h)
    · rintro (h | h | h)
      · exact Or.inl (Or.inr h)
      · exact Or.inl (Or.inl h.symm)
      · exact Or.inr h

theorem mem_entryFiles (i : Nat) (e : Entries) (h : EntriesWF e) (r : StoredFile) :
    r ∈ entryFiles i e ↔ r.keyIdx = i ∧ e.look r.ds r.file = some r.ranges := by
  unfold entryFiles
  simp only [List.mem_flatMap, List.mem_map]
  constructor
  · rintro ⟨df, hdf, fr, hfr, rfl⟩
    refine ⟨rfl, ?_⟩
    unfold Entries.look
    rw [Dict.get?_of_mem h.1 hdf, Option.bind_some]
    exact Dict.get?_of_mem (h.2 _ hdf) hfr
  · rintro ⟨h1, h2⟩
    unfold Entries.look at h2
    rw [Option.bind_eq_some_iff] at h2
    obtain ⟨fs, h3, h4⟩ := h2
    exact ⟨(r.ds, fs), Dict.mem_of_get? h3, (r.file, r.ranges), Dict.mem_of_get? h4, by rw [← h1]⟩

theorem entryFiles_nodup (i : Nat) (e : Entries) (h : EntriesWF e) : ((entryFiles i e).map fun r => (r.ds, r.file)).Nodup := by
  obtain ⟨h1, h2⟩ := h
  unfold entryFiles
  rw [List.map_flatMap]
  rw [List.nodup_flatMap]
  constructor
  · intro df hdf
    rw [List.map_map]
    have := h2 df hdf
    unfold Dict.keys at this
    have h3 : (df.2.map ((fun r : StoredFile => (r.ds, r.file)) ∘ fun fr => ⟨i, df.1, fr.1, fr.2⟩)) = (df.2.map Prod.fst).map fun f => (df.1, f) := by
      simp [List.map_map, Function.comp_def]
    rw [h3]
    exact this.map (fun a b h => by simpa using h)
  · unfold Dict.keys at h1
    rw [List.Nodup, List.pairwise_map] at h1
    refine h1.imp ?_
    intro a b hab
    rw [Function.onFun, List.disjoint_left]
    intro x hx hy
    simp only [List.mem_map] at hx hy
    obtain ⟨r, ⟨fr, _, rfl⟩, rfl⟩ := hx
    obtain ⟨r', ⟨fr', _, rfl⟩, he⟩ := hy
    simp only [Prod.mk.injEq] at he
    exact hab he.1.symm

theorem perm_nodup_pairs {l l' : List StoredFile} (h : l.Perm l') (hn : (l'.map fun r => (r.ds, r.file)).Nodup) :
    (l.map fun r => (r.ds, r.file)).Nodup := (h.map _).nodup_iff.mpr hn

/-- Loading the files of one key, in any order, gives the same lookups. -/
theorem look_build_entryFiles (i : Nat) (e : Entries) (h : EntriesWF e) (l : List StoredFile) (hl : l.Perm (entryFiles i e)) (d f : Nat) :
    (buildEntries l).look d f = e.look d f := by
  unfold buildEntries
  rw [look_build l [] (perm_nodup_pairs hl (entryFiles_nodup i e h))]
  cases hf : l.find? (fun r => decide (r.ds = d ∧ r.file = f)) with
  | some r =>
    have h1 := List.find?_some hf
    have h2 := List.mem_of_find?_eq_some hf
    simp only [decide_eq_true_eq] at h1
    have := ((mem_entryFiles i e h r).mp (hl.mem_iff.mp h2)).2
    rw [h1.1, h1.2] at this
    exact this.symm
  | none =>
    dsimp only
    have e0 : Entries.look [] d f = none := rfl
    rw [e0]
    cases he : e.look d f with
    | none => rfl
    | some rs =>
      rw [List.find?_eq_none] at hf
      have := hf ⟨i, d, f, rs⟩ (hl.mem_iff.mpr ((mem_entryFiles i e h _).mpr ⟨rfl, he⟩))
      simp at this

/-- Two nested dictionaries say the same about every file of every dataset and list the same datasets. -/
def SameEntries (e e' : Entries) : Prop := (∀ d f, e.look d f = e'.look d f) ∧ ∀ d, d ∈ e.keys ↔ d ∈ e'.keys

theorem perm_of_same_lookups {α β : Type} [DecidableEq α] [DecidableEq β] {x y : Dict α β} (hx : x.keys.Nodup) (hy : y.keys.Nodup)
    (h : ∀ a, x.get? a = y.get? a) : x.Perm y := by
  have nd : ∀ {z : Dict α β}, z.keys.Nodup → z.Nodup := fun hz => List.Nodup.of_map Prod.fst hz
  rw [List.perm_ext_iff_of_nodup (nd hx) (nd hy)]
  rintro ⟨a, b⟩
  constructor
  · intro hm; exact Dict.mem_of_get? ((h a) ▸ Dict.get?_of_mem hx hm)
  · intro hm; exact Dict.mem_of_get? ((h a).symm ▸ Dict.get?_of_mem hy hm)

theorem sortBy_key_perm {β : Type} {x y : Dict Nat β} (h : x.Perm y) (hx : x.keys.Nodup) :
    sortBy (fun a b : Nat × β => decide (a.1 ≤ b.1)) x = sortBy (fun a b : Nat × β => decide (a.1 ≤ b.1)) y := by
  have tot : ∀ a b : Nat × β, decide (a.1 ≤ b.1) = true ∨ decide (b.1 ≤ a.1) = true := by
    intro a b; simp only [decide_eq_true_eq]; omega
  have tr : ∀ a b c : Nat × β, decide (a.1 ≤ b.1) = true → decide (b.1 ≤ c.1) = true → decide (a.1 ≤ c.1) = true := by
    intro a b c; simp only [decide_eq_true_eq]; omega
  refine List.Perm.eq_of_pairwise ?_ (sortBy_sorted _ tot tr x) (sortBy_sorted _ tot tr y)
    ((sortBy_perm _ x).trans (h.trans (sortBy_perm _ y).symm))
  intro a b ha hb h1 h2
  simp only [decide_eq_true_eq] at h1 h2
  have ha' : a ∈ x := (sortBy_perm _ x).mem_iff.mp ha
  have hb' : b ∈ x := h.mem_iff.mpr ((sortBy_perm _ y).mem_iff.mp hb)
  exact List.inj_on_of_nodup_map hx ha' hb' (by omega)

theorem sortBy_mapVal {β γ : Type} (g : β → γ) (x : Dict Nat β) :
    sortBy (fun a b : Nat × γ => decide (a.1 ≤ b.1)) (x.map fun kv => (kv.1, g kv.2)) =
      (sortBy (fun a b : Nat × β => decide (a.1 ≤ b.1)) x).map fun kv => (kv.1, g kv.2) := by
  have hins : ∀ (a : Nat × β) (l : Dict Nat β), insertBy (fun a b : Nat × γ => decide (a.1 ≤ b.1)) (a.1, g a.2) (l.map fun kv => (kv.1, g kv.2)) =
      (insertBy (fun a b : Nat × β => decide (a.1 ≤ b.1)) a l).map fun kv => (kv.1, g kv.2) := by
    intro a l
    induction l with
    | nil => rfl
    | cons b l ih =>
      simp only [List.map_cons, insertBy]
      split
      · rfl
      · simp [ih]
  induction x with
  | nil => rfl
  | cons a x ih => rw [List.map_cons, sortBy, ih, hins, sortBy]

/-- The component coroutine reads the same ranges in the same order from both. -/
theorem flattenSorted_same {e e' : Entries} (h : EntriesWF e) (h' : EntriesWF e') (hs : SameEntries e e') :
    flattenSorted e = flattenSorted e' := by
  -- sort the files first
  let g : Dict Nat (List Rng) → Dict Nat (List Rng) := fun fs => sortBy (fun a b => decide (a.1 ≤ b.1)) fs
  have key : ∀ e : Entries, flattenSorted e = (sortBy (fun a b : Nat × Dict Nat (List Rng) => decide (a.1 ≤ b.1)) (e.map fun kv => (kv.1, g kv.2))).flatMap
      fun df => df.2.flatMap fun fr => fr.2.map fun r => (⟨df.1, fr.1, r.1, r.2⟩ : Seg) := by
    intro e
    rw [sortBy_mapVal g, List.flatMap_map]
    rfl
  rw [key, key]
  congr 1
  apply sortBy_key_perm
  · apply perm_of_same_lookups
    · rw [Dict.keys_mapVal g]; exact h.1
    · rw [Dict.keys_mapVal g]; exact h'.1
    · intro d
      rw [Dict.get?_mapVal g, Dict.get?_mapVal g]
      cases h1 : e.get? d with
      | none =>
        cases h2 : e'.get? d with
        | none => rfl
        | some fs =>
          have := (hs.2 d).mpr ((Dict.mem_keys_iff _ _).mpr ⟨fs, h2⟩)
          rw [Dict.mem_keys_iff, h1] at this
          simp at this
      | some fs =>
        cases h2 : e'.get? d with
        | none =>
          have := (hs.2 d).mp ((Dict.mem_keys_iff _ _).mpr ⟨fs, h1⟩)
          rw [Dict.mem_keys_iff, h2] at this
          simp at this
        | some fs' =>
          simp only [Option.map_some, Option.some.injEq]
          refine sortBy_key_perm (perm_of_same_lookups (h.2 _ (Dict.mem_of_get? h1)) (h'.2 _ (Dict.mem_of_get? h2)) ?_)
            (h.2 _ (Dict.mem_of_get? h1))
          intro f
          have := hs.1 d f
          unfold Entries.look at this
          rw [h1, h2] at this
          exact this
  · rw [Dict.keys_mapVal g]; exact h.1

/-! The whole index -/

theorem mergeFiles_getElem (keys : List K) (results : List StoredFile) (acc : List (Dict K Entries)) (i : Nat) (k : K)
    (hk : keys[i]? = some k) (d : Dict K Entries) (hd : acc[i]? = some d) :
    (mergeFiles keys results acc)[i]? = some ((results.filter fun r => decide (r.keyIdx = i)).foldl
      (fun d r => d.upsert k fun o => putFile (o.getD []) r) d) := by
  induction results generalizing acc d with
  | nil => exact hd
  | cons r results ih =>
    unfold mergeFiles
    rw [List.foldl_cons]
    show (mergeFiles keys results _)[i]? = _
    by_cases hr : r.keyIdx = i
    · rw [List.filter_cons_of_pos (by simpa using hr), List.foldl_cons]
      apply ih
      rw [hr, hk]
      dsimp only
      rw [List.getElem?_modify, hd]
      simp
    · rw [List.filter_cons_of_neg (by simpa using hr)]
      apply ih
      cases hk' : keys[r.keyIdx]? with
      | none => exact hd
      | some k' =>
        dsimp only
        rw [List.getElem?_modify, hd]
        simp [hr]

theorem mergeFiles_length (keys : List K) (results : List StoredFile) (acc : List (Dict K Entries)) :
    (mergeFiles keys results acc).length = acc.length := by
  induction results generalizing acc with
  | nil => rfl
  | cons r results ih =>
    unfold mergeFiles
    rw [List.foldl_cons]
    show (mergeFiles keys results _).length = _
    rw [ih]
    split
    · rfl
    · simp

theorem foldl_upsert_same (k : K) (l : List StoredFile) (e : Entries) :
    l.foldl (fun (d : Dict K Entries) r => d.upsert k fun o => putFile (o.getD []) r) [(k, e)] = [(k, l.foldl putFile e)] := by
  induction l generalizing e with
  | nil => rfl
  | cons r l ih =>
    rw [List.foldl_cons, List.foldl_cons]
    have : Dict.upsert [(k, e)] k (fun o => putFile (o.getD []) r) = [(k, putFile e r)] := by simp [Dict.upsert]
    rw [this, ih]

theorem foldl_upsert_nil (k : K) (l : List StoredFile) :
    l.foldl (fun (d : Dict K Entries) r => d.upsert k fun o => putFile (o.getD []) r) [] = if l = [] then [] else [(k, buildEntries l)] := by
  cases l with
  | nil => rfl
  | cons r l =>
    rw [List.foldl_cons]
    have : Dict.upsert ([] : Dict K Entries) k (fun o => putFile (o.getD []) r) = [(k, putFile [] r)] := by simp [Dict.upsert]
    rw [this, foldl_upsert_same]
    rfl

/-- The loaded index, as a function of the files of each key. -/
theorem deserializeIndex_eq (keys : List K) (hk : keys.Nodup) (results : List StoredFile) :
    deserializeIndex keys results = keys.zipIdx.filterMap fun ki =>
      let l := results.filter fun r => decide (r.keyIdx = ki.2)
      if l = [] then none else some (ki.1, buildEntries l) := by
  have h1 : mergeFiles keys results (keys.map fun _ => []) = keys.zipIdx.map fun ki =>
      if (results.filter fun r => decide (r.keyIdx = ki.2)) = [] then [] else
        [(ki.1, buildEntries (results.filter fun r => decide (r.keyIdx = ki.2)))] := by
    apply List.ext_getElem?
    intro i
    by_cases hi : i < keys.length
    · rw [mergeFiles_getElem keys results _ i keys[i] (List.getElem?_eq_getElem hi) [] (by simp [hi]), foldl_upsert_nil]
      simp [hi]
    · rw [List.getElem?_eq_none (by rw [mergeFiles_length]; simp; omega), List.getElem?_eq_none (by simp; omega)]
  unfold deserializeIndex
  rw [h1]
  -- the updates append
  have h2 : ∀ (L : List (K × Nat)) (acc : Dict K Entries), (acc.keys ++ L.map Prod.fst).Nodup →
      (L.map fun ki => if (results.filter fun r => decide (r.keyIdx = ki.2)) = [] then ([] : Dict K Entries) else
        [(ki.1, buildEntries (results.filter fun r => decide (r.keyIdx = ki.2)))]).foldl dictUpdate acc =
      acc ++ L.filterMap fun ki =>
        let l := results.filter fun r => decide (r.keyIdx = ki.2)
        if l = [] then none else some (ki.1, buildEntries l) := by
    intro L
    induction L with
    | nil => intro acc _; simp
    | cons ki L ih =>
      intro acc hnd
      rw [List.map_cons, List.foldl_cons, List.filterMap_cons]
      dsimp only
      by_cases hl : (results.filter fun r => decide (r.keyIdx = ki.2)) = []
      · rw [if_pos hl, if_pos hl]
        have : dictUpdate acc [] = acc := rfl
        rw [this, ih]
        exact hnd.sublist (by simp)
      · rw [if_neg hl, if_neg hl]
        have hnew : ki.1 ∉ acc.keys := by
          intro hc
          exact (List.nodup_append.mp hnd).2.2 _ hc _ (by simp) rfl
        have : ∀ v, dictUpdate acc [(ki.1, v)] = acc ++ [(ki.1, v)] := by
          intro v
          unfold dictUpdate
          simp only [List.foldl_cons, List.foldl_nil]
          clear ih hl hnd
          induction acc with
          | nil => rfl
          | cons y d ihd =>
            obtain ⟨a, b⟩ := y
            simp only [Dict.keys, List.map_cons, List.mem_cons, not_or] at hnew
            have := ihd hnew.2
            unfold Dict.set at this ⊢
            rw [Dict.upsert, if_neg (Ne.symm hnew.1), this]
            rfl
        rw [this, ih]
        · simp
        · simpa [Dict.keys, List.append_assoc] using hnd
  rw [h2 _ [] (by simpa [Dict.keys] using hk)]
  simp

theorem indexFiles_filter (index : Dict K Entries) (i j : Nat) :
    (indexFiles j index).filter (fun r => decide (r.keyIdx = j + i)) =
      match index[i]? with
      | none => []
      | some ke => entryFiles (j + i) ke.2 := by
  have hown : ∀ n (e : Entries), (entryFiles n e).filter (fun r => decide (r.keyIdx = n)) = entryFiles n e := by
    intro n e
    rw [List.filter_eq_self]
    intro r hr
    simp only [entryFiles, List.mem_flatMap, List.mem_map] at hr
    obtain ⟨_, _, _, _, rfl⟩ := hr
    simp
  have hother : ∀ n m (e : Entries), n ≠ m → (entryFiles n e).filter (fun r => decide (r.keyIdx = m)) = [] := by
    intro n m e hnm
    rw [List.filter_eq_nil_iff]
    intro r hr
    simp only [entryFiles, List.mem_flatMap, List.mem_map] at hr
    obtain ⟨_, _, _, _, rfl⟩ := hr
    simpa using hnm
  have hlow : ∀ (index : Dict K Entries) (j n : Nat), n < j → (indexFiles j index).filter (fun r => decide (r.keyIdx = n)) = [] := by
    intro index
    induction index with
    | nil => intro j n _; rfl
    | cons ke index ih =>
      intro j n hn
      rw [indexFiles, List.filter_append, hother j n _ (by omega), ih (j + 1) n (by omega)]
      rfl
  induction index generalizing i j with
  | nil => rfl
  | cons ke index ih =>
    rw [indexFiles, List.filter_append]
    cases i with
    | zero =>
      rw [Nat.add_zero, hown, hlow index (j + 1) j (by omega)]
      simp
    | succ i =>
      rw [hother j _ _ (by omega)]
      have := ih i (j + 1)
      rw [show j + 1 + i = j + (i + 1) by omega] at this
      rw [this]
      simp

/-- C31. Take any index (no key, dataset or file id twice on its level) in which every key and every dataset has at
least one file, as all indices built from queries. Store it, and load the files in any order. The loaded index has the
same keys in the same order, and under each of them the same datasets and for each file the same ranges in the same
order; no id occurs twice. Therefore chunks are formed from the same ranges in the same order (`flattenSorted`). -/
theorem c31_round_trip (index : Dict K Entries) (hk : index.keys.Nodup) (hwf : ∀ ke ∈ index, EntriesWF ke.2)
    (hne : ∀ ke ∈ index, ke.2 ≠ [] ∧ ∀ df ∈ ke.2, df.2 ≠ []) (results : List StoredFile)
    (hperm : results.Perm (serializeIndex index).files) :
    let loaded := deserializeIndex (serializeIndex index).keys results
    loaded.keys = index.keys ∧
    ∀ k e, index.get? k = some e → ∃ e', loaded.get? k = some e' ∧ EntriesWF e' ∧ SameEntries e e' ∧
      flattenSorted e' = flattenSorted e := by
  intro loaded
  have hfiles : ∀ i ke, index[i]? = some ke → (results.filter fun r => decide (r.keyIdx = i)).Perm (entryFiles i ke.2) := by
    intro i ke hi
    have := hperm.filter (fun r => decide (r.keyIdx = i))
    unfold serializeIndex at this
    dsimp only at this
    have h2 := indexFiles_filter index i 0
    rw [hi] at h2
    simp only [Nat.zero_add] at h2
    rw [h2] at this
    exact this
  have hnonempty : ∀ i ke, index[i]? = some ke → (results.filter fun r => decide (r.keyIdx = i)) ≠ [] := by
    intro i ke hi hc
    have hp := hfiles i ke hi
    rw [hc] at hp
    have h0 := List.nil_perm.mp hp
    obtain ⟨h1, h2⟩ := hne ke (List.mem_of_getElem? hi)
    cases he : ke.2 with
    | nil => exact h1 he
    | cons df e =>
      have hdf := h2 df (by rw [he]; simp)
      cases hf : df.2 with
      | nil => exact hdf hf
      | cons fr fs => rw [he] at h0; simp [entryFiles, hf] at h0
  have hloaded : loaded = index.zipIdx.map fun kei => (kei.1.1, buildEntries (results.filter fun r => decide (r.keyIdx = kei.2))) := by
    show deserializeIndex (serializeIndex index).keys results = _
    rw [deserializeIndex_eq _ (by exact hk)]
    show (index.keys).zipIdx.filterMap _ = _
    have : (index.keys).zipIdx = index.zipIdx.map fun kei => (kei.1.1, kei.2) := by
      unfold Dict.keys
      rw [List.zipIdx_map]
      apply List.map_congr_left
      intro x _
      rfl
    rw [this, List.filterMap_map, ← List.filterMap_eq_map']
    apply List.filterMap_congr
    rintro ⟨ke, i⟩ hm
    have hi : index[i]? = some ke := by
      have := List.mem_zipIdx_iff_getElem?.mp hm
      simpa using this
    dsimp only [Function.comp]
    rw [if_neg (hnonempty i ke hi)]
  have hkeys : loaded.keys = index.keys := by
    rw [hloaded]
    unfold Dict.keys
    rw [List.map_map]
    have : (Prod.fst ∘ fun kei : (K × Entries) × Nat => (kei.1.1, buildEntries (results.filter fun r => decide (r.keyIdx = kei.2)))) =
        Prod.fst ∘ Prod.fst := rfl
    rw [this, ← List.map_map]
    congr 1
    exact List.zipIdx_map_fst 0 index
  refine ⟨hkeys, ?_⟩
  intro k e he
  obtain ⟨i, hi⟩ := List.mem_iff_getElem?.mp (Dict.mem_of_get? he)
  have hew : EntriesWF e := hwf _ (Dict.mem_of_get? he)
  have hp := hfiles i (k, e) hi
  have hsame : SameEntries e (buildEntries (results.filter fun r => decide (r.keyIdx = i))) := by
    refine ⟨fun d f => (look_build_entryFiles i e hew _ hp d f).symm, ?_⟩
    intro d
    unfold buildEntries
    rw [keys_build]
    constructor
    · intro hd
      right
      obtain ⟨fs, hfs⟩ := (Dict.mem_keys_iff _ _).mp hd
      have hm := Dict.mem_of_get? hfs
      have := (hne _ (Dict.mem_of_get? he)).2 _ hm
      cases hf : fs with
      | nil => exact absurd hf this
      | cons fr fs' =>
        refine ⟨⟨i, d, fr.1, fr.2⟩, hp.mem_iff.mpr ?_, rfl⟩
        unfold entryFiles
        rw [List.mem_flatMap]
        exact ⟨(d, fs), hm, List.mem_map.mpr ⟨fr, by rw [hf]; simp, rfl⟩⟩
    · rintro (h | ⟨r, hr, hrd⟩)
      · simp [Dict.keys] at h
      · have := ((mem_entryFiles i e hew r).mp (hp.mem_iff.mp hr)).2
        unfold Entries.look at this
        rw [Option.bind_eq_some_iff] at this
        obtain ⟨fs, h3, _⟩ := this
        rw [hrd] at h3
        exact (Dict.mem_keys_iff _ _).mpr ⟨fs, h3⟩
  have hwf' : EntriesWF (buildEntries (results.filter fun r => decide (r.keyIdx = i))) :=
    buildEntries_wf _ [] ⟨by simp [Dict.keys], by simp⟩
  refine ⟨_, ?_, hwf', hsame, (flattenSorted_same hew hwf' hsame).symm⟩
  apply Dict.get?_of_mem (by rw [hkeys]; exact hk)
  rw [hloaded, List.mem_map]
  exact ⟨((k, e), i), List.mem_zipIdx_iff_getElem?.mpr (by simpa using hi), rfl⟩

/-- Without the condition: a key without files is lost on the way. -/
theorem c31_empty_key_lost (k : K) : deserializeIndex (serializeIndex [(k, [])]).keys (serializeIndex [(k, [])]).files = [] := rfl

/-- C31 on an index with two keys, with the files loaded in reverse order. -/
example : let index : Dict Nat Entries := [(7, [(0, [(1, [(0, 4), (6, 8)]), (2, [(0, 1)])])]), (3, [(1, [(5, [(2, 9)])])])]
    deserializeIndex (serializeIndex index).keys (serializeIndex index).files.reverse =
      [(7, [(0, [(2, [(0, 1)]), (1, [(0, 4), (6, 8)])])]), (3, [(1, [(5, [(2, 9)])])])] := rfl

end Mixtera
