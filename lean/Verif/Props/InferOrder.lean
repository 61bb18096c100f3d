import Verif.Props.Mixture
import Verif.Props.RestoreFiles
import Verif.Props.ChunkerExact
import Verif.Props.Reproducible
import Verif.Props.Reorder
import Verif.Lemmas.History

/-!
# Inferred mixtures and the order of the index (C23, with C13 and C78)

`InferringMixture` rounds the shares of the keys of the index to rows; keys with equal fractional parts are served in the order
of the index. A stored and reloaded index has the order of the original one, so that the rows are the same; the index of another
execution of the query may have another order.
-/

set_option linter.unusedSectionVars false

namespace Mixtera

variable {K R : Type} [DecidableEq K]

theorem values_of_keys {V : Type} (d : Dict K V) (hn : d.keys.Nodup) (z : V) : d.values = d.keys.map fun k => (d.get? k).getD z := by
  unfold Dict.values Dict.keys
  rw [List.map_map]
  apply List.map_congr_left
  rintro ⟨k, v⟩ h
  have := Dict.get?_of_mem hn h
  simp only [Function.comp_apply]
  rw [this]
  rfl

theorem get?_of_perm {V : Type} {a b : Dict K V} (hn : a.keys.Nodup) (hp : a.Perm b) (k : K) : a.get? k = b.get? k := by
  have hnb : b.keys.Nodup := (hp.map Prod.fst).nodup_iff.mp hn
  cases h : a.get? k with
  | some v => exact (Dict.get?_of_mem hnb (hp.mem_iff.mp (Dict.mem_of_get? h))).symm
  | none =>
    cases h' : b.get? k with
    | none => rfl
    | some v =>
      have := Dict.get?_of_mem hn (hp.mem_iff.mpr (Dict.mem_of_get? h'))
      rw [h] at this
      cases this

/-- If one sum is as large as another and has a larger term, then it has a smaller one. -/
theorem exists_smaller {α : Type} (l : List α) (f g : α → Nat) (hs : (l.map f).sum = (l.map g).sum) {a : α} (ha : a ∈ l)
    (h : g a < f a) : ∃ b ∈ l, f b < g b := by
  by_contra hc
  push_neg at hc
  have hle : ∀ l' : List α, (∀ b ∈ l', g b ≤ f b) → (l'.map g).sum ≤ (l'.map f).sum := by
    intro l' hl'
    exact List.sum_le_sum hl'
  have hlt : (l.map g).sum < (l.map f).sum := List.sum_lt_sum g f hc ⟨a, ha, h⟩
  omega

theorem Rounded.moved {chunk : Nat} {m m' : Dict K ℚ} {rows rows' : Dict K Nat} (hn : m.keys.Nodup) (hp : m.Perm m')
    (h : Rounded chunk m rows) (h' : Rounded chunk m' rows') {k : K} {q : ℚ} (hk : m.get? k = some q) {r r' : Nat}
    (hr : rows.get? k = some r) (hr' : rows'.get? k = some r') (hlt : r' < r) :
    r = r' + 1 ∧ ∃ k2 q2, k2 ≠ k ∧ m.get? k2 = some q2 ∧ Int.fract ((chunk : ℚ) * q2) = Int.fract ((chunk : ℚ) * q) := by
  have hk' : m'.get? k = some q := by rw [← get?_of_perm hn hp]; exact hk
  have e1 := h.near k q r hk hr
  have e2 := h'.near k q r' hk' hr'
  have a1 : (r : Int) = ⌊(chunk : ℚ) * q⌋ + 1 := by omega
  have a2 : (r' : Int) = ⌊(chunk : ℚ) * q⌋ := by omega
  refine ⟨by omega, ?_⟩
  have hpk : m.keys.Perm m'.keys := hp.map _
  have hrn : rows.keys.Nodup := by rw [h.keys]; exact hn
  have hrn' : rows'.keys.Nodup := by rw [h'.keys]; exact hpk.nodup_iff.mp hn
  have s1 : (m.keys.map fun k => (rows.get? k).getD 0).sum = chunk := by
    rw [← h.keys, ← values_of_keys rows hrn 0]; exact h.total
  have s2 : (m.keys.map fun k => (rows'.get? k).getD 0).sum = chunk := by
    have := h'.total
    rw [values_of_keys rows' hrn' 0, h'.keys] at this
    rw [← this]
    exact (hpk.map _).sum_eq
  have hkm : k ∈ m.keys := (Dict.mem_keys_iff _ _).mpr ⟨q, hk⟩
  obtain ⟨k2, hk2, hlt2⟩ := exists_smaller m.keys (fun k => (rows.get? k).getD 0) (fun k => (rows'.get? k).getD 0)
    (s1.trans s2.symm) hkm (by simp only [hr, hr', Option.getD_some]; exact hlt)
  obtain ⟨q2, hq2⟩ := (Dict.mem_keys_iff _ _).mp hk2
  have hq2' : m'.get? k2 = some q2 := by rw [← get?_of_perm hn hp]; exact hq2
  obtain ⟨r2, hr2⟩ := (Dict.mem_keys_iff rows k2).mp (by rw [h.keys]; exact hk2)
  obtain ⟨r2', hr2'⟩ := (Dict.mem_keys_iff rows' k2).mp (by rw [h'.keys]; exact hpk.mem_iff.mp hk2)
  simp only [hr2, hr2', Option.getD_some] at hlt2
  have f1 := h.near k2 q2 r2 hq2 hr2
  have f2 := h'.near k2 q2 r2' hq2' hr2'
  have b1 : (r2 : Int) = ⌊(chunk : ℚ) * q2⌋ := by omega
  have b2 : (r2' : Int) = ⌊(chunk : ℚ) * q2⌋ + 1 := by omega
  have c1 := h.largest k q r k2 q2 r2 hk hr hq2 hr2 a1 b1
  have c2 := h'.largest k2 q2 r2' k q r' hq2' hr2' hk' hr' b2 a2
  refine ⟨k2, q2, ?_, hq2, le_antisymm c1 c2⟩
  rintro rfl
  rw [hr] at hr2
  rw [hr'] at hr2'
  cases hr2; cases hr2'
  omega

/-- Two largest remainder roundings of the same shares, listed in different orders, differ at most by one row per key, and only
for keys whose exact number of rows has the same fractional part as that of another key. -/
theorem Rounded.order {chunk : Nat} {m m' : Dict K ℚ} {rows rows' : Dict K Nat} (hn : m.keys.Nodup) (hp : m.Perm m')
    (h : Rounded chunk m rows) (h' : Rounded chunk m' rows') {k : K} {q : ℚ} (hk : m.get? k = some q) {r r' : Nat}
    (hr : rows.get? k = some r) (hr' : rows'.get? k = some r') :
    r = r' ∨ ((r = r' + 1 ∨ r' = r + 1) ∧
      ∃ k2 q2, k2 ≠ k ∧ m.get? k2 = some q2 ∧ Int.fract ((chunk : ℚ) * q2) = Int.fract ((chunk : ℚ) * q)) := by
  rcases Nat.lt_trichotomy r r' with hlt | rfl | hlt
  · right
    have hk' : m'.get? k = some q := by rw [← get?_of_perm hn hp]; exact hk
    obtain ⟨g1, k2, q2, g2, g3, g4⟩ := Rounded.moved ((hp.map Prod.fst).nodup_iff.mp hn) hp.symm h' h hk' hr' hr hlt
    exact ⟨Or.inr g1, k2, q2, g2, by rw [get?_of_perm hn hp]; exact g3, g4⟩
  · exact Or.inl rfl
  · right
    obtain ⟨g1, g2⟩ := Rounded.moved hn hp h h' hk hr hr' hlt
    exact ⟨Or.inl g1, g2⟩

/-- The share of a key in the samples of the index, times the chunk size. -/
def idealRows (chunk : Nat) (index : Dict K Entries) (k : K) : ℚ :=
  chunk * ((keySamples index k).length / (contentSamples index).length : ℚ)

/-- **C23** (the order of the index). Of two chunker indices with the same keys and the same number of samples under each key, an
inferring mixture infers the same rows, up to one row per key, and exactly the same rows for every key whose ideal number of rows
has another fractional part than those of all other keys. -/
theorem c23_index_order (chunk : Nat) (index index' : Dict K Entries) (hn : index.keys.Nodup) (hp : index.keys.Perm index'.keys)
    (hsame : ∀ k, (keySamples index k).length = (keySamples index' k).length) (hne : contentSamples index ≠ []) :
    ∃ rows rows', inferRows chunk index = .ok rows ∧ inferRows chunk index' = .ok rows' ∧
      rows.keys = index.keys ∧ rows'.keys = index'.keys ∧
      ∀ k r r', rows.get? k = some r → rows'.get? k = some r' →
        (r = r' ∨ r = r' + 1 ∨ r' = r + 1) ∧
        ((∀ k2 ∈ index.keys, k2 ≠ k → Int.fract (idealRows chunk index k2) ≠ Int.fract (idealRows chunk index k)) → r = r') := by
  have hn' : index'.keys.Nodup := hp.nodup_iff.mp hn
  have hlen : ∀ i : Dict K Entries, i.keys.Nodup → (contentSamples i).length = (i.keys.map fun k => (keySamples i k).length).sum := by
    intro i hi
    unfold contentSamples
    rw [List.length_flatMap]
    unfold Dict.keys
    rw [List.map_map]
    congr 1
    apply List.map_congr_left
    rintro ⟨k, e⟩ h
    simp only [Function.comp_apply, keySamples, Dict.get?_of_mem hi h]
    rfl
  have htot : (contentSamples index).length = (contentSamples index').length := by
    rw [hlen index hn, hlen index' hn']
    simp only [hsame]
    exact (hp.map _).sum_eq
  have hne' : contentSamples index' ≠ [] := by
    intro h
    rw [h] at htot
    exact hne (List.length_eq_zero_iff.mp htot)
  obtain ⟨rows, h1, h2, -, h3, -⟩ := c23_inferring chunk index hn hne
  obtain ⟨rows', h1', h2', -, h3', -⟩ := c23_inferring chunk index' hn' hne'
  have hshare : ∀ (i : Dict K Entries) (k : K) (e : Entries), i.get? k = some e →
      (shareOf i).get? k = some (((keySamples i k).length : ℚ) / (contentSamples i).length) := by
    intro i k e he
    unfold shareOf keySamples
    rw [Dict.get?_mapVal (fun e => ((entriesSamples e).length : ℚ) / (contentSamples i).length), he]
    rfl
  have hkeys : ∀ i : Dict K Entries, (shareOf i).keys = i.keys := fun i =>
    Dict.keys_mapVal (fun e => ((entriesSamples e).length : ℚ) / (contentSamples i).length) i
  have hperm : (shareOf index).Perm (shareOf index') := by
    have : ∀ i : Dict K Entries, i.keys.Nodup → shareOf i = i.keys.map fun k => (k, ((keySamples i k).length : ℚ) / (contentSamples i).length) := by
      intro i hi
      unfold shareOf Dict.keys
      rw [List.map_map]
      apply List.map_congr_left
      rintro ⟨k, e⟩ h
      simp only [Function.comp_apply, keySamples, Dict.get?_of_mem hi h]
      rfl
    rw [this index hn, this index' hn', ← htot]
    simp only [← hsame]
    exact hp.map _
  refine ⟨rows, rows', h1, h1', h2, h2', ?_⟩
  intro k r r' hr hr'
  have hk : k ∈ index.keys := by rw [← h2]; exact (Dict.mem_keys_iff _ _).mpr ⟨r, hr⟩
  obtain ⟨e, he⟩ := (Dict.mem_keys_iff _ _).mp hk
  have key := Rounded.order (by rw [hkeys]; exact hn) hperm h3 h3' (hshare index k e he) hr hr'
  refine ⟨by tauto, ?_⟩
  intro hties
  rcases key with key | ⟨-, k2, q2, g1, g2, g3⟩
  · exact key
  · exfalso
    have hk2 : k2 ∈ index.keys := by rw [← hkeys]; exact (Dict.mem_keys_iff _ _).mpr ⟨q2, g2⟩
    obtain ⟨e2, he2⟩ := (Dict.mem_keys_iff _ _).mp hk2
    rw [hshare index k2 e2 he2] at g2
    cases g2
    exact hties k2 hk2 g1 g3

theorem inferRows_congr (chunk : Nat) {a b : Dict K Entries} (hn : a.keys.Nodup) (hk : a.keys = b.keys)
    (h : ∀ k, (keySamples a k).length = (keySamples b k).length) : inferRows chunk a = inferRows chunk b := by
  have hm : ∀ i : Dict K Entries, i.keys.Nodup → (i.map fun kv => (kv.1, entriesSize kv.2)) =
      i.keys.map fun k => (k, (keySamples i k).length) := by
    intro i hi
    unfold Dict.keys
    rw [List.map_map]
    apply List.map_congr_left
    rintro ⟨k, e⟩ hke
    simp only [Function.comp_apply, keySamples, Dict.get?_of_mem hi hke, entriesSize_eq_samples]
    rfl
  have hab : (a.map fun kv => (kv.1, entriesSize kv.2)) = b.map fun kv => (kv.1, entriesSize kv.2) := by
    rw [hm a hn, hm b (by rw [← hk]; exact hn), hk]
    simp only [h]
  have he : a = [] ↔ b = [] := by
    have := congrArg List.length hk
    unfold Dict.keys at this
    rw [List.length_map, List.length_map] at this
    rw [← List.length_eq_zero_iff, ← List.length_eq_zero_iff, this]
  have : inferMixture a = inferMixture b := by
    unfold inferMixture
    dsimp only
    rw [hab]
    simp only [ne_eq, he]
  unfold inferRows
  rw [this]

/-- **C23** (stored and loaded, with C13). A chunker index that was stored and loaded again - with its files delivered in any
order - tells every mixture object the same as the original one: inferring mixtures, schedules and dynamic mixtures that contain
them, and all others. -/
theorem c23_restored (index : Dict K Entries) (hi : IndexFilled index) (loaded : List StoredFile)
    (hl : loaded.Perm (serializeIndex index).files) :
    let index' := deserializeIndex (serializeIndex index).keys loaded
    (∀ chunk, inferRows chunk index' = inferRows chunk index) ∧
    (∀ b : BaseMix K, b.processIndex index' = b.processIndex index) ∧
    (∀ s : Schedule K, s.processIndex index' = s.processIndex index) ∧
    ∀ d : Dyn K, d.processIndex index' = d.processIndex index := by
  intro index'
  obtain ⟨h1, h2⟩ := c31_round_trip index hi.nodup hi.wf hi.filled loaded hl
  have hlen : ∀ k, (keySamples index' k).length = (keySamples index k).length := by
    intro k
    unfold keySamples
    cases hg : index.get? k with
    | none =>
      have : index'.get? k = none := get?_none_of_keys h1.symm hg
      rw [this]
    | some e =>
      obtain ⟨e', he', -, -, hf⟩ := h2 k e hg
      have : index'.get? k = some e' := he'
      rw [this]
      show (entriesSamples e').length = (entriesSamples e).length
      rw [← (flattenSorted_perm e').length_eq, ← (flattenSorted_perm e).length_eq, hf]
  have hrows : ∀ chunk, inferRows chunk index' = inferRows chunk index := fun chunk =>
    inferRows_congr chunk (by rw [h1]; exact hi.nodup) h1 hlen
  have hbase : ∀ b : BaseMix K, b.processIndex index' = b.processIndex index := by
    intro b
    unfold BaseMix.processIndex
    rw [hrows]
  refine ⟨hrows, hbase, ?_, ?_⟩
  · intro s
    unfold Schedule.processIndex
    simp only [hbase]
  · intro d
    unfold Dyn.processIndex
    rw [hbase]

/-- No two keys' exact numbers of rows have the same fractional part. -/
def NoTies (chunk : Nat) (index : Dict K Entries) : Prop :=
  ∀ k ∈ index.keys, ∀ k2 ∈ index.keys, k2 ≠ k → Int.fract (idealRows chunk index k2) ≠ Int.fract (idealRows chunk index k)

/-- **C78** (inferring mixtures). Two executions of a query whose indices differ in their order only, a job with
`InferringMixture` on each: if no two keys' exact numbers of rows have the same fractional part, both jobs get the same answers to
all requests (the mixtures attached to the chunks have the same items). `_partial`: `c78_inferring_varies` shows that it fails
otherwise. -/
theorem c78_inferring_partial {ops : KeyOps K} (ht : ops.Total) (chunk : Nat) (strict : Bool) (index index' : Dict K Entries)
    (hn : index.keys.Nodup) (hp : index.keys.Perm index'.keys)
    (hread : ∀ k, (index.get? k).map flattenSorted = (index'.get? k).map flattenSorted) (hne : contentSamples index ≠ [])
    (hties : NoTies chunk index) (order : List K) (replay : Bool) :
    ∃ rows rows', inferRows chunk index = .ok rows ∧ inferRows chunk index' = .ok rows' ∧ rows.Perm rows' ∧
      ∀ reqs : List (Nat × Nat),
        List.Forall₂ OutSim
          ((Gen.init index order).play ops replay (reqs.map fun tf => ⟨fun _ => ⟨rows, strict, chunk⟩, 0, tf.1, tf.2⟩)).2
          ((Gen.init index' order).play ops replay (reqs.map fun tf => ⟨fun _ => ⟨rows', strict, chunk⟩, 0, tf.1, tf.2⟩)).2 := by
  have hlen : ∀ k, (keySamples index k).length = (keySamples index' k).length := by
    intro k
    have h := hread k
    unfold keySamples
    cases h1 : index.get? k with
    | none =>
      cases h2 : index'.get? k with
      | none => rfl
      | some e => rw [h1, h2] at h; cases h
    | some e =>
      cases h2 : index'.get? k with
      | none => rw [h1, h2] at h; cases h
      | some e' =>
        rw [h1, h2] at h
        simp only [Option.map_some, Option.some.injEq] at h
        show (entriesSamples e).length = (entriesSamples e').length
        rw [← (flattenSorted_perm e).length_eq, ← (flattenSorted_perm e').length_eq, h]
  obtain ⟨rows, rows', h1, h2, h3, h4, h5⟩ := c23_index_order chunk index index' hn hp hlen hne
  have hrn : rows.keys.Nodup := by rw [h3]; exact hn
  have hrn' : rows'.keys.Nodup := by rw [h4]; exact hp.nodup_iff.mp hn
  have hperm : rows.Perm rows' := by
    refine (List.perm_ext_iff_of_nodup (List.Nodup.of_map _ hrn) (List.Nodup.of_map _ hrn')).mpr ?_
    rintro ⟨k, r⟩
    constructor
    · intro h
      have hk : k ∈ rows.keys := List.mem_map_of_mem h
      obtain ⟨r', hr'⟩ := (Dict.mem_keys_iff rows' k).mp (by rw [h4]; rw [h3] at hk; exact hp.mem_iff.mp hk)
      have := (h5 k r r' (Dict.get?_of_mem hrn h) hr').2 (fun k2 hk2 hne2 => hties k (by rw [← h3]; exact hk) k2 hk2 hne2)
      rw [this]
      exact Dict.mem_of_get? hr'
    · intro h
      have hk : k ∈ rows'.keys := List.mem_map_of_mem h
      obtain ⟨r', hr'⟩ := (Dict.mem_keys_iff rows k).mp (by rw [h3]; rw [h4] at hk; exact hp.mem_iff.mpr hk)
      have := (h5 k r' r hr' (Dict.get?_of_mem hrn' h)).2 (fun k2 hk2 hne2 =>
        hties k (by rw [← h3]; exact (Dict.mem_keys_iff _ _).mpr ⟨r', hr'⟩) k2 hk2 hne2)
      rw [← this]
      exact Dict.mem_of_get? hr'
  refine ⟨rows, rows', h1, h2, hperm, ?_⟩
  intro reqs
  rw [← init_congr hread order]
  refine c09_dictionary_order_irrelevant ops ht replay index order _ _ ?_ ?_
  · rw [List.forall₂_map_left_iff, List.forall₂_map_right_iff]
    exact List.forall₂_same.mpr fun tf _ => ⟨fun _ => ⟨hperm, rfl, rfl⟩, rfl, rfl, rfl⟩
  · intro r hr i
    obtain ⟨tf, -, rfl⟩ := List.mem_map.mp hr
    exact hrn

/-! ### Concrete cases -/

/-- Two keys with three samples and one sample. -/
def tieRows : List TRow :=
  [⟨[("lang".toList, .str "de".toList)], 1, 1, 0, 3⟩, ⟨[("lang".toList, .str "fr".toList)], 1, 2, 0, 1⟩]

/-- The rows that `InferringMixture(2)` infers, and the samples of the first chunk. -/
def tieRun (reorder : CppIndex → CppIndex) : Option (List (RawKey × Nat) × List Pos) :=
  match createChunkerIndex reorder ckeyOf [tieRows] 1 with
  | .error _ => none
  | .ok idx =>
    match inferRows 2 idx with
    | .error _ => none
    | .ok rows =>
      match (freshFrom reversing List.length idx 0 true 0 ⟨rows, true, 2⟩).next ckeyOps 10 with
      | (_, .chunk c) => some (rows.map fun kn => (kn.1.1, kn.2), contentSamples c.content)
      | _ => none

/-- **C78** fails for inferring mixtures when fractional parts are equal: two processes that differ only in the iteration order of
their hash maps build the same index in different orders; `InferringMixture` then gives the odd row to different keys, and the
first chunks contain different samples. (Here the exact numbers of rows are 1.5 and 0.5.) -/
theorem c78_inferring_varies :
    (∀ i xs, Describes i xs → SameIndex i (List.reverse i : CppIndex)) ∧
    tieRun id = some ([([("lang".toList, ["de".toList])], 2), ([("lang".toList, ["fr".toList])], 0)], [(1, 1, 0), (1, 1, 1)]) ∧
    tieRun List.reverse =
      some ([([("lang".toList, ["fr".toList])], 1), ([("lang".toList, ["de".toList])], 1)], [(1, 1, 0), (1, 2, 0)]) := by
  refine ⟨fun _ _ h => sameIndex_of_perm h (List.reverse_perm _), by decide +kernel, by decide +kernel⟩

/-- Non-vacuity of `c23_index_order`: four and one samples, chunk size 4, in two orders; the exact numbers 3.2 and 0.8 have
different fractional parts. -/
example : let index : Dict Nat Entries := [(1, [(0, [(0, [(0, 4)])])]), (2, [(0, [(1, [(0, 1)])])])]
    index.keys.Perm (Dict.keys index.reverse) ∧ (∀ k, (keySamples index k).length = (keySamples (index.reverse : Dict Nat Entries) k).length) ∧
      idealRows 4 index 1 = 16 / 5 ∧ idealRows 4 index 2 = 4 / 5 ∧
      inferRows 4 index = .ok [(1, 3), (2, 1)] ∧ inferRows 4 index.reverse = .ok [(2, 1), (1, 3)] := by
  intro index
  refine ⟨by decide, ?_, by decide +kernel, by decide +kernel, by decide +kernel, by decide +kernel⟩
  intro k
  have hp : index.Perm index.reverse := (List.reverse_perm _).symm
  unfold keySamples
  rw [get?_of_perm (by decide) hp k]

end Mixtera
