import Verif.Lemmas.Dict
import Verif.Model.Parser
import Verif.Props.Datasets

/-!
# C51, C55: metadata records
-/

set_option linter.unusedSectionVars false

namespace Mixtera.Meta

/-- The names that must not be used for properties. -/
def reservedNames : List PyStr := ["sample_id".toList, "file_id".toList, "dataset_id".toList]

variable {α β : Type} [DecidableEq α]

/-- Specification: the elements of a value. -/
def MVal.elems : MVal α → List α
  | .null => []
  | .one a => [a]
  | .many l => l

/-- Specification: what the property allows - `None` only if it is nullable, a list only if it may have multiple values,
and only options of the enumeration if it is one. -/
def Allowed (p : MProp α) (v : MVal α) : Prop :=
  (v = .null → p.nullable = true) ∧ ((∃ l, v = .many l) → p.multiple = true) ∧
    (v ≠ .null → p.isEnum = true → ∃ opts, p.options = some opts ∧ ∀ a ∈ v.elems, a ∈ opts)

/-- Specification: what is stored - a single value of a property that may have several becomes a list. -/
def stored (p : MProp α) : MVal α → MVal α
  | .one a => if p.multiple then .many [a] else .one a
  | v => v

/-- Specification: the value given for a property; `None` if it is not given. -/
def given (kwargs : Dict PyStr (MVal α)) (name : PyStr) : MVal α := (kwargs.get? name).getD .null

theorem checkEnum_ok (p : MProp α) (l : List α) (v w : MVal α) :
    checkEnum p l v = .ok w ↔ (p.isEnum = true → ∃ opts, p.options = some opts ∧ ∀ a ∈ l, a ∈ opts) ∧ w = v := by
  unfold checkEnum
  split
  · rename_i h
    split
    · rename_i ho
      constructor
      · intro e; cases e
      · rintro ⟨h1, _⟩
        obtain ⟨opts, h2, _⟩ := h1 h
        rw [ho] at h2; cases h2
    · rename_i opts ho
      split
      · rename_i hall
        simp only [List.all_eq_true, decide_eq_true_eq] at hall
        simp only [Except.ok.injEq]
        constructor
        · intro e; exact ⟨fun _ => ⟨opts, ho, hall⟩, e.symm⟩
        · rintro ⟨_, e⟩; exact e.symm
      · rename_i hall
        simp only [List.all_eq_true, decide_eq_true_eq] at hall
        constructor
        · intro e; cases e
        · rintro ⟨h1, _⟩
          obtain ⟨o, h2, h3⟩ := h1 h
          rw [ho] at h2
          injection h2 with h2
          subst h2
          exact absurd h3 hall
  · rename_i h
    simp only [Except.ok.injEq]
    constructor
    · intro e; exact ⟨fun h' => absurd h' h, e.symm⟩
    · rintro ⟨_, e⟩; exact e.symm

theorem storeValue_ok (p : MProp α) (v w : MVal α) : storeValue p v = .ok w ↔ Allowed p v ∧ w = stored p v := by
  unfold Allowed
  cases v with
  | null =>
    simp only [storeValue, stored]
    cases hn : p.nullable
    · simp
    · simp only [if_true, Except.ok.injEq]
      constructor
      · intro e
        exact ⟨⟨fun _ => trivial, (by rintro ⟨l, h⟩; cases h), fun h => absurd rfl h⟩, e.symm⟩
      · rintro ⟨_, e⟩; exact e.symm
  | one a =>
    simp only [storeValue, stored]
    cases hm : p.multiple <;> simp [checkEnum_ok, MVal.elems]
  | many l =>
    simp only [storeValue, stored]
    cases hm : p.multiple <;> simp [checkEnum_ok, MVal.elems]

theorem fillRecord_spec (kwargs : Dict PyStr (MVal α)) : ∀ (ps : List (PyStr × MProp α)) (r r' : Record α),
    (ps.map Prod.fst).Nodup → (∀ k ∈ ps.map Prod.fst, k ∉ r.keys) →
    (fillRecord kwargs ps r = .ok r' ↔
      (∀ kp ∈ ps, Allowed kp.2 (given kwargs kp.1)) ∧
        r' = r ++ ps.map fun kp => (kp.1, Field.val (stored kp.2 (given kwargs kp.1)))) := by
  intro ps
  induction ps with
  | nil => intro r r' _ _; simp [fillRecord, eq_comm]
  | cons kp ps ih =>
    intro r r' hn hr
    obtain ⟨k, p⟩ := kp
    simp only [List.map_cons, List.nodup_cons] at hn
    have hset : ∀ v, r.set k v = r ++ [(k, v)] := by
      intro v
      have hk := hr k (by simp)
      clear hr ih
      unfold Dict.set
      induction r with
      | nil => rfl
      | cons x r ihr =>
        obtain ⟨a, b⟩ := x
        simp only [Dict.keys, List.map_cons, List.mem_cons, not_or] at hk
        unfold Dict.upsert
        rw [if_neg (fun e => hk.1 e.symm), ihr hk.2]
        rfl
    unfold fillRecord
    split
    · rename_i e he
      constructor
      · intro h; cases h
      · rintro ⟨h, _⟩
        have h1 := h (k, p) List.mem_cons_self
        have := (storeValue_ok p (given kwargs k) _).2 ⟨h1, rfl⟩
        unfold given at this
        rw [this] at he
        cases he
    · rename_i v hv
      obtain ⟨h1, h2⟩ := (storeValue_ok p (given kwargs k) v).1 hv
      rw [ih _ _ hn.2 (by
        intro k' hk' hmem
        rw [hset, Dict.keys, List.map_append, List.mem_append] at hmem
        rcases hmem with hmem | hmem
        · exact hr k' (by simp only [List.map_cons, List.mem_cons]; exact Or.inr hk') hmem
        · simp only [List.map_cons, List.map_nil, List.mem_singleton] at hmem
          subst hmem
          exact hn.1 hk'), hset, h2]
      simp only [List.mem_cons, forall_eq_or_imp, List.map_cons, List.append_assoc, List.singleton_append]
      constructor
      · rintro ⟨h3, h4⟩; exact ⟨⟨h1, h3⟩, h4⟩
      · rintro ⟨⟨_, h3⟩, h4⟩; exact ⟨h3, h4⟩

theorem propertyMap_append (props : List (MProp α)) : ∀ d : Dict PyStr (MProp α), (props.map MProp.name).Nodup →
    (∀ p ∈ props, p.name ∉ d.keys) →
    props.foldl (fun d p => d.set p.name p) d = d ++ props.map fun p => (p.name, p) := by
  induction props with
  | nil => intro d _ _; simp
  | cons p ps ih =>
    intro d hn hd
    simp only [List.map_cons, List.nodup_cons] at hn
    have hset : d.set p.name p = d ++ [(p.name, p)] := by
      have hk := hd p List.mem_cons_self
      clear hd ih
      unfold Dict.set
      induction d with
      | nil => rfl
      | cons x r ihr =>
        obtain ⟨a, b⟩ := x
        simp only [Dict.keys, List.map_cons, List.mem_cons, not_or] at hk
        unfold Dict.upsert
        rw [if_neg (fun e => hk.1 e.symm), ihr hk.2]
        rfl
    rw [List.foldl_cons, hset, ih _ hn.2]
    · simp
    · intro q hq hmem
      rw [Dict.keys, List.map_append, List.mem_append] at hmem
      rcases hmem with hmem | hmem
      · exact hd q (List.mem_cons_of_mem _ hq) hmem
      · simp only [List.map_cons, List.map_nil, List.mem_singleton] at hmem
        exact hn.1 (hmem ▸ List.mem_map_of_mem hq)

theorem propertyMap_eq (props : List (MProp α)) (hn : (props.map MProp.name).Nodup) :
    propertyMap props = props.map fun p => (p.name, p) := by
  rw [propertyMap, propertyMap_append props [] hn (by simp [Dict.keys])]
  simp

theorem mem_foldl_set (props : List (MProp α)) (k : PyStr) : ∀ d : Dict PyStr (MProp α),
    k ∈ (props.foldl (fun d p => d.set p.name p) d).keys ↔ k ∈ d.keys ∨ ∃ p ∈ props, p.name = k := by
  induction props with
  | nil => intro d; simp
  | cons p props ih =>
    intro d
    rw [List.foldl_cons, ih, show (d.set p.name p) = d.upsert p.name (fun _ => p) from rfl, Dict.mem_keys_upsert]
    simp only [List.mem_cons, exists_eq_or_imp]
    constructor
    · rintro ((h | h) | h)
      · exact Or.inr (Or.inl h.symm)
      · exact Or.inl h
      · exact Or.inr (Or.inr h)
    · rintro (h | h | h)
      · exact Or.inl (Or.inr h)
      · exact Or.inl (Or.inl h.symm)
      · exact Or.inr h

/-- **C51** (reserved names). Whatever else a schema declares, also with repeated names: creating the parser raises exactly if
a property is called `file_id` or `dataset_id`. -/
theorem c51_reserved (props : List (MProp α)) : (∃ e, newParser props = .error e) ↔
    ∃ p ∈ props, p.name = "file_id".toList ∨ p.name = "dataset_id".toList := by
  have hk : ((propertyMap props).keys.any fun k => decide (k ∈ internalKeys)) = true ↔
      ∃ p ∈ props, p.name = "file_id".toList ∨ p.name = "dataset_id".toList := by
    rw [List.any_eq_true]
    constructor
    · rintro ⟨k, hk, hm⟩
      rw [propertyMap, mem_foldl_set] at hk
      rcases hk with hk | ⟨p, hp, rfl⟩
      · cases hk
      · refine ⟨p, hp, ?_⟩
        simpa [internalKeys] using hm
    · rintro ⟨p, hp, h⟩
      refine ⟨p.name, ?_, by simpa [internalKeys] using h⟩
      rw [propertyMap, mem_foldl_set]
      exact Or.inr ⟨p, hp, rfl⟩
  rw [← hk]
  unfold newParser
  split
  · rename_i h; exact ⟨fun _ => h, fun _ => ⟨_, rfl⟩⟩
  · rename_i h
    constructor
    · rintro ⟨e, he⟩; cases he
    · intro h'; exact absurd h' h

/-- **C51**. For a schema with distinct property names, none of them reserved: `add_metadata` accepts a sample if and only
if the value given for every property of the schema is allowed by it, and the record it stores has exactly the sample
number and, for every property, the given value. What is missing from the full statement: values given for properties that
are not in the schema are not rejected but silently dropped (`c51_undeclared`); `sample_id` is not reserved
(`c51_reserved_name`); and the empty list counts as a value for a required property (`c51_empty_list`). -/
theorem c51_accepts_partial (props : List (MProp α)) (hn : (props.map MProp.name).Nodup)
    (hr : ∀ p ∈ props, p.name ∉ reservedNames) (n : Nat) (kwargs : Dict PyStr (MVal α)) :
    ∃ schema, newParser props = .ok schema ∧ ∀ r, addMetadata schema n kwargs = .ok r ↔
      (∀ p ∈ props, Allowed p (given kwargs p.name)) ∧
      r = (sampleId, .num n) :: props.map fun p => (p.name, .val (stored p (given kwargs p.name))) := by
  have e := propertyMap_eq props hn
  refine ⟨propertyMap props, ?_, ?_⟩
  · unfold newParser
    rw [if_neg]
    rw [e, List.any_eq_true]
    rintro ⟨k, hk, hin⟩
    simp only [Dict.keys, List.map_map, List.mem_map, Function.comp_apply] at hk
    obtain ⟨p, hp, rfl⟩ := hk
    exact hr p hp (List.mem_cons_of_mem _ (of_decide_eq_true hin))
  · intro r
    rw [addMetadata, e, fillRecord_spec]
    · simp only [List.forall_mem_map, List.map_map, List.singleton_append]
      rfl
    · simpa [List.map_map, Function.comp_def] using hn
    · intro k hk hmem
      simp only [List.map_map, List.mem_map, Function.comp_apply] at hk
      obtain ⟨p, hp, rfl⟩ := hk
      simp only [Dict.keys, List.map_cons, List.map_nil, List.mem_singleton] at hmem
      exact hr p hp (hmem ▸ List.mem_cons_self)

/-- **C51** (required properties). In every accepted record a property that is not nullable has a value other than
`None`. -/
theorem c51_required (props : List (MProp α)) (hn : (props.map MProp.name).Nodup)
    (hr : ∀ p ∈ props, p.name ∉ reservedNames) (n : Nat) (kwargs : Dict PyStr (MVal α))
    (schema : Dict PyStr (MProp α)) (hs : newParser props = .ok schema) (r : Record α)
    (h : addMetadata schema n kwargs = .ok r) (p : MProp α) (hp : p ∈ props) (hnull : p.nullable = false) :
    ∃ v, v ≠ .null ∧ (p.name, Field.val v) ∈ r := by
  obtain ⟨schema', h1, h2⟩ := c51_accepts_partial props hn hr n kwargs
  rw [hs] at h1
  injection h1 with h1
  subst h1
  obtain ⟨h3, rfl⟩ := (h2 r).1 h
  refine ⟨stored p (given kwargs p.name), ?_, ?_⟩
  · have := (h3 p hp).1
    intro e
    have hne : given kwargs p.name ≠ .null := by
      intro e'; rw [hnull] at this; exact absurd (this e') (by simp)
    cases hg : given kwargs p.name with
    | null => exact hne hg
    | one a => rw [hg, stored] at e; split at e <;> cases e
    | many l => rw [hg] at e; cases e
  · exact List.mem_cons_of_mem _ (List.mem_map.2 ⟨p, hp, rfl⟩)

theorem fillRecord_congr (kw kw' : Dict PyStr (MVal α)) (ps : List (PyStr × MProp α)) : ∀ (r : Record α),
    (∀ kp ∈ ps, kw.get? kp.1 = kw'.get? kp.1) → fillRecord kw ps r = fillRecord kw' ps r := by
  induction ps with
  | nil => intro r _; rfl
  | cons kp ps ih =>
    intro r h
    obtain ⟨k, p⟩ := kp
    have hk := h (k, p) List.mem_cons_self
    simp only at hk
    simp only [fillRecord]
    rw [hk]
    cases storeValue p ((kw'.get? k).getD .null) with
    | error e => rfl
    | ok v => exact ih _ fun kp' h' => h kp' (List.mem_cons_of_mem _ h')

/-- **C51** (undeclared properties). A value given for a property that is not in the schema has no effect at all: it is
neither rejected nor stored. -/
theorem c51_undeclared (schema : Dict PyStr (MProp α)) (n : Nat) (kwargs : Dict PyStr (MVal α)) (name : PyStr)
    (h : name ∉ schema.keys) (v : MVal α) : addMetadata schema n (kwargs.set name v) = addMetadata schema n kwargs := by
  refine fillRecord_congr _ _ _ _ fun kp hkp => ?_
  rw [Dict.get?_set, if_neg]
  intro e
  exact h (e ▸ List.mem_map_of_mem hkp)

/-- **C51** (a reserved name). A nullable property called `sample_id` is accepted by the constructor, and then every
record loses its sample number, because nothing can be passed for it. -/
theorem c51_reserved_name :
    ∃ schema, newParser (α := PyStr) [⟨sampleId, false, false, true, none⟩] = .ok schema ∧
      ∀ n kwargs, kwargs.get? sampleId = none → addMetadata schema n kwargs = .ok [(sampleId, .val .null)] := by
  refine ⟨_, rfl, ?_⟩
  intro n kwargs h
  simp [addMetadata, propertyMap, fillRecord, Dict.set, Dict.upsert, h, storeValue]

/-- **C51** (the empty list). A required property that may have multiple values accepts a list without values. -/
theorem c51_empty_list (p : MProp α) (hm : p.multiple = true) (he : p.isEnum = false) :
    storeValue p (.many []) = .ok (.many []) := by
  simp [storeValue, hm, checkEnum, he]

/-- **C51** (ImageNet). A sample without a class label is registered with the class label `None` (a text), although the
property is required. -/
theorem c51_imagenet_missing :
    inform (propertyMap imagenetProps) imagenetExtract [none] =
      .ok [[(sampleId, .num 0), (classLabel, .val (.one "None".toList))]] := by rfl

/-! ## C55 -/

theorem informFrom_spec (schema : Dict PyStr (MProp α)) (extract : Nat → β → Except Err (Dict PyStr (MVal α)))
    (samples : List β) : ∀ (i : Nat) (rs : List (Record α)), informFrom schema extract i samples = .ok rs →
    rs.length = samples.length ∧ ∀ j x, samples[j]? = some x →
      ∃ kwargs r, extract (i + j) x = .ok kwargs ∧ addMetadata schema (i + j) kwargs = .ok r ∧ rs[j]? = some r := by
  induction samples with
  | nil =>
    intro i rs h
    injection h with h
    subst h
    exact ⟨rfl, fun j x hx => by simp at hx⟩
  | cons y ys ih =>
    intro i rs h
    simp only [informFrom, bind, Except.bind, pure, Except.pure] at h
    split at h
    · cases h
    rename_i kwargs hk
    split at h
    · cases h
    rename_i r hr
    split at h
    · cases h
    rename_i rs' hrs
    injection h with h
    subst h
    obtain ⟨h1, h2⟩ := ih (i + 1) rs' hrs
    refine ⟨by simp [h1], ?_⟩
    intro j x hx
    cases j with
    | zero =>
      simp only [List.getElem?_cons_zero, Option.some.injEq] at hx
      subst hx
      exact ⟨kwargs, r, hk, hr, rfl⟩
    | succ j =>
      rw [List.getElem?_cons_succ] at hx
      obtain ⟨kw, r', e1, e2, e3⟩ := h2 j x hx
      rw [show i + (j + 1) = i + 1 + j by omega]
      exact ⟨kw, r', e1, e2, e3⟩

theorem informBatches_eq (schema : Dict PyStr (MProp α)) (extract : Nat → β → Except Err (Dict PyStr (MVal α)))
    (batches : List (List β)) : ∀ i, informBatches schema extract i batches = informFrom schema extract i batches.flatten := by
  have happ : ∀ (a b : List β) (i : Nat), informFrom schema extract i (a ++ b) = (do
      let rs ← informFrom schema extract i a
      let rest ← informFrom schema extract (i + a.length) b
      return rs ++ rest) := by
    intro a
    induction a with
    | nil =>
      intro b i
      simp only [List.nil_append, informFrom, List.length_nil, Nat.add_zero, bind, Except.bind, pure, Except.pure]
      split <;> simp_all
    | cons x a ih =>
      intro b i
      simp only [List.cons_append, informFrom, ih, bind, Except.bind, pure, Except.pure, List.length_cons]
      rw [show i + 1 + a.length = i + (a.length + 1) by omega]
      cases extract i x with
      | error e => rfl
      | ok kw =>
        simp only
        cases addMetadata schema i kw with
        | error e => rfl
        | ok r =>
          simp only
          cases informFrom schema extract (i + 1) a with
          | error e => rfl
          | ok rs =>
            simp only
            cases informFrom schema extract (i + (a.length + 1)) b with
            | error e => rfl
            | ok rest => rfl
  induction batches with
  | nil => intro i; rfl
  | cons b bs ih =>
    intro i
    simp only [List.flatten_cons, informBatches, happ, ih]

theorem addMetadata_num (props : List (MProp α)) (hn : (props.map MProp.name).Nodup)
    (hr : ∀ p ∈ props, p.name ∉ reservedNames) (n : Nat) (kwargs : Dict PyStr (MVal α)) (r : Record α)
    (h : addMetadata (propertyMap props) n kwargs = .ok r) : r.get? sampleId = some (.num n) := by
  obtain ⟨schema', h1, h2⟩ := c51_accepts_partial props hn hr n kwargs
  have : schema' = propertyMap props := by
    unfold newParser at h1
    split at h1
    · cases h1
    · injection h1 with h1; exact h1.symm
  subst this
  obtain ⟨_, rfl⟩ := (h2 r).1 h
  simp [Dict.get?]

/-- **C55** (numbering). If a file is indexed without an exception there is one record for every sample of the file, in
order; the `i`-th record has the number `i` and is what the parser makes of the `i`-th sample. -/
theorem c55_numbering (props : List (MProp α)) (hn : (props.map MProp.name).Nodup)
    (hr : ∀ p ∈ props, p.name ∉ reservedNames) (extract : Nat → β → Except Err (Dict PyStr (MVal α)))
    (samples : List β) (rs : List (Record α)) (h : inform (propertyMap props) extract samples = .ok rs) :
    rs.length = samples.length ∧ ∀ i x, samples[i]? = some x →
      ∃ kwargs r, extract i x = .ok kwargs ∧ rs[i]? = some r ∧ r.get? sampleId = some (.num i) ∧
        addMetadata (propertyMap props) i kwargs = .ok r := by
  obtain ⟨h1, h2⟩ := informFrom_spec _ _ _ _ _ h
  refine ⟨h1, fun i x hx => ?_⟩
  obtain ⟨kw, r, e1, e2, e3⟩ := h2 i x hx
  rw [Nat.zero_add] at e1 e2
  exact ⟨kw, r, e1, e3, addMetadata_num props hn hr i kw r e2, e2⟩

/-- **C55** (Parquet batches). Indexing a Parquet file batch by batch gives the same records as indexing its rows one by
one, however the file is cut into batches. -/
theorem c55_batches (schema : Dict PyStr (MProp α)) (extract : Nat → β → Except Err (Dict PyStr (MVal α)))
    (batches : List (List β)) : informBatches schema extract 0 batches = inform schema extract batches.flatten :=
  informBatches_eq schema extract batches 0

/-- **C55** (reading). Reading the single row `i` of a file gives exactly the sample that was indexed with the number `i`:
for JSONL, for web datasets, and for Parquet files with any row groups and any batches, whatever the batches were when the
file was indexed. -/
theorem c55_same_sample {γ : Type} (parse : β → γ) (samples : List β) (i : Nat) (x : β) (hx : samples[i]? = some x)
    (groups : List (List β)) (hg : groups.flatten = samples) (cut : List β → List (List β))
    (hc : ∀ l, (cut l).flatten = l) :
    jsonlReadFile parse samples [(i, i + 1)] = ([parse x], none) ∧
    webReadFile parse samples [(i, i + 1)] = ([parse x], none) ∧
    parquetRead parse cut groups [(i, i + 1)] = [parse x] := by
  have hlt : i < samples.length := by
    rw [List.getElem?_eq_some_iff] at hx; exact hx.1
  have hs : SortedFrom 0 [(i, i + 1)] := by simp [SortedFrom]
  have hone : requestedRows samples [(i, i + 1)] = [x] := by
    rw [requestedRows_eq]
    have : inRanges [(i, i + 1)] = fun j => decide (i ≤ j) && decide (j < i + 1) := by
      funext j; simp [inRanges]
    rw [this, selFrom_interval i (i + 1) samples 0 (Nat.zero_le _), Nat.sub_zero, Nat.add_sub_cancel_left]
    rw [List.getElem?_eq_some_iff] at hx
    obtain ⟨h1, h2⟩ := hx
    rw [List.drop_eq_getElem_cons h1, h2]
    rfl
  refine ⟨?_, ?_, ?_⟩
  · rw [c45_lines parse samples _ hs, hone]; rfl
  · rw [c45_web parse samples _ hs (by simp; omega), hone]; rfl
  · rw [c46_rows parse cut hc groups _ hs, hg, hone]; rfl

/-- A schema that satisfies the hypotheses, a sample it accepts and two it rejects. -/
example : (newParser (α := Nat) [⟨"language".toList, true, true, false, some [1, 2]⟩, ⟨"licence".toList, false, false, true, none⟩]).toOption.isSome ∧
    inform (propertyMap (α := Nat) [⟨"language".toList, true, true, false, some [1, 2]⟩,
      ⟨"licence".toList, false, false, true, none⟩]) (fun _ x => .ok [("language".toList, x)]) [.one 1, .many [2, 1]] =
      .ok [[(sampleId, .num 0), ("language".toList, .val (.many [1])), ("licence".toList, .val .null)],
        [(sampleId, .num 1), ("language".toList, .val (.many [2, 1])), ("licence".toList, .val .null)]] ∧
    inform (propertyMap (α := Nat) [⟨"language".toList, true, true, false, some [1, 2]⟩]) (fun _ x => .ok [("language".toList, x)])
      [.one 3] = .error .runtimeError ∧
    inform (propertyMap (α := Nat) [⟨"language".toList, true, true, false, some [1, 2]⟩]) (fun _ (_ : Nat) => .ok [])
      [3] = .error .runtimeError := ⟨rfl, rfl, rfl, rfl⟩

end Mixtera.Meta
