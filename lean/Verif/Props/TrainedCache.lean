import Verif.Props.CacheUse
import Verif.Props.TrainedRecords
import Verif.Props.CacheHit

/-!
# Trained on the registered records, through the query cache (C83)

Composes C83 with C36: the query is executed in any state that registrations, removals and queries lead to, and its result comes
from the cache or is newly computed.
-/

set_option linter.unusedSectionVars false

namespace Mixtera

variable {β ρ α : Type}

/-- What executing a query gives: the index and the metadata of the result. -/
abbrev ResultPair := Except Err (Dict CKey Entries × ResultMeta)

/-- The result of a chain of selects (query.py:73-163, query_result.py:65-70); `enum` is the order in which sets of ids are
iterated. -/
def Engine.result (e : Engine) (enum : List Nat → List Nat) (db : Db) (q : SelectChain) : ResultPair :=
  match buildQuery (q.1 :: q.2) with
  | some s => queryResult e.leG e.split e.reorder ckeyOf e.threads enum db s
  | none => .error .runtimeError

/-- The query cache in front of it (local_stub.py:81-94). -/
def Engine.resultCached (e : Engine) (enum : List Nat → List Nat) (hash : PyStr → PyStr)
    (order : List (CacheDir ResultPair) → List (CacheDir ResultPair)) : CacheEnv SelectChain ResultPair :=
  ⟨queryText, hash, order, e.result enum⟩

/-- The states of the system after any sequence of `register_dataset` calls (those in `Made`; completed, failed or crashed
anywhere), completed `remove_dataset` calls, and queries that completed or crashed anywhere. -/
inductive SysReach (w : FileWorld β ρ) (Made : RegCall ρ → Prop) (E : CacheEnv SelectChain ResultPair) : Sys ResultPair → Prop
  | init : SysReach w Made E ⟨{}, []⟩
  | register {s : Sys ResultPair} {t : Db} (k : RegCall ρ) (hk : Made k) : SysReach w Made E s →
      t ∈ (registerDataset (k.args w)).states s.db → SysReach w Made E { s with db := t }
  | remove {s : Sys ResultPair} (n : PyStr) : SysReach w Made E s →
      SysReach w Made E { s with db := ((removeDataset n).run s.db).1 }
  | query {s t : Sys ResultPair} (q : SelectChain) : SysReach w Made E s → t ∈ (executeQuery E q).states s → SysReach w Made E t

theorem SysReach.cache {w : FileWorld β ρ} {Made : RegCall ρ → Prop} {E : CacheEnv SelectChain ResultPair} {s : Sys ResultPair}
    (h : SysReach w Made E s) : CacheReach E s := by
  induction h with
  | init => exact .init
  | register k _ _ ht ih => exact .crashedRegister _ ih ht
  | remove n _ ih => exact .op (.remove n) ih
  | query q _ ht ih => exact .query q ih ht

/-! ## What a query sees -/

theorem find?_filter_of {γ : Type} (p q : γ → Bool) (h : ∀ x, p x = true → q x = true) (l : List γ) :
    (l.filter q).find? p = l.find? p := by
  induction l with
  | nil => rfl
  | cons x l ih =>
    by_cases hp : p x = true
    · simp [List.filter_cons, h x hp, hp]
    · by_cases hq : q x = true <;> simp [hq, hp, ih]

theorem lookup_visible {db db' : Db} (h : db.visible = db'.visible) {d f : Nat} (hd : ∃ r ∈ db.samples, r.dataset = d ∧ r.file = f) :
    db.typeById d = db'.typeById d ∧ db.funcById d = db'.funcById d ∧ db.pathById f = db'.pathById f := by
  simp only [Db.visible, Prod.mk.injEq] at h
  obtain ⟨-, hs, hf, hds⟩ := h
  obtain ⟨r, hr, e1, e2⟩ := hd
  have key : ∀ db : Db, r ∈ db.samples → (db.datasets.filter fun d => db.samples.any fun s => s.dataset == d.id).find?
      (fun x => x.id == d) = db.datasets.find? (fun x => x.id == d) := by
    intro db hr
    refine find?_filter_of _ _ (fun x hx => ?_) _
    rw [List.any_eq_true]
    exact ⟨r, hr, by rw [beq_iff_eq] at hx ⊢; rw [e1, hx]⟩
  have keyf : ∀ db : Db, r ∈ db.samples → (db.files.filter fun f => db.samples.any fun s => s.file == f.id).find?
      (fun x => x.id == f) = db.files.find? (fun x => x.id == f) := by
    intro db hr
    refine find?_filter_of _ _ (fun x hx => ?_) _
    rw [List.any_eq_true]
    exact ⟨r, hr, by rw [beq_iff_eq] at hx ⊢; rw [e2, hx]⟩
  have h1 := key db hr
  have h2 := key db' (hs ▸ hr)
  have h3 := keyf db hr
  have h4 := keyf db' (hs ▸ hr)
  have e5 : db.datasets.find? (fun x => x.id == d) = db'.datasets.find? (fun x => x.id == d) := by rw [← h1, hds, h2]
  have e6 : db.files.find? (fun x => x.id == f) = db'.files.find? (fun x => x.id == f) := by rw [← h3, hf, h4]
  unfold Db.typeById Db.funcById Db.pathById
  rw [e5, e6]
  exact ⟨rfl, rfl, rfl⟩

theorem lookupAll_congr {γ : Type} {get get' : Nat → Except Err γ} : ∀ {l : List Nat}, (∀ i ∈ l, get i = get' i) →
    lookupAll get l = lookupAll get' l
  | [], _ => rfl
  | i :: l, h => by
    simp only [lookupAll]
    rw [h i (by simp), lookupAll_congr fun j hj => h j (by simp [hj])]

theorem baseData_rows {db : Db} {q : Sel} : ∀ {l : List SampleRow} {base : List (Group × Nat)}, baseData db q l = .ok base →
    ∀ x ∈ base, ∃ r ∈ l, r.dataset = x.1.1 ∧ r.file = x.1.2.1
  | [], base, h => by
    cases h; simp
  | r :: l, base, h => by
    simp only [baseData] at h
    split at h
    · cases h
    · rename_i b hb
      cases hr : baseData db q l with
      | error e => rw [hr] at h; cases h
      | ok rest =>
        rw [hr] at h
        have ih := baseData_rows hr
        have h : base = if b then (r.group (groupCols db), r.sample) :: rest else rest := by
          injection h with h; exact h.symm
        intro x hx
        rw [h] at hx
        split at hx
        · rcases List.mem_cons.mp hx with rfl | hx
          · exact ⟨r, by simp, rfl, rfl⟩
          · obtain ⟨r', h1, h2⟩ := ih x hx
            exact ⟨r', by simp [h1], h2⟩
        · obtain ⟨r', h1, h2⟩ := ih x hx
          exact ⟨r', by simp [h1], h2⟩

theorem parseMeta_visible {enum : List Nat → List Nat} (henum : ∀ l, (enum l).Perm l) {db db' : Db} (h : db.visible = db'.visible)
    {table : List TRow} (ht : ∀ t ∈ table, ∃ r ∈ db.samples, r.dataset = t.ds ∧ r.file = t.file) :
    parseMeta enum db table = parseMeta enum db' table := by
  have hd : ∀ i ∈ enum (table.map TRow.ds).dedup, db.typeById i = db'.typeById i ∧ db.funcById i = db'.funcById i := by
    intro i hi
    rw [(henum _).mem_iff, List.mem_dedup] at hi
    obtain ⟨t, ht', rfl⟩ := List.mem_map.mp hi
    have := lookup_visible h (ht t ht')
    exact ⟨this.1, this.2.1⟩
  have hf : ∀ i ∈ enum (table.map TRow.file).dedup, db.pathById i = db'.pathById i := by
    intro i hi
    rw [(henum _).mem_iff, List.mem_dedup] at hi
    obtain ⟨t, ht', rfl⟩ := List.mem_map.mp hi
    exact (lookup_visible h (ht t ht')).2.2
  unfold parseMeta
  rw [lookupAll_congr fun i hi => (hd i hi).1, lookupAll_congr fun i hi => (hd i hi).2, lookupAll_congr hf]

theorem engine_result_ok (e : Engine) {enum : List Nat → List Nat} (henum : ∀ l, (enum l).Perm l) (hash : PyStr → PyStr)
    (order : List (CacheDir ResultPair) → List (CacheDir ResultPair)) (ho : ∀ l d, d ∈ order l ↔ d ∈ l) :
    (e.resultCached enum hash order).OK where
  inj := c36_text_identifies_query
  order := ho
  sees := by
    intro db db' q h
    show e.result enum db q = e.result enum db' q
    unfold Engine.result
    cases buildQuery (q.1 :: q.2) with
    | none => rfl
    | some sel =>
      have hv := h
      simp only [Db.visible, Prod.mk.injEq] at hv
      have hb : baseData db' sel db'.samples = baseData db sel db.samples := by
        rw [← hv.2.1]; exact (baseData_congr hv.1 sel _).symm
      simp only [queryResult, hb]
      cases hbase : baseData db sel db.samples with
      | error e => rfl
      | ok base =>
        have : parseMeta enum db ((queryIntervals e.leG base).map rowOf) = parseMeta enum db' ((queryIntervals e.leG base).map rowOf) :=
          parseMeta_visible henum h (by
            intro t ht
            obtain ⟨iv, hiv, rfl⟩ := List.mem_map.mp ht
            obtain ⟨r, hr, e1, e2⟩ := baseData_rows hbase _ (mem_result hiv).2.1
            exact ⟨r, hr, e1, e2⟩)
        simp only [this]

theorem executeQuery_db {E : CacheEnv SelectChain ResultPair} (hE : E.OK) {s t : Sys ResultPair} (h : CacheReach E s)
    (q : SelectChain) (ht : t ∈ (executeQuery E q).states s) : t.db = s.db := by
  obtain ⟨-, h2⟩ := lookupCache_inv (cacheReach_inv hE h) q
  have hq : ∀ (r : ResultPair) (u : Sys ResultPair), ∀ t ∈ (cacheQuery E q r).states u, t.db = u.db := by
    intro r u t ht
    simp only [cacheQuery, Prog.bind_eq, Prog.exec, Prog.bind, Prog.states, List.mem_cons, List.not_mem_nil, or_false, id] at ht
    rcases ht with rfl | rfl | rfl | rfl | rfl | rfl <;> rfl
  unfold executeQuery at ht
  simp only [Prog.states, List.mem_cons] at ht
  rcases ht with rfl | ht
  · rfl
  · rw [← h2]
    split at ht
    · simp only [Prog.states, List.mem_singleton] at ht; subst ht; rfl
    · simp only [Prog.states, List.mem_singleton] at ht; subst ht; rfl
    · rw [Prog.mem_states_bind] at ht
      rcases ht with ht | ⟨r, h3, ht⟩
      · simp only [Prog.exec, Prog.states, List.mem_cons, List.not_mem_nil, or_false, id] at ht
        rcases ht with rfl | rfl <;> rfl
      · simp only [Prog.run_exec, id] at ht
        rw [Prog.mem_states_bind] at ht
        rcases ht with ht | ⟨_, _, ht⟩
        · exact hq _ _ _ ht
        · simp only [Prog.states, List.mem_singleton] at ht
          subst ht
          exact hq _ _ _ (Prog.run_mem_states _ _)

theorem SysReach.reachable {w : FileWorld β ρ} {Made : RegCall ρ → Prop} {E : CacheEnv SelectChain ResultPair} (hE : E.OK)
    {s : Sys ResultPair} (h : SysReach w Made E s) : Reachable w Made s.db := by
  induction h with
  | init => exact .init
  | register k hk _ ht ih => exact .register _ ih ⟨k, hk, rfl⟩ ht
  | remove n _ ih => exact .remove n ih (Prog.run_mem_states _ _)
  | query q hs ht ih => rw [executeQuery_db hE hs.cache q ht]; exact ih

/-- **C83** (through the cache). In every state that any sequence of registrations (completed, failed or crashed anywhere),
completed removals, and completed or crashed queries leads to: whatever executing a query returns, from the cache or newly
computed, is an index with metadata from which the records registered now are delivered.
`_partial`: as in C36 (crashed removals and races are excluded) and as `c83_trained_records_partial`. -/
theorem c83_through_cache_partial (w : FileWorld β ρ) (hw : w.Faithful) (Made : RegCall ρ → Prop)
    (hmade : ∀ k, Made k → ∀ p, k.parser = some p → p.Proper) (e : Engine) (he : e.OK)
    (enum : List Nat → List Nat) (henum : ∀ l, (enum l).Perm l) (dirHash : PyStr → PyStr)
    (order : List (CacheDir ResultPair) → List (CacheDir ResultPair)) (ho : ∀ l d, d ∈ order l ↔ d ∈ l)
    (s : Sys ResultPair) (hs : SysReach w Made (e.resultCached enum dirHash order) s)
    (q : SelectChain) (hp : ReadableDb s.db) (hq : GoodQuery s.db (q.1 :: q.2)) (found : ResultPair)
    (hrun : ((executeQuery (e.resultCached enum dirHash order) q).run s).2 = .ok found) (apply : PyStr → ρ → α) :
    ∃ idx m, ∃ item : Pos → Option α, found = .ok (idx, m) ∧
      DeliversRecords w Made s.db (q.1 :: q.2) apply idx m item := by
  have hE := engine_result_ok e henum dirHash order ho
  have hfound : found = e.result enum s.db q := c36_current_result_partial _ hE hs.cache q found hrun
  obtain ⟨sel, hsel⟩ := buildQuery_cons q.1 q.2
  obtain ⟨idx, m, item, h1, h2⟩ := c83_trained_records_partial w hw Made hmade s.db (hs.reachable hE) hp (q.1 :: q.2) hq sel hsel
    e.leG he.order e.split he.batches e.reorder he.maps e.threads he.threads enum henum apply
  refine ⟨idx, m, item, ?_, h2⟩
  rw [hfound]
  unfold Engine.result
  rw [hsel]
  exact h1

namespace Ex83

/-- The query of the example as a chain of selects. -/
def chain : SelectChain := ([⟨"lang".toList, "==".toList, .one "de".toList⟩], [])

/-- Executing a query with an empty cache and then again: the second execution finds the result. -/
theorem executeQuery_twice {Q R : Type} (E : CacheEnv Q R) (hE : ∀ l, E.order l = l) (q : Q) (d : Db) :
    lookup E q ((executeQuery E q).run ⟨d, []⟩).1 = .hit (E.eval d q) ∧
      ((executeQuery E q).run ((executeQuery E q).run ⟨d, []⟩).1).2 = .ok (E.eval d q) := by
  have h0 : lookup E q (⟨d, []⟩ : Sys R) = .miss := rfl
  have h1 : ((executeQuery E q).run ⟨d, []⟩).1 =
      ⟨d, [(E.hash (E.text q), [⟨0, .full d.version (E.text q), some (E.eval d q)⟩])]⟩ := by
    rcases executeQuery_cases E q ⟨d, []⟩ with ⟨r, hl, _⟩ | ⟨hl, _⟩ | ⟨_, e, _⟩
    · rw [h0] at hl; exact absurd hl (by simp)
    · rw [h0] at hl; exact absurd hl (by simp)
    · rw [e]; rfl
  rw [h1]
  have h2 : lookup E q ⟨d, [(E.hash (E.text q), [⟨0, .full d.version (E.text q), some (E.eval d q)⟩])]⟩ = .hit (E.eval d q) := by
    simp [lookup, Dict.get?, hE, scan]
  refine ⟨h2, ?_⟩
  rcases executeQuery_cases E q ⟨d, [(E.hash (E.text q), [⟨0, .full d.version (E.text q), some (E.eval d q)⟩])]⟩ with
    ⟨r, hl, e, _⟩ | ⟨hl, _⟩ | ⟨hl, _, _⟩
  · rw [h2] at hl; rw [e]; injection hl with hl; rw [hl]
  · rw [h2] at hl; exact absurd hl (by simp)
  · rw [h2] at hl; exact absurd hl (by simp)

/-- Non-vacuity of `c83_through_cache_partial`, for any engine: two datasets were registered and the query executed; the second
execution finds the result in the cache. -/
example (e : Engine) : let E := e.resultCached id id id
    let s := ((executeQuery E chain).run ⟨db, []⟩).1
    SysReach world (fun k => k = callA ∨ k = callB) E s ∧ PlainDb s.db ∧ GoodQuery s.db (chain.1 :: chain.2) ∧
      lookup E chain s = .hit (e.result id db chain) ∧ ((executeQuery E chain).run s).2 = .ok (e.result id db chain) := by
  intro E s
  have hdb : s.db = db := rfl
  refine ⟨.query chain (.register callB (Or.inr rfl) (.register callA (Or.inl rfl) .init (Prog.run_mem_states _ _))
    (Prog.run_mem_states _ _)) (Prog.run_mem_states _ _), ?_, ?_, ?_, ?_⟩
  · rw [hdb]; exact plain
  · rw [hdb]; exact good
  · exact (executeQuery_twice E (fun l => rfl) chain db).1
  · exact (executeQuery_twice E (fun l => rfl) chain db).2

end Ex83

end Mixtera
