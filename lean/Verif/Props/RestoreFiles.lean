import Verif.Model.ResultFiles
import Verif.Props.Restore
import Verif.Props.Reproducible

/-!
# Restoring a query result from its files (C13)

Composes C13 (replay), C31 (the stored index) and C78 (what does not depend on the order of the index and on the state of the
random number generator).
-/

set_option linter.unusedSectionVars false

namespace Mixtera

variable {K R : Type} [DecidableEq K]

theorem SameSess.refl (a : Sess K) : SameSess a a :=
  ⟨List.Perm.refl _, fun _ => rfl, rfl, rfl, rfl, rfl, rfl, rfl, rfl, rfl, rfl, rfl⟩

theorem SameSess.update {ops : KeyOps K} (ht : ops.Total) {a b : Sess K} (h : SameSess a b) (ref : Nat) (v : MixView K) :
    SameSess (a.update ops ref v) (b.update ops ref v) := by
  refine { h with heap := ?_, mixRef := rfl, keyIds := ?_ }
  · simp only [Sess.update, h.heap]
  · simp only [Sess.update, h.keyIds]
    exact updateKeyIds_congr ht _ h.keys _

/-- Equal outcomes of a restore: both fail with the same exception, or both give query results that differ only in the order of
their index. -/
def SameOutcome (x y : Except Err (Sess K)) : Prop :=
  (∃ e, x = .error e ∧ y = .error e) ∨ ∃ a b, x = .ok a ∧ y = .ok b ∧ SameSess a b

theorem SameSess.due {ops : KeyOps K} (ht : ops.Total) {a b : Sess K} (h : SameSess a b) (ref i : Nat)
    (p : List (Nat × MixView K)) : SameSess (a.due ops ref i p).1 (b.due ops ref i p).1 ∧
      (a.due ops ref i p).2 = (b.due ops ref i p).2 := by
  cases p with
  | nil => exact ⟨h, rfl⟩
  | cons cv p =>
    unfold Sess.due
    by_cases hi : i = cv.1
    · simp only [if_pos hi]
      exact ⟨h.update ht ref _, trivial⟩
    · simp only [if_neg hi]
      exact ⟨h, trivial⟩

theorem SameSess.replayLoop {ops : KeyOps K} (ht : ops.Total) (fuel ref : Nat) : ∀ (n i : Nat) (p : List (Nat × MixView K))
    {a b : Sess K}, SameSess a b →
    SameOutcome (Mixtera.replayLoop ops fuel ref i n p a) (Mixtera.replayLoop ops fuel ref i n p b) := by
  intro n
  induction n with
  | zero => intro i p a b h; exact Or.inr ⟨a, b, rfl, rfl, h⟩
  | succ n ih =>
    intro i p a b h
    obtain ⟨hd, he⟩ := h.due ht ref i p
    obtain ⟨hn, ho⟩ := SameSess.next ht fuel hd
    unfold Mixtera.replayLoop
    simp only [← he]
    generalize (a.due ops ref i p).1.next ops fuel = x at hn ho
    generalize (b.due ops ref i p).1.next ops fuel = y at hn ho
    obtain ⟨x1, x2⟩ := x
    obtain ⟨y1, y2⟩ := y
    simp only at hn ho
    subst ho
    cases x2 with
    | chunk c => exact ih _ _ hn
    | none =>
      simp only [← hn.stopOnNone]
      split
      · exact Or.inl ⟨_, rfl, rfl⟩
      · exact ih _ _ hn
    | stop => exact Or.inl ⟨_, rfl, rfl⟩
    | raised e => exact Or.inl ⟨_, rfl, rfl⟩

theorem SameSess.replay {ops : KeyOps K} (ht : ops.Total) (fuel ref n : Nat) {a b : Sess K} (h : SameSess a b) :
    SameOutcome (a.replay ops fuel ref n) (b.replay ops fuel ref n) := by
  unfold Sess.replay
  split
  · exact Or.inr ⟨a, b, rfl, rfl, h⟩
  · have h0 : ∀ r, SameSess { a with isReplay := r } { b with isReplay := r } := fun r =>
      ⟨h.keys, h.read, h.order, h.stopOnNone, h.heap, h.mixRef, h.gen, h.idx, h.numReturns, rfl, h.log, h.keyIds⟩
    have h1 := h0 true
    have hlog := h.log
    revert h1
    generalize ({ a with isReplay := true } : Sess K) = a'
    generalize ({ b with isReplay := true } : Sess K) = b'
    intro h1
    rw [← hlog]
    cases a.log with
    | nil => exact Or.inl ⟨_, rfl, rfl⟩
    | cons cv rest =>
      rcases SameSess.replayLoop ht fuel ref n 0 rest (h1.update ht ref cv.2) with ⟨e, e1, e2⟩ | ⟨x, y, e1, e2, hxy⟩
      · simp only [e1, e2]; exact Or.inl ⟨_, rfl, rfl⟩
      · simp only [e1, e2, ← hxy.numReturns, ← hxy.idx]
        split
        · exact Or.inr ⟨_, _, rfl, rfl, ⟨hxy.keys, hxy.read, hxy.order, hxy.stopOnNone, hxy.heap, hxy.mixRef, hxy.gen, rfl,
            rfl, rfl, hxy.log, hxy.keyIds⟩⟩
        · exact Or.inl ⟨_, rfl, rfl⟩

theorem get?_none_of_keys {a b : Dict K Entries} (h : a.keys = b.keys) {k : K} (hk : a.get? k = none) : b.get? k = none := by
  cases hb : b.get? k with
  | none => rfl
  | some e =>
    have : k ∈ b.keys := (Dict.mem_keys_iff _ _).mpr ⟨e, hb⟩
    rw [← h] at this
    obtain ⟨e', he'⟩ := (Dict.mem_keys_iff _ _).mp this
    rw [hk] at he'; cases he'

/-- An index in which no id occurs twice and every key and dataset has a file. -/
structure IndexFilled (index : Dict K Entries) : Prop where
  nodup : index.keys.Nodup
  wf : ∀ ke ∈ index, EntriesWF ke.2
  filled : ∀ ke ∈ index, ke.2 ≠ [] ∧ ∀ df ∈ ke.2, df.2 ≠ []

theorem readDir_same (lib : RandomLib R) (hash : PyStr → Nat) {ops : KeyOps K} (ht : ops.Total) (text : K → PyStr)
    (fuel ref : Nat) (rng rng0 : R) (s : Sess K) (hi : IndexFilled s.index)
    (horder : s.order = (keyOrder lib hash ops text s.index.keys rng0).1) (loaded : List StoredFile)
    (hl : loaded.Perm s.writeDir.index.files) :
    SameOutcome (s.writeDir.read lib hash ops text fuel ref rng loaded) (fromCache ops fuel ref s.toCache) := by
  obtain ⟨h1, h2⟩ := c31_round_trip s.index hi.nodup hi.wf hi.filled loaded hl
  unfold ResultDir.read fromCache
  apply SameSess.replay ht
  have hk : (deserializeIndex s.writeDir.index.keys loaded).keys = s.index.keys := h1
  refine ⟨List.Perm.of_eq hk, ?_, ?_, rfl, rfl, rfl, rfl, rfl, rfl, rfl, rfl, rfl⟩
  · intro k
    cases hg : s.index.get? k with
    | none =>
      have := get?_none_of_keys h1.symm hg
      show ((deserializeIndex (serializeIndex s.index).keys loaded).get? k).map _ = (s.index.get? k).map _
      rw [this, hg]
    | some e =>
      obtain ⟨e', h3, -, -, h4⟩ := h2 k e hg
      show ((deserializeIndex (serializeIndex s.index).keys loaded).get? k).map _ = (s.index.get? k).map _
      rw [h3, hg]; simp only [Option.map_some, h4]
  · show (keyOrder lib hash ops text (deserializeIndex s.writeDir.index.keys loaded).keys rng).1 = s.order
    rw [hk, horder]
    exact congrArg Prod.fst (c78_key_order lib hash ht text s.index.keys s.index.keys (List.Perm.refl _) rng rng0).1

theorem run_same_index (ops : KeyOps K) (fuel : Nat) (os : List (SOp K)) (s : Sess K) :
    (s.run ops fuel os).1.index = s.index ∧ (s.run ops fuel os).1.order = s.order := by
  induction os generalizing s with
  | nil => exact ⟨rfl, rfl⟩
  | cons o os ih =>
    have h1 : (s.op ops fuel o).1.index = s.index ∧ (s.op ops fuel o).1.order = s.order := by
      cases o with
      | update ref v => exact ⟨rfl, rfl⟩
      | feedback v => exact ⟨rfl, rfl⟩
      | next =>
        simp only [Sess.op, Sess.next]
        split <;> exact ⟨rfl, rfl⟩
    have := ih (s.op ops fuel o).1
    exact ⟨this.1.trans h1.1, this.2.trans h1.2⟩

/-- **C13** (from the files). A query result that has delivered only chunks so far is stored in a directory. Another process,
with any state of its random number generator, loads the files in any order and computes the order of the keys anew: whatever
happens later, it gives the same answers, the same key ids and the same mixture log as the original. The index must not list an
id twice on a level and every key and dataset must have a file (C33: the chunker builds such indices; C31: otherwise keys get
lost). Missing: as in `c13_restore_continues_partial`. -/
theorem c13_restore_from_files_partial (lib : RandomLib R) (hash : PyStr → Nat) (ops : KeyOps K) (ht : ops.Total)
    (text : K → PyStr) (fuel : Nat) (hf : 0 < fuel) (index : Dict K Entries) (hi : IndexFilled index) (rng rng' : R)
    (stopOnNone : Bool) (ref0 : Nat) (v0 : MixView K) (hv0 : v0.rows.keys.Nodup)
    (history : List (SOp K)) (hh : ∀ o ∈ history, o.Ok) (s0 s : Sess K)
    (hs0 : s0 = Sess.fresh ops index (keyOrder lib hash ops text index.keys rng).1 stopOnNone ref0 v0)
    (hs : s = (s0.run ops fuel history).1)
    (hchunks : ∀ o ∈ (s0.run ops fuel history).2, o.isChunk = true)
    (hnoticed : Noticed (s0.views ops fuel history))
    (hlast : ∀ v ∈ (s0.views ops fuel history).getLast?, s.heap s.mixRef = v)
    (loaded : List StoredFile) (hl : loaded.Perm s.writeDir.index.files) :
    ∃ r, s.writeDir.read lib hash ops text fuel s.mixRef rng' loaded = .ok r ∧ ∀ later : List (SOp K),
      (r.run ops fuel later).2 = (s.run ops fuel later).2 ∧
      (r.run ops fuel later).1.keyIds = (s.run ops fuel later).1.keyIds ∧
      (r.run ops fuel later).1.log = (s.run ops fuel later).1.log := by
  obtain ⟨r, h1, h2⟩ := c13_restore_continues_partial ops fuel hf index (keyOrder lib hash ops text index.keys rng).1
    stopOnNone ref0 v0 hv0 history hh s0 s hs0 hs hchunks hnoticed hlast
  obtain ⟨e1, e2⟩ := run_same_index ops fuel history s0
  rw [← hs] at e1 e2
  have e3 : s.index = index := by rw [e1, hs0]; rfl
  have e4 : s.order = (keyOrder lib hash ops text s.index.keys rng).1 := by rw [e2, hs0, e1, hs0]; rfl
  rcases readDir_same lib hash ht text fuel s.mixRef rng' rng s (by rw [e3]; exact hi) e4 loaded hl with
    ⟨e, h3, h4⟩ | ⟨a, b, h3, h4, h5⟩
  · rw [h1] at h4; cases h4
  · rw [h1] at h4
    cases h4
    refine ⟨a, h3, fun later => ?_⟩
    obtain ⟨h6, h7⟩ := SameSess.run ht fuel later h5
    obtain ⟨h8, h9, h10⟩ := h2 later
    exact ⟨h7.trans h8, h6.keyIds.trans h9, h6.log.trans h10⟩

/-- The indices that the chunker builds are filled. -/
theorem Describes.filled {idx : Dict K Entries} {items : List (Item K)} (h : Describes idx items) : IndexFilled idx := by
  refine ⟨h.nodup, h.wf, ?_⟩
  rintro ⟨k, e⟩ hke
  have hg := Dict.get?_of_mem h.nodup hke
  have hwf := h.wf _ hke
  constructor
  · have hk : k ∈ idx.keys := (Dict.mem_keys_iff _ _).mpr ⟨e, hg⟩
    obtain ⟨it, hit, rfl⟩ := (h.key k).mp hk
    obtain ⟨e', he', hd⟩ := (h.ds it.1 it.2.1).mpr ⟨it, hit, rfl, rfl⟩
    rw [hg] at he'; cases he'
    rintro rfl
    simp [Dict.keys] at hd
  · rintro ⟨d, fs⟩ hdf rfl
    have hd : d ∈ e.keys := List.mem_map_of_mem (f := Prod.fst) hdf
    obtain ⟨it, hit, rfl, rfl⟩ := (h.ds k d).mp ⟨e, hg, hd⟩
    have h1 := h.look it.1 it.2.1 it.2.2.1
    have hne : rangesOf items it.1 it.2.1 it.2.2.1 ≠ [] := by
      unfold rangesOf
      intro hc
      rw [List.map_eq_nil_iff, List.filter_eq_nil_iff] at hc
      exact hc it hit (by simp)
    rw [if_neg hne] at h1
    unfold idxLook Entries.look at h1
    have h2 := Dict.get?_of_mem hwf.1 hdf
    rw [hg] at h1
    simp only [Option.bind_some] at h1
    rw [h2] at h1
    simp [Dict.get?] at h1

/-! ## Concrete cases -/

/-- The answers of an optional query result. -/
def laterSeen (later : List (SOp Nat)) : Option (Sess Nat) → Option (List Seen)
  | none => none
  | some s => some ((s.run Ex.ops 20 later).2.map Out.seen)

/-- The example index is filled, and the order of its keys is total. -/
example : IndexFilled Ex.index ∧ Ex.ops.Total :=
  ⟨⟨by decide, by unfold EntriesWF; decide, by decide⟩,
    ⟨by intro a b; simp [Ex.ops]; omega, by intro a b c; simp [Ex.ops]; omega, by intro a b; simp [Ex.ops]; omega⟩⟩

/-- C13 from the files, loaded in reverse order: two chunks with two mixtures are taken before the result is stored; the order
of the keys is computed anew. -/
example : let text : Nat → PyStr := fun k => [Char.ofNat (65 + k)]
    let s0 := Sess.fresh Ex.ops Ex.index (keyOrder reversing List.length Ex.ops text Ex.index.keys 0).1 false 0 Ex.strictMix
    let s := (s0.run Ex.ops 20 [.next, .update 1 ⟨[(2, 1)], true, 1⟩, .next]).1
    let later : List (SOp Nat) := [.next, .update 2 Ex.strictMix, .next, .next]
    s.order = [11, 2, 1] ∧ s.writeDir.numReturns = 2 ∧ s.writeDir.index.files.length = 3 ∧
    laterSeen later (s.writeDir.read reversing List.length Ex.ops text 20 1 5 s.writeDir.index.files.reverse).toOption =
      some [.chunk [(2, [(0, 1, 3)])], .chunk [(1, [(0, 0, 1), (0, 0, 2), (0, 0, 5)]), (2, [(0, 1, 4), (0, 1, 5)])], .none] ∧
    laterSeen later (some s) = laterSeen later
      (s.writeDir.read reversing List.length Ex.ops text 20 1 5 s.writeDir.index.files.reverse).toOption := by
  decide +kernel

end Mixtera
