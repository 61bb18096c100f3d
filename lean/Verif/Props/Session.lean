import Verif.Model.Session
import Verif.Props.Reorder

/-!
# C10 and C14: mixture updates and key ids

Statements about whole lives of a query result: any sequence of `update_mixture`, feedback (in-place
changes of the current mixture object) and `next`.
-/

set_option linter.unusedSectionVars false

namespace Mixtera

variable {K : Type} [DecidableEq K]

/-! ### C10 -/

/-- The chunk is composed according to mixture `v`: strict mixtures exactly, best-effort mixtures in total
size and keys, no mixture: at most `chunk_size` samples of one key. -/
def ComposedBy (v : MixView K) (c : RChunk K) : Prop :=
  if v.rows = [] then c.mixture = none ∧ (∃ k, c.content.keys = [k]) ∧ (contentSamples c.content).length ≤ v.chunkSize
  else
    c.strict = v.strict ∧ (∀ k ∈ c.content.keys, k ∈ v.rows.keys) ∧
    (contentSamples c.content).length = v.rows.values.sum ∧
    (v.strict = true → c.mixture = some v.rows ∧ ∀ k, (keySamples c.content k).length = (v.rows.get? k).getD 0)

/-- The mixture views mentioned in an operation are dictionaries. -/
def SOp.Ok : SOp K → Prop
  | .update _ v => v.rows.keys.Nodup
  | .feedback v => v.rows.keys.Nodup
  | .next => True

theorem step_susp (ops : KeyOps K) (fuel : Nat) (replay : Bool) (heap : Nat → MixView K) (g : Gen K)
    {g' : Gen K} {o : Out K} (h : g.step ops fuel replay heap = (g', some o)) :
    (o = .none ↔ g'.susp = .afterNone) := by
  unfold Gen.step at h
  split at h
  · simp only [Prod.mk.injEq, Option.some.injEq] at h
    obtain ⟨rfl, rfl⟩ := h; simp
  · dsimp only at h
    split at h
    · unfold stepArbitrary at h
      dsimp only at h
      generalize (if (g.prev.isSome || g.cur == 0) = true then _ else g : Gen K) = g1 at h
      split at h
      · simp only [Prod.mk.injEq, Option.some.injEq] at h; obtain ⟨rfl, rfl⟩ := h; simp
      · simp only [Prod.mk.injEq, Option.some.injEq] at h; obtain ⟨rfl, rfl⟩ := h; simp
      · split at h
        · split at h
          · simp only [Prod.mk.injEq, Option.some.injEq] at h; obtain ⟨rfl, rfl⟩ := h; simp
          · simp only [Prod.mk.injEq, Option.some.injEq] at h; obtain ⟨rfl, rfl⟩ := h; simp
        · simp at h
    · unfold stepMixture at h
      dsimp only at h
      generalize (if _ = true then _ else g : Gen K) = g1 at h
      split at h
      · simp only [Prod.mk.injEq, Option.some.injEq] at h; obtain ⟨rfl, rfl⟩ := h; simp
      · split at h
        · simp only [Prod.mk.injEq, Option.some.injEq] at h; obtain ⟨rfl, rfl⟩ := h; simp
        · simp at h
      · simp only [Prod.mk.injEq, Option.some.injEq] at h; obtain ⟨rfl, rfl⟩ := h; simp

theorem send_susp (ops : KeyOps K) (fuel : Nat) (replay : Bool) (heap : Nat → MixView K) (g : Gen K) (mix t : Nat)
    {g' : Gen K} {o : Out K} (h : g.send ops fuel replay heap mix t = (g', o)) :
    (o = .none ↔ g'.susp = .afterNone) := by
  have hrun : ∀ (n : Nat) (g : Gen K) {g' : Gen K} {o : Out K}, g.run ops fuel replay heap n = (g', o) →
      (o = .none ↔ g'.susp = .afterNone) := by
    intro n
    induction n with
    | zero =>
      intro g g' o h
      simp only [Gen.run, Prod.mk.injEq] at h
      obtain ⟨rfl, rfl⟩ := h; simp
    | succ n ih =>
      intro g g' o h
      rw [Gen.run] at h
      split at h
      · rename_i hs
        simp only [Prod.mk.injEq] at h
        obtain ⟨rfl, rfl⟩ := h
        exact step_susp ops fuel replay heap g hs
      · exact ih _ h
  unfold Gen.send at h
  split at h
  · rename_i hs
    simp only [Prod.mk.injEq] at h
    obtain ⟨rfl, rfl⟩ := h
    simp [hs]
  · exact hrun _ _ h
  · exact hrun _ _ h

/-- Facts that hold for a query result at any time of its life; `last` is the last answer. -/
structure SessInv (index : Dict K Entries) (order : List K) (last : Option (Out K)) (s : Sess K) : Prop where
  idxEq : s.index = index
  ordEq : s.order = order
  heap : HeapOk s.heap
  gen : GenInv s.theGen
  rel : ∃ d, GenRel (Gen.init index order) s.theGen d
  susp : s.theGen.susp = .afterNone → last = some .none

theorem sessInv_fresh (ops : KeyOps K) {index : Dict K Entries} {order : List K} (hi : IndexOk index order) (b : Bool)
    (ref : Nat) (v : MixView K) (hv : v.rows.keys.Nodup) : SessInv index order none (Sess.fresh ops index order b ref v) where
  idxEq := rfl
  ordEq := rfl
  heap := fun _ => hv
  gen := ⟨(genInv_init hi).keys, (genInv_init hi).nodup, (genInv_init hi).empty⟩
  rel := ⟨[], GenRel.refl _ _ rfl rfl⟩
  susp := by intro h; simp [Sess.theGen, Sess.fresh, Gen.init] at h

theorem theGen_next (ops : KeyOps K) (fuel : Nat) (s : Sess K) (h : (s.gen.isNone && s.numReturns != 0) = false) :
    (s.next ops fuel).1.theGen = (s.theGen.send ops fuel s.isReplay s.heap s.mixRef s.idx).1 ∧
    (s.next ops fuel).2 = (s.theGen.send ops fuel s.isReplay s.heap s.mixRef s.idx).2 := by
  unfold Sess.next
  rw [h, if_neg (by simp)]
  exact ⟨rfl, rfl⟩

theorem sessInv_op (ops : KeyOps K) (fuel : Nat) {index : Dict K Entries} {order : List K} {last : Option (Out K)}
    {s : Sess K} (h : SessInv index order last s) (o : SOp K) (ho : o.Ok) :
    SessInv index order ((s.op ops fuel o).2.or last) (s.op ops fuel o).1 := by
  match o with
  | .update ref v =>
    refine { idxEq := h.idxEq, ordEq := h.ordEq, heap := ?_, gen := h.gen, rel := h.rel, susp := h.susp }
    intro i
    simp only [Sess.op, Sess.update]
    split
    · exact ho
    · exact h.heap i
  | .feedback v =>
    refine { idxEq := h.idxEq, ordEq := h.ordEq, heap := ?_, gen := h.gen, rel := h.rel, susp := h.susp }
    intro i
    simp only [Sess.op, Sess.feedback]
    split
    · exact ho
    · exact h.heap i
  | .next =>
    simp only [Sess.op, Option.some_or]
    cases hc : (s.gen.isNone && s.numReturns != 0) with
    | true =>
      have e : s.next ops fuel = ({ s with idx := s.idx + 1 }, .raised .assertion) := by
        unfold Sess.next; rw [hc, if_pos rfl]
      rw [e]
      refine { idxEq := h.idxEq, ordEq := h.ordEq, heap := h.heap, gen := h.gen, rel := h.rel, susp := ?_ }
      intro hs
      have hn : s.gen = none := by
        rw [Bool.and_eq_true, Option.isNone_iff_eq_none] at hc; exact hc.1
      simp [Sess.theGen, hn, Gen.init] at hs
    | false =>
      obtain ⟨e1, e2⟩ := theGen_next ops fuel s hc
      have hr : HeapOk (Req.mk s.heap s.mixRef s.idx fuel).heap := h.heap
      obtain ⟨d, hd⟩ := h.rel
      match hsend : s.theGen.send ops fuel s.isReplay s.heap s.mixRef s.idx with
      | (g', o) =>
        rw [hsend] at e1 e2
        have sr := send_rel ops s.isReplay s.theGen h.gen ⟨s.heap, s.mixRef, s.idx, fuel⟩ hr hsend
        have keep : (s.next ops fuel).1.index = s.index ∧ (s.next ops fuel).1.order = s.order ∧
            (s.next ops fuel).1.heap = s.heap := by
          unfold Sess.next; rw [hc, if_neg (by simp)]; exact ⟨rfl, rfl, rfl⟩
        exact {
          idxEq := keep.1.trans h.idxEq
          ordEq := keep.2.1.trans h.ordEq
          heap := by rw [keep.2.2]; exact h.heap
          gen := by rw [e1]; exact sr.2
          rel := by rw [e1]; exact ⟨_, hd.trans sr.1⟩
          susp := by
            rw [e1, e2]
            intro hs
            rw [(send_susp ops fuel s.isReplay s.heap s.theGen s.mixRef s.idx hsend).mpr hs] }

theorem sessInv_run (ops : KeyOps K) (fuel : Nat) {index : Dict K Entries} {order : List K} (os : List (SOp K))
    (ho : ∀ o ∈ os, o.Ok) {last : Option (Out K)} {s : Sess K} (h : SessInv index order last s) :
    SessInv index order ((s.run ops fuel os).2.getLast?.or last) (s.run ops fuel os).1 := by
  induction os generalizing s last with
  | nil => simpa [Sess.run] using h
  | cons o os ih =>
    have h1 := sessInv_op ops fuel h o (ho o (by simp))
    have h2 := ih (fun o' ho' => ho o' (by simp [ho'])) h1
    rw [Sess.run]
    dsimp only
    have e : ((s.op ops fuel o).2.toList ++ ((s.op ops fuel o).1.run ops fuel os).2).getLast?.or last =
        ((s.op ops fuel o).1.run ops fuel os).2.getLast?.or ((s.op ops fuel o).2.or last) := by
      rw [List.getLast?_append]
      cases ((s.op ops fuel o).1.run ops fuel os).2.getLast? with
      | some x => simp
      | none => cases (s.op ops fuel o).2 <;> simp
    rw [e]
    exact h2

theorem mix_chunk_keys {ops : KeyOps K} {iters : Dict K (List Seg)} {v : MixView K} {att : Att K} {c : RChunk K}
    (hsp : AttemptSpec ops iters v att true) (hc : att.chunk = c.content) :
    (∀ k ∈ c.content.keys, k ∈ v.rows.keys) ∧ (contentSamples c.content).length = v.rows.values.sum ∧
    ∀ k, (keySamples c.content k).length = (att.mixture.get? k).getD 0 := by
  refine ⟨?_, ?_, ?_⟩
  · intro k hk
    rw [← hc] at hk
    exact hsp.inv.chunkSub k hk
  · rw [← hc, hsp.inv.chunkSize (hsp.done rfl), hsp.inv.sum (hsp.ne rfl)]
  · intro k
    have := hsp.inv.bal k
    rw [hsp.done rfl k] at this
    simp only [Att.ce, Att.mix, hc, Nat.add_zero] at this
    rw [keySamples, length_entriesSamples]
    exact this

theorem composed_eff (ops : KeyOps K) (fuel : Nat) {index : Dict K Entries} {order : List K} {last : Option (Out K)}
    {s s' : Sess K} (h : SessInv index order last s) {c : RChunk K}
    (hn : s.next ops fuel = (s', .chunk c)) : ComposedBy (s.theGen.eff ⟨s.heap, s.mixRef, s.idx, fuel⟩) c := by
  cases hc : (s.gen.isNone && s.numReturns != 0) with
  | true =>
    unfold Sess.next at hn
    rw [hc, if_pos rfl] at hn
    simp at hn
  | false =>
    obtain ⟨_, e2⟩ := theGen_next ops fuel s hc
    rw [hn] at e2
    match hsend : s.theGen.send ops fuel s.isReplay s.heap s.mixRef s.idx with
    | (g', o) =>
      rw [hsend] at e2
      simp only at e2
      subst e2
      have hr : HeapOk (Req.mk s.heap s.mixRef s.idx fuel).heap := h.heap
      obtain ⟨g1, _, _, hcase⟩ := chunk_facts ops s.isReplay h.gen ⟨s.heap, s.mixRef, s.idx, fuel⟩ hr hsend
      unfold ComposedBy
      rcases hcase with ⟨hne, hm⟩ | ⟨h0, hm⟩
      · rw [if_neg hne]
        obtain ⟨att, hsp, hcc, hmx, _, _⟩ := hm.ex
        have hkeys := mix_chunk_keys hsp hcc
        refine ⟨hm.strict, hkeys.1, hkeys.2.1, fun hst => ?_⟩
        have := hsp.strictMix hst
        refine ⟨by rw [hmx, this], fun k => ?_⟩
        rw [hkeys.2.2 k, this]
      · rw [if_pos h0]
        obtain ⟨key, out, hcc, _, _, hout, _⟩ := hm.ex
        refine ⟨hm.mixture, ⟨key, by simp [hcc, Dict.keys]⟩, ?_⟩
        rw [hcc, contentSamples_single, length_nestSegs, hout, List.length_take]
        exact Nat.min_le_left _ _

theorem eff_current {index : Dict K Entries} {order : List K} {last : Option (Out K)} {s : Sess K}
    (h : SessInv index order last s) (hl : last ≠ some .none) (t fuel : Nat) :
    s.theGen.eff ⟨s.heap, s.mixRef, t, fuel⟩ = s.heap s.mixRef := by
  unfold Gen.eff
  rw [if_neg (fun hs => hl (h.susp hs))]

theorem composed_next (ops : KeyOps K) (fuel : Nat) {index : Dict K Entries} {order : List K} {last : Option (Out K)}
    {s s' : Sess K} (h : SessInv index order last s) (hl : last ≠ some .none) {c : RChunk K}
    (hn : s.next ops fuel = (s', .chunk c)) : ComposedBy (s.heap s.mixRef) c := by
  rw [← eff_current h hl s.idx fuel]
  exact composed_eff ops fuel h hn

/-- C10. At any time in the life of a query result at which the last request was not answered by "no chunk"
(`None`), a chunk handed out right after `update_mixture(m)` is composed according to `m`. The case after a
`None` is missing: there the claim is false, see `c10_update_ignored_after_none`. -/
theorem c10_update_applies_partial (ops : KeyOps K) (fuel : Nat) (index : Dict K Entries) (order : List K)
    (hi : IndexOk index order) (stopOnNone : Bool) (ref0 : Nat) (v0 : MixView K) (hv0 : v0.rows.keys.Nodup)
    (history : List (SOp K)) (hh : ∀ o ∈ history, o.Ok) (s s' : Sess K)
    (hs : s = ((Sess.fresh ops index order stopOnNone ref0 v0).run ops fuel history).1)
    (hlast : ((Sess.fresh ops index order stopOnNone ref0 v0).run ops fuel history).2.getLast? ≠ some .none)
    (ref : Nat) (v : MixView K) (hv : v.rows.keys.Nodup) (c : RChunk K)
    (hn : (s.update ops ref v).next ops fuel = (s', .chunk c)) : ComposedBy v c := by
  have h := sessInv_run ops fuel history hh (sessInv_fresh ops hi stopOnNone ref0 v0 hv0)
  rw [← hs, Option.or_none] at h
  have h1 := sessInv_op ops fuel h (.update ref v) hv
  have := composed_next ops fuel h1 (by simpa [Sess.op] using hlast) hn
  simpa [Sess.op, Sess.update] using this

/-- C10 for feedback. The same when the current mixture object was changed in place by client feedback
(dynamic mixtures, schedules). -/
theorem c10_feedback_applies_partial (ops : KeyOps K) (fuel : Nat) (index : Dict K Entries) (order : List K)
    (hi : IndexOk index order) (stopOnNone : Bool) (ref0 : Nat) (v0 : MixView K) (hv0 : v0.rows.keys.Nodup)
    (history : List (SOp K)) (hh : ∀ o ∈ history, o.Ok) (s s' : Sess K)
    (hs : s = ((Sess.fresh ops index order stopOnNone ref0 v0).run ops fuel history).1)
    (hlast : ((Sess.fresh ops index order stopOnNone ref0 v0).run ops fuel history).2.getLast? ≠ some .none)
    (v : MixView K) (hv : v.rows.keys.Nodup) (c : RChunk K)
    (hn : (s.feedback v).next ops fuel = (s', .chunk c)) : ComposedBy v c := by
  have h := sessInv_run ops fuel history hh (sessInv_fresh ops hi stopOnNone ref0 v0 hv0)
  rw [← hs, Option.or_none] at h
  have h1 := sessInv_op ops fuel h (.feedback v) hv
  have := composed_next ops fuel h1 (by simpa [Sess.op] using hlast) hn
  simpa [Sess.op, Sess.feedback] using this

/-- Short form of an answer, for concrete cases. -/
inductive Seen
  | chunk (content : List (Nat × List Pos))
  | none
  | stop
  | error (e : Err)
deriving DecidableEq

def Out.seen : Out Nat → Seen
  | .chunk c => .chunk (c.content.map fun (k, e) => (k, entriesSamples e))
  | .none => .none
  | .stop => .stop
  | .raised e => .error e

/-- A chunk, an update, and a chunk composed differently. -/
example : let s := (Sess.fresh Ex.ops Ex.index Ex.order false 0 Ex.strictMix).run Ex.ops 20 [.next, .update 1 Ex.arbMix, .next]
    s.2.map Out.seen = [
      .chunk [(1, [(0, 0, 0), (0, 0, 3), (0, 0, 4)]), (2, [(0, 1, 0), (0, 1, 1)])],
      .chunk [(11, [(0, 0, 1), (0, 0, 2), (0, 0, 5), (0, 0, 6)])]] := by
  decide +kernel

/-- C10 is violated by the code after a `None`: key 1 cannot serve 100 samples, so the first request is
answered by `None`. The user then switches to a mixture for which all data is available; it is ignored for
ever: ten more requests fail and then the generator stops. A query result that never saw the first request
serves the new mixture at once. (query_result.py:503: the value sent to the bare `yield None` is dropped.) -/
theorem c10_update_ignored_after_none :
    let bad : MixView Nat := ⟨[(1, 100)], true, 100⟩
    let good : MixView Nat := ⟨[(2, 2)], true, 2⟩
    let s := Sess.fresh Ex.ops Ex.index Ex.order false 0 bad
    (s.run Ex.ops 20 ([.next, .update 1 good] ++ List.replicate 12 .next)).2.map Out.seen =
      List.replicate 11 Seen.none ++ [.stop, .stop] ∧
    (s.run Ex.ops 20 [.update 1 good, .next]).2.map Out.seen = [.chunk [(2, [(0, 1, 0), (0, 1, 1)])]] := by
  decide +kernel

/-! ### C14 -/

/-- Ids are handed out in order: the n-th key has id n; no key occurs twice. -/
structure IdsOk (m : Dict K Nat) : Prop where
  keys : m.keys.Nodup
  values : m.values = List.range m.length

theorem set_new (m : Dict K Nat) (k : K) (n : Nat) (h : k ∉ m.keys) : m.set k n = m ++ [(k, n)] := by
  induction m with
  | nil => rfl
  | cons ab m ih =>
    obtain ⟨a, b⟩ := ab
    simp only [Dict.keys, List.map_cons, List.mem_cons, not_or] at h
    show Dict.upsert ((a, b) :: m) k _ = _
    rw [Dict.upsert, if_neg (Ne.symm h.1)]
    rw [List.cons_append]
    congr 1
    exact ih h.2

theorem has_iff (m : Dict K Nat) (k : K) : m.has k = true ↔ k ∈ m.keys := by
  rw [Dict.mem_keys_iff, Dict.has, Option.isSome_iff_exists]

theorem assignIds_spec (ks : List K) (m : Dict K Nat) (h : IdsOk m) :
    IdsOk (assignIds ks m.length m) ∧ (∀ k i, m.get? k = some i → (assignIds ks m.length m).get? k = some i) ∧
    ∀ k, k ∈ (assignIds ks m.length m).keys ↔ k ∈ ks ∨ k ∈ m.keys := by
  induction ks generalizing m with
  | nil => exact ⟨h, fun _ _ h => h, by simp [assignIds]⟩
  | cons k ks ih =>
    rw [assignIds]
    by_cases hk : k ∈ m.keys
    · rw [if_pos ((has_iff m k).mpr hk)]
      obtain ⟨h1, h2, h3⟩ := ih m h
      refine ⟨h1, h2, fun k' => ?_⟩
      rw [h3, List.mem_cons]
      constructor
      · rintro (h | h) <;> simp [h]
      · rintro ((rfl | h) | h)
        · exact Or.inr hk
        · exact Or.inl h
        · exact Or.inr h
    · rw [if_neg (fun hh => hk ((has_iff m k).mp hh)), set_new m k _ hk]
      have hl : (m ++ [(k, m.length)]).length = m.length + 1 := by simp
      have hok : IdsOk (m ++ [(k, m.length)]) := by
        constructor
        · simp only [Dict.keys, List.map_append, List.map_cons, List.map_nil]
          rw [List.nodup_append]
          refine ⟨h.keys, by simp, ?_⟩
          intro a ha b hb
          simp only [List.mem_singleton] at hb
          subst hb
          intro hab; exact hk (hab ▸ ha)
        · have := h.values
          simp only [Dict.values] at this
          simp [Dict.values, List.range_succ, this]
      obtain ⟨h1, h2, h3⟩ := ih _ hok
      rw [hl] at h1 h2 h3
      refine ⟨h1, fun k' i hi => h2 k' i ?_, fun k' => ?_⟩
      · rw [← set_new m k _ hk, Dict.get?_set]
        split
        · rename_i e
          subst e
          rw [(Dict.get?_eq_none_iff m k).mpr hk] at hi
          simp at hi
        · exact hi
      · rw [h3]
        simp only [Dict.keys, List.map_append, List.map_cons, List.map_nil, List.mem_append, List.mem_cons,
          List.not_mem_nil, or_false]
        tauto

theorem maxOf_range (n : Nat) : maxOf (List.range (n + 1)) = n := by
  have h : ∀ s n, maxOf (List.range' s (n + 1)) = s + n := by
    intro s n
    induction n generalizing s with
    | zero => simp [List.range'_succ, maxOf]
    | succ n ih =>
      rw [List.range'_succ, maxOf, ih]
      omega
  rw [List.range_eq_range', h]; omega

theorem updateKeyIds_spec (ops : KeyOps K) (rows index : List K) (m : Dict K Nat) (h : IdsOk m) :
    IdsOk (updateKeyIds ops rows index m) ∧
    (∀ k i, m.get? k = some i → (updateKeyIds ops rows index m).get? k = some i) ∧
    (∀ k, k ∈ (updateKeyIds ops rows index m).keys ↔ k ∈ rows ∨ k ∈ m.keys ∨ (m = [] ∧ k ∈ index)) := by
  unfold updateKeyIds
  split
  · rename_i h0
    have hm : m = [] := List.eq_nil_of_length_eq_zero h0
    subst hm
    obtain ⟨h1, h2, h3⟩ := assignIds_spec (ops.sort (rows ++ index)) [] h
    refine ⟨h1, h2, fun k => ?_⟩
    have := h3 k
    simp only [List.length_nil] at this
    rw [this, (sort_perm ops _).mem_iff, List.mem_append]
    simp [Dict.keys]
  · rename_i h0
    obtain ⟨n, hn⟩ : ∃ n, m.length = n + 1 := ⟨m.length - 1, by omega⟩
    have e : maxOf m.values + 1 = m.length := by rw [h.values, hn, maxOf_range]
    rw [e]
    obtain ⟨h1, h2, h3⟩ := assignIds_spec (ops.sort rows) m h
    refine ⟨h1, h2, fun k => ?_⟩
    rw [h3, (sort_perm ops _).mem_iff]
    have : m ≠ [] := fun e => h0 (by simp [e])
    simp [this]

theorem updateKeyIds_perm (ops : KeyOps K) (ht : ops.Total) {rows rows' index index' : List K} (h1 : rows.Perm rows')
    (h2 : index.Perm index') (m : Dict K Nat) : updateKeyIds ops rows index m = updateKeyIds ops rows' index' m := by
  unfold updateKeyIds
  rw [sort_congr ops ht (h1.append h2), sort_congr ops ht h1]

/-- What holds for the key ids of a query result at any time: well formed, and all property combinations of
the index have one. -/
structure KeyIdInv (s : Sess K) : Prop where
  ok : IdsOk s.keyIds
  index : ∀ k ∈ s.index.keys, k ∈ s.keyIds.keys

theorem keyIdInv_fresh (ops : KeyOps K) (index : Dict K Entries) (order : List K) (b : Bool) (ref : Nat) (v : MixView K) :
    KeyIdInv (Sess.fresh ops index order b ref v) ∧
    ∀ k ∈ v.rows.keys, k ∈ (Sess.fresh ops index order b ref v).keyIds.keys := by
  obtain ⟨h1, _, h3⟩ := updateKeyIds_spec ops v.rows.keys index.keys [] ⟨by simp [Dict.keys], rfl⟩
  exact ⟨⟨h1, fun k hk => (h3 k).mpr (Or.inr (Or.inr ⟨rfl, hk⟩))⟩, fun k hk => (h3 k).mpr (Or.inl hk)⟩

theorem next_keyIds (ops : KeyOps K) (fuel : Nat) (s : Sess K) :
    (s.next ops fuel).1.index = s.index ∧
    ((s.next ops fuel).1.keyIds = s.keyIds ∨
      (s.next ops fuel).1.keyIds = updateKeyIds ops (s.heap s.mixRef).rows.keys s.index.keys s.keyIds) := by
  unfold Sess.next
  split
  · exact ⟨rfl, Or.inl rfl⟩
  · refine ⟨rfl, ?_⟩
    show (if _ then _ else _) = _ ∨ (if _ then _ else _) = _
    split
    · exact Or.inl rfl
    · exact Or.inr rfl

theorem keyIds_op (ops : KeyOps K) (fuel : Nat) (s : Sess K) (h : KeyIdInv s) (o : SOp K) :
    KeyIdInv (s.op ops fuel o).1 ∧
    (∀ k i, s.keyIds.get? k = some i → (s.op ops fuel o).1.keyIds.get? k = some i) := by
  have upd : ∀ rows, IdsOk (updateKeyIds ops rows s.index.keys s.keyIds) ∧
      (∀ k ∈ s.index.keys, k ∈ (updateKeyIds ops rows s.index.keys s.keyIds).keys) ∧
      ∀ k i, s.keyIds.get? k = some i → (updateKeyIds ops rows s.index.keys s.keyIds).get? k = some i := by
    intro rows
    obtain ⟨h1, h2, h3⟩ := updateKeyIds_spec ops rows s.index.keys s.keyIds h.ok
    exact ⟨h1, fun k hk => (h3 k).mpr (Or.inr (Or.inl (h.index k hk))), h2⟩
  match o with
  | .update ref v => exact ⟨⟨(upd _).1, (upd _).2.1⟩, (upd _).2.2⟩
  | .feedback v => exact ⟨⟨h.ok, h.index⟩, fun _ _ h => h⟩
  | .next =>
    obtain ⟨h1, h2⟩ := next_keyIds ops fuel s
    simp only [Sess.op]
    rcases h2 with h2 | h2
    · exact ⟨⟨h2 ▸ h.ok, by rw [h1, h2]; exact h.index⟩, by rw [h2]; exact fun _ _ h => h⟩
    · exact ⟨⟨h2 ▸ (upd _).1, by rw [h1, h2]; exact (upd _).2.1⟩, by rw [h2]; exact (upd _).2.2⟩

theorem keyIds_run (ops : KeyOps K) (fuel : Nat) (os : List (SOp K)) (s : Sess K) (h : KeyIdInv s) :
    KeyIdInv (s.run ops fuel os).1 ∧
    (∀ k i, s.keyIds.get? k = some i → (s.run ops fuel os).1.keyIds.get? k = some i) := by
  induction os generalizing s with
  | nil => exact ⟨h, fun _ _ h => h⟩
  | cons o os ih =>
    obtain ⟨h1, h2⟩ := keyIds_op ops fuel s h o
    obtain ⟨h3, h4⟩ := ih _ h1
    exact ⟨h3, fun k i hk => h4 k i (h2 k i hk)⟩

/-- C14 (dense, unique, complete, stable). After any sequence of operations the ids are exactly 0..n-1, one
per key; all property combinations of the query result and, after `update_mixture(m)`, all keys of `m` have
one; and no later operation changes an id. -/
theorem c14_key_ids (ops : KeyOps K) (fuel : Nat) (index : Dict K Entries) (order : List K) (stopOnNone : Bool)
    (ref0 : Nat) (v0 : MixView K) (history later : List (SOp K)) (s : Sess K)
    (hs : s = ((Sess.fresh ops index order stopOnNone ref0 v0).run ops fuel history).1) :
    s.keyIds.keys.Nodup ∧ s.keyIds.values = List.range s.keyIds.length ∧
    (∀ k ∈ index.keys, k ∈ s.keyIds.keys) ∧
    (∀ ref v, ∀ k ∈ v.rows.keys, k ∈ (s.update ops ref v).keyIds.keys) ∧
    (∀ k i, s.keyIds.get? k = some i → (s.run ops fuel later).1.keyIds.get? k = some i) := by
  have h := (keyIds_run ops fuel history _ (keyIdInv_fresh ops index order stopOnNone ref0 v0).1).1
  rw [← hs] at h
  have hidx : s.index = index := by
    rw [hs]
    clear hs h
    suffices H : ∀ (os : List (SOp K)) (t : Sess K), (t.run ops fuel os).1.index = t.index from H _ _
    intro os
    induction os with
    | nil => intro t; rfl
    | cons o os ih =>
      intro t
      rw [Sess.run]
      dsimp only
      rw [ih]
      match o with
      | .update _ _ => rfl
      | .feedback _ => rfl
      | .next => simp only [Sess.op]; unfold Sess.next; split <;> rfl
  refine ⟨h.ok.keys, h.ok.values, hidx ▸ h.index, ?_, (keyIds_run ops fuel later s h).2⟩
  intro ref v k hk
  exact ((updateKeyIds_spec ops v.rows.keys s.index.keys s.keyIds h.ok).2.2 k).mpr (Or.inl hk)

/-- C14 (order independence). The ids do not depend on the order in which the mixture and the index list
their keys. -/
theorem c14_order_independent (ops : KeyOps K) (ht : ops.Total) (rows rows' index index' : List K)
    (h1 : rows.Perm rows') (h2 : index.Perm index') (m : Dict K Nat) :
    updateKeyIds ops rows index m = updateKeyIds ops rows' index' m := updateKeyIds_perm ops ht h1 h2 m

example : let s := Sess.fresh Ex.ops Ex.index Ex.order false 0 Ex.strictMix
    s.keyIds = [(1, 0), (2, 1), (11, 2)] ∧
    (s.run Ex.ops 20 [.next, .update 1 ⟨[(7, 1), (2, 1)], true, 2⟩]).1.keyIds = [(1, 0), (2, 1), (11, 2), (7, 3)] := by
  decide +kernel

end Mixtera
