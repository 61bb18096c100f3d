import Verif.Model.DynamicQuery
import Verif.Props.Session
import Verif.Props.FeedbackRestore

/-!
# C93: chunks follow the losses
-/

set_option linter.unusedSectionVars false

namespace Mixtera.Mixing

variable {K A : Type} [DecidableEq K]

/-! ## Specification -/

/-- The calls of the training loop in a history. -/
def callsOf : List DEv → List (FbEv K)
  | [] => []
  | .call c :: es => .call c :: callsOf es
  | .next :: es => callsOf es

/-- The samples of `c` that are listed under `k` are registered in `index` with properties that match `k`. -/
def Matching (ops : KeyOps K) (index : Dict K Entries) (c : RChunk K) : Prop :=
  ∀ k p, p ∈ keySamples c.content k → ∃ comp e, (comp, e) ∈ index ∧ p ∈ entriesSamples e ∧ ops.isMatch k comp = true

/-! ## The generator keeps the mixture object -/

theorem run_base (ops : KeyOps K) (fuel : Nat) (replay : Bool) (heap : Nat → MixView K) (hh : HeapOk heap) (n : Nat) :
    ∀ (g : Gen K), GenInv g → (g.run ops fuel replay heap n).1.base = g.base := by
  induction n with
  | zero => intro g _; rfl
  | succ n ih =>
    intro g hg
    rw [Gen.run]
    split
    · rename_i g2 o2 hs
      exact (step_spec ops fuel replay heap hh g hg hs).base
    · rename_i g2 hs
      have sp := step_spec ops fuel replay heap hh g hg hs
      rw [ih g2 sp.inv, sp.base]

theorem send_base (ops : KeyOps K) (fuel : Nat) (replay : Bool) (heap : Nat → MixView K) (hh : HeapOk heap) (g : Gen K) (hg : GenInv g)
    (mix t : Nat) (h : g.base = mix) : (g.send ops fuel replay heap mix t).1.base = mix := by
  unfold Gen.send
  split
  · exact h
  · exact run_base ops fuel replay heap hh _ _ ⟨hg.keys, hg.nodup, hg.empty⟩
  · rw [run_base ops fuel replay heap hh _ _ hg, h]

/-! ## No request changes the key ids -/

theorem assignIds_known (ks : List K) (n : Nat) (m : Dict K Nat) (h : ∀ k ∈ ks, k ∈ m.keys) : assignIds ks n m = m := by
  induction ks with
  | nil => rfl
  | cons k ks ih =>
    rw [assignIds, if_pos ((has_iff m k).2 (h k (by simp)))]
    exact ih fun k' hk' => h k' (by simp [hk'])

theorem updateKeyIds_known (ops : KeyOps K) (rows index : List K) (m : Dict K Nat) (h : ∀ k ∈ rows, k ∈ m.keys)
    (hi : ∀ k ∈ index, k ∈ m.keys) : updateKeyIds ops rows index m = m := by
  unfold updateKeyIds
  split
  · refine assignIds_known _ _ _ fun k hk => ?_
    rcases List.mem_append.1 ((sort_perm ops _).mem_iff.1 hk) with hk | hk
    · exact h k hk
    · exact hi k hk
  · exact assignIds_known _ _ _ fun k hk => h k ((sort_perm ops _).mem_iff.1 hk)

/-! ## The mixture only has known keys -/

/-- What holds for the mixture of a query result with key ids `ids`. -/
structure Known (ids : Dict K Nat) (d : Dyn K) : Prop where
  hasIds : d.ids = some ids
  idsOk : ids.keys.Nodup ∧ ids.values.Nodup
  informed : d.informed = true
  nodup : d.cur.rows.keys.Nodup
  keys : ∀ k ∈ d.cur.rows.keys, k ∈ ids.keys

theorem processLosses_frame (d : Dyn K) (m : Int) (out : Option (List ℚ)) :
    (d.processLosses m out).1.chunk = d.chunk ∧ (d.processLosses m out).1.strict = d.strict ∧
    (d.processLosses m out).1.ids = d.ids ∧ (d.processLosses m out).1.informed = d.informed := by
  unfold Dyn.processLosses
  split
  · simp
  split
  · simp
  split
  · simp
  split
  · simp
  split
  · simp
  split <;> simp

theorem processLosses_nodup {d : Dyn K} (h : d.cur.rows.keys.Nodup) (m : Int) (out : Option (List ℚ)) :
    (d.processLosses m out).1.cur.rows.keys.Nodup := by
  unfold Dyn.processLosses
  split
  · exact h
  split
  · exact h
  split
  · exact h
  split
  · exact h
  split
  · exact h
  split
  · exact h
  · rename_i hw _ _ hs
    exact staticMixture_nodup (weightMap_nodup _ _ _ _ _ (by simp [Dict.keys]) hw) hs

theorem known_processLosses {ids : Dict K Nat} {d : Dyn K} (h : Known ids d) (m : Int) (out : Option (List ℚ)) :
    Known ids (d.processLosses m out).1 := by
  obtain ⟨_, _, f3, f4⟩ := processLosses_frame d m out
  rcases processLosses_refused d m out with e | ⟨w, d', rfl, e⟩
  · rw [e]; exact h
  · obtain ⟨ids', e1, e2⟩ := c25_update d d' m w e
    rw [h.hasIds] at e1
    cases e1
    obtain ⟨_, _, _, _, h5, _⟩ := e2 h.idsOk.1 h.idsOk.2
    rw [e] at f3 f4 ⊢
    refine ⟨f3.trans h.hasIds, h.idsOk, f4.trans h.informed, ?_, ?_⟩
    · have := processLosses_nodup h.nodup m (some w)
      rw [e] at this
      exact this
    · intro k hk
      obtain ⟨i, q, h1, _⟩ := (h5 k).1 hk
      exact (Dict.mem_keys_iff _ _).2 ⟨i, h1⟩

variable {P : MixAlg A}

theorem call_dyn (s : Live K A) (c : FbCall) :
    (s.on P (.call c)).1.dyn = s.dyn ∨ ∃ m out, (s.on P (.call c)).1.dyn = (s.dyn.processLosses m out).1 := by
  show (fun d => d = s.dyn ∨ ∃ m out, d = (s.dyn.processLosses m out).1) (handleFeedback P s c).1.dyn
  unfold handleFeedback
  split
  · exact Or.inl rfl
  split
  · exact Or.inl rfl
  split
  · exact Or.inl rfl
  split
  · exact Or.inl rfl
  unfold Live.feedback
  split
  · unfold Live.processLosses
    split
    · exact Or.inl rfl
    dsimp only
    split
    · exact Or.inl rfl
    · exact Or.inr ⟨_, _, rfl⟩
  · exact Or.inl rfl

theorem known_call {ids : Dict K Nat} {s : Live K A} (h : Known ids s.dyn) (c : FbCall) : Known ids (s.on P (.call c)).1.dyn := by
  rcases call_dyn (P := P) s c with e | ⟨m, out, e⟩
  · rw [e]; exact h
  · rw [e]; exact known_processLosses h m out

theorem call_frame (s : Live K A) (c : FbCall) :
    (s.on P (.call c)).1.dyn.chunk = s.dyn.chunk ∧ (s.on P (.call c)).1.dyn.strict = s.dyn.strict := by
  rcases call_dyn (P := P) s c with e | ⟨m, out, e⟩
  · rw [e]; exact ⟨rfl, rfl⟩
  · rw [e]; exact ⟨(processLosses_frame _ _ _).1, (processLosses_frame _ _ _).2.1⟩

/-! ## The invariant -/

/-- What holds of the query result at any time; `q0` is the query result at its creation. -/
structure DInv (P : MixAlg A) (index : Dict K Entries) (order : List K) (q0 : DQ K A) (es : List DEv) (q : DQ K A) : Prop where
  live : q.live = q0.live.run P (callsOf es)
  sess : ∃ last, SessInv index order last q.sess
  keyIds : KeyIdInv q.sess
  ids : q.sess.keyIds = q0.sess.keyIds
  ref : q.sess.mixRef = 0
  base : q.sess.theGen.base = 0
  view : q.sess.heap 0 = q.live.view
  known : Known q0.sess.keyIds q.live.dyn
  chunk : q.live.dyn.chunk = q0.live.dyn.chunk
  strict : q.live.dyn.strict = q0.live.dyn.strict

theorem processIdMap_cur (d : Dyn K) (ids : Dict K Nat) :
    (d.processIdMap ids).1.cur = d.cur ∧ (d.processIdMap ids).1.chunk = d.chunk ∧ (d.processIdMap ids).1.strict = d.strict ∧
    ((d.processIdMap ids).2 = none → (d.processIdMap ids).1.ids = some ids ∧ (d.processIdMap ids).1.informed = true) := by
  unfold Dyn.processIdMap
  dsimp only
  split
  · rename_i h; exact ⟨rfl, rfl, rfl, fun _ => ⟨rfl, h⟩⟩
  split
  · exact ⟨rfl, rfl, rfl, fun h => by cases h⟩
  split
  · exact ⟨rfl, rfl, rfl, fun h => by cases h⟩
  split
  · exact ⟨rfl, rfl, rfl, fun h => by cases h⟩
  · exact ⟨rfl, rfl, rfl, fun _ => ⟨rfl, rfl⟩⟩

/-- What a successful creation means. -/
theorem create_ok {ops : KeyOps K} {index : Dict K Entries} {order : List K} {b : Bool} {s : Live K A} {q : DQ K A}
    (h : DQ.create ops P index order b s = .ok q) :
    ∃ s1, s.on P (.index index) = (s1, none) ∧ s1.idMap P q.sess.keyIds = (q.live, none) ∧ q.sess = Sess.fresh ops index order b 0 s1.view ∧
      q.live.view = s1.view := by
  unfold DQ.create at h
  split at h
  · cases h
  rename_i s1 h1
  split at h
  · cases h
  rename_i s2 h2
  cases h
  refine ⟨s1, h1, h2, rfl, ?_⟩
  have e : s2 = (s1.idMap P (Sess.fresh ops index order b 0 s1.view).keyIds).1 := by rw [h2]
  obtain ⟨c1, c2, c3, _⟩ := processIdMap_cur s1.dyn (Sess.fresh ops index order b 0 s1.view).keyIds
  unfold Live.view
  rw [e]
  unfold Live.idMap
  dsimp only
  rw [c1, c2, c3]

theorem dinv_create {ops : KeyOps K} {index : Dict K Entries} {order : List K} (hi : IndexOk index order) {b : Bool} {s : Live K A}
    {q : DQ K A} (h : DQ.create ops P index order b s = .ok q) (hnd : q.live.dyn.cur.rows.keys.Nodup) : DInv P index order q [] q := by
  obtain ⟨s1, h1, h2, h3, h4⟩ := create_ok h
  obtain ⟨k1, k2⟩ := keyIdInv_fresh ops index order b 0 s1.view
  have hv : s1.view.rows.keys.Nodup := by rw [← h4]; exact hnd
  have e : q.live.dyn = (s1.dyn.processIdMap q.sess.keyIds).1 := by
    have := congrArg (fun r => r.1.dyn) h2
    exact this.symm
  have e2 : (s1.dyn.processIdMap q.sess.keyIds).2 = none := congrArg (fun r => r.2) h2
  obtain ⟨_, _, _, c4⟩ := processIdMap_cur s1.dyn q.sess.keyIds
  obtain ⟨i1, i2⟩ := c4 e2
  refine ⟨rfl, ⟨none, ?_⟩, ?_, rfl, ?_, ?_, ?_, ⟨?_, ?_, ?_, hnd, ?_⟩, rfl, rfl⟩
  · rw [h3]; exact sessInv_fresh ops hi b 0 _ hv
  · rw [h3]; exact k1
  · rw [h3]; rfl
  · rw [h3]; rfl
  · rw [h3, h4]; rfl
  · rw [e]; exact i1
  · rw [h3]; refine ⟨k1.ok.keys, ?_⟩; rw [k1.ok.values]; exact List.nodup_range
  · rw [e]; exact i2
  · intro k hk
    rw [h3]
    refine k2 k ?_
    rw [← h4]; exact hk

theorem callsOf_append (es fs : List DEv) : (callsOf (es ++ fs) : List (FbEv K)) = callsOf es ++ callsOf fs := by
  induction es with
  | nil => rfl
  | cons e es ih => cases e <;> simp [callsOf, ih]

theorem dinv_on {ops : KeyOps K} {fuel : Nat} {index : Dict K Entries} {order : List K} {q0 : DQ K A} {es : List DEv} {q : DQ K A}
    (h : DInv P index order q0 es q) (e : DEv) : DInv P index order q0 (es ++ [e]) (q.on ops fuel P e).1 := by
  obtain ⟨last, hs⟩ := h.sess
  cases e with
  | call c =>
    have hk := known_call (P := P) h.known c
    obtain ⟨f1, f2⟩ := call_frame (P := P) q.live c
    refine ⟨?_, ⟨_, sessInv_op ops fuel hs (.feedback (q.live.on P (.call c)).1.view) hk.nodup⟩,
      (keyIds_op ops fuel q.sess h.keyIds (.feedback (q.live.on P (.call c)).1.view)).1, h.ids, h.ref, h.base, ?_, hk,
      f1.trans h.chunk, f2.trans h.strict⟩
    · rw [callsOf_append, run_append, ← h.live]; rfl
    · show (if 0 = q.sess.mixRef then _ else _) = _
      rw [h.ref, if_pos rfl]
      rfl
  | next =>
    have hk := keyIds_op ops fuel q.sess h.keyIds .next
    have hid : (q.sess.next ops fuel).1.keyIds = q.sess.keyIds := by
      rcases (next_keyIds ops fuel q.sess).2 with e | e
      · exact e
      · rw [e]
        refine updateKeyIds_known ops _ _ _ (fun k hkk => ?_) h.keyIds.index
        rw [h.ref, h.view] at hkk
        rw [h.ids]
        exact h.known.keys k hkk
    have hframe : (q.sess.next ops fuel).1.mixRef = q.sess.mixRef ∧ (q.sess.next ops fuel).1.heap = q.sess.heap := by
      unfold Sess.next
      split <;> exact ⟨rfl, rfl⟩
    have e1 : (q.on ops fuel P .next).1 = ⟨q.live, (q.sess.next ops fuel).1⟩ := by
      unfold DQ.on
      dsimp only
      rw [if_pos hid]
    rw [e1]
    refine ⟨?_, ⟨_, sessInv_op ops fuel hs .next trivial⟩, hk.1, hid.trans h.ids, hframe.1.trans h.ref, ?_, ?_, h.known, h.chunk, h.strict⟩
    · rw [callsOf_append, run_append, ← h.live]; rfl
    · show (q.sess.next ops fuel).1.theGen.base = 0
      cases hc : (q.sess.gen.isNone && q.sess.numReturns != 0) with
      | true =>
        have e : q.sess.next ops fuel = ({ q.sess with idx := q.sess.idx + 1 }, .raised .assertion) := by
          unfold Sess.next; rw [hc, if_pos rfl]
        rw [e]; exact h.base
      | false =>
        rw [(theGen_next ops fuel q.sess hc).1, h.ref]
        exact send_base ops fuel _ _ hs.heap _ hs.gen 0 _ h.base
    · show (q.sess.next ops fuel).1.heap 0 = _
      rw [hframe.2]; exact h.view

theorem dinv_run {ops : KeyOps K} {fuel : Nat} {index : Dict K Entries} {order : List K} {q0 : DQ K A} (h0 : DInv P index order q0 [] q0)
    (es : List DEv) : DInv P index order q0 es (q0.run ops fuel P es) := by
  induction es using List.reverseRecOn with
  | nil => exact h0
  | append_singleton es e ih =>
    have : q0.run ops fuel P (es ++ [e]) = ((q0.run ops fuel P es).on ops fuel P e).1 := by
      unfold DQ.run; rw [List.foldl_append]; rfl
    rw [this]
    exact dinv_on ih e

/-- A chunk made under a mixture lists samples under keys they match. -/
theorem matching_next (ops : KeyOps K) (fuel : Nat) {index : Dict K Entries} {order : List K} (hi : IndexOk index order)
    {last : Option (Out K)} {s s' : Sess K} (h : SessInv index order last s) {c : RChunk K} (hn : s.next ops fuel = (s', .chunk c))
    (hne : (s.theGen.eff ⟨s.heap, s.mixRef, s.idx, fuel⟩).rows ≠ []) : Matching ops index c := by
  intro k p hp
  cases hc : (s.gen.isNone && s.numReturns != 0) with
  | true =>
    unfold Sess.next at hn
    rw [hc, if_pos rfl] at hn
    simp at hn
  | false =>
    obtain ⟨_, e2⟩ := theGen_next ops fuel s hc
    rw [hn] at e2
    obtain ⟨d, hd⟩ := h.rel
    match hsend : s.theGen.send ops fuel s.isReplay s.heap s.mixRef s.idx with
    | (g', o) =>
      rw [hsend] at e2
      simp only at e2
      subst e2
      have hr : HeapOk (Req.mk s.heap s.mixRef s.idx fuel).heap := h.heap
      obtain ⟨g1, h1, _, hcase⟩ := chunk_facts ops s.isReplay h.gen ⟨s.heap, s.mixRef, s.idx, fuel⟩ hr hsend
      rcases hcase with ⟨_, hm⟩ | ⟨h0, _⟩
      · obtain ⟨att, hsp, hcc, _, _, _⟩ := hm.ex
        have hpos : 0 < entW (countW p) (att.ce k) := by
          rw [← count_entriesSamples, List.count_pos_iff]
          simpa [keySamples, Att.ce, hcc] using hp
        obtain ⟨comp, _, hmatch, hp'⟩ := hsp.inv.prov k p hpos
        have hp2 := (hd.suffix comp).subset ((h1.suffix comp).subset hp')
        by_cases hco : comp ∈ order
        · rw [itOf_init comp hco] at hp2
          obtain ⟨e, he⟩ := (Dict.mem_keys_iff _ _).mp (hi.order.mem_iff.mp hco)
          refine ⟨comp, e, Dict.mem_of_get? he, ?_, hmatch⟩
          rw [he] at hp2
          exact (flattenSorted_perm e).mem_iff.mp hp2
        · rw [itOf_init_none comp hco] at hp2
          simp at hp2
      · exact absurd h0 hne

/-! ## Theorems -/

/-- **C93** (any algorithm). Whatever happened before, and whatever the algorithm, a chunk handed out is composed by the mixture that
the calls made up to its request lead to - even if the previous request was not answered with a chunk -, its samples match the keys
they are listed under, and the key ids are those of the creation. -/
theorem c93_next (ops : KeyOps K) (fuel : Nat) {index : Dict K Entries} {order : List K} (hi : IndexOk index order) {b : Bool} {s : Live K A}
    {q0 : DQ K A} (h : DQ.create ops P index order b s = .ok q0) (hnd : q0.live.dyn.cur.rows.keys.Nodup) (es : List DEv)
    {q : DQ K A} {c : RChunk K} (hc : (q0.run ops fuel P es).on ops fuel P .next = (q, some (.chunk c))) :
    let now := q0.live.run P (callsOf es)
    ComposedBy ⟨now.dyn.cur.rows, q0.live.dyn.strict, q0.live.dyn.chunk⟩ c ∧ (now.dyn.cur.rows ≠ [] → Matching ops index c) ∧
    q.sess.keyIds = q0.sess.keyIds ∧ q.live = now := by
  intro now
  have h1 := dinv_run (ops := ops) (fuel := fuel) (dinv_create hi h hnd) es
  have h2 := dinv_on (ops := ops) (fuel := fuel) h1 .next
  rw [hc] at h2
  generalize hq1 : q0.run ops fuel P es = q1 at h1 hc
  obtain ⟨last, hs⟩ := h1.sess
  have hn : q1.sess.next ops fuel = ((q1.sess.next ops fuel).1, .chunk c) := by
    have := congrArg (fun r => r.2) hc
    simp only [DQ.on, Option.some.injEq] at this
    rw [← this]
  have heff : q1.sess.theGen.eff ⟨q1.sess.heap, q1.sess.mixRef, q1.sess.idx, fuel⟩ =
      ⟨now.dyn.cur.rows, q0.live.dyn.strict, q0.live.dyn.chunk⟩ := by
    unfold Gen.eff
    dsimp only
    rw [h1.base, h1.ref, ite_self, h1.view]
    unfold Live.view
    rw [h1.chunk, h1.strict, h1.live]
  refine ⟨?_, fun hne => ?_, h2.ids, ?_⟩
  · rw [← heff]; exact composed_eff ops fuel hs hn
  · exact matching_next ops fuel hi hs hn (by rw [heff]; exact hne)
  · rw [h2.live, callsOf_append, run_append]; rfl

theorem idsAfter_calls (ids : Dict K Nat) (es : List DEv) : idsAfter ids (callsOf es) = ids := by
  induction es with
  | nil => rfl
  | cons e es ih => cases e <;> simpa [callsOf, idsAfter] using ih

theorem ready_create {ops : KeyOps K} {index : Dict K Entries} {order : List K} {b : Bool} {s : Live K (Acc ℚ)} {q0 : DQ K (Acc ℚ)}
    (h : DQ.create ops averaging index order b s = .ok q0) (hs : s.dyn.informed = false) (ha : s.alg = Acc.init) :
    Ready q0.sess.keyIds q0.live ∧ q0.live.dyn.chunk = s.dyn.chunk ∧ q0.live.dyn.strict = s.dyn.strict := by
  obtain ⟨s1, h1, h2, h3, h4⟩ := create_ok h
  have e1 : s1 = { s with dyn := (s.dyn.processIndex index).1 } := by
    have := congrArg (fun r => r.1) h1
    exact this.symm
  have hf : (s.dyn.processIndex index).1.informed = s.dyn.informed ∧ (s.dyn.processIndex index).1.chunk = s.dyn.chunk ∧
      (s.dyn.processIndex index).1.strict = s.dyn.strict := by
    unfold Dyn.processIndex
    split <;> exact ⟨rfl, rfl, rfl⟩
  have hinf : s1.dyn.informed = false := by rw [e1]; exact hf.1.trans hs
  have halg : s1.alg = Acc.init := by rw [e1]; exact ha
  obtain ⟨k1, _⟩ := keyIdInv_fresh ops index order b 0 s1.view
  rw [← h3] at k1
  have r := ready_of_told hinf halg k1.ok.keys (by rw [k1.ok.values]; exact List.nodup_range) (by rw [h2])
  rw [h2] at r
  refine ⟨r, ?_, ?_⟩
  · have : q0.live.view.chunkSize = s1.view.chunkSize := by rw [h4]
    rw [show q0.live.dyn.chunk = s1.dyn.chunk from this, e1]; exact hf.2.1
  · have : q0.live.view.strict = s1.view.strict := by rw [h4]
    rw [show q0.live.dyn.strict = s1.dyn.strict from this, e1]; exact hf.2.2

/-- **C93** (loss averaging). As soon as a sample has been reported, every chunk has exactly the chunk size, lists samples only of
domains that have a weight - the average of all losses reported before the request, whatever else happened in between -, each under a key
it matches; and with a strict mixture it has, of every domain, the number of samples that largest remainder rounding makes of the
domain's share of the weights. -/
theorem c93_average (ops : KeyOps K) (fuel : Nat) {index : Dict K Entries} {order : List K} (hi : IndexOk index order) {b : Bool}
    {s : Live K (Acc ℚ)} (hs : s.dyn.informed = false) (ha : s.alg = Acc.init) {q0 : DQ K (Acc ℚ)}
    (h : DQ.create ops averaging index order b s = .ok q0) (hnd : q0.live.dyn.cur.rows.keys.Nodup) (es : List DEv)
    (hsound : Sound q0.sess.keyIds (callsOf es)) (hsome : ∃ i, 0 < totalCount (callsOf es : List (FbEv K)) i)
    (n : Nat) (hn : ∀ r ∈ heard (callsOf es : List (FbEv K)), r.losses.length ≤ n)
    {q : DQ K (Acc ℚ)} {c : RChunk K} (hc : (q0.run ops fuel averaging es).on ops fuel averaging .next = (q, some (.chunk c))) :
    let w := weight (callsOf es : List (FbEv K))
    (contentSamples c.content).length = s.dyn.chunk ∧ Matching ops index c ∧
    (∀ k ∈ c.content.keys, ∃ i, q0.sess.keyIds.get? k = some i ∧ 0 < w i) ∧
    (s.dyn.strict = true → ∃ rows : Dict K Nat, ∃ share : Dict K ℚ, Rounded s.dyn.chunk share rows ∧
      (∀ k p, share.get? k = some p ↔ ∃ i, q0.sess.keyIds.get? k = some i ∧ 0 < w i ∧ p = w i / ∑ j ∈ Finset.range n, w j) ∧
      ∀ k, (keySamples c.content k).length = (rows.get? k).getD 0) := by
  intro w
  obtain ⟨hready, e1, e2⟩ := ready_create h hs ha
  obtain ⟨a1, a2, a3, a4, a5, share, a6, _, a7⟩ := c90_average hready (callsOf es) hsound hsome n hn
  rw [idsAfter_calls] at a1 a4 a5 a7
  obtain ⟨b1, b2, _, _⟩ := c93_next ops fuel hi h hnd es hc
  have hne : (q0.live.run averaging (callsOf es)).dyn.cur.rows ≠ [] := by
    obtain ⟨j, _, hj⟩ : ∃ j ∈ Finset.range n, 0 < w j := by
      by_contra hcon
      push Not at hcon
      exact absurd a2 (not_lt.2 (Finset.sum_nonpos hcon))
    obtain ⟨k, hk⟩ := a5 j hj
    intro e
    have := (a4 k).2 ⟨j, hk, hj⟩
    rw [e] at this
    simp [Dict.keys] at this
  unfold ComposedBy at b1
  rw [if_neg hne] at b1
  obtain ⟨b3, b4, b5, b6⟩ := b1
  dsimp only at b3 b4 b5 b6
  refine ⟨by rw [b5, a3, e1], b2 hne, fun k hk => (a4 k).1 (b4 k hk), fun hst => ?_⟩
  refine ⟨_, share, by rw [← e1]; exact a6, a7, (b6 (by rw [e2]; exact hst)).2⟩

/-- **C93** (before the first report). As long as no sample has been reported, chunks are made by the initial mixture. -/
theorem c93_initial (ops : KeyOps K) (fuel : Nat) {index : Dict K Entries} {order : List K} (hi : IndexOk index order) {b : Bool}
    {s : Live K (Acc ℚ)} (hs : s.dyn.informed = false) (ha : s.alg = Acc.init) (hinf : s.dyn.cur.inferring = false)
    (hnd : s.dyn.cur.rows.keys.Nodup) {q0 : DQ K (Acc ℚ)} (h : DQ.create ops averaging index order b s = .ok q0) (es : List DEv)
    (hsound : Sound q0.sess.keyIds (callsOf es)) (hnone : ∀ r ∈ heard (callsOf es : List (FbEv K)), ∀ n ∈ r.counts, n ≤ 0)
    {q : DQ K (Acc ℚ)} {c : RChunk K} (hc : (q0.run ops fuel averaging es).on ops fuel averaging .next = (q, some (.chunk c))) :
    ComposedBy ⟨s.dyn.cur.rows, s.dyn.strict, s.dyn.chunk⟩ c := by
  obtain ⟨hready, e1, e2⟩ := ready_create h hs ha
  obtain ⟨s1, h1, h2, h3, h4⟩ := create_ok h
  have hs1 : s1 = s := by
    have e : (s.on averaging (.index index)).1 = s1 := by rw [h1]
    rw [← e]
    simp [Live.on, Dyn.processIndex, BaseMix.processIndex, hinf]
  subst hs1
  have hcur : q0.live.dyn.cur = s1.dyn.cur := by
    have : q0.live = (s1.idMap averaging q0.sess.keyIds).1 := by rw [h2]
    rw [this]
    exact (processIdMap_cur s1.dyn q0.sess.keyIds).1
  obtain ⟨b1, _⟩ := c93_next ops fuel hi h (by rw [hcur]; exact hnd) es hc
  rw [c90_initial hready (by rw [hcur]; exact hinf) (callsOf es) hsound hnone, hcur, e1, e2] at b1
  exact b1

/-! ## An example -/

/-- Three samples of key 1 and two of key 2. -/
def exDyn : Live Nat (Acc ℚ) := ⟨Dyn.init 5 true ⟨false, 5, [(1, 3), (2, 2)], true⟩, Acc.init, 0⟩

/-- A chunk, a report of average losses 1 and 4, and another rank's call. -/
def exEvents : List DEv :=
  [.next, .call ⟨0, 0, true, some 0, 1, some [3, 8], some [3, 2]⟩, .call ⟨0, 1, true, some 0, 1, some [9, 9], some [1, 1]⟩]

/-- The lengths of what is listed under keys 1 and 2 in an answer. -/
def exSizes : Option (Out Nat) → Option (Nat × Nat)
  | some (.chunk c) => some ((keySamples c.content 1).length, (keySamples c.content 2).length)
  | _ => none

/-- A check of the query result that is created. -/
def onCreated (f : DQ Nat (Acc ℚ) → Bool) : Bool :=
  match DQ.create Ex.ops averaging Ex.index Ex.order false exDyn with
  | .ok q0 => f q0
  | .error _ => false

/-- The second chunk has one sample of the first domain and four of the second. -/
example : ∃ q0, DQ.create Ex.ops averaging Ex.index Ex.order false exDyn = .ok q0 ∧ q0.live.dyn.cur.rows.keys.Nodup ∧
    q0.sess.keyIds = [(1, 0), (2, 1), (11, 2)] ∧
    exSizes (q0.on Ex.ops 20 averaging .next).2 = some (3, 2) ∧
    exSizes ((q0.run Ex.ops 20 averaging exEvents).on Ex.ops 20 averaging .next).2 = some (1, 4) := by
  have h : onCreated (fun q0 => decide (q0.live.dyn.cur.rows.keys.Nodup ∧ q0.sess.keyIds = [(1, 0), (2, 1), (11, 2)] ∧
      exSizes (q0.on Ex.ops 20 averaging .next).2 = some (3, 2) ∧
      exSizes ((q0.run Ex.ops 20 averaging exEvents).on Ex.ops 20 averaging .next).2 = some (1, 4))) = true := by decide +kernel
  unfold onCreated at h
  split at h
  · rename_i q0 hq
    exact ⟨q0, hq, of_decide_eq_true h⟩
  · cases h

example : Sound [(1, 0), (2, 1), (11, 2)] (callsOf exEvents : List (FbEv Nat)) ∧ (0 : Int) < totalCount (callsOf exEvents : List (FbEv Nat)) 1 := by
  refine ⟨⟨?_, ?_, trivial⟩, by decide +kernel⟩
  · intro r hr
    simp only [FbCall.report] at hr
    rw [if_pos (by decide)] at hr
    cases hr
    refine ⟨by simp [Report.Valid], by intro x hx; simp at hx; rcases hx with rfl | rfl <;> norm_num, ?_⟩
    intro i h
    match i with
    | 0 => exact ⟨1, by decide⟩
    | 1 => exact ⟨2, by decide⟩
    | i + 2 => simp [entry] at h
  · intro r hr
    simp [FbCall.report] at hr

end Mixtera.Mixing
