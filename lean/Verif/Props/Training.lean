import Verif.Model.TrainingRun
import Verif.Props.Torch
import Verif.Props.Session
import Verif.Props.Schedule
import Verif.Props.Arbitrary
import Verif.Props.Reproducible
import Verif.Props.EndToEnd

/-!
# C79: a whole training run

From the query result over the chunk distributor to the samples that the loaders of all nodes hand over, for every
interleaving of the loaders, with mixture updates and feedback at any time.
-/

set_option linter.unusedSectionVars false

namespace Mixtera.Torch

variable {K R : Type} [DecidableEq K]

/-! ## Specification -/

/-- A usable mixture: a dictionary, no key with zero rows; without a mixture the chunks are not empty. -/
structure UsableMix (v : MixView K) : Prop where
  keys : v.rows.keys.Nodup
  rows : ∀ kv ∈ v.rows, kv.2 ≠ 0
  size : v.rows = [] → 0 < v.chunkSize

/-- The operations on the query result during a run: all mixtures are usable, and feedback does not bring up a key that the
query result has never seen. `known` are the keys seen so far. -/
def UsableOps (known : List K) : List (MixOp K) → Prop
  | [] => True
  | .update _ v :: os => UsableMix v ∧ UsableOps (known ++ v.rows.keys) os
  | .feedback v :: os => UsableMix v ∧ (∀ k ∈ v.rows.keys, k ∈ known) ∧ UsableOps known os

/-- The mixture operations in a history of events. -/
def mixOps : List (TEv (MixOp K)) → List (MixOp K)
  | [] => []
  | .ask _ :: es => mixOps es
  | .give _ :: es => mixOps es
  | .poke i :: es => i :: mixOps es

/-- A chunk that the query result can deliver for usable mixtures. -/
def Deliverable (ops : KeyOps K) (index : Dict K Entries) (order : List K) (c : RChunk K) : Prop :=
  ∃ (history : List (Req K)) (r : Req K) (g' : Gen K), (∀ q ∈ history, HeapOk q.heap) ∧ (∀ i, UsableMix (r.heap i)) ∧
    (after ops false index order history).send ops r.fuel false r.heap r.mix r.target = (g', .chunk c)

/-- `read` yields exactly the samples that the chunk lists, each once, and each under the key under which it is listed. -/
def ReadsOnce (read : RChunk K → List (K × Pos)) (c : RChunk K) : Prop :=
  (∀ k, (((read c).filter fun x => x.1 = k).map Prod.snd).Perm (keySamples c.content k)) ∧
    ((read c).map Prod.snd).Perm (contentSamples c.content)

/-- `read` yields samples that the chunk lists, none more often than it is listed, and each under the key under which it is
listed; it may leave some out (reading by windows does at the end of a chunk). -/
def ReadsSome (read : RChunk K → List (K × Pos)) (c : RChunk K) : Prop :=
  (∀ k, (((read c).filter fun x => x.1 = k).map Prod.snd).Subperm (keySamples c.content k)) ∧
    ((read c).map Prod.snd).Subperm (contentSamples c.content)

theorem ReadsOnce.some {read : RChunk K → List (K × Pos)} {c : RChunk K} (h : ReadsOnce read c) : ReadsSome read c :=
  ⟨fun k => (h.1 k).subperm, h.2.subperm⟩

theorem ReadsSome.listed {read : RChunk K → List (K × Pos)} {c : RChunk K} (h : ReadsSome read c) {x : K × Pos}
    (hx : x ∈ read c) : x.2 ∈ keySamples c.content x.1 :=
  (h.1 x.1).subset (List.mem_map.mpr ⟨x, List.mem_filter.mpr ⟨hx, by simp⟩, rfl⟩)

/-! ## The query result during a run -/

/-- Chunks among answers. -/
def chunksOf (os : List (Out K)) : List (RChunk K) := os.filterMap fun o => match o with | .chunk c => some c | _ => none

theorem chunksOf_samples (os : List (Out K)) : os.flatMap Out.samples = (chunksOf os).flatMap fun c => contentSamples c.content := by
  induction os with
  | nil => rfl
  | cons o os ih => cases o <;> simp [chunksOf, Out.samples] at ih ⊢ <;> exact ih

/-- What holds for the query result at any time of a run; `done` are the chunks taken so far. -/
structure RunInv (ops : KeyOps K) (index : Dict K Entries) (order : List K) (known : List K) (done : List (RChunk K))
    (s : Sess K) : Prop where
  idxEq : s.index = index
  heap : ∀ i, UsableMix (s.heap i)
  hist : ∃ history, (∀ q ∈ history, HeapOk q.heap) ∧ ((Gen.init index order).play ops false history).1 = s.theGen ∧
    chunksOf ((Gen.init index order).play ops false history).2 = done
  fresh : s.gen = none → s.numReturns = 0
  replay : s.isReplay = false
  ids : KeyIdInv s
  known : ∀ k ∈ known, k ∈ s.keyIds.keys
  heapKnown : ∀ i, ∀ k ∈ (s.heap i).rows.keys, k ∈ s.keyIds.keys
  all : ∀ c ∈ done, Deliverable ops index order c

theorem mem_keys_mono {m m' : Dict K Nat} (h : ∀ k i, m.get? k = some i → m'.get? k = some i) {k : K} (hk : k ∈ m.keys) :
    k ∈ m'.keys := by
  rw [Dict.mem_keys_iff] at hk ⊢
  obtain ⟨i, hi⟩ := hk
  exact ⟨i, h k i hi⟩

theorem runInv_fresh (ops : KeyOps K) {index : Dict K Entries} {order : List K} (b : Bool) (ref : Nat) (v : MixView K)
    (hv : UsableMix v) : RunInv ops index order (index.keys ++ v.rows.keys) [] (Sess.fresh ops index order b ref v) := by
  obtain ⟨h1, h2⟩ := keyIdInv_fresh ops index order b ref v
  exact {
    idxEq := rfl
    heap := fun _ => hv
    hist := ⟨[], by simp, rfl, rfl⟩
    fresh := fun _ => rfl
    replay := rfl
    ids := h1
    known := fun k hk => (List.mem_append.mp hk).elim (h1.index k) (h2 k)
    heapKnown := fun _ => h2
    all := by simp }

theorem runInv_update (ops : KeyOps K) (fuel : Nat) {index : Dict K Entries} {order known : List K} {done : List (RChunk K)}
    {s : Sess K} (h : RunInv ops index order known done s) (ref : Nat) (v : MixView K) (hv : UsableMix v) :
    RunInv ops index order (known ++ v.rows.keys) done (s.op ops fuel (.update ref v)).1 ∧
    ∀ k i, s.keyIds.get? k = some i → (s.op ops fuel (.update ref v)).1.keyIds.get? k = some i := by
  obtain ⟨h1, h2⟩ := keyIds_op ops fuel s h.ids (.update ref v)
  have hv' : ∀ k ∈ v.rows.keys, k ∈ (s.update ops ref v).keyIds.keys := fun k hk =>
    ((updateKeyIds_spec ops v.rows.keys s.index.keys s.keyIds h.ids.ok).2.2 k).mpr (Or.inl hk)
  refine ⟨?_, h2⟩
  exact {
    idxEq := h.idxEq
    heap := fun i => by
      simp only [Sess.op, Sess.update]
      split
      · exact hv
      · exact h.heap i
    hist := h.hist
    fresh := h.fresh
    replay := h.replay
    ids := h1
    known := fun k hk => (List.mem_append.mp hk).elim (fun hk => mem_keys_mono h2 (h.known k hk)) (hv' k)
    heapKnown := fun i k hk => by
      simp only [Sess.op, Sess.update] at hk
      split at hk
      · exact hv' k hk
      · exact mem_keys_mono h2 (h.heapKnown i k hk)
    all := h.all }

theorem runInv_feedback (ops : KeyOps K) (fuel : Nat) {index : Dict K Entries} {order known : List K} {done : List (RChunk K)}
    {s : Sess K} (h : RunInv ops index order known done s) (v : MixView K) (hv : UsableMix v)
    (hk : ∀ k ∈ v.rows.keys, k ∈ known) : RunInv ops index order known done (s.op ops fuel (.feedback v)).1 := by
  obtain ⟨h1, _⟩ := keyIds_op ops fuel s h.ids (.feedback v)
  exact {
    idxEq := h.idxEq
    heap := fun i => by
      simp only [Sess.op, Sess.feedback]
      split
      · exact hv
      · exact h.heap i
    hist := h.hist
    fresh := h.fresh
    replay := h.replay
    ids := h1
    known := h.known
    heapKnown := fun i k hk' => by
      simp only [Sess.op, Sess.feedback] at hk'
      split at hk'
      · exact h.known k (hk k hk')
      · exact h.heapKnown i k hk'
    all := h.all }

/-- The keys of a delivered chunk are keys of the mixture or, without mixture, of the query result. -/
theorem deliverable_keys (ops : KeyOps K) {index : Dict K Entries} {order : List K} (hi : IndexOk index order)
    {history : List (Req K)} (hh : ∀ q ∈ history, HeapOk q.heap) {r : Req K} (hr : HeapOk r.heap) {g' : Gen K} {c : RChunk K}
    (h : (after ops false index order history).send ops r.fuel false r.heap r.mix r.target = (g', .chunk c)) :
    ∀ k ∈ c.content.keys, k ∈ index.keys ∨ ∃ i, k ∈ (r.heap i).rows.keys := by
  have hgi := after_inv ops false hi history hh
  obtain ⟨g1, h1, _, ⟨_, hm⟩ | ⟨_, hm⟩⟩ := chunk_facts ops false hgi r hr h
  · obtain ⟨att, hsp, hcc, _⟩ := hm.ex
    intro k hk
    exact Or.inr ⟨_, (mix_chunk_keys hsp hcc).1 k hk⟩
  · obtain ⟨key, out, hcc, hk, _⟩ := hm.ex
    intro k hk'
    have hord : g1.order = order := by
      rw [h1.order]; exact (play_rel ops false _ (genInv_init hi) history hh).1.order
    have : k = key := by rw [hcc] at hk'; simpa [Dict.keys] using hk'
    subst this
    exact Or.inl (hi.order.mem_iff.mp (hord ▸ hk))

/-- A chunk and what the distributor hands over for it, as long as ids do not change. -/
structure IsParcel (read : RChunk K → List (K × Pos)) (ids : Dict K Nat) (c : RChunk K) (p : Parcel K Pos) : Prop where
  source : p.source = read c
  skip : p.skip = 0
  keyId : ∀ k ∈ c.content.keys, ids.get? k = some (p.keyId k)

theorem IsParcel.mono {read : RChunk K → List (K × Pos)} {ids ids' : Dict K Nat} {c : RChunk K} {p : Parcel K Pos}
    (h : IsParcel read ids c p) (hm : ∀ k i, ids.get? k = some i → ids'.get? k = some i) : IsParcel read ids' c p :=
  ⟨h.source, h.skip, fun k hk => hm _ _ (h.keyId k hk)⟩

/-- Taking a chunk. -/
theorem runInv_fetch (ops : KeyOps K) (fuel : Nat) (read : RChunk K → List (K × Pos)) {index : Dict K Entries}
    {order known : List K} (hi : IndexOk index order) {done : List (RChunk K)} {s : Sess K}
    (h : RunInv ops index order known done s) :
    let x := (resultSource ops fuel read).fetch s
    (∀ k i, s.keyIds.get? k = some i → x.1.keyIds.get? k = some i) ∧
    ∃ more, RunInv ops index order known (done ++ more) x.1 ∧
      match x.2 with
      | .chunk p => ∃ c, more = [c] ∧ IsParcel read x.1.keyIds c p ∧ s.next ops fuel = (x.1, .chunk c)
      | .stop => more = [] ∧ x.1 = (s.next ops fuel).1 ∧ ((s.next ops fuel).2 = .none ∨ (s.next ops fuel).2 = .stop)
      | .raised e => more = [] ∧ (s.next ops fuel).2 = .raised e := by
  have hc : (s.gen.isNone && s.numReturns != 0) = false := by
    cases hg : s.gen with
    | none => simp [h.fresh hg]
    | some g => simp
  obtain ⟨e1, e2⟩ := theGen_next ops fuel s hc
  obtain ⟨k1, k2⟩ := keyIds_op ops fuel s h.ids .next
  simp only [Sess.op] at k1 k2
  have keep : (s.next ops fuel).1.index = s.index ∧ (s.next ops fuel).1.heap = s.heap ∧
      (s.next ops fuel).1.isReplay = s.isReplay ∧ (s.next ops fuel).1.gen ≠ none := by
    unfold Sess.next; rw [hc, if_neg (by simp)]; exact ⟨rfl, rfl, rfl, by simp⟩
  obtain ⟨history, hh, hg, hd⟩ := h.hist
  have hr : HeapOk (Req.mk s.heap s.mixRef s.idx fuel).heap := fun i => (h.heap i).keys
  have hh' : ∀ q ∈ history ++ [⟨s.heap, s.mixRef, s.idx, fuel⟩], HeapOk q.heap := by
    intro q hq
    rcases List.mem_append.mp hq with hq | hq
    · exact hh q hq
    · rw [List.mem_singleton] at hq; subst hq; exact hr
  have hplay : (Gen.init index order).play ops false (history ++ [⟨s.heap, s.mixRef, s.idx, fuel⟩]) =
      ((s.next ops fuel).1.theGen,
        ((Gen.init index order).play ops false history).2 ++ [(s.next ops fuel).2]) := by
    rw [play_append, hg, e1, e2, h.replay]
    rfl
  generalize hn : s.next ops fuel = n at *
  obtain ⟨s', o⟩ := n
  simp only at keep e1 e2 k1 k2 hplay
  have base : ∀ more : List (RChunk K), chunksOf [o] = more → (∀ c ∈ more, Deliverable ops index order c) →
      RunInv ops index order known (done ++ more) s' := by
    intro more hm hall
    exact {
      idxEq := keep.1.trans h.idxEq
      heap := fun i => by rw [keep.2.1]; exact h.heap i
      hist := ⟨_, hh', by rw [hplay], by
        rw [hplay, ← hm, ← hd]; exact List.filterMap_append⟩
      fresh := fun hx => absurd hx keep.2.2.2
      replay := keep.2.2.1.trans h.replay
      ids := k1
      known := fun k hk => mem_keys_mono k2 (h.known k hk)
      heapKnown := fun i k hk => by
        rw [keep.2.1] at hk
        exact mem_keys_mono k2 (h.heapKnown i k hk)
      all := fun c hcm => (List.mem_append.mp hcm).elim (h.all c) (hall c) }
  have hfe : (resultSource ops fuel read).fetch s = handOver read s' o := by
    simp only [resultSource, hn]
  intro x
  have hx : x = handOver read s' o := hfe
  clear_value x
  subst hx
  cases o with
  | none => exact ⟨k2, [], base [] rfl (by simp), rfl, rfl, Or.inl rfl⟩
  | stop => exact ⟨k2, [], base [] rfl (by simp), rfl, rfl, Or.inr rfl⟩
  | raised e => exact ⟨k2, [], base [] rfl (by simp), rfl, rfl⟩
  | chunk c =>
    have hsend : (after ops false index order history).send ops fuel false s.heap s.mixRef s.idx = (s'.theGen, .chunk c) := by
      unfold after
      rw [hg, ← h.replay]
      exact Prod.ext e1.symm e2.symm
    have hb := base [c] rfl (fun c' hc' => by
      rw [List.mem_singleton] at hc'; subst hc'
      exact ⟨history, ⟨s.heap, s.mixRef, s.idx, fuel⟩, _, hh, h.heap, hsend⟩)
    have hkeys : ∀ k ∈ c.content.keys, k ∈ s'.keyIds.keys := by
      intro k hk
      rcases deliverable_keys ops hi hh hr hsend k hk with hx | ⟨i, hx⟩
      · exact k1.index k (by rw [hb.idxEq]; exact hx)
      · exact mem_keys_mono k2 (h.heapKnown i k hx)
    have hall : c.content.keys.all (fun k => s'.keyIds.has k) = true := by
      rw [List.all_eq_true]
      intro k hk
      exact (has_iff s'.keyIds k).mpr (hkeys k hk)
    have hho : handOver read s' (.chunk c) = (s', .chunk (parcelOf read s'.keyIds c)) := by
      simp only [handOver]
      rw [if_pos hall]
    rw [hho]
    refine ⟨k2, [c], hb, c, rfl, ⟨rfl, rfl, ?_⟩, rfl⟩
    intro k hk
    obtain ⟨i, hi'⟩ := (Dict.mem_keys_iff (d := s'.keyIds) (k := k)).mp (hkeys k hk)
    simp [parcelOf, hi']

/-! ## The distributor during a run -/

theorem deliver_src {σ C : Type} (d : Dist σ C) (r : DReq) (id : Nat) (c : C) :
    (d.deliver r id c).1.src = d.src ∧ (d.deliver r id c).2 ≠ .stop := by
  unfold Dist.deliver
  split
  · exact ⟨rfl, by simp⟩
  · dsimp only
    split
    · split
      · exact ⟨rfl, by simp⟩
      · exact ⟨rfl, by simp⟩
    · exact ⟨rfl, by simp⟩

/-- A request takes at most one chunk. -/
theorem ask_src {σ ι C : Type} (S : Source σ ι C) (d : Dist σ C) (r : DReq) :
    ((d.nextChunkFor S r).1.src = d.src ∧ d.fetches S r = none ∧ (d.nextChunkFor S r).2 ≠ .stop) ∨
    ((d.nextChunkFor S r).1.src = (S.fetch d.src).1 ∧
      match (S.fetch d.src).2 with
      | .chunk c => d.fetches S r = some c ∧ (d.nextChunkFor S r).2 ≠ .stop
      | .stop => d.fetches S r = none ∧ (d.nextChunkFor S r).2 = .stop
      | .raised e => d.fetches S r = none ∧ (d.nextChunkFor S r).2 = .raised e) := by
  unfold Dist.nextChunkFor Dist.fetches
  by_cases hv : r.group < d.groups ∧ r.node < d.nodes ∧ r.worker < d.workers
  · rw [if_pos hv, if_pos hv]
    dsimp only
    cases hc : (d.cache r.group).get? (d.next r.group r.node r.worker) with
    | some c =>
      have := deliver_src d r (d.next r.group r.node r.worker) c
      exact Or.inl ⟨this.1, rfl, this.2⟩
    | none =>
      dsimp only
      refine Or.inr ?_
      match hf : S.fetch d.src with
      | (t, .chunk c) =>
        dsimp only
        have := deliver_src { d with
            src := t
            cache := fun g => if g = r.group then (d.cache g).set (d.next r.group r.node r.worker) c else d.cache g
            usage := fun g => if g = r.group then (d.usage g).set (d.next r.group r.node r.worker) 0 else d.usage g }
          r (d.next r.group r.node r.worker) c
        exact ⟨this.1, rfl, this.2⟩
      | (t, .stop) => exact ⟨rfl, rfl, rfl⟩
      | (t, .raised e) => exact ⟨rfl, rfl, rfl⟩
  · rw [if_neg hv, if_neg hv]
    exact Or.inl ⟨rfl, rfl, by simp⟩

/-- The chunks that the distributor takes are chunks of the query result. -/
theorem runInv_dist (ops : KeyOps K) (fuel : Nat) (read : RChunk K → List (K × Pos)) {index : Dict K Entries}
    {order : List K} (hi : IndexOk index order) (os : List (DOp (MixOp K))) {known : List K} {done : List (RChunk K)}
    {d : Dist (Sess K) (Parcel K Pos)} (h : RunInv ops index order known done d.src) (hu : UsableOps known (pokes os)) :
    ∃ known' more, RunInv ops index order known' (done ++ more) (d.run (resultSource ops fuel read) os).1.src ∧
      (∀ k i, d.src.keyIds.get? k = some i → (d.run (resultSource ops fuel read) os).1.src.keyIds.get? k = some i) ∧
      List.Forall₂ (IsParcel read (d.run (resultSource ops fuel read) os).1.src.keyIds) more
        ((d.fetchLog (resultSource ops fuel read) os).map Prod.snd) := by
  induction os generalizing known done d with
  | nil => exact ⟨known, [], by simpa [Dist.run] using h, fun _ _ h => h, by simp [Dist.fetchLog]⟩
  | cons o os ih =>
    cases o with
    | poke i =>
      have hlog : d.fetchLog (resultSource ops fuel read) (.poke i :: os) =
        ({ d with src := (resultSource ops fuel read).poke i d.src } : Dist _ _).fetchLog (resultSource ops fuel read) os := rfl
      have hrun : (d.run (resultSource ops fuel read) (.poke i :: os)).1 =
        (({ d with src := (resultSource ops fuel read).poke i d.src } : Dist _ _).run (resultSource ops fuel read) os).1 := rfl
      rw [hlog, hrun]
      cases i with
      | update ref v =>
        obtain ⟨h1, h2⟩ := runInv_update ops fuel h ref v hu.1
        obtain ⟨known', more, g1, g2, g3⟩ := ih (d := { d with src := (resultSource ops fuel read).poke (.update ref v) d.src })
          h1 hu.2
        exact ⟨known', more, g1, fun k i hk => g2 k i (h2 k i hk), g3⟩
      | feedback v =>
        have h1 := runInv_feedback ops fuel h v hu.1 hu.2.1
        obtain ⟨known', more, g1, g2, g3⟩ := ih (d := { d with src := (resultSource ops fuel read).poke (.feedback v) d.src })
          h1 hu.2.2
        exact ⟨known', more, g1, fun k i hk => g2 k i hk, g3⟩
    | ask r =>
      have hlog : d.fetchLog (resultSource ops fuel read) (.ask r :: os) =
        ((d.fetches (resultSource ops fuel read) r).toList.map fun c => (r, c)) ++
          (d.nextChunkFor (resultSource ops fuel read) r).1.fetchLog (resultSource ops fuel read) os := rfl
      have hrun : (d.run (resultSource ops fuel read) (.ask r :: os)).1 =
        ((d.nextChunkFor (resultSource ops fuel read) r).1.run (resultSource ops fuel read) os).1 := rfl
      rw [hlog, hrun]
      rcases ask_src (resultSource ops fuel read) d r with ⟨e1, e2, _⟩ | ⟨e1, e2⟩
      · obtain ⟨known', more, g1, g2, g3⟩ := ih (d := (d.nextChunkFor (resultSource ops fuel read) r).1)
          (by rw [e1]; exact h) hu
        rw [e1] at g2
        rw [e2]
        exact ⟨known', more, g1, g2, by simpa using g3⟩
      · obtain ⟨k2, mo, hm, hcase⟩ := runInv_fetch ops fuel read hi h
        obtain ⟨known', more, g1, g2, g3⟩ := ih (d := (d.nextChunkFor (resultSource ops fuel read) r).1)
          (by rw [e1]; exact hm) hu
        rw [e1] at g2
        refine ⟨known', mo ++ more, by rw [← List.append_assoc]; exact g1, fun k i hk => g2 k i (k2 k i hk), ?_⟩
        cases hf : ((resultSource ops fuel read).fetch d.src).2 with
        | chunk p =>
          rw [hf] at e2 hcase
          obtain ⟨c, rfl, hp, _⟩ := hcase
          rw [e2.1]
          exact List.Forall₂.cons (hp.mono g2) g3
        | stop =>
          rw [hf] at e2 hcase
          rw [hcase.1, e2.1]
          simpa using g3
        | raised e =>
          rw [hf] at e2 hcase
          rw [hcase.1, e2.1]
          simpa using g3

theorem pokes_requests (es : List (TEv (MixOp K))) : pokes (requests es) = mixOps es := by
  induction es with
  | nil => rfl
  | cons e es ih => cases e <;> simp [requests, pokes, mixOps, ih]

theorem requests_valid {ι : Type} {G N W : Nat} {es : List (TEv ι)} (h : ∀ e ∈ es, e.Valid G N W) :
    ∀ o ∈ requests es, o.Valid G N W := by
  induction es with
  | nil => intro o ho; simp [requests] at ho
  | cons e es ih =>
    have ih' := ih fun e he => h e (by simp [he])
    have he := h e (by simp)
    cases e with
    | ask r =>
      intro o ho
      rcases List.mem_cons.mp ho with rfl | ho
      · exact he
      · exact ih' o ho
    | give r => exact ih'
    | poke i =>
      intro o ho
      rcases List.mem_cons.mp ho with rfl | ho
      · trivial
      · exact ih' o ho

/-! ## From chunks to samples -/

/-- What the loaders of a run have handed over, in terms of the chunks `log` that the distributor took: every loader has
handed over the beginning of what its (group, worker) pair owns. -/
structure RunLog (ops : KeyOps K) (index : Dict K Entries) (order : List K) (read : RChunk K → List (K × Pos))
    (t : Train (Sess K) K Pos) (as : List (DReq × Ans (Parcel K Pos))) (log : List (DReq × Parcel K Pos)) : Prop where
  inv : ∃ known done, RunInv ops index order known done t.dist.src ∧
    List.Forall₂ (IsParcel read t.dist.src.keyIds) done (log.map Prod.snd)
  stream : ∀ r, (t.loaders r).out ++ (t.loaders r).pending.map Prod.snd = (received as r).flatMap samplesOf
  own : ∀ r, received as r <+: ownedBy log r.group r.worker
  top : ∀ g w, ownedBy log g w ≠ [] → ∃ n, received as ⟨g, n, w⟩ = ownedBy log g w

theorem run_log (ops : KeyOps K) (fuel : Nat) (read : RChunk K → List (K × Pos)) {index : Dict K Entries} {order : List K}
    (hi : IndexOk index order) {v : MixView K} (hv : UsableMix v) (b : Bool) (ref G N workers : Nat)
    {d : Dist (Sess K) (Parcel K Pos)} (hd : Dist.init G N workers (Sess.fresh ops index order b ref v) = .ok d)
    {es : List (TEv (MixOp K))} (he : ∀ e ∈ es, e.Valid G N (effWorkers workers))
    (hu : UsableOps (index.keys ++ v.rows.keys) (mixOps es)) :
    ∃ log, RunLog ops index order read ((Train.start d).run (resultSource ops fuel read) es).1
      ((Train.start d).run (resultSource ops fuel read) es).2 log := by
  obtain ⟨os, h1, h2, h3, _⟩ := run_dist (resultSource ops fuel read) es (Train.start d)
  have hos : ∀ o ∈ os, o.Valid G N (effWorkers workers) := fun o ho => requests_valid he o (h1.subset ho)
  have hsrc : d.src = Sess.fresh ops index order b ref v := by
    unfold Dist.init at hd
    split at hd
    · cases hd
    · cases hd; rfl
  obtain ⟨c1, c2, _⟩ := c16_partition (resultSource ops fuel read) G N workers _ d hd os hos
  have hinv : RunInv ops index order (index.keys ++ v.rows.keys) [] d.src := by rw [hsrc]; exact runInv_fresh ops b ref v hv
  obtain ⟨known', more, g1, _, g3⟩ := runInv_dist ops fuel read hi os (d := d) hinv
    (by rw [h2, pokes_requests]; exact hu)
  have h3' : d.run (resultSource ops fuel read) os = _ := h3
  rw [h3'] at g1 g3 c1 c2
  refine ⟨d.fetchLog (resultSource ops fuel read) os, ⟨known', more, by simpa using g1, g3⟩, ?_, ?_, ?_⟩
  · intro r
    rw [run_stream]
    simp [Train.start, Loader.fresh]
  · intro r
    exact c1 r.group r.node r.worker
  · intro g w hne
    obtain ⟨n, _, hn⟩ := c2 g w hne
    exact ⟨n, hn⟩

theorem forall₂_exists {β γ : Type} {P : β → γ → Prop} {a : List β} {b : List γ} (h : List.Forall₂ P a b) {y : γ}
    (hy : y ∈ b) : ∃ x ∈ a, P x y := by
  induction h with
  | nil => cases hy
  | cons hp _ ih =>
    rcases List.mem_cons.mp hy with rfl | hy
    · exact ⟨_, by simp, hp⟩
    · obtain ⟨x, hx, hp'⟩ := ih hy
      exact ⟨x, by simp [hx], hp'⟩

theorem parcel_samples {read : RChunk K → List (K × Pos)} {ids : Dict K Nat} {done : List (RChunk K)}
    {ps : List (Parcel K Pos)} (h : List.Forall₂ (IsParcel read ids) done ps) (hr : ∀ c ∈ done, ReadsSome read c) :
    (ps.flatMap fun p => p.source.map Prod.snd).Subperm (done.flatMap fun c => contentSamples c.content) := by
  induction h with
  | nil => exact List.Subperm.refl _
  | cons hp _ ih =>
    simp only [List.flatMap_cons]
    rw [hp.source]
    exact (hr _ (by simp)).2.append (ih fun c hc => hr c (by simp [hc]))

theorem samplesOf_snd {p : Parcel K Pos} (h : p.skip = 0) : (samplesOf p).map Prod.snd = p.source.map Prod.snd := by
  unfold samplesOf
  rw [h]
  simp

theorem mem_ownedBy {C : Type} {log : List (DReq × C)} {g w : Nat} {c : C} (h : c ∈ ownedBy log g w) :
    ∃ r, (r, c) ∈ log ∧ r.group = g ∧ r.worker = w := by
  unfold ownedBy at h
  rw [List.mem_filterMap] at h
  obtain ⟨⟨r, c'⟩, h1, h2⟩ := h
  dsimp only at h2
  split at h2
  · rename_i hx
    cases h2
    exact ⟨r, h1, hx⟩
  · cases h2

theorem ownedBy_sublist {C : Type} (log : List (DReq × C)) (g w : Nat) : (ownedBy log g w).Sublist (log.map Prod.snd) := by
  unfold ownedBy
  induction log with
  | nil => exact List.Sublist.refl _
  | cons e log ih =>
    obtain ⟨r, c⟩ := e
    rw [List.filterMap_cons]
    dsimp only
    split
    · exact ih.cons c
    · rename_i hx
      split at hx
      · cases hx; exact ih.cons_cons _
      · cases hx

theorem flatMap_sublist {β γ : Type} (f : β → List γ) {a b : List β} (h : a.Sublist b) : (a.flatMap f).Sublist (b.flatMap f) := by
  induction h with
  | slnil => exact List.Sublist.refl _
  | cons x _ ih => rw [List.flatMap_cons]; exact ih.trans (List.sublist_append_right _ _)
  | cons_cons x _ ih => rw [List.flatMap_cons, List.flatMap_cons]; exact (List.Sublist.refl _).append ih

theorem pairwise_disjoint {β γ : Type} {f : β → List γ} {l : List β}
    (h : l.Pairwise fun a b => List.Disjoint (f a) (f b)) {a b : β} (ha : a ∈ l) (hb : b ∈ l) (hne : a ≠ b) :
    List.Disjoint (f a) (f b) := by
  induction h with
  | nil => cases ha
  | cons hx _ ih =>
    rcases List.mem_cons.mp ha with rfl | ha' <;> rcases List.mem_cons.mp hb with rfl | hb'
    · exact absurd rfl hne
    · exact hx _ hb'
    · exact (hx _ ha').symm
    · exact ih ha' hb'

section Log

variable {ops : KeyOps K} {index : Dict K Entries} {order : List K} {read : RChunk K → List (K × Pos)}
  {t : Train (Sess K) K Pos} {as : List (DReq × Ans (Parcel K Pos))} {log : List (DReq × Parcel K Pos)}

/-- Everything the distributor took, sample by sample. -/
theorem RunLog.all (h : RunLog ops index order read t as log) (hi : IndexOk index order)
    (hr : ∀ c, Deliverable ops index order c → ReadsSome read c) :
    ((log.map Prod.snd).flatMap fun p => p.source.map Prod.snd).Subperm (contentSamples index) := by
  obtain ⟨known, done, h1, h2⟩ := h.inv
  have hp := parcel_samples h2 fun c hc => hr c (h1.all c hc)
  obtain ⟨history, hh, _, hd⟩ := h1.hist
  have hc := c04_delivered_subperm ops false index order hi history hh
  rw [chunksOf_samples, hd] at hc
  exact hp.trans hc

theorem RunLog.skip (h : RunLog ops index order read t as log) {p : Parcel K Pos} (hp : p ∈ log.map Prod.snd) : p.skip = 0 := by
  obtain ⟨_, _, _, h2⟩ := h.inv
  obtain ⟨c, _, hc⟩ := forall₂_exists h2 hp
  exact hc.skip

theorem RunLog.out_prefix (h : RunLog ops index order read t as log) (r : DReq) :
    (t.loaders r).out <+: (ownedBy log r.group r.worker).flatMap samplesOf := by
  obtain ⟨rest, hrest⟩ := h.own r
  rw [← hrest, List.flatMap_append, ← h.stream r, List.append_assoc]
  exact List.prefix_append _ _

theorem RunLog.flatMap_snd (h : RunLog ops index order read t as log) {l : List (Parcel K Pos)}
    (hl : l.Sublist (log.map Prod.snd)) :
    (l.flatMap samplesOf).map Prod.snd = l.flatMap fun p => p.source.map Prod.snd := by
  rw [List.map_flatMap]
  apply List.flatMap_congr
  intro p hp
  exact samplesOf_snd (h.skip (hl.subset hp))

theorem RunLog.out_sublist (h : RunLog ops index order read t as log) (r : DReq) :
    ((t.loaders r).out.map Prod.snd).Sublist ((log.map Prod.snd).flatMap fun p => p.source.map Prod.snd) := by
  have h1 := ((h.out_prefix r).sublist).map Prod.snd
  rw [h.flatMap_snd (ownedBy_sublist log r.group r.worker)] at h1
  exact h1.trans (flatMap_sublist _ (ownedBy_sublist log r.group r.worker))

theorem RunLog.disjoint (h : RunLog ops index order read t as log) (hi : IndexOk index order)
    (hr : ∀ c, Deliverable ops index order c → ReadsSome read c) (hn : (contentSamples index).Nodup) {r r' : DReq}
    (hne : ¬ (r.group = r'.group ∧ r.worker = r'.worker)) {p : Pos} (h1 : p ∈ (t.loaders r).out.map Prod.snd)
    (h2 : p ∈ (t.loaders r').out.map Prod.snd) : False := by
  have hnd : ((log.map Prod.snd).flatMap fun p => p.source.map Prod.snd).Nodup := by
    obtain ⟨l, hl, hs⟩ := h.all hi hr
    exact hl.nodup_iff.mp (hs.nodup hn)
  rw [List.flatMap_map, List.nodup_flatMap] at hnd
  have own : ∀ r, p ∈ (t.loaders r).out.map Prod.snd →
      ∃ e ∈ log, e.1.group = r.group ∧ e.1.worker = r.worker ∧ p ∈ e.2.source.map Prod.snd := by
    intro r hp
    have h1 := (((h.out_prefix r).sublist).map Prod.snd).subset hp
    rw [h.flatMap_snd (ownedBy_sublist log r.group r.worker), List.mem_flatMap] at h1
    obtain ⟨c, hc, hpc⟩ := h1
    obtain ⟨q, hq, e1, e2⟩ := mem_ownedBy hc
    exact ⟨(q, c), hq, e1, e2, hpc⟩
  obtain ⟨e, he, e1, e2, hp1⟩ := own r h1
  obtain ⟨e', he', e1', e2', hp2⟩ := own r' h2
  have hdiff : e ≠ e' := by
    rintro rfl
    exact hne ⟨e1.symm.trans e1', e2.symm.trans e2'⟩
  exact pairwise_disjoint hnd.2 he he' hdiff hp1 hp2

end Log

/-! ## C79 -/

/-- **C79** (every sample once). For every query result, reading of chunks, number of groups, nodes and workers, and every
history of the loaders' actions with mixture updates and feedback in between: no loader hands over a sample twice, loaders of
different groups or different worker numbers never hand over the same sample, and every sample that is handed over belongs to
the query result. -/
theorem c79_once (ops : KeyOps K) (fuel : Nat) (index : Dict K Entries) (order : List K) (hi : IndexOk index order)
    (hn : (contentSamples index).Nodup) (read : RChunk K → List (K × Pos))
    (hr : ∀ c, Deliverable ops index order c → ReadsSome read c)
    (v : MixView K) (hv : UsableMix v) (stopOnNone : Bool) (ref groups nodes workers : Nat)
    (d : Dist (Sess K) (Parcel K Pos))
    (hd : Dist.init groups nodes workers (Sess.fresh ops index order stopOnNone ref v) = .ok d)
    (es : List (TEv (MixOp K))) (he : ∀ e ∈ es, e.Valid groups nodes (effWorkers workers))
    (hu : UsableOps (index.keys ++ v.rows.keys) (mixOps es))
    (t : Train (Sess K) K Pos) (ht : t = ((Train.start d).run (resultSource ops fuel read) es).1) :
    (∀ r, ((t.loaders r).out.map Prod.snd).Nodup) ∧
    (∀ r r', r.group ≠ r'.group ∨ r.worker ≠ r'.worker →
      ∀ p, p ∈ (t.loaders r).out.map Prod.snd → p ∉ (t.loaders r').out.map Prod.snd) ∧
    ∀ r, ∀ p ∈ (t.loaders r).out.map Prod.snd, p ∈ contentSamples index := by
  obtain ⟨log, h⟩ := run_log ops fuel read hi hv stopOnNone ref groups nodes workers hd he hu
  rw [← ht] at h
  have hall := h.all hi hr
  have hnd : ((log.map Prod.snd).flatMap fun p => p.source.map Prod.snd).Nodup := by
    obtain ⟨l, hl, hs⟩ := hall
    exact hl.nodup_iff.mp (hs.nodup hn)
  refine ⟨fun r => (h.out_sublist r).nodup hnd, ?_, fun r p hp => hall.subset ((h.out_sublist r).subset hp)⟩
  intro r r' hne p h1 h2
  exact h.disjoint hi hr hn (fun e => hne.elim (fun x => x e.1) (fun x => x e.2)) h1 h2

/-- **C79** (replicas agree). The loaders of the same worker number on different nodes of a group hand over the same sequence
of key ids and samples: at any time one of them has handed over a beginning of what the other has. -/
theorem c79_replicas (ops : KeyOps K) (fuel : Nat) (index : Dict K Entries) (order : List K) (hi : IndexOk index order)
    (read : RChunk K → List (K × Pos))
    (v : MixView K) (hv : UsableMix v) (stopOnNone : Bool) (ref groups nodes workers : Nat)
    (d : Dist (Sess K) (Parcel K Pos))
    (hd : Dist.init groups nodes workers (Sess.fresh ops index order stopOnNone ref v) = .ok d)
    (es : List (TEv (MixOp K))) (he : ∀ e ∈ es, e.Valid groups nodes (effWorkers workers))
    (hu : UsableOps (index.keys ++ v.rows.keys) (mixOps es))
    (t : Train (Sess K) K Pos) (ht : t = ((Train.start d).run (resultSource ops fuel read) es).1) (g w n n' : Nat) :
    (t.loaders ⟨g, n, w⟩).out <+: (t.loaders ⟨g, n', w⟩).out ∨ (t.loaders ⟨g, n', w⟩).out <+: (t.loaders ⟨g, n, w⟩).out := by
  obtain ⟨log, h⟩ := run_log ops fuel read hi hv stopOnNone ref groups nodes workers hd he hu
  rw [← ht] at h
  exact List.prefix_or_prefix_of_prefix (h.out_prefix ⟨g, n, w⟩) (h.out_prefix ⟨g, n', w⟩)

/-- **C79** (key ids). The number that comes with a sample is, in the query result's table at any later time of the run, the
number of a key; and the sample belongs to a property combination of the query result that is this key or matches it. -/
theorem c79_key_ids (ops : KeyOps K) (fuel : Nat) (index : Dict K Entries) (order : List K) (hi : IndexOk index order)
    (read : RChunk K → List (K × Pos)) (hr : ∀ c, Deliverable ops index order c → ReadsSome read c)
    (v : MixView K) (hv : UsableMix v) (stopOnNone : Bool) (ref groups nodes workers : Nat)
    (d : Dist (Sess K) (Parcel K Pos))
    (hd : Dist.init groups nodes workers (Sess.fresh ops index order stopOnNone ref v) = .ok d)
    (es : List (TEv (MixOp K))) (he : ∀ e ∈ es, e.Valid groups nodes (effWorkers workers))
    (hu : UsableOps (index.keys ++ v.rows.keys) (mixOps es))
    (t : Train (Sess K) K Pos) (ht : t = ((Train.start d).run (resultSource ops fuel read) es).1)
    (r : DReq) (i : Nat) (p : Pos) (hp : (i, p) ∈ (t.loaders r).out) :
    ∃ k, t.dist.src.keyIds.get? k = some i ∧ (∀ k', t.dist.src.keyIds.get? k' = some i → k' = k) ∧
      ∃ comp e, (comp, e) ∈ index ∧ p ∈ entriesSamples e ∧ (comp = k ∨ ops.isMatch k comp = true) := by
  obtain ⟨log, h⟩ := run_log ops fuel read hi hv stopOnNone ref groups nodes workers hd he hu
  rw [← ht] at h
  have h1 := (h.out_prefix r).subset hp
  rw [List.mem_flatMap] at h1
  obtain ⟨q, hq, hpq⟩ := h1
  obtain ⟨known, done, hinv, hf⟩ := h.inv
  obtain ⟨c, hc, hpc⟩ := forall₂_exists hf ((ownedBy_sublist log r.group r.worker).subset hq)
  have hdel := hinv.all c hc
  unfold samplesOf at hpq
  rw [hpc.skip, List.drop_zero, hpc.source, List.mem_map] at hpq
  obtain ⟨⟨k, p'⟩, hk, heq⟩ := hpq
  simp only [Prod.mk.injEq] at heq
  obtain ⟨hidx, rfl⟩ := heq
  subst hidx
  have hks := (hr c hdel).listed hk
  have hkc : k ∈ c.content.keys := by
    by_contra hk'
    have : c.content.get? k = none := by
      cases hg : c.content.get? k with
      | none => rfl
      | some x => exact absurd ((Dict.mem_keys_iff c.content k).mpr ⟨x, hg⟩) hk'
    simp [keySamples, this, entriesSamples] at hks
  have hid := hpc.keyId k hkc
  refine ⟨k, hid, ?_, ?_⟩
  · intro k' hk'
    have hvn : t.dist.src.keyIds.values.Nodup := by rw [hinv.ids.ok.values]; exact List.nodup_range
    exact ids_inj hvn hk' hid
  · obtain ⟨history, rq, g', hh, hus, hsend⟩ := hdel
    obtain ⟨comp, e, h1, h2, h3⟩ := c05_listed_under_matching_key ops false index order hi history hh rq
      (fun i => (hus i).keys) _ g' c rfl hsend k p' hks
    refine ⟨comp, e, h1, h2, ?_⟩
    split at h3
    · exact Or.inl h3
    · exact Or.inr h3
where
  ids_inj {m : Dict K Nat} (h : m.values.Nodup) {a b : K} {i : Nat} (ha : m.get? a = some i) (hb : m.get? b = some i) :
      a = b := by
    have h1 := Dict.mem_of_get? ha
    have h2 := Dict.mem_of_get? hb
    have := List.inj_on_of_nodup_map h h1 h2 rfl
    exact congrArg Prod.fst this

/-- **C79** (failures). At any time of a run, a request of an existing loader is answered with a chunk; or with the end of the
stream, and then the query result itself had nothing to deliver; or with an error, and then it is the error that the query
result itself raised: the distributor and the construction of the chunk (whose keys all have ids) never fail. -/
theorem c79_failures (ops : KeyOps K) (fuel : Nat) (index : Dict K Entries) (order : List K) (hi : IndexOk index order)
    (read : RChunk K → List (K × Pos))
    (v : MixView K) (hv : UsableMix v) (stopOnNone : Bool) (ref groups nodes workers : Nat)
    (d : Dist (Sess K) (Parcel K Pos))
    (hd : Dist.init groups nodes workers (Sess.fresh ops index order stopOnNone ref v) = .ok d)
    (es : List (TEv (MixOp K))) (he : ∀ e ∈ es, e.Valid groups nodes (effWorkers workers))
    (hu : UsableOps (index.keys ++ v.rows.keys) (mixOps es))
    (t : Train (Sess K) K Pos) (ht : t = ((Train.start d).run (resultSource ops fuel read) es).1)
    (r : DReq) (hr : r.group < groups ∧ r.node < nodes ∧ r.worker < effWorkers workers) :
    match (t.dist.nextChunkFor (resultSource ops fuel read) r).2 with
    | .chunk _ => True
    | .stop => (t.dist.src.next ops fuel).2 = .none ∨ (t.dist.src.next ops fuel).2 = .stop
    | .raised e => (t.dist.src.next ops fuel).2 = .raised e := by
  obtain ⟨os, h1, h2, h3, _⟩ := run_dist (resultSource ops fuel read) es (Train.start d)
  have hos : ∀ o ∈ os, o.Valid groups nodes (effWorkers workers) := fun o ho => requests_valid he o (h1.subset ho)
  have hsrc : d.src = Sess.fresh ops index order stopOnNone ref v := by
    unfold Dist.init at hd
    split at hd
    · cases hd
    · cases hd; rfl
  have hinv : RunInv ops index order (index.keys ++ v.rows.keys) [] d.src := by rw [hsrc]; exact runInv_fresh ops stopOnNone ref v hv
  obtain ⟨known', more, g1, _, _⟩ := runInv_dist ops fuel read hi os (d := d) hinv
    (by rw [h2, pokes_requests]; exact hu)
  have h3' : (d.run (resultSource ops fuel read) os).1 = t.dist := by
    have : d.run (resultSource ops fuel read) os = _ := h3
    rw [this, ht]
  rw [h3'] at g1
  have hrel := (run_rel (resultSource ops fuel read) os hos (init_rel groups nodes workers _ hd)).2
  rw [h3'] at hrel
  obtain ⟨e1, _⟩ := next_rel (resultSource ops fuel read) hrel r hr.1 hr.2.1 hr.2.2
  rw [e1]
  generalize ((SDist.init (Sess.fresh ops index order stopOnNone ref v)).run (resultSource ops fuel read) os).1 = sp at hrel e1
  obtain ⟨_, mo, _, hcase⟩ := runInv_fetch ops fuel read hi g1
  unfold SDist.next
  dsimp only
  rw [← hrel.src]
  cases (sp.stream r.group r.worker)[sp.pos r.group r.node r.worker]? with
  | some c => trivial
  | none =>
    dsimp only
    match hf : (resultSource ops fuel read).fetch t.dist.src with
    | (s', .chunk c) => trivial
    | (s', .stop) =>
      rw [hf] at hcase
      exact hcase.2.2
    | (s', .raised e) =>
      rw [hf] at hcase
      exact hcase.2

/-! ## Completeness -/

/-- The query result during a run with ArbitraryMixture; `done` are the chunks taken so far. -/
structure ArbRun (index : Dict K Entries) (order : List K) (size : Nat) (done : List (RChunk K)) (s : Sess K) : Prop where
  heap : s.heap = fun _ => arbView size
  ref : s.mixRef = 0
  state : (ArbInv s.theGen s.idx ∧ ∀ p, unread p s.theGen.iters +
      (done.flatMap fun c => contentSamples c.content).count p = unread p (Gen.init index order).iters) ∨
    (s.theGen.susp = .finished ∧ ∀ p, (done.flatMap fun c => contentSamples c.content).count p =
      unread p (Gen.init index order).iters)

theorem send_finished (ops : KeyOps K) (fuel : Nat) (replay : Bool) (heap : Nat → MixView K) {g : Gen K}
    (h : g.susp = .finished) (mix t : Nat) : g.send ops fuel replay heap mix t = (g, .stop) := by
  unfold Gen.send
  rw [h]

/-- Taking a chunk with ArbitraryMixture. -/
theorem arbRun_fetch (ops : KeyOps K) (fuel : Nat) (read : RChunk K → List (K × Pos)) {index : Dict K Entries}
    {order known : List K} (hi : IndexOk index order) {size : Nat} {done done' : List (RChunk K)} {s : Sess K}
    (h : RunInv ops index order known done s) (ha : ArbRun index order size done' s) :
    let x := (resultSource ops fuel read).fetch s
    match x.2 with
    | .chunk p => ∃ c, p.source = read c ∧ Deliverable ops index order c ∧ ArbRun index order size (done' ++ [c]) x.1
    | .stop => ArbRun index order size done' x.1 ∧ x.1.theGen.susp = .finished
    | .raised _ => True := by
  intro x
  obtain ⟨_, more, hm, hcase⟩ := runInv_fetch ops fuel read hi h
  have hc : (s.gen.isNone && s.numReturns != 0) = false := by
    cases hg : s.gen with
    | none => simp [h.fresh hg]
    | some g => simp
  obtain ⟨e1, e2⟩ := theGen_next ops fuel s hc
  have keep : (s.next ops fuel).1.heap = s.heap ∧ (s.next ops fuel).1.mixRef = s.mixRef ∧
      ((s.next ops fuel).2 ≠ .none → (s.next ops fuel).1.idx = s.idx + 1) := by
    unfold Sess.next; rw [hc, if_neg (by simp)]
    refine ⟨rfl, rfl, ?_⟩
    intro hne
    dsimp only at hne ⊢
    split
    · rename_i hx; exact absurd hx hne
    · rfl
  have hsend : s.theGen.send ops fuel s.isReplay (fun _ => arbView size) 0 s.idx =
      ((s.next ops fuel).1.theGen, (s.next ops fuel).2) := by
    rw [← ha.heap, ← ha.ref]; exact Prod.ext e1.symm e2.symm
  change match x.2 with
    | .chunk p => ∃ c, more = [c] ∧ IsParcel read x.1.keyIds c p ∧ s.next ops fuel = (x.1, .chunk c)
    | .stop => more = [] ∧ x.1 = (s.next ops fuel).1 ∧ ((s.next ops fuel).2 = .none ∨ (s.next ops fuel).2 = .stop)
    | .raised e => more = [] ∧ (s.next ops fuel).2 = .raised e at hcase
  change RunInv ops index order known (done ++ more) x.1 at hm
  generalize hx : x.2 = f at hcase ⊢
  cases f with
  | raised e => trivial
  | chunk p =>
    obtain ⟨c, rfl, hp, hnext⟩ := hcase
    rw [hnext] at hsend keep
    refine ⟨c, hp.source, hm.all c (by simp), ?_⟩
    refine ⟨keep.1.trans ha.heap, keep.2.1.trans ha.ref, ?_⟩
    have hidx : x.1.idx = s.idx + 1 := keep.2.2 (by simp)
    rcases ha.state with ⟨hinv, hcnt⟩ | ⟨hfin, _⟩
    · rcases arb_request ops s.isReplay hinv fuel size hsend with ⟨e, hx⟩ | ⟨hx, _⟩ | ⟨c', hx, h1, _, h2, _⟩
      · simp at hx
      · simp at hx
      · simp only [Out.chunk.injEq] at hx
        subst hx
        refine Or.inl ⟨by rw [hidx]; exact h1, ?_⟩
        intro p
        have := hcnt p
        have := h2 p
        simp only at this
        rw [List.flatMap_append, List.count_append]
        simp only [List.flatMap_cons, List.flatMap_nil, List.append_nil]
        omega
    · rw [send_finished ops fuel _ _ hfin] at hsend
      simp at hsend
  | stop =>
    obtain ⟨_, hx1, hout⟩ := hcase
    rw [← hx1] at hsend keep
    rcases ha.state with ⟨hinv, hcnt⟩ | ⟨hfin, hcnt⟩
    · rcases arb_request ops s.isReplay hinv fuel size hsend with ⟨e, hx⟩ | ⟨hx, h1, h2⟩ | ⟨c', hx, _⟩
      · rw [hx] at hout; simp at hout
      · refine ⟨⟨keep.1.trans ha.heap, keep.2.1.trans ha.ref, Or.inr ⟨h1, ?_⟩⟩, h1⟩
        intro p
        have := hcnt p
        have h0 : unread p s.theGen.iters = 0 := by
          rw [← count_allUnread, h2]; rfl
        omega
      · rw [hx] at hout; simp at hout
    · have hg : x.1.theGen = s.theGen := by
        rw [send_finished ops fuel _ _ hfin] at hsend
        exact (Prod.mk.inj hsend).1.symm
      refine ⟨⟨keep.1.trans ha.heap, keep.2.1.trans ha.ref, Or.inr ⟨by rw [hg]; exact hfin, hcnt⟩⟩, by rw [hg]; exact hfin⟩

theorem arbRun_finished_fetch (ops : KeyOps K) (fuel : Nat) (read : RChunk K → List (K × Pos)) {index : Dict K Entries}
    {order known : List K} (hi : IndexOk index order) {size : Nat} {done done' : List (RChunk K)} {s : Sess K}
    (h : RunInv ops index order known done s) (ha : ArbRun index order size done' s) (hf : s.theGen.susp = .finished) :
    ((resultSource ops fuel read).fetch s).1.theGen.susp = .finished := by
  have hc : (s.gen.isNone && s.numReturns != 0) = false := by
    cases hg : s.gen with
    | none => simp [h.fresh hg]
    | some g => simp
  obtain ⟨e1, e2⟩ := theGen_next ops fuel s hc
  rw [send_finished ops fuel _ _ hf] at e1 e2
  have : (resultSource ops fuel read).fetch s = ((s.next ops fuel).1, .stop) := by
    simp only [resultSource]
    rw [e2]; rfl
  rw [this, e1]
  exact hf

theorem arbRun_dist (ops : KeyOps K) (fuel : Nat) (read : RChunk K → List (K × Pos)) {index : Dict K Entries}
    {order : List K} (hi : IndexOk index order) {size : Nat} (os : List (DOp (MixOp K))) (hp : pokes os = [])
    {known : List K} {done done' : List (RChunk K)}
    {d : Dist (Sess K) (Parcel K Pos)} (h : RunInv ops index order known done d.src) (ha : ArbRun index order size done' d.src)
    (hno : ∀ r e, (r, Ans.raised e) ∉ (d.run (resultSource ops fuel read) os).2) :
    ∃ more, ArbRun index order size (done' ++ more) (d.run (resultSource ops fuel read) os).1.src ∧
      (∀ c ∈ more, Deliverable ops index order c) ∧
      List.Forall₂ (fun c p => p.source = read c) more ((d.fetchLog (resultSource ops fuel read) os).map Prod.snd) ∧
      (d.src.theGen.susp = .finished ∨ (∃ r, (r, Ans.stop) ∈ (d.run (resultSource ops fuel read) os).2) →
        (d.run (resultSource ops fuel read) os).1.src.theGen.susp = .finished) := by
  induction os generalizing known done done' d with
  | nil => exact ⟨[], by simpa [Dist.run] using ha, by simp, by simp [Dist.fetchLog], by simp [Dist.run]⟩
  | cons o os ih =>
    cases o with
    | poke i => simp [pokes] at hp
    | ask r =>
      have hlog : d.fetchLog (resultSource ops fuel read) (.ask r :: os) =
        ((d.fetches (resultSource ops fuel read) r).toList.map fun c => (r, c)) ++
          (d.nextChunkFor (resultSource ops fuel read) r).1.fetchLog (resultSource ops fuel read) os := rfl
      have hrun : (d.run (resultSource ops fuel read) (.ask r :: os)).1 =
        ((d.nextChunkFor (resultSource ops fuel read) r).1.run (resultSource ops fuel read) os).1 := rfl
      have hans : (d.run (resultSource ops fuel read) (.ask r :: os)).2 =
        (r, (d.nextChunkFor (resultSource ops fuel read) r).2) ::
        ((d.nextChunkFor (resultSource ops fuel read) r).1.run (resultSource ops fuel read) os).2 := rfl
      rw [hans] at hno
      rw [hlog, hrun, hans]
      have hno' : ∀ r' e, (r', Ans.raised e) ∉
          ((d.nextChunkFor (resultSource ops fuel read) r).1.run (resultSource ops fuel read) os).2 :=
        fun r' e hx => hno r' e (List.mem_cons_of_mem _ hx)
      rcases ask_src (resultSource ops fuel read) d r with ⟨e1, e2, e3⟩ | ⟨e1, e2⟩
      · obtain ⟨more, g1, g2, g3, g4⟩ := ih hp (d := (d.nextChunkFor (resultSource ops fuel read) r).1)
          (by rw [e1]; exact h) (by rw [e1]; exact ha) hno'
        rw [e1] at g4
        refine ⟨more, g1, g2, by rw [e2]; simpa using g3, ?_⟩
        rintro (hx | ⟨r', hx⟩)
        · exact g4 (Or.inl hx)
        · rcases List.mem_cons.mp hx with hx | hx
          · exact absurd (Prod.mk.inj hx).2.symm e3
          · exact g4 (Or.inr ⟨r', hx⟩)
      · obtain ⟨_, mo, hm, _⟩ := runInv_fetch ops fuel read hi h
        have hcase := arbRun_fetch ops fuel read hi h ha
        have hfin := arbRun_finished_fetch ops fuel read hi h ha
        dsimp only at hcase
        cases hf : ((resultSource ops fuel read).fetch d.src).2 with
        | chunk p =>
          rw [hf] at e2 hcase
          obtain ⟨c, hs, hdel, ha'⟩ := hcase
          obtain ⟨more, g1, g2, g3, g4⟩ := ih hp (d := (d.nextChunkFor (resultSource ops fuel read) r).1)
            (by rw [e1]; exact hm) (by rw [e1]; exact ha') hno'
          rw [e1] at g4
          refine ⟨c :: more, by simpa using g1, ?_, ?_, ?_⟩
          · intro c' hc'
            rcases List.mem_cons.mp hc' with rfl | hc'
            · exact hdel
            · exact g2 c' hc'
          · rw [e2.1]
            exact List.Forall₂.cons hs g3
          · rintro (hx | ⟨r', hx⟩)
            · exact g4 (Or.inl (hfin hx))
            · rcases List.mem_cons.mp hx with hx | hx
              · exact absurd (Prod.mk.inj hx).2.symm e2.2
              · exact g4 (Or.inr ⟨r', hx⟩)
        | stop =>
          rw [hf] at e2 hcase
          obtain ⟨ha', hfi⟩ := hcase
          obtain ⟨more, g1, g2, g3, g4⟩ := ih hp (d := (d.nextChunkFor (resultSource ops fuel read) r).1)
            (by rw [e1]; exact hm) (by rw [e1]; exact ha') hno'
          rw [e1] at g4
          exact ⟨more, g1, g2, by rw [e2.1]; simpa using g3, fun _ => g4 (Or.inl hfi)⟩
        | raised e =>
          rw [hf] at e2
          exact absurd (by rw [e2.2]; simp) (hno r e)

theorem source_samples {read : RChunk K → List (K × Pos)} {done : List (RChunk K)} {ps : List (Parcel K Pos)}
    (h : List.Forall₂ (fun c (p : Parcel K Pos) => p.source = read c) done ps) (hr : ∀ c ∈ done, ReadsOnce read c) :
    (ps.flatMap fun p => p.source.map Prod.snd).Perm (done.flatMap fun c => contentSamples c.content) := by
  induction h with
  | nil => exact List.Perm.refl _
  | cons hp _ ih =>
    simp only [List.flatMap_cons]
    rw [hp]
    exact (hr _ (by simp)).2.append (ih fun c hc => hr c (by simp [hc]))

theorem fetchLog_mem {σ ι C : Type} (S : Source σ ι C) (os : List (DOp ι)) (d : Dist σ C) (r : DReq) (c : C)
    (h : (r, c) ∈ d.fetchLog S os) : DOp.ask r ∈ os := by
  induction os generalizing d with
  | nil => simp [Dist.fetchLog] at h
  | cons o os ih =>
    cases o with
    | poke i => exact List.mem_cons_of_mem _ (ih _ h)
    | ask r' =>
      rcases List.mem_append.mp h with h | h
      · obtain ⟨_, _, hx⟩ := List.mem_map.mp h
        cases hx
        exact List.mem_cons_self
      · exact List.mem_cons_of_mem _ (ih _ h)

/-- With ArbitraryMixture: once a request was answered with the end of the stream, every sample of the query result is in a chunk
that some node received. -/
theorem dist_complete (ops : KeyOps K) (fuel : Nat) {index : Dict K Entries} {order : List K} (hi : IndexOk index order)
    (read : RChunk K → List (K × Pos)) (hr : ∀ c, Deliverable ops index order c → ReadsOnce read c)
    {size : Nat} (hs : 0 < size) {stopOnNone : Bool} {groups nodes workers : Nat}
    {d : Dist (Sess K) (Parcel K Pos)}
    (hd : Dist.init groups nodes workers (Sess.fresh ops index order stopOnNone 0 (arbView size)) = .ok d)
    {os : List (DOp (MixOp K))} (hos : ∀ o ∈ os, o.Valid groups nodes (effWorkers workers)) (hp : pokes os = [])
    (hstop : ∃ r, (r, Ans.stop) ∈ (d.run (resultSource ops fuel read) os).2)
    (hno : ∀ r e, (r, Ans.raised e) ∉ (d.run (resultSource ops fuel read) os).2) :
    ∀ p ∈ contentSamples index, ∃ r : DReq, r.group < groups ∧ r.node < nodes ∧ r.worker < effWorkers workers ∧
      p ∈ ((received (d.run (resultSource ops fuel read) os).2 r).flatMap samplesOf).map Prod.snd := by
  have hv : UsableMix (arbView size : MixView K) := ⟨by simp [arbView, Dict.keys], by simp [arbView], fun _ => hs⟩
  have hsrc : d.src = Sess.fresh ops index order stopOnNone 0 (arbView size) := by
    unfold Dist.init at hd
    split at hd
    · cases hd
    · cases hd; rfl
  obtain ⟨c1, c2, _⟩ := c16_partition (resultSource ops fuel read) groups nodes workers _ d hd os hos
  have hinv : RunInv ops index order (index.keys ++ (arbView size : MixView K).rows.keys) [] d.src := by
    rw [hsrc]; exact runInv_fresh ops stopOnNone 0 _ hv
  have harb : ArbRun index order size [] d.src := by
    rw [hsrc]
    refine ⟨rfl, rfl, Or.inl ⟨?_, fun p => by simp [Sess.theGen, Sess.fresh]⟩⟩
    have := arbInv_init hi
    exact ⟨⟨this.inv.keys, this.inv.nodup, this.inv.empty⟩, this.susp, this.cur, this.ns⟩
  obtain ⟨more, g1, g2, g3, g4⟩ := arbRun_dist ops fuel read hi os hp hinv harb hno
  have hfin := g4 (Or.inr hstop)
  have hperm := source_samples g3 fun c hc => hr c (g2 c hc)
  have hskip : ∀ p ∈ (d.fetchLog (resultSource ops fuel read) os).map Prod.snd, p.skip = 0 := by
    obtain ⟨_, m', _, _, hf⟩ := runInv_dist ops fuel read hi os (d := d) hinv (by rw [hp]; trivial)
    intro p hp
    obtain ⟨c, _, hc⟩ := forall₂_exists hf hp
    exact hc.skip
  intro p hp
  have hin : p ∈ more.flatMap fun c => contentSamples c.content := by
    rcases g1.state with ⟨hx, _⟩ | ⟨_, hcnt⟩
    · rw [hx.susp] at hfin; cases hfin
    · have h5 := hcnt p
      rw [List.nil_append] at h5
      have h6 := (init_unread hi).count_eq p
      rw [count_allUnread] at h6
      have h7 : 0 < (contentSamples index).count p := List.count_pos_iff.mpr hp
      rw [← List.count_pos_iff]
      omega
  rw [← hperm.mem_iff, List.mem_flatMap] at hin
  obtain ⟨q, hq, hpq⟩ := hin
  obtain ⟨⟨r, q'⟩, hrq, heq⟩ := List.mem_map.mp hq
  simp only at heq
  subst heq
  have hown : q' ∈ ownedBy (d.fetchLog (resultSource ops fuel read) os) r.group r.worker := by
    unfold ownedBy
    rw [List.mem_filterMap]
    exact ⟨(r, q'), hrq, by simp⟩
  obtain ⟨n, hnn, hn⟩ := c2 r.group r.worker (List.ne_nil_of_mem hown)
  have hrv : r.group < groups ∧ r.worker < effWorkers workers := by
    have := fetchLog_mem (resultSource ops fuel read) os d r q' hrq
    have := hos _ this
    exact ⟨this.1, this.2.2⟩
  refine ⟨⟨r.group, n, r.worker⟩, hrv.1, hnn, hrv.2, ?_⟩
  rw [hn, List.map_flatMap, List.mem_flatMap]
  exact ⟨q', hown, by rw [samplesOf_snd (hskip q' hq)]; exact hpq⟩

/-- **C79** (nothing is left out). With ArbitraryMixture and no mixture changes: if some loader was told that the stream is
over, no request failed, and every loader has handed over all samples it received, then every sample of the query result was
handed over (by `c79_once`: by the loaders of exactly one worker number of exactly one group, and once by each). -/
theorem c79_complete (ops : KeyOps K) (fuel : Nat) (index : Dict K Entries) (order : List K) (hi : IndexOk index order)
    (read : RChunk K → List (K × Pos)) (hr : ∀ c, Deliverable ops index order c → ReadsOnce read c)
    (size : Nat) (hs : 0 < size) (stopOnNone : Bool) (groups nodes workers : Nat)
    (d : Dist (Sess K) (Parcel K Pos))
    (hd : Dist.init groups nodes workers (Sess.fresh ops index order stopOnNone 0 (arbView size)) = .ok d)
    (es : List (TEv (MixOp K))) (he : ∀ e ∈ es, e.Valid groups nodes (effWorkers workers)) (hu : mixOps es = [])
    (t : Train (Sess K) K Pos) (as : List (DReq × Ans (Parcel K Pos)))
    (ht : (Train.start d).run (resultSource ops fuel read) es = (t, as))
    (hstop : ∃ r, (r, Ans.stop) ∈ as) (hno : ∀ r e, (r, Ans.raised e) ∉ as) (hend : ∀ r, (t.loaders r).pending = []) :
    ∀ p ∈ contentSamples index, ∃ r, p ∈ (t.loaders r).out.map Prod.snd := by
  obtain ⟨os, h1, h2, h3, _⟩ := run_dist (resultSource ops fuel read) es (Train.start d)
  have hos : ∀ o ∈ os, o.Valid groups nodes (effWorkers workers) := fun o ho => requests_valid he o (h1.subset ho)
  have h3' : d.run (resultSource ops fuel read) os = (t.dist, as) := by
    have : d.run (resultSource ops fuel read) os = _ := h3
    rw [this, ht]
  intro p hp
  obtain ⟨r, -, -, -, hin⟩ := dist_complete ops fuel hi read hr hs hd hos (by rw [h2, pokes_requests]; exact hu)
    (by rw [h3']; exact hstop) (by rw [h3']; exact hno) p hp
  rw [h3'] at hin
  refine ⟨r, ?_⟩
  have := run_stream (resultSource ops fuel read) es (Train.start d) r
  rw [ht] at this
  have : (t.loaders r).out = (received as r).flatMap samplesOf := by
    simpa [Train.start, Loader.fresh, hend r] using this
  rw [this]
  exact hin

/-! ## Composition -/

theorem run_base (ops : KeyOps K) (fuel : Nat) (replay : Bool) (heap : Nat → MixView K) (hh : HeapOk heap) :
    ∀ (n : Nat) (g : Gen K), GenInv g → (Gen.run ops fuel replay heap n g).1.base = g.base := by
  intro n
  induction n with
  | zero => intro g _; rfl
  | succ n ih =>
    intro g hg
    rw [Gen.run]
    match hs : g.step ops fuel replay heap with
    | (g', some o) =>
      exact (step_spec ops fuel replay heap hh g hg hs).base
    | (g', none) =>
      have sp := step_spec ops fuel replay heap hh g hg hs
      dsimp only
      rw [ih g' sp.inv, sp.base]

/-- The mixture in force, and the generator knows it. -/
structure CurInv (cur : MixView K) (s : Sess K) : Prop where
  view : s.heap s.mixRef = cur
  base : s.theGen.susp = .afterNone → s.theGen.base = s.mixRef

/-- The mixture in force after some operations. -/
def current (v : MixView K) : List (MixOp K) → MixView K
  | [] => v
  | .update _ v' :: os => current v' os
  | .feedback v' :: os => current v' os

theorem curInv_fetch (ops : KeyOps K) (fuel : Nat) (read : RChunk K → List (K × Pos)) {index : Dict K Entries}
    {order known : List K} (hi : IndexOk index order) {done : List (RChunk K)} {cur : MixView K} {s : Sess K}
    (h : RunInv ops index order known done s) (hc' : CurInv cur s) :
    let x := (resultSource ops fuel read).fetch s
    CurInv cur x.1 ∧ (x.1.theGen.susp = .afterNone → ∃ e, x.2 = e ∧ (e = .stop ∨ ∃ err, e = .raised err)) ∧
    ∀ p, x.2 = .chunk p → ∃ c, p.source = read c ∧ Deliverable ops index order c ∧ ComposedBy cur c := by
  intro x
  obtain ⟨_, more, hm, hcase⟩ := runInv_fetch ops fuel read hi h
  have hc : (s.gen.isNone && s.numReturns != 0) = false := by
    cases hg : s.gen with
    | none => simp [h.fresh hg]
    | some g => simp
  obtain ⟨e1, e2⟩ := theGen_next ops fuel s hc
  have hheap : HeapOk s.heap := fun i => (h.heap i).keys
  obtain ⟨history, hh, hg, hd⟩ := h.hist
  have hgi : GenInv s.theGen := by rw [← hg]; exact after_inv ops false hi history hh
  have keep : (s.next ops fuel).1.heap = s.heap ∧ (s.next ops fuel).1.mixRef = s.mixRef := by
    unfold Sess.next; rw [hc, if_neg (by simp)]; exact ⟨rfl, rfl⟩
  have hsus := send_susp ops fuel s.isReplay s.heap s.theGen s.mixRef s.idx
    (g' := (s.next ops fuel).1.theGen) (o := (s.next ops fuel).2) (Prod.ext e1.symm e2.symm)
  have hbase : (s.next ops fuel).1.theGen.susp = .afterNone → (s.next ops fuel).1.theGen.base = s.mixRef := by
    intro hs
    rw [e1] at hs ⊢
    unfold Gen.send at hs ⊢
    cases hx : s.theGen.susp with
    | finished => rw [hx] at hs; simp only at hs; rw [hx] at hs; cases hs
    | ready =>
      dsimp only
      refine (run_base ops fuel _ _ hheap _ _ ?_).trans rfl
      exact ⟨hgi.keys, hgi.nodup, hgi.empty⟩
    | afterNone =>
      dsimp only
      rw [run_base ops fuel _ _ hheap _ _ hgi]
      exact hc'.base hx
  have hx1 : x.1 = (s.next ops fuel).1 ∨ ∃ e, x.2 = .raised e ∧ x.1.heap = s.heap ∧ x.1.mixRef = s.mixRef ∧
      x.1.theGen.susp = .finished := by
    have hx : x = handOver read (s.next ops fuel).1 (s.next ops fuel).2 := rfl
    clear_value x
    subst hx
    cases (s.next ops fuel).2 with
    | none => exact Or.inl rfl
    | stop => exact Or.inl rfl
    | raised e => exact Or.inl rfl
    | chunk c =>
      simp only [handOver]
      split
      · exact Or.inl rfl
      · refine Or.inr ⟨_, rfl, keep.1, keep.2, ?_⟩
        unfold Sess.next
        rw [hc, if_neg (by simp)]
        rfl
  refine ⟨?_, ?_, ?_⟩
  · rcases hx1 with hx1 | ⟨e, _, hx2, hx3, hx4⟩
    · rw [hx1]
      exact ⟨by rw [keep.1, keep.2]; exact hc'.view, by rw [keep.2]; exact hbase⟩
    · exact ⟨by rw [hx2, hx3]; exact hc'.view, by rw [hx4]; intro hx; cases hx⟩
  · intro hs
    rcases hx1 with hx1 | ⟨e, hx2, _⟩
    · rw [hx1] at hs
      have ho := hsus.mpr hs
      refine ⟨_, rfl, Or.inl ?_⟩
      have hx : x = handOver read (s.next ops fuel).1 (s.next ops fuel).2 := rfl
      rw [hx, ho]; rfl
    · exact ⟨_, hx2, Or.inr ⟨e, rfl⟩⟩
  · intro p hp
    change match x.2 with
      | .chunk p => ∃ c, more = [c] ∧ IsParcel read x.1.keyIds c p ∧ s.next ops fuel = (x.1, .chunk c)
      | .stop => more = [] ∧ x.1 = (s.next ops fuel).1 ∧ ((s.next ops fuel).2 = .none ∨ (s.next ops fuel).2 = .stop)
      | .raised e => more = [] ∧ (s.next ops fuel).2 = .raised e at hcase
    change RunInv ops index order known (done ++ more) x.1 at hm
    rw [hp] at hcase
    obtain ⟨c, rfl, hpc, hnext⟩ := hcase
    refine ⟨c, hpc.source, hm.all c (by simp), ?_⟩
    rw [hnext] at e1 e2
    have heff : s.theGen.eff ⟨s.heap, s.mixRef, s.idx, fuel⟩ = cur := by
      unfold Gen.eff
      rw [← hc'.view]
      split
      · rename_i hx; rw [hc'.base hx]
      · rfl
    obtain ⟨g1, _, _, hcase'⟩ := chunk_facts ops s.isReplay hgi ⟨s.heap, s.mixRef, s.idx, fuel⟩ hheap
      (g' := x.1.theGen) (c := c) (Prod.ext e1.symm e2.symm)
    rw [heff] at hcase'
    unfold ComposedBy
    rcases hcase' with ⟨hne, hm'⟩ | ⟨h0, hm'⟩
    · rw [if_neg hne]
      obtain ⟨att, hsp, hcc, hmx, _, _⟩ := hm'.ex
      have hkeys := mix_chunk_keys hsp hcc
      refine ⟨hm'.strict, hkeys.1, hkeys.2.1, fun hst => ?_⟩
      have := hsp.strictMix hst
      refine ⟨by rw [hmx, this], fun k => ?_⟩
      rw [hkeys.2.2 k, this]
    · rw [if_pos h0]
      obtain ⟨key, out, hcc, _, _, hout, _⟩ := hm'.ex
      refine ⟨hm'.mixture, ⟨key, by simp [hcc, Dict.keys]⟩, ?_⟩
      rw [hcc, contentSamples_single, length_nestSegs, hout, List.length_take]
      exact Nat.min_le_left _ _

/-- While no request was told that the stream is over, the mixture in force is the last one set. -/
theorem curInv_before (ops : KeyOps K) (fuel : Nat) (read : RChunk K → List (K × Pos)) {index : Dict K Entries}
    {order : List K} (hi : IndexOk index order) (os : List (DOp (MixOp K))) {known : List K} {done : List (RChunk K)}
    {cur : MixView K} {d : Dist (Sess K) (Parcel K Pos)} (h : RunInv ops index order known done d.src)
    (hu : UsableOps known (pokes os)) (hc : CurInv cur d.src) (hs : d.src.theGen.susp ≠ .afterNone)
    (hno : ∀ r, (r, Ans.stop) ∉ (d.run (resultSource ops fuel read) os).2) :
    ∃ known' done', RunInv ops index order known' done' (d.run (resultSource ops fuel read) os).1.src ∧
      CurInv (current cur (pokes os)) (d.run (resultSource ops fuel read) os).1.src ∧
      ∀ os', UsableOps known (pokes os ++ os') → UsableOps known' os' := by
  induction os generalizing known done cur d with
  | nil => exact ⟨known, done, h, hc, fun _ h => h⟩
  | cons o os ih =>
    cases o with
    | poke i =>
      have hrun : (d.run (resultSource ops fuel read) (.poke i :: os)) =
        (({ d with src := (resultSource ops fuel read).poke i d.src } : Dist _ _).run (resultSource ops fuel read) os) := rfl
      rw [hrun] at hno ⊢
      cases i with
      | update ref v =>
        obtain ⟨h1, h2⟩ := runInv_update ops fuel h ref v hu.1
        obtain ⟨known', done', g1, g2, g3⟩ := ih (d := { d with src := (resultSource ops fuel read).poke (.update ref v) d.src })
          (cur := v) h1 hu.2 ⟨by simp [resultSource, MixOp.toSOp, Sess.op, Sess.update], fun hx => absurd hx hs⟩ hs hno
        exact ⟨known', done', g1, g2, fun os' ho => g3 os' ho.2⟩
      | feedback v =>
        have h1 := runInv_feedback ops fuel h v hu.1 hu.2.1
        obtain ⟨known', done', g1, g2, g3⟩ := ih (d := { d with src := (resultSource ops fuel read).poke (.feedback v) d.src })
          (cur := v) h1 hu.2.2 ⟨by simp [resultSource, MixOp.toSOp, Sess.op, Sess.feedback], hc.base⟩ hs hno
        exact ⟨known', done', g1, g2, fun os' ho => g3 os' ho.2.2⟩
    | ask r =>
      have hrun : (d.run (resultSource ops fuel read) (.ask r :: os)).1 =
        ((d.nextChunkFor (resultSource ops fuel read) r).1.run (resultSource ops fuel read) os).1 := rfl
      have hans : (d.run (resultSource ops fuel read) (.ask r :: os)).2 =
        (r, (d.nextChunkFor (resultSource ops fuel read) r).2) ::
        ((d.nextChunkFor (resultSource ops fuel read) r).1.run (resultSource ops fuel read) os).2 := rfl
      rw [hans] at hno
      rw [hrun]
      have hno' : ∀ r', (r', Ans.stop) ∉
          ((d.nextChunkFor (resultSource ops fuel read) r).1.run (resultSource ops fuel read) os).2 :=
        fun r' hx => hno r' (List.mem_cons_of_mem _ hx)
      rcases ask_src (resultSource ops fuel read) d r with ⟨e1, e2, e3⟩ | ⟨e1, e2⟩
      · exact ih (d := (d.nextChunkFor (resultSource ops fuel read) r).1) (by rw [e1]; exact h) hu (by rw [e1]; exact hc)
          (by rw [e1]; exact hs) hno'
      · obtain ⟨_, mo, hm, hcase⟩ := runInv_fetch ops fuel read hi h
        obtain ⟨k1, k2, _⟩ := curInv_fetch ops fuel read hi h hc
        refine ih (d := (d.nextChunkFor (resultSource ops fuel read) r).1) (by rw [e1]; exact hm) hu (by rw [e1]; exact k1)
          ?_ hno'
        rw [e1]
        intro hx
        obtain ⟨e, he, hor⟩ := k2 hx
        rcases hor with rfl | ⟨err, rfl⟩
        · rw [he] at e2
          exact hno r (by rw [e2.2]; simp)
        · exact raised_susp ops fuel read d.src h he hx
where
  raised_susp (ops : KeyOps K) (fuel : Nat) (read : RChunk K → List (K × Pos)) {index : Dict K Entries} {order known : List K}
      {done : List (RChunk K)} (s : Sess K) (h : RunInv ops index order known done s) {err : Err}
      (he : ((resultSource ops fuel read).fetch s).2 = .raised err)
      (hx : ((resultSource ops fuel read).fetch s).1.theGen.susp = .afterNone) : False := by
    have hc : (s.gen.isNone && s.numReturns != 0) = false := by
      cases hg : s.gen with
      | none => simp [h.fresh hg]
      | some g => simp
    obtain ⟨e1, e2⟩ := theGen_next ops fuel s hc
    have hsus := send_susp ops fuel s.isReplay s.heap s.theGen s.mixRef s.idx
      (g' := (s.next ops fuel).1.theGen) (o := (s.next ops fuel).2) (Prod.ext e1.symm e2.symm)
    simp only [resultSource] at he hx
    cases ho : (s.next ops fuel).2 with
    | none => rw [ho] at he; simp [handOver] at he
    | stop => rw [ho] at he; simp [handOver] at he
    | raised e =>
      rw [ho] at hx
      have := hsus.mpr hx
      rw [ho] at this; cases this
    | chunk c =>
      rw [ho] at hx he
      simp only [handOver] at hx he
      split at hx
      · have := hsus.mpr hx
        rw [ho] at this; cases this
      · have hge : ∃ g, (s.next ops fuel).1.gen = some g := by
          unfold Sess.next; rw [hc, if_neg (by simp)]; exact ⟨_, rfl⟩
        obtain ⟨g, hg⟩ := hge
        simp [Sess.theGen, hg] at hx

/-- From then on, without further changes, all chunks taken are composed by it. -/
theorem curInv_after (ops : KeyOps K) (fuel : Nat) (read : RChunk K → List (K × Pos)) {index : Dict K Entries}
    {order : List K} (hi : IndexOk index order) (os : List (DOp (MixOp K))) (hp : pokes os = []) {known : List K}
    {done : List (RChunk K)} {cur : MixView K} {d : Dist (Sess K) (Parcel K Pos)}
    (h : RunInv ops index order known done d.src) (hc : CurInv cur d.src) :
    ∀ p ∈ (d.fetchLog (resultSource ops fuel read) os).map Prod.snd,
      ∃ c, p.source = read c ∧ Deliverable ops index order c ∧ ComposedBy cur c := by
  induction os generalizing known done d with
  | nil => simp [Dist.fetchLog]
  | cons o os ih =>
    cases o with
    | poke i => simp [pokes] at hp
    | ask r =>
      have hlog : d.fetchLog (resultSource ops fuel read) (.ask r :: os) =
        ((d.fetches (resultSource ops fuel read) r).toList.map fun c => (r, c)) ++
          (d.nextChunkFor (resultSource ops fuel read) r).1.fetchLog (resultSource ops fuel read) os := rfl
      rw [hlog]
      rcases ask_src (resultSource ops fuel read) d r with ⟨e1, e2, _⟩ | ⟨e1, e2⟩
      · have := ih hp (d := (d.nextChunkFor (resultSource ops fuel read) r).1) (by rw [e1]; exact h) (by rw [e1]; exact hc)
        rw [e2]
        simpa using this
      · obtain ⟨_, mo, hm, _⟩ := runInv_fetch ops fuel read hi h
        obtain ⟨k1, _, k3⟩ := curInv_fetch ops fuel read hi h hc
        have hrest := ih hp (d := (d.nextChunkFor (resultSource ops fuel read) r).1) (by rw [e1]; exact hm)
          (by rw [e1]; exact k1)
        intro p hp'
        rw [List.map_append, List.mem_append] at hp'
        rcases hp' with hp' | hp'
        · cases hf : ((resultSource ops fuel read).fetch d.src).2 with
          | chunk q =>
            rw [hf] at e2
            rw [e2.1] at hp'
            have hq : p = q := by simpa using hp'
            subst hq
            exact k3 p hf
          | stop => rw [hf] at e2; rw [e2.1] at hp'; simp at hp'
          | raised e => rw [hf] at e2; rw [e2.1] at hp'; simp at hp'
        · exact hrest p hp'

theorem fetchLog_append {σ ι C : Type} (S : Source σ ι C) (a b : List (DOp ι)) (d : Dist σ C) :
    d.fetchLog S (a ++ b) = d.fetchLog S a ++ (d.run S a).1.fetchLog S b := by
  induction a generalizing d with
  | nil => rfl
  | cons o a ih =>
    rw [List.cons_append]
    show _ ++ (d.op S o).1.fetchLog S (a ++ b) = (_ ++ (d.op S o).1.fetchLog S a) ++ _
    rw [ih, List.append_assoc]
    rfl

theorem dist_run_append {σ ι C : Type} (S : Source σ ι C) (a b : List (DOp ι)) (d : Dist σ C) :
    d.run S (a ++ b) = (((d.run S a).1.run S b).1, (d.run S a).2 ++ ((d.run S a).1.run S b).2) := by
  induction a generalizing d with
  | nil => simp [Dist.run]
  | cons o a ih =>
    rw [List.cons_append]
    show (((d.op S o).1.run S (a ++ b)).1, (d.op S o).2.toList ++ ((d.op S o).1.run S (a ++ b)).2) = _
    rw [ih]
    simp [Dist.run, List.append_assoc]

theorem mem_received {C : Type} {as : List (DReq × Ans C)} {r : DReq} {c : C} (h : (r, Ans.chunk c) ∈ as) : c ∈ received as r := by
  unfold received
  rw [List.mem_filterMap]
  exact ⟨_, h, by simp⟩

/-- **C79** (composition). Let the loaders run (`first`), with mixture updates and feedback, such that nobody was told that
the stream is over; then let them run without further changes (`rest`). A chunk that a loader receives in the second part was
either handed to some loader already in the first part, or it is composed by the mixture that was set last: with a strict
mixture it has, of every key, exactly the number of samples that the mixture says; with a best-effort mixture as many samples
as the mixture has in total, all of its keys; and without mixture at most `chunk_size` samples, all of one key. -/
theorem c79_composition (ops : KeyOps K) (fuel : Nat) (index : Dict K Entries) (order : List K) (hi : IndexOk index order)
    (read : RChunk K → List (K × Pos)) (hr : ∀ c, Deliverable ops index order c → ReadsOnce read c)
    (v : MixView K) (hv : UsableMix v) (stopOnNone : Bool) (ref groups nodes workers : Nat)
    (d : Dist (Sess K) (Parcel K Pos))
    (hd : Dist.init groups nodes workers (Sess.fresh ops index order stopOnNone ref v) = .ok d)
    (first rest : List (TEv (MixOp K))) (he : ∀ e ∈ first ++ rest, e.Valid groups nodes (effWorkers workers))
    (hu : UsableOps (index.keys ++ v.rows.keys) (mixOps first)) (hrest : mixOps rest = [])
    (t1 t2 : Train (Sess K) K Pos) (as1 as2 : List (DReq × Ans (Parcel K Pos)))
    (h1 : (Train.start d).run (resultSource ops fuel read) first = (t1, as1)) (hno : ∀ r, (r, Ans.stop) ∉ as1)
    (h2 : t1.run (resultSource ops fuel read) rest = (t2, as2))
    (r : DReq) (p : Parcel K Pos) (hp : (r, Ans.chunk p) ∈ as2) (m : MixView K) (hm : m = current v (mixOps first)) :
    (∃ r', (r', Ans.chunk p) ∈ as1) ∨
    (if m.rows = [] then p.source.length ≤ m.chunkSize ∧ ∃ k, ∀ x ∈ p.source, x.1 = k
     else p.source.length = m.rows.values.sum ∧ (∀ x ∈ p.source, x.1 ∈ m.rows.keys) ∧
      (m.strict = true → ∀ k, (p.source.filter fun x => x.1 = k).length = (m.rows.get? k).getD 0)) := by
  obtain ⟨os1, a1, a2, a3, _⟩ := run_dist (resultSource ops fuel read) first (Train.start d)
  obtain ⟨os2, b1, b2, b3, _⟩ := run_dist (resultSource ops fuel read) rest t1
  have a3' : d.run (resultSource ops fuel read) os1 = (t1.dist, as1) := by
    have : d.run (resultSource ops fuel read) os1 = _ := a3
    rw [this, h1]
  rw [h2] at b3
  have hos1 : ∀ o ∈ os1, o.Valid groups nodes (effWorkers workers) := fun o ho =>
    requests_valid (fun e hx => he e (List.mem_append_left _ hx)) o (a1.subset ho)
  have hos2 : ∀ o ∈ os2, o.Valid groups nodes (effWorkers workers) := fun o ho =>
    requests_valid (fun e hx => he e (List.mem_append_right _ hx)) o (b1.subset ho)
  have hos : ∀ o ∈ os1 ++ os2, o.Valid groups nodes (effWorkers workers) := fun o ho =>
    (List.mem_append.mp ho).elim (hos1 o) (hos2 o)
  have hsrc : d.src = Sess.fresh ops index order stopOnNone ref v := by
    unfold Dist.init at hd
    split at hd
    · cases hd
    · cases hd; rfl
  have hinv : RunInv ops index order (index.keys ++ v.rows.keys) [] d.src := by rw [hsrc]; exact runInv_fresh ops stopOnNone ref v hv
  have hfresh : d.src.theGen.susp ≠ .afterNone := by
    rw [hsrc]; simp [Sess.theGen, Sess.fresh, Gen.init]
  have hcur : CurInv v d.src := ⟨by rw [hsrc]; rfl, fun hx => absurd hx hfresh⟩
  obtain ⟨known', done', g1, g2, _⟩ := curInv_before ops fuel read hi os1 hinv (by rw [a2, pokes_requests]; exact hu) hcur hfresh
    (by rw [a3']; exact hno)
  rw [a3'] at g1 g2
  rw [a2, pokes_requests, ← hm] at g2
  have hafter := curInv_after ops fuel read hi os2 (by rw [b2, pokes_requests]; exact hrest) g1 g2
  obtain ⟨c1, _, _⟩ := c16_partition (resultSource ops fuel read) groups nodes workers _ d hd (os1 ++ os2) hos
  have hrun : (d.run (resultSource ops fuel read) (os1 ++ os2)).2 = as1 ++ as2 := by
    rw [dist_run_append, a3', b3]
  have hin := (ownedBy_sublist _ r.group r.worker).subset ((c1 r.group r.node r.worker).subset
    (mem_received (by rw [hrun]; exact List.mem_append_right _ hp)))
  rw [fetchLog_append, a3', List.map_append, List.mem_append] at hin
  rcases hin with hin | hin
  · left
    obtain ⟨_, _, c3⟩ := c16_partition (resultSource ops fuel read) groups nodes workers _ d hd os1 hos1
    have hdel := c3.subset hin
    rw [a3'] at hdel
    unfold delivered at hdel
    rw [List.mem_filterMap] at hdel
    obtain ⟨⟨r', a⟩, ha, hx⟩ := hdel
    cases a with
    | chunk q => simp only [Option.some.injEq] at hx; subst hx; exact ⟨r', ha⟩
    | stop => cases hx
    | raised e => cases hx
  · right
    obtain ⟨c, hsource, hdel, hcomp⟩ := hafter p hin
    have hro := hr c hdel
    have hlen : p.source.length = (contentSamples c.content).length := by
      rw [hsource, ← hro.2.length_eq, List.length_map]
    have hkeys : ∀ x ∈ p.source, x.1 ∈ c.content.keys := by
      intro x hx
      rw [hsource] at hx
      have hks := hro.some.listed hx
      by_contra hk'
      have : c.content.get? x.1 = none := by
        cases hg : c.content.get? x.1 with
        | none => rfl
        | some y => exact absurd ((Dict.mem_keys_iff c.content x.1).mpr ⟨y, hg⟩) hk'
      simp [keySamples, this, entriesSamples] at hks
    unfold ComposedBy at hcomp
    split at hcomp
    · rename_i h0
      rw [if_pos h0, hlen]
      obtain ⟨_, ⟨k, hk⟩, hle⟩ := hcomp
      refine ⟨hle, k, fun x hx => ?_⟩
      have := hkeys x hx
      rw [hk] at this
      simpa using this
    · rename_i h0
      rw [if_neg h0, hlen]
      obtain ⟨_, hk, hsum, hst⟩ := hcomp
      refine ⟨hsum, fun x hx => hk _ (hkeys x hx), fun hs k => ?_⟩
      rw [← (hst hs).2 k, ← (hro.1 k).length_eq, List.length_map, hsource]

/-! ## The reading of a chunk -/

theorem length_keySamples_le {content : Dict K Entries} (hn : content.keys.Nodup) {k : K} (hk : k ∈ content.keys) :
    (keySamples content k).length ≤ (contentSamples content).length := by
  obtain ⟨e, he⟩ := (Dict.mem_keys_iff content k).mp hk
  have hm := Dict.mem_of_get? he
  unfold keySamples contentSamples
  rw [he]
  have : (entriesSamples e).Sublist (content.flatMap fun ke => entriesSamples ke.2) := by
    have := flatMap_sublist (fun ke : K × Entries => entriesSamples ke.2) (List.singleton_sublist.mpr hm)
    simpa using this
  exact this.length_le

/-- **C79** (the reading is sound). The reading that the loaders use with the chunk reading type `"simple"` and one reader
process - configure the chunk, seed, shuffle, round robin - meets the condition of the theorems of C79, from any state of the
random number generator. -/
theorem c79_simple_reading (lib : RandomLib R) (hash : PyStr → Nat) (text : K → PyStr) (ops : KeyOps K)
    (index : Dict K Entries) (order : List K) (hi : IndexOk index order)
    (isStub : Bool) (loads : Nat → Bool) (args : StreamArgs) (ha : ValidArgs isStub loads args)
    (hkind : args.mixtureType = "simple") (fuel : RChunk K → Nat)
    (hf : ∀ c, (contentSamples c.content).length + 1 ≤ fuel c) (r : R) :
    ∀ c, Deliverable ops index order c → ReadsOnce (readWith lib hash text isStub loads args id fuel r) c := by
  rintro c ⟨history, q, g', hh, hus, hsend⟩
  have hq : HeapOk q.heap := fun i => (hus i).keys
  have hsound : SoundRequest ((after ops false index order history).eff q) := ⟨(hus _).rows, (hus _).size⟩
  obtain ⟨hnd, -, -⟩ := delivered_reads ops false hi hh hq rfl hsend hsound args.mixtureType (max 1 args.degree)
  obtain ⟨cfg, out, n, h1, h2, h3, h4⟩ := c76_read_partial ops false index order hi history hh q hq _ g' c rfl hsend hsound
    isStub loads args ha hkind (fun l => fixedShuffle lib hash (l.map text) l) (fun l => shuffle_perm _ _ _)
    (fun l => fixedShuffle lib hash (l.map (countText text)) l) (id : Pos → Pos)
    (keyStream (fun k => fixedShuffle lib hash [text k]) id c.content)
    (c76_single_process _ (fun k l => shuffle_perm _ _ _) id c.content)
  have hst := c76_single_process (fun k => fixedShuffle lib hash [text k]) (fun k l => shuffle_perm _ _ _) (id : Pos → Pos)
    c.content
  have hk := (c76_settings isStub loads args c cfg h1).1
  have hnw : ¬ (cfg.mixtureType = "token" ∨ cfg.mixtureType = "window") := by rw [hk, hkind]; decide
  have hpn : (fixedShuffle lib hash (c.content.keys.map text) c.content.keys).Perm c.content.keys := shuffle_perm _ _ _
  have hloop : ∀ f, (contentSamples c.content).length + 1 ≤ f →
      iterateOverall (fixedShuffle lib hash (c.content.keys.map text) c.content.keys)
        (keyStream (fun k => fixedShuffle lib hash [text k]) (id : Pos → Pos) c.content) f = _ :=
    fun f hf => c38_round_robin _ _ _ (hpn.nodup_iff.mpr hnd) (fun k hk' => by
      have hk'' := hpn.mem_iff.mp hk'
      rw [(hst k hk'').length_eq, List.length_map]
      exact length_keySamples_le hnd hk'') f hf
  have hout : ∀ f, (contentSamples c.content).length + 1 ≤ f →
      iterateOverall (fixedShuffle lib hash (c.content.keys.map text) c.content.keys)
        (keyStream (fun k => fixedShuffle lib hash [text k]) (id : Pos → Pos) c.content) f = some out := by
    intro f hf
    have e1 := h2 (max n ((contentSamples c.content).length + 1)) (Nat.le_max_left _ _)
    unfold iterateChunk at e1
    rw [if_neg hnw, hloop _ (Nat.le_max_right _ _)] at e1
    rw [hloop f hf]
    exact congrArg some (Except.ok.inj e1)
  have hread : readWith lib hash text isStub loads args id fuel r c = out := by
    unfold readWith
    rw [h1]
    simp only
    rw [c78_reading]
    unfold iterateChunk
    rw [if_neg hnw, hout _ (hf c)]
  obtain ⟨out', m, c1, c2, c3⟩ := c38_every_sample_once (fixedShuffle lib hash (c.content.keys.map text) c.content.keys)
    (keyStream (fun k => fixedShuffle lib hash [text k]) (id : Pos → Pos) c.content) (hpn.nodup_iff.mpr hnd)
  have heq : out' = out := by
    have e1 := c1 (max m ((contentSamples c.content).length + 1)) (Nat.le_max_left _ _)
    rw [hout _ (Nat.le_max_right _ _)] at e1
    exact (Option.some.inj e1).symm
  subst heq
  unfold ReadsOnce
  rw [hread]
  refine ⟨?_, by simpa using h4⟩
  intro k
  by_cases hkc : k ∈ c.content.keys
  · have := hst k hkc
    rw [← h3 k hkc, List.map_id] at this
    exact this
  · have h0 : (out'.filter fun x => x.1 = k) = [] := by
      rw [List.filter_eq_nil_iff]
      intro x hx he
      exact hkc ((of_decide_eq_true he) ▸ hpn.mem_iff.mp (c3 _ hx))
    have h0' : c.content.get? k = none := by
      cases hg : c.content.get? k with
      | none => rfl
      | some y => exact absurd ((Dict.mem_keys_iff c.content k).mpr ⟨y, hg⟩) hkc
    rw [h0]
    simp [keySamples, h0', entriesSamples]

/-! ## Any reading -/

/-- What has been yielded of a key and what its iterator still has is what the iterator had; only listed keys are yielded. -/
structure Drained (it0 : K → List α) (names : List K) (it : K → List α) (out : List (K × α)) : Prop where
  split : ∀ k, Mixtera.samplesOf k out ++ it k = it0 k
  keys : ∀ x ∈ out, x.1 ∈ names

theorem Drained.give {it0 it : K → List α} {names : List K} {out : List (K × α)} (h : Drained it0 names it out) {k : K} {x : α}
    {xs : List α} (hk : k ∈ names) (hx : it k = x :: xs) : Drained it0 names (advance it k) (out ++ [(k, x)]) := by
  refine ⟨fun k' => ?_, fun y hy => ?_⟩
  · rw [samplesOf_append, ← h.split k']
    by_cases e : k' = k
    · subst e
      rw [hx]
      simp [Mixtera.samplesOf, advance, hx]
    · have e' : ¬ k = k' := fun q => e q.symm
      simp [Mixtera.samplesOf, advance, e, e']
  · rcases List.mem_append.mp hy with hy | hy
    · exact h.keys y hy
    · simp only [List.mem_singleton] at hy
      subst hy
      exact hk

theorem drained_overallStep {it0 : K → List α} {names : List K} {s : ReadState K α} (h : Drained it0 names s.it s.out) {n : K}
    (hn : n ∈ names) : Drained it0 names (overallStep s n).it (overallStep s n).out := by
  unfold overallStep
  split
  · exact h
  · split
    · exact h
    · rename_i x xs hx
      exact h.give hn hx

theorem drained_fold {it0 : K → List α} {names : List K} : ∀ (l : List K) {s : ReadState K α}, (∀ n ∈ l, n ∈ names) →
    Drained it0 names s.it s.out → Drained it0 names (l.foldl overallStep s).it (l.foldl overallStep s).out
  | [], _, _, h => h
  | n :: l, _, hl, h => drained_fold l (fun m hm => hl m (by simp [hm])) (drained_overallStep h (hl n (by simp)))

theorem drained_overallLoop {it0 : K → List α} {names : List K} : ∀ (fuel : Nat) {s t : ReadState K α},
    Drained it0 names s.it s.out → overallLoop names fuel s = some t → Drained it0 names t.it t.out
  | 0, s, t, h, e => by
    unfold overallLoop at e
    split at e
    · cases e
    · cases e; exact h
  | fuel + 1, s, t, h, e => by
    unfold overallLoop at e
    split at e
    · exact drained_overallLoop fuel (drained_fold names (fun _ hn => hn) h) e
    · cases e; exact h

theorem drained_winFor {it0 : K → List α} {names : List K} (W : Nat) : ∀ (cs : List (K × Int)) {s : WinState K α} (b : Bool),
    (∀ p ∈ cs, p.1 ∈ names) → Drained it0 names s.it s.out →
    Drained it0 names (winFor W cs s b).1.it (winFor W cs s b).1.out
  | [], _, _, _, h => h
  | (k, c) :: cs, s, b, hc, h => by
    have hc' : ∀ p ∈ cs, p.1 ∈ names := fun p hp => hc p (by simp [hp])
    have hk : k ∈ names := hc (k, c) (by simp)
    unfold winFor
    split
    · exact drained_winFor W cs b hc' h
    · split
      · exact drained_winFor W cs b hc' h
      · rename_i x xs hx
        have := h.give hk hx
        split
        · exact this
        · exact drained_winFor W cs false hc' this

theorem drained_winLoop {it0 : K → List α} {names : List K} (W : Nat) {cs : List (K × Int)} (hc : ∀ p ∈ cs, p.1 ∈ names) :
    ∀ (fuel : Nat) {s t : WinState K α}, Drained it0 names s.it s.out → winLoop W cs fuel s = some t →
    Drained it0 names t.it t.out
  | 0, s, t, h, e => by
    unfold winLoop at e
    split at e
    · cases e
    · cases e; exact h
  | fuel + 1, s, t, h, e => by
    unfold winLoop at e
    have := drained_winFor W cs true hc h
    split at e
    · split at e
      · cases e; exact this
      · exact drained_winLoop W hc fuel this e
    · cases e; exact h

theorem drained_windowsLoop {it0 : K → List α} {names : List K} (W : Nat) (be : Bool) {cs : List (K × Int)}
    (hc : ∀ p ∈ cs, p.1 ∈ names) : ∀ (fuel : Nat) {s t : WinState K α}, Drained it0 names s.it s.out →
    windowsLoop W be cs fuel s = some t → Drained it0 names t.it t.out
  | 0, s, t, h, e => by
    unfold windowsLoop at e
    split at e
    · cases e
    · cases e; exact h
  | fuel + 1, s, t, h, e => by
    unfold windowsLoop at e
    split at e
    · obtain ⟨s', h1, h2⟩ := Option.bind_eq_some_iff.mp e
      refine drained_windowsLoop W be hc fuel (drained_winLoop W hc (W + 1) ?_ h1) h2
      exact h
    · cases e; exact h

theorem samplesOf_tag (k i : K) (l : List α) :
    Mixtera.samplesOf k (l.map fun x => (i, x)) = if i = k then l else [] := by
  induction l with
  | nil => simp [Mixtera.samplesOf]
  | cons x l ih =>
    rw [List.map_cons]
    have : Mixtera.samplesOf k ((i, x) :: l.map fun x => (i, x)) =
        Mixtera.samplesOf k [(i, x)] ++ Mixtera.samplesOf k (l.map fun x => (i, x)) := samplesOf_append k [(i, x)] _
    rw [this, ih]
    by_cases e : i = k
    · simp [Mixtera.samplesOf, e]
    · simp [Mixtera.samplesOf, e]

/-- Whatever way the samples of a configured chunk are iterated: the samples of every key are the beginning of the key's
stream, and only keys of the chunk occur. -/
theorem iterateChunk_drained {mixKeys : List K → List K} (hm : ∀ l, (mixKeys l).Perm l)
    {mixCounts : List (K × Int) → List (K × Int)} {cfg : Configured K} {c : RChunk K} {it : K → List α} {fuel : Nat}
    {out : List (K × α)} (h : iterateChunk mixKeys mixCounts cfg c it fuel = .ok out) :
    ∃ rest, Drained it c.content.keys rest out := by
  have h0 : ∀ names, Drained it names it [] := fun names => ⟨fun k => by simp [Mixtera.samplesOf], fun x hx => by cases hx⟩
  unfold iterateChunk at h
  split at h
  · split at h
    · cases h
    · simp only at h
      split at h
      · rename_i hs
        split at h
        · cases h
        · rename_i out' ho
          cases h
          obtain ⟨t, ht, rfl⟩ := Option.map_eq_some_iff.mp ho
          refine ⟨t.it, drained_windowsLoop _ _ ?_ fuel (h0 _) ht⟩
          intro p hp
          unfold sameKeys at hs
          simp only [Bool.and_eq_true, List.all_eq_true, decide_eq_true_eq] at hs
          exact hs.2 p.1 (List.mem_map_of_mem hp)
      · cases h
  · split at h
    · cases h
    · rename_i out' ho
      cases h
      obtain ⟨t, ht, rfl⟩ := Option.map_eq_some_iff.mp ho
      have := drained_overallLoop fuel (h0 _) ht
      exact ⟨t.it, this.split, fun x hx => (hm _).mem_iff.mp (this.keys x hx)⟩

theorem drained_samples {content : Dict K Entries} (hnd : content.keys.Nodup) {it rest : K → List Pos} {out : List (K × Pos)}
    (hst : Streams (id : Pos → Pos) content it) (hd : Drained it content.keys rest out) :
    (∀ k, ((out.filter fun x => x.1 = k).map Prod.snd).Subperm (keySamples content k)) ∧
      (out.map Prod.snd).Subperm (contentSamples content) := by
  refine ⟨fun k => ?_, ?_⟩
  · by_cases hk : k ∈ content.keys
    · have h1 := hst k hk
      rw [List.map_id] at h1
      refine List.Subperm.trans ?_ h1.subperm
      rw [← hd.split k]
      exact (List.sublist_append_left _ _).subperm
    · have : (out.filter fun x => x.1 = k) = [] := by
        rw [List.filter_eq_nil_iff]
        intro x hx he
        exact hk ((of_decide_eq_true he) ▸ hd.keys x hx)
      rw [this]
      exact List.nil_subperm
  · have key : (∀ k ∈ content.keys, Mixtera.samplesOf k (out ++ content.keys.flatMap fun k => (rest k).map fun x => (k, x)) =
        it k) := by
      intro k hk
      rw [samplesOf_append, ← hd.split k, samplesOf_flatMap]
      congr 1
      have one : ∀ l : List K, l.Nodup → k ∈ l →
          (l.flatMap fun i => Mixtera.samplesOf k ((rest i).map fun x => (i, x))) = rest k := by
        intro l
        induction l with
        | nil => intro _ h; cases h
        | cons a l ih =>
          intro hn h
          obtain ⟨hn1, hn2⟩ := List.nodup_cons.mp hn
          rw [List.flatMap_cons]
          by_cases e : a = k
          · subst e
            have e1 : Mixtera.samplesOf a ((rest a).map fun x => (a, x)) = rest a := by
              rw [samplesOf_tag, if_pos rfl]
            have e2 : (l.flatMap fun i => Mixtera.samplesOf a ((rest i).map fun x => (i, x))) = [] := by
              rw [List.flatMap_eq_nil_iff]
              intro i hi'
              have : i ≠ a := fun e => hn1 (e ▸ hi')
              rw [samplesOf_tag, if_neg this]
            rw [e1, e2, List.append_nil]
          · have e1 : Mixtera.samplesOf k ((rest a).map fun x => (a, x)) = [] := by
              rw [samplesOf_tag, if_neg e]
            rw [e1, List.nil_append]
            exact ih hn2 (List.mem_of_ne_of_mem (fun q => e q.symm) h)
      exact one _ hnd hk
    have := content_perm hnd hst key (by
      intro x hx
      rcases List.mem_append.mp hx with hx | hx
      · exact hd.keys x hx
      · obtain ⟨k, hk, hx⟩ := List.mem_flatMap.mp hx
        obtain ⟨y, _, rfl⟩ := List.mem_map.mp hx
        exact hk)
    rw [List.map_id, List.map_append] at this
    exact ((List.sublist_append_left _ _).subperm).trans this.subperm

/-- **C79** (any reading, any streams). However a chunk is read - simple, by windows or by tokens, with the keys in any order -
and wherever the iterators of its keys come from, as long as each yields the samples that the chunk lists under the key (as one
reading process does, C76, and any number of reader processes under any schedule, `c41_chunk_samples_partial`): no sample is
yielded twice, nor one that the chunk does not list, nor one under another key. -/
theorem c79_any_streams (ops : KeyOps K) (index : Dict K Entries) (order : List K) (hi : IndexOk index order)
    (c : RChunk K) (hc : Deliverable ops index order c) {mixKeys : List K → List K} (hm : ∀ l, (mixKeys l).Perm l)
    (mixCounts : List (K × Int) → List (K × Int)) (cfg : Configured K) (it : K → List Pos)
    (hst : ∀ k ∈ c.content.keys, (it k).Perm (keySamples c.content k)) (fuel : Nat) (out : List (K × Pos))
    (hout : iterateChunk mixKeys mixCounts cfg c it fuel = .ok out) : ReadsSome (fun _ => out) c := by
  obtain ⟨history, q, g', hh, hus, hsend⟩ := hc
  have hq : HeapOk q.heap := fun i => (hus i).keys
  have hsound : SoundRequest ((after ops false index order history).eff q) := ⟨(hus _).rows, (hus _).size⟩
  obtain ⟨hnd, -, -⟩ := delivered_reads ops false hi hh hq rfl hsend hsound "simple" 1
  obtain ⟨rest, hd⟩ := iterateChunk_drained hm hout
  exact drained_samples hnd (fun k hk => by rw [List.map_id]; exact hst k hk) hd

/-- **C79** (any reading, reader processes). With any number of reader processes per key, under every schedule in which no
process is left out forever and no message is late (as in C41): the iterators of all keys come to an end, and then the reading
meets the condition of `c79_once`, `c79_key_ids` and `c79_database_partial`. `_partial`: as in C41, processes whose messages are
late more often than the limit make the iteration fail. -/
theorem c79_reader_processes_partial (ops : KeyOps K) (index : Dict K Entries) (order : List K) (hi : IndexOk index order)
    (c : RChunk K) (hc : Deliverable ops index order c) (count : K → Int)
    (shuffle : K → List (Nat × Nat × List Rng) → List (Nat × Nat × List Rng)) (hs : ∀ k l, (shuffle k l).Perm l)
    (σ : K → Nat → MtAct Nat) (hσ : ∀ k t, (σ k t).smooth)
    (hσp : ∀ k t p, σ k t = .produce p →
      p ∈ List.range (readerWorkloads (count k) (prepareWorkload (shuffle k) ((c.content.get? k).getD []))).length)
    (hfair : ∀ k,
      Fair (List.range (readerWorkloads (count k) (prepareWorkload (shuffle k) ((c.content.get? k).getD []))).length) (σ k)) :
    let loads := fun k => readerWorkloads (count k) (prepareWorkload (shuffle k) ((c.content.get? k).getD []))
    let start := fun k => mtInit (List.range (loads k).length) fun i =>
      readerOutput (fun w : Nat × Nat × List Rng => (w.2.2.flatMap fun r => Seg.samples ⟨w.1, w.2.1, r.1, r.2⟩).map some)
        (none : Option Pos) (((loads k)[i]?).getD [])
    (∃ t : K → Nat, ∀ k, (mtRun none (start k) (σ k) (t k)).finished) ∧
    ∀ t : K → Nat, (∀ k, (mtRun none (start k) (σ k) (t k)).finished) →
      ∀ (mixKeys : List K → List K), (∀ l, (mixKeys l).Perm l) → ∀ (mixCounts : List (K × Int) → List (K × Int))
        (cfg : Configured K) (fuel : Nat) (out : List (K × Pos)),
        iterateChunk mixKeys mixCounts cfg c (fun k => (mtRun none (start k) (σ k) (t k)).out.filterMap Prod.snd) fuel = .ok out →
        ReadsSome (fun _ => out) c := by
  intro loads start
  have h1 := fun k => c41_chunk_samples_partial (count k) (shuffle k) (hs k) ((c.content.get? k).getD []) (some : Pos → Option Pos)
    none (fun p => by simp) (σ k) (hσ k) (hσp k) (hfair k)
  refine ⟨⟨fun k => (h1 k).choose, fun k => (h1 k).choose_spec.1⟩, ?_⟩
  intro t ht mixKeys hm mixCounts cfg fuel out hout
  refine c79_any_streams ops index order hi c hc hm mixCounts cfg _ ?_ fuel out hout
  intro k _
  have h2 := ((h1 k).choose_spec.2 (t k) (ht k)).filterMap id
  rw [List.filterMap_map, List.filterMap_map] at h2
  have h3 : (entriesSamples ((c.content.get? k).getD [])).filterMap (id ∘ some) = entriesSamples ((c.content.get? k).getD []) := by
    show (entriesSamples _).filterMap some = _
    exact List.filterMap_some
  rw [h3] at h2
  exact h2

/-- **C79** (any reading). Whatever the chunk reading arguments - simple, by windows or by tokens, valid or not - and the state
of the random number generator, the reading that the loaders use with one reader process meets the condition of `c79_once`,
`c79_key_ids` and `c79_database_partial`: it never yields a sample twice, nor one that the chunk does not list, nor one under
another key. (An iteration that does not end, see C39, yields nothing here.) -/
theorem c79_any_reading (lib : RandomLib R) (hash : PyStr → Nat) (text : K → PyStr) (ops : KeyOps K)
    (index : Dict K Entries) (order : List K) (hi : IndexOk index order)
    (isStub : Bool) (loads : Nat → Bool) (args : StreamArgs) (fuel : RChunk K → Nat) (r : R) :
    ∀ c, Deliverable ops index order c → ReadsSome (readWith lib hash text isStub loads args id fuel r) c := by
  rintro c ⟨history, q, g', hh, hus, hsend⟩
  have hq : HeapOk q.heap := fun i => (hus i).keys
  have hsound : SoundRequest ((after ops false index order history).eff q) := ⟨(hus _).rows, (hus _).size⟩
  obtain ⟨hnd, -, -⟩ := delivered_reads ops false hi hh hq rfl hsend hsound args.mixtureType (max 1 args.degree)
  have hst := c76_single_process (fun k => fixedShuffle lib hash [text k]) (fun k l => shuffle_perm _ _ _) (id : Pos → Pos)
    c.content
  unfold ReadsSome
  cases hcfg : configureChunk isStub loads args c with
  | error e =>
    have : readWith lib hash text isStub loads args id fuel r c = [] := by unfold readWith; rw [hcfg]
    rw [this]
    exact ⟨fun k => List.nil_subperm, List.nil_subperm⟩
  | ok cfg =>
    cases hit : (iterateSeeded lib hash text cfg c (id : Pos → Pos) (fuel c) r).1 with
    | error e =>
      have : readWith lib hash text isStub loads args id fuel r c = [] := by unfold readWith; rw [hcfg]; simp only; rw [hit]
      rw [this]
      exact ⟨fun k => List.nil_subperm, List.nil_subperm⟩
    | ok out =>
      have : readWith lib hash text isStub loads args id fuel r c = out := by unfold readWith; rw [hcfg]; simp only; rw [hit]
      rw [this]
      rw [c78_reading] at hit
      obtain ⟨rest, hd⟩ := iterateChunk_drained (fun l => shuffle_perm _ _ _) hit
      exact drained_samples hnd hst hd

/-! ## From the database to the loaders -/

/-- A key that is, or matches, the property combination of a row describes the row. -/
theorem described {db : Db} {row : SampleRow} {k comp : CKey} (hhas : row.Has db comp.1)
    (hmatch : comp = k ∨ ckeyOps.isMatch k comp = true) :
    ∀ n vs, k.1.get? n = some vs → ∃ ws, row.prop db n = some ws ∧ ((∃ u, u ∈ vs ∧ u ∈ ws) ∨ (vs = [] ∧ ws = [])) := by
  intro n vs hvs
  have hn := hhas n
  rcases hmatch with rfl | hmatch
  · rw [hvs] at hn
    cases hpr : row.prop db n with
    | none => rw [hpr] at hn; exact hn.elim
    | some ws =>
      rw [hpr] at hn
      refine ⟨ws, rfl, ?_⟩
      cases vs with
      | nil => exact Or.inr ⟨rfl, List.perm_nil.mp hn⟩
      | cons u us => exact Or.inl ⟨u, by simp, hn.mem_iff.mpr (by simp)⟩
  · obtain ⟨w, hw', hc⟩ := (c28_match_iff k.1 comp.1 k.2.1).mp hmatch n vs hvs
    rw [hw'] at hn
    cases hpr : row.prop db n with
    | none => rw [hpr] at hn; exact hn.elim
    | some ws =>
      rw [hpr] at hn
      refine ⟨ws, rfl, ?_⟩
      rcases hc with ⟨x, hx1, hx2⟩ | ⟨e1, e2⟩
      · exact Or.inl ⟨x, hx1, hn.mem_iff.mpr hx2⟩
      · subst e2; exact Or.inr ⟨e1, List.perm_nil.mp hn⟩

/-- **C79** (database). For every database content, query, mixtures, and history of the loaders: executing the query gives a
query result with which no loader hands over a sample twice, loaders of different groups or worker numbers hand over different
samples, every sample that is handed over is registered and satisfies the query, and the key that its number stands for
describes it: of every property of the key the sample has one of the values (or both have none). -/
theorem c79_database_partial (db : Db) (hwf : db.WF) (hp : PlainDb db) (sels : List (List Cond)) (hq : GoodQuery db sels)
    (q : Sel) (hb : buildQuery sels = some q) (leG : Group → Group → Bool) (hle : TotalOrder leG)
    (split : List TRow → List (List TRow)) (hsplit : ∀ l, (split l).flatten = l)
    (reorder : CppIndex → CppIndex) (hre : ∀ i xs, Describes i xs → SameIndex i (reorder i))
    (threads : Int) (hth : 0 ≤ threads) :
    ∃ idx, queryIndex leG split reorder ckeyOf threads db q = .ok idx ∧
      ∀ (order : List CKey), order.Perm idx.keys → ∀ (fuel : Nat) (read : RChunk CKey → List (CKey × Pos)),
        (∀ c, Deliverable ckeyOps idx order c → ReadsSome read c) →
        ∀ (v : MixView CKey), UsableMix v → ∀ (stopOnNone : Bool) (ref groups nodes workers : Nat)
          (d : Dist (Sess CKey) (Parcel CKey Pos)),
        Dist.init groups nodes workers (Sess.fresh ckeyOps idx order stopOnNone ref v) = .ok d →
        ∀ es : List (TEv (MixOp CKey)), (∀ e ∈ es, e.Valid groups nodes (effWorkers workers)) →
        UsableOps (idx.keys ++ v.rows.keys) (mixOps es) →
        ∀ t : Train (Sess CKey) CKey Pos, t = ((Train.start d).run (resultSource ckeyOps fuel read) es).1 →
        (∀ r, ((t.loaders r).out.map Prod.snd).Nodup) ∧
        (∀ r r', r.group ≠ r'.group ∨ r.worker ≠ r'.worker →
          ∀ p, p ∈ (t.loaders r).out.map Prod.snd → p ∉ (t.loaders r').out.map Prod.snd) ∧
        ∀ r, ∀ x ∈ (t.loaders r).out, ∃ row ∈ db.samples, (row.dataset, row.file, row.sample) = x.2 ∧ row.Wanted sels ∧
          ∃ k : CKey, t.dist.src.keyIds.get? k = some x.1 ∧ ∀ n vs, k.1.get? n = some vs → ∃ ws, row.prop db n = some ws ∧
            ((∃ u, u ∈ vs ∧ u ∈ ws) ∨ (vs = [] ∧ ws = [])) := by
  obtain ⟨idx, h1, hok, _, hnd, hks⟩ := c63_index_partial db hwf hp sels hq q hb leG hle split hsplit reorder hre threads
    hth
  refine ⟨idx, h1, ?_⟩
  intro order ho fuel read hr v hv b ref G N W d hd es he hu t ht
  have hi := hok order ho
  obtain ⟨a1, a2, a3⟩ := c79_once ckeyOps fuel idx order hi hnd read hr v hv b ref G N W d hd es he hu t ht
  refine ⟨a1, a2, ?_⟩
  rintro r ⟨i, p⟩ hx
  obtain ⟨k, hk, _, comp, e, hmem, hpe, hmatch⟩ := c79_key_ids ckeyOps fuel idx order hi read hr v hv b ref G N W d hd es he hu
    t ht r i p hx
  have hpc : p ∈ keySamples idx comp := by
    unfold keySamples; rw [Dict.get?_of_mem hi.keys hmem]; exact hpe
  obtain ⟨row, hrow, er, hw, hhas⟩ := (hks comp p).mp hpc
  exact ⟨row, hrow, er, hw, k, hk, described hhas hmatch⟩

/-- **C79** (database, completeness). With ArbitraryMixture: when the stream is over, no request failed and all received
samples were handed over, every registered sample that satisfies the query was handed over by some loader. -/
theorem c79_database_complete_partial (db : Db) (hwf : db.WF) (hp : PlainDb db) (sels : List (List Cond))
    (hq : GoodQuery db sels)
    (q : Sel) (hb : buildQuery sels = some q) (leG : Group → Group → Bool) (hle : TotalOrder leG)
    (split : List TRow → List (List TRow)) (hsplit : ∀ l, (split l).flatten = l)
    (reorder : CppIndex → CppIndex) (hre : ∀ i xs, Describes i xs → SameIndex i (reorder i))
    (threads : Int) (hth : 0 ≤ threads) :
    ∃ idx, queryIndex leG split reorder ckeyOf threads db q = .ok idx ∧
      ∀ (order : List CKey), order.Perm idx.keys → ∀ (fuel : Nat) (read : RChunk CKey → List (CKey × Pos)),
        (∀ c, Deliverable ckeyOps idx order c → ReadsOnce read c) →
        ∀ (size : Nat), 0 < size → ∀ (stopOnNone : Bool) (groups nodes workers : Nat)
          (d : Dist (Sess CKey) (Parcel CKey Pos)),
        Dist.init groups nodes workers (Sess.fresh ckeyOps idx order stopOnNone 0 (arbView size)) = .ok d →
        ∀ es : List (TEv (MixOp CKey)), (∀ e ∈ es, e.Valid groups nodes (effWorkers workers)) → mixOps es = [] →
        ∀ (t : Train (Sess CKey) CKey Pos) (as : List (DReq × Ans (Parcel CKey Pos))),
        (Train.start d).run (resultSource ckeyOps fuel read) es = (t, as) →
        (∃ r, (r, Ans.stop) ∈ as) → (∀ r e, (r, Ans.raised e) ∉ as) → (∀ r, (t.loaders r).pending = []) →
        ∀ row ∈ db.samples, row.Wanted sels → ∃ r, (row.dataset, row.file, row.sample) ∈ (t.loaders r).out.map Prod.snd := by
  obtain ⟨idx, h1, hok, _, hnd, hks⟩ := c63_index_partial db hwf hp sels hq q hb leG hle split hsplit reorder hre threads
    hth
  refine ⟨idx, h1, ?_⟩
  intro order ho fuel read hr size hs b G N W d hd es he hu t as ht hstop hno hend row hrow hw
  have hi := hok order ho
  refine c79_complete ckeyOps fuel idx order hi read hr size hs b G N W d hd es he hu t as ht hstop hno hend _ ?_
  rw [mem_contentSamples hi.keys]
  obtain ⟨c, hc⟩ := has_self db hp hrow
  exact ⟨c, (hks c _).mpr ⟨row, hrow, rfl, hw, hc⟩⟩

/-! ## Non-vacuity -/

/-- A reading for the example: the samples key after key. -/
def exRead (c : RChunk Nat) : List (Nat × Pos) := c.content.flatMap fun ke => (entriesSamples ke.2).map fun p => (ke.1, p)

/-- Non-vacuity: the example's reading meets the condition on `read`. -/
theorem exRead_ok : ∀ c, Deliverable Ex.ops Ex.index Ex.order c → ReadsOnce exRead c := by
  rintro c ⟨history, q, g', hh, hus, hsend⟩
  obtain ⟨hnd, -, -⟩ := delivered_reads Ex.ops false Ex.index_ok hh (fun i => (hus i).keys) rfl hsend
    ⟨(hus _).rows, (hus _).size⟩ "simple" 1
  refine ⟨?_, ?_⟩
  · intro k
    refine List.Perm.of_eq ?_
    clear hsend
    unfold exRead
    have : ∀ l : Dict Nat Entries, l.keys.Nodup →
        (((l.flatMap fun ke => (entriesSamples ke.2).map fun p => (ke.1, p)).filter fun x => x.1 = k).map Prod.snd) =
          keySamples l k := by
      intro l
      induction l with
      | nil => intro _; rfl
      | cons ke l ih =>
        intro hnd
        obtain ⟨k', e⟩ := ke
        have hnd' : k' ∉ Dict.keys l ∧ (Dict.keys l).Nodup := List.nodup_cons.mp hnd
        rw [List.flatMap_cons, List.filter_append, List.map_append, ih hnd'.2]
        by_cases hk : k' = k
        · subst hk
          have h0 : Dict.get? l k' = none := by
            cases hg : Dict.get? l k' with
            | none => rfl
            | some y => exact absurd ((Dict.mem_keys_iff l k').mpr ⟨y, hg⟩) hnd'.1
          simp [keySamples, h0, Dict.get?, entriesSamples, List.filter_map, Function.comp_def]
        · simp [keySamples, Dict.get?, hk, List.filter_map, Function.comp_def]
    exact this _ hnd
  · refine List.Perm.of_eq ?_
    unfold exRead contentSamples
    rw [List.map_flatMap]
    apply List.flatMap_congr
    intro ke _
    simp [Function.comp_def]

/-- Two groups with one node and two workers each. -/
def exTrain (v : MixView Nat) (es : List (TEv (MixOp Nat))) :
    Option (Train (Sess Nat) Nat Pos × List (DReq × Ans (Parcel Nat Pos))) :=
  match (Dist.init 2 1 2 (Sess.fresh Ex.ops Ex.index Ex.order false 0 v) : Except Err (Dist (Sess Nat) (Parcel Nat Pos))) with
  | .error _ => none
  | .ok d => some ((Train.start d).run (resultSource Ex.ops 40 exRead) es)

/-- A loader asks for a chunk and hands over all of it. -/
def exAsk (g w : Nat) : List (TEv (MixOp Nat)) := .ask ⟨g, 0, w⟩ :: List.replicate 10 (.give ⟨g, 0, w⟩)

/-- What the four loaders handed over, and whether their streams are over. -/
def exOuts (v : MixView Nat) (es : List (TEv (MixOp Nat))) : Option (List (List (Nat × Pos) × Bool)) :=
  (exTrain v es).map fun x => [(0, 0), (0, 1), (1, 0), (1, 1)].map fun gw =>
    ((x.1.loaders ⟨gw.1, 0, gw.2⟩).out, (x.1.loaders ⟨gw.1, 0, gw.2⟩).ended)

instance : DecidableEq (Nat × Pos) := instDecidableEqProd
instance : DecidableEq (List (Nat × Pos) × Bool) := instDecidableEqProd

/-- All 17 samples of the example, split over four loaders. -/
example : exOuts (arbView 4) (exAsk 0 0 ++ exAsk 1 0 ++ exAsk 0 1 ++ exAsk 1 1 ++ exAsk 0 0 ++ exAsk 1 0 ++ exAsk 1 0 ++
      exAsk 0 0 ++ exAsk 1 1 ++ exAsk 0 1) =
    some [([(2, 0, 0, 0), (2, 0, 0, 1), (2, 0, 0, 2), (2, 0, 0, 5), (1, 0, 1, 4), (1, 0, 1, 5), (1, 0, 1, 6), (1, 0, 1, 7)], true),
      ([(1, 0, 1, 0), (1, 0, 1, 1), (1, 0, 1, 2), (1, 0, 1, 3)], true),
      ([(0, 0, 0, 3), (0, 0, 0, 4), (1, 0, 1, 8), (1, 0, 1, 9)], true), ([(2, 0, 0, 6)], true)] := by
  decide +kernel

/-- Usable mixtures for the example, with an update and feedback in between. -/
theorem exMix_ok : UsableMix Ex.strictMix ∧ UsableMix Ex.bestMix ∧
    UsableOps (Ex.index.keys ++ Ex.strictMix.rows.keys) [.update 1 Ex.bestMix, .feedback Ex.strictMix] := by
  have h1 : UsableMix Ex.strictMix := ⟨by decide, by decide, by decide⟩
  have h2 : UsableMix Ex.bestMix := ⟨by decide, by decide, by decide⟩
  exact ⟨h1, h2, h2, h1, by decide, trivial⟩

example : exOuts Ex.strictMix (exAsk 1 1 ++ [.poke (.update 1 Ex.bestMix)] ++ exAsk 0 0 ++ [.poke (.feedback Ex.strictMix)] ++
      [.ask ⟨1, 0, 0⟩, .give ⟨1, 0, 0⟩]) =
    some [([(0, 0, 0, 1), (0, 0, 0, 2), (0, 0, 0, 5), (1, 0, 1, 2), (1, 0, 1, 3)], false), ([], false), ([], true),
      ([(0, 0, 0, 0), (0, 0, 0, 3), (0, 0, 0, 4), (1, 0, 1, 0), (1, 0, 1, 1)], false)] := by
  decide +kernel

end Mixtera.Torch
