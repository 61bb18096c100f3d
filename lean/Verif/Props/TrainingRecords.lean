import Verif.Model.TrainingItems
import Verif.Props.SampleBlind
import Verif.Props.TrainedCache
import Verif.Props.TrainingAny

/-!
# A training run on records (C83 with C79)

From the registered files to what the loaders of a whole training run hand over.
-/

set_option linter.unusedSectionVars false

namespace Mixtera.Torch

variable {K α β ρ R : Type} [DecidableEq K]

/-! ## The same run with other samples -/

theorem handOver_state (read : RChunk K → List (K × α)) (read' : RChunk K → List (K × β)) (s : Sess K) (o : Out K) :
    (handOver read s o).1 = (handOver read' s o).1 := by
  cases o with
  | chunk c => simp only [handOver]; by_cases h : (c.content.keys.all fun k => s.keyIds.has k) = true <;> simp only [h] <;> rfl
  | none => rfl
  | stop => rfl
  | raised e => rfl

theorem handOver_map {γ : Type} (f : α → γ) (read : RChunk K → List (K × α)) (read' : RChunk K → List (K × γ)) (s : Sess K)
    (o : Out K) (h : ∀ c, o = .chunk c → (∃ p, (handOver read s o).2 = .chunk p) → onSnd f (read c) = read' c) :
    handOver read' s o = ((handOver read s o).1, mapFetch (mapParcel f) (handOver read s o).2) := by
  cases o with
  | chunk c =>
    have h' := h c rfl
    simp only [handOver] at h' ⊢
    by_cases hc : (c.content.keys.all fun k => s.keyIds.has k) = true
    · simp only [hc, if_true] at h' ⊢
      have := h' ⟨_, rfl⟩
      simp only [mapFetch, mapParcel, parcelOf, this]
    · simp only [hc]
      rfl
  | none => rfl
  | stop => rfl
  | raised e => rfl

/-- What holds of the query result during a run, with the operations still to come. -/
def RunJ (ops : KeyOps K) (index : Dict K Entries) (order : List K) (s : Sess K) (l : List (MixOp K)) : Prop :=
  ∃ known done, RunInv ops index order known done s ∧ UsableOps known l

theorem runJ_poke (ops : KeyOps K) (fuel : Nat) {index : Dict K Entries} {order : List K} (s : Sess K) (i : MixOp K)
    (l : List (MixOp K)) (h : RunJ ops index order s (i :: l)) : RunJ ops index order (s.op ops fuel i.toSOp).1 l := by
  obtain ⟨known, done, h1, h2⟩ := h
  cases i with
  | update ref v => exact ⟨_, done, (runInv_update ops fuel h1 ref v h2.1).1, h2.2⟩
  | feedback v => exact ⟨_, done, runInv_feedback ops fuel h1 v h2.1 h2.2.1, h2.2.2⟩

theorem runJ_fetch (ops : KeyOps K) (fuel : Nat) {index : Dict K Entries} {order : List K} (hi : IndexOk index order)
    (read : RChunk K → List (K × α)) (s : Sess K) (l : List (MixOp K)) (h : RunJ ops index order s l) :
    RunJ ops index order ((resultSource ops fuel read).fetch s).1 l ∧
      ∀ c p, (s.next ops fuel).2 = .chunk c → ((resultSource ops fuel read).fetch s).2 = .chunk p →
        Deliverable ops index order c := by
  obtain ⟨known, done, h1, h2⟩ := h
  obtain ⟨-, more, h3, h4⟩ := runInv_fetch ops fuel (fun _ => ([] : List (K × Pos))) hi h1
  have hs : ((resultSource ops fuel read).fetch s).1 = ((resultSource ops fuel (fun _ => ([] : List (K × Pos)))).fetch s).1 :=
    handOver_state _ _ _ _
  rw [hs]
  refine ⟨⟨known, _, h3, h2⟩, ?_⟩
  intro c p hc hp
  have : ∃ p', ((resultSource ops fuel (fun _ => ([] : List (K × Pos)))).fetch s).2 = .chunk p' := by
    simp only [resultSource, hc, handOver] at hp ⊢
    split at hp
    · rename_i hk
      rw [if_pos hk]; exact ⟨_, rfl⟩
    · cases hp
  obtain ⟨p', hp'⟩ := this
  rw [hp'] at h4
  obtain ⟨c', hm, -, hn⟩ := h4
  rw [hn] at hc
  injection hc with hc
  subst hc
  exact h3.all c' (by rw [hm]; simp)

theorem start_map {σ : Type} (f : α → β) {G N W : Nat} {src : σ} {d : Dist σ (Parcel K α)} {d' : Dist σ (Parcel K β)}
    (hd : Dist.init G N W src = .ok d) (hd' : Dist.init G N W src = .ok d') : mapTrain f (Train.start d) = Train.start d' := by
  unfold Dist.init at hd hd'
  split at hd
  · cases hd
  · rename_i hG
    rw [if_neg hG] at hd'
    injection hd with hd
    injection hd' with hd'
    subst hd
    subst hd'
    rfl

theorem run_reading {γ : Type} (ops : KeyOps K) (fuel : Nat) {index : Dict K Entries} {order : List K}
    (hi : IndexOk index order) (f : α → γ) (read : RChunk K → List (K × α)) (read' : RChunk K → List (K × γ))
    (hr : ∀ c, Deliverable ops index order c → onSnd f (read c) = read' c)
    {v : MixView K} (hv : UsableMix v) (b : Bool) (ref G N W : Nat)
    {d : Dist (Sess K) (Parcel K α)} (hd : Dist.init G N W (Sess.fresh ops index order b ref v) = .ok d)
    {d' : Dist (Sess K) (Parcel K γ)} (hd' : Dist.init G N W (Sess.fresh ops index order b ref v) = .ok d')
    {es : List (TEv (MixOp K))} (hu : UsableOps (index.keys ++ v.rows.keys) (mixOps es)) :
    (Train.start d').run (resultSource ops fuel read') es =
      (mapTrain f ((Train.start d).run (resultSource ops fuel read) es).1,
        mapAnswers f ((Train.start d).run (resultSource ops fuel read) es).2) := by
  rw [← start_map f hd hd']
  have hsrc : d.src = Sess.fresh ops index order b ref v := by
    unfold Dist.init at hd
    split at hd
    · cases hd
    · cases hd; rfl
  refine run_map f _ _ (RunJ ops index order) (fun s i l h => ⟨rfl, runJ_poke ops fuel s i l h⟩) (fun s l h => ?_) es _ ?_
  · obtain ⟨h1, h2⟩ := runJ_fetch ops fuel hi read s l h
    refine ⟨h1, handOver_map f read read' _ _ ?_⟩
    rintro c hc ⟨p, hp⟩
    exact hr c (h2 c p hc hp)
  · show RunJ ops index order d.src (mixOps es)
    rw [hsrc]
    exact ⟨_, [], runInv_fresh ops b ref v hv, hu⟩

/-- Two readings with a common image: the loaders hand over, and are answered, the same up to that. -/
theorem run_items (ops : KeyOps K) (fuel : Nat) {index : Dict K Entries} {order : List K} (hi : IndexOk index order)
    (item : Pos → Option α) (read : RChunk K → List (K × α)) (readP : RChunk K → List (K × Pos))
    (hr : ∀ c, Deliverable ops index order c → onSnd some (read c) = onSnd item (readP c))
    {v : MixView K} (hv : UsableMix v) (b : Bool) (ref G N W : Nat)
    {d : Dist (Sess K) (Parcel K α)} (hd : Dist.init G N W (Sess.fresh ops index order b ref v) = .ok d)
    {es : List (TEv (MixOp K))} (hu : UsableOps (index.keys ++ v.rows.keys) (mixOps es)) :
    ∃ dP : Dist (Sess K) (Parcel K Pos), Dist.init G N W (Sess.fresh ops index order b ref v) = .ok dP ∧
      mapTrain some ((Train.start d).run (resultSource ops fuel read) es).1 =
        mapTrain item ((Train.start dP).run (resultSource ops fuel readP) es).1 ∧
      mapAnswers some ((Train.start d).run (resultSource ops fuel read) es).2 =
        mapAnswers item ((Train.start dP).run (resultSource ops fuel readP) es).2 := by
  have hG : ¬ G < 1 := by
    intro h
    unfold Dist.init at hd
    rw [if_pos h] at hd
    cases hd
  obtain ⟨dP, hdP⟩ : ∃ dP : Dist (Sess K) (Parcel K Pos),
      Dist.init G N W (Sess.fresh ops index order b ref v) = .ok dP := by
    unfold Dist.init; rw [if_neg hG]; exact ⟨_, rfl⟩
  obtain ⟨dO, hdO⟩ : ∃ dO : Dist (Sess K) (Parcel K (Option α)),
      Dist.init G N W (Sess.fresh ops index order b ref v) = .ok dO := by
    unfold Dist.init; rw [if_neg hG]; exact ⟨_, rfl⟩
  have h1 := run_reading ops fuel hi some read (fun c => onSnd item (readP c)) hr hv b ref G N W hd hdO hu
  have h2 := run_reading ops fuel hi item readP (fun c => onSnd item (readP c)) (fun _ _ => rfl) hv b ref G N W hdP hdO hu
  rw [h2] at h1
  simp only [Prod.mk.injEq] at h1
  exact ⟨dP, hdP, h1.1.symm, h1.2.symm⟩

/-! ## Reading records -/

theorem iterateSeeded_eq (lib : RandomLib R) (hash : PyStr → Nat) (text : K → PyStr) (cfg : Configured K) (c : RChunk K)
    (line : Nat × Nat × Nat → α) (fuel : Nat) (r : R) :
    iterateSeeded lib hash text cfg c line fuel r = iterateItems lib hash text cfg c (readRanges line) fuel r := rfl

theorem iterateItems_map {γ : Type} (lib : RandomLib R) (hash : PyStr → Nat) (text : K → PyStr) (cfg : Configured K) (c : RChunk K)
    (f : α → γ) (reader : Nat × Nat × List Rng → List α) (fuel : Nat) (r : R) :
    (iterateItems lib hash text cfg c reader fuel r).1.map (onSnd f) =
      (iterateItems lib hash text cfg c (fun x => (reader x).map f) fuel r).1 := by
  unfold iterateItems
  have h : (fun k : K => (((openWorkloads lib hash text c.content r).1.get? k).getD []).flatMap fun x => (reader x).map f) =
      fun k => ((((openWorkloads lib hash text c.content r).1.get? k).getD []).flatMap reader).map f := by
    funext k
    rw [List.map_flatMap]
  simp only [h, iterateChunk_map]
  split
  · split <;> rfl
  · rfl

theorem iterateItems_congr (lib : RandomLib R) (hash : PyStr → Nat) (text : K → PyStr) (cfg : Configured K) (c : RChunk K)
    (reader reader' : Nat × Nat × List Rng → List α) (fuel : Nat) (r : R)
    (h : ∀ k e, (k, e) ∈ c.content → ∀ d fs, (d, fs) ∈ e → ∀ f ranges, (f, ranges) ∈ fs →
      reader (d, f, ranges) = reader' (d, f, ranges)) :
    iterateItems lib hash text cfg c reader fuel r = iterateItems lib hash text cfg c reader' fuel r := by
  unfold iterateItems
  have h : (fun k : K => (((openWorkloads lib hash text c.content r).1.get? k).getD []).flatMap reader) =
      fun k => (((openWorkloads lib hash text c.content r).1.get? k).getD []).flatMap reader' := by
    funext k
    rw [openWorkloads_get]
    cases hk : c.content.get? k with
    | none => rfl
    | some e =>
      simp only [Option.map_some, Option.getD_some]
      refine List.flatMap_congr fun x hx => ?_
      have hx' := (shuffle_perm lib _ _).subset hx
      obtain ⟨⟨d, fs⟩, hd, hx'⟩ := List.mem_flatMap.mp hx'
      obtain ⟨⟨f, ranges⟩, hf, rfl⟩ := List.mem_map.mp hx'
      exact h k e (Dict.mem_of_get? hk) d fs hd f ranges hf
  simp only [h]

/-- Reading records, if every file reads as `item` says. -/
theorem readRecords_items (lib : RandomLib R) (hash : PyStr → Nat) (text : K → PyStr) (isStub : Bool) (loads : Nat → Bool)
    (args : StreamArgs) (w : FileWorld β ρ) (apply : PyStr → ρ → α) (m : ResultMeta) (fuel : RChunk K → Nat) (r : R)
    (c : RChunk K) (item : Pos → Option α)
    (h : ∀ k e, (k, e) ∈ c.content → ∀ d fs, (d, fs) ∈ e → ∀ f ranges, (f, ranges) ∈ fs →
      (readItem w apply m d f ranges).1.map some = (rowNumbers ranges).map fun i => item (d, f, i)) :
    onSnd some (readRecords lib hash text isStub loads args w apply m fuel r c) =
      onSnd item (readWith lib hash text isStub loads args id fuel r c) := by
  unfold readRecords readWith
  cases configureChunk isStub loads args c with
  | error e => rfl
  | ok cfg =>
    simp only
    rw [iterateSeeded_eq]
    have h1 := iterateItems_map lib hash text cfg c some (fun x => (readItem w apply m x.1 x.2.1 x.2.2).1) (fuel c) r
    have h2 := iterateItems_map lib hash text cfg c item (readRanges (id : Pos → Pos)) (fuel c) r
    have h3 := iterateItems_congr lib hash text cfg c (fun x => ((readItem w apply m x.1 x.2.1 x.2.2).1).map some)
      (fun x => (readRanges (id : Pos → Pos) x).map item) (fuel c) r (by
        intro k e hk d fs hd f ranges hf
        rw [h k e hk d fs hd f ranges hf]
        simp only [readRanges, rowNumbers, List.map_flatMap, List.map_map]
        rfl)
    rw [h3, ← h2] at h1
    revert h1
    cases (iterateItems lib hash text cfg c (fun x => (readItem w apply m x.1 x.2.1 x.2.2).1) (fuel c) r).1 <;>
      cases (iterateItems lib hash text cfg c (readRanges (id : Pos → Pos)) (fuel c) r).1 <;> intro h1 <;>
      simp only [Except.map, reduceCtorEq, Except.ok.injEq] at h1 ⊢
    · rfl
    · exact h1

/-! ## The whole run -/

/-- Specification: what loaders have handed over (`out r` by loader `r`) are registered records. There are positions (dataset,
file, row number) for the items that a loader handed over, so that no loader has a position twice, and loaders of different groups
or worker numbers have different positions; a row of the database with this position satisfies the query; the number that came with
the item is the number in `ids` of a key that describes the row; and the item is the dataset's parsing function, applied to the
record that the row stands for. -/
def HandsOverRecords (w : FileWorld β ρ) (Made : RegCall ρ → Prop) (db : Db) (sels : List (List Cond)) (apply : PyStr → ρ → α)
    (ids : Dict CKey Nat) (out : DReq → List (Nat × α)) : Prop :=
  ∃ pos : DReq → List Pos, (∀ r, (pos r).Nodup) ∧
    (∀ r r', r.group ≠ r'.group ∨ r.worker ≠ r'.worker → ∀ p ∈ pos r, p ∉ pos r') ∧
    ∀ r, List.Forall₂ (fun x p => ∃ row ∈ db.samples, (row.dataset, row.file, row.sample) = p ∧ row.Wanted sels ∧
      (∃ k : CKey, ids.get? k = some x.1 ∧ ∀ n vs, k.1.get? n = some vs → ∃ ws, row.prop db n = some ws ∧
        ((∃ u, u ∈ vs ∧ u ∈ ws) ∨ (vs = [] ∧ ws = []))) ∧
      ∃ func rec, StandsFor w Made db row func rec ∧ x.2 = apply func rec) (out r) (pos r)

/-- Specification: what the loaders of a run have handed over are registered records, with the key numbers of the query result. -/
def TrainsOnRecords (w : FileWorld β ρ) (Made : RegCall ρ → Prop) (db : Db) (sels : List (List Cond)) (apply : PyStr → ρ → α)
    (t : Train (Sess CKey) CKey α) : Prop :=
  HandsOverRecords w Made db sels apply t.dist.src.keyIds fun r => (t.loaders r).out

/-- A sample that is handed over was read from a chunk that was delivered. -/
theorem given_chunk (ops : KeyOps K) (fuel : Nat) (read : RChunk K → List (K × Pos)) {index : Dict K Entries} {order : List K}
    (hi : IndexOk index order) {v : MixView K} (hv : UsableMix v) (b : Bool) (ref G N workers : Nat)
    {d : Dist (Sess K) (Parcel K Pos)} (hd : Dist.init G N workers (Sess.fresh ops index order b ref v) = .ok d)
    {es : List (TEv (MixOp K))} (he : ∀ e ∈ es, e.Valid G N (effWorkers workers))
    (hu : UsableOps (index.keys ++ v.rows.keys) (mixOps es)) (r : DReq) (i : Nat) (p : Pos)
    (hp : (i, p) ∈ (((Train.start d).run (resultSource ops fuel read) es).1.loaders r).out) :
    ∃ c k, Deliverable ops index order c ∧ (k, p) ∈ read c := by
  obtain ⟨log, h⟩ := run_log ops fuel read hi hv b ref G N workers hd he hu
  have h1 := (h.out_prefix r).subset hp
  rw [List.mem_flatMap] at h1
  obtain ⟨q, hq, hpq⟩ := h1
  obtain ⟨known, done, hinv, hf⟩ := h.inv
  obtain ⟨c, hc, hpc⟩ := forall₂_exists hf ((ownedBy_sublist log r.group r.worker).subset hq)
  have hdel := hinv.all c hc
  unfold samplesOf at hpq
  rw [hpc.skip, List.drop_zero, hpc.source, List.mem_map] at hpq
  obtain ⟨⟨k, p'⟩, hk, heq⟩ := hpq
  simp only [Prod.mk.injEq] at heq
  obtain ⟨-, rfl⟩ := heq
  exact ⟨c, k, hdel, hk⟩

theorem deliverable_request {ops : KeyOps K} {index : Dict K Entries} {order : List K} {c : RChunk K}
    (h : Deliverable ops index order c) : ∃ (history : List (Req K)) (rq : Req K) (g g' : Gen K),
      (∀ r ∈ history, HeapOk r.heap) ∧ HeapOk rq.heap ∧ g = after ops false index order history ∧
      g.send ops rq.fuel false rq.heap rq.mix rq.target = (g', .chunk c) := by
  obtain ⟨history, rq, g', h1, h2, h3⟩ := h
  exact ⟨history, rq, _, g', h1, fun i => (h2 i).keys, rfl, h3⟩

theorem queryResult_index {leG : Group → Group → Bool} {split : List TRow → List (List TRow)} {reorder : CppIndex → CppIndex}
    {threads : Int} {enum : List Nat → List Nat} {db : Db} {q : Sel} {idx : Dict CKey Entries} {m : ResultMeta}
    (h : queryResult leG split reorder ckeyOf threads enum db q = .ok (idx, m)) :
    queryIndex leG split reorder ckeyOf threads db q = .ok idx := by
  unfold queryResult at h
  unfold queryIndex
  cases hb : baseData db q db.samples with
  | error e => rw [hb] at h; cases h
  | ok base =>
    rw [hb] at h
    simp only at h ⊢
    cases hc : createChunkerIndex reorder ckeyOf (split ((queryIntervals leG base).map rowOf)) threads with
    | error e => rw [hc] at h; cases h
    | ok idx' =>
      rw [hc] at h
      simp only at h
      cases hm : parseMeta enum db ((queryIntervals leG base).map rowOf) with
      | error e => rw [hm] at h; cases h
      | ok m' => rw [hm] at h; cases h; exact hc

theorem forall₂_of_maps {A B C : Type} {f : A → C} {g : B → C} : ∀ {l : List A} {l' : List B}, l.map f = l'.map g →
    List.Forall₂ (fun a b => f a = g b ∧ b ∈ l') l l'
  | [], [], _ => .nil
  | a :: l, b :: l', h => by
    simp only [List.map_cons, List.cons.injEq] at h
    exact .cons ⟨h.1, by simp⟩ ((forall₂_of_maps h.2).imp fun _ _ x => ⟨x.1, by simp [x.2]⟩)
  | [], _ :: _, h => by simp at h
  | _ :: _, [], h => by simp at h

theorem forall₂_left {A B : Type} {P : A → B → Prop} {l : List A} {l' : List B} (h : List.Forall₂ P l l') {x : A} (hx : x ∈ l) :
    ∃ y ∈ l', P x y := by
  induction h with
  | nil => simp at hx
  | cons h _ ih =>
    rcases List.mem_cons.mp hx with rfl | hx
    · exact ⟨_, by simp, h⟩
    · obtain ⟨y, hy, hp⟩ := ih hx
      exact ⟨y, by simp [hy], hp⟩

/-- What the theorems below share: the result of the query, the item at every position, and that reading records is reading
positions with the items in their places. -/
theorem records_reading (w : FileWorld β ρ) (hw : w.Faithful) (Made : RegCall ρ → Prop)
    (hmade : ∀ k, Made k → ∀ p, k.parser = some p → p.Proper) (e : Engine) (he : e.OK)
    (enum : List Nat → List Nat) (henum : ∀ l, (enum l).Perm l) (dirHash : PyStr → PyStr)
    (listing : List (CacheDir ResultPair) → List (CacheDir ResultPair)) (ho : ∀ l d, d ∈ listing l ↔ d ∈ l)
    (s : Sys ResultPair) (hs : SysReach w Made (e.resultCached enum dirHash listing) s)
    (q : SelectChain) (hp : ReadableDb s.db) (hq : GoodQuery s.db (q.1 :: q.2)) (found : ResultPair)
    (hrun : ((executeQuery (e.resultCached enum dirHash listing) q).run s).2 = .ok found) (apply : PyStr → ρ → α) :
    ∃ idx m sel, ∃ item : Pos → Option α, found = .ok (idx, m) ∧ buildQuery (q.1 :: q.2) = some sel ∧
      queryIndex e.leG e.split e.reorder ckeyOf e.threads s.db sel = .ok idx ∧ s.db.WF ∧
      ∀ (order : List CKey), order.Perm idx.keys → IndexOk idx order ∧
        (∀ c, Deliverable ckeyOps idx order c → ∀ k p, p ∈ keySamples c.content k →
          ∃ y, item p = some y ∧ ∃ r ∈ s.db.samples, (r.dataset, r.file, r.sample) = p ∧
            ∃ func x, StandsFor w Made s.db r func x ∧ y = apply func x) ∧
        ∀ (lib : RandomLib R) (hash : PyStr → Nat) (text : CKey → PyStr) (isStub : Bool) (loads : Nat → Bool) (args : StreamArgs)
          (steps : RChunk CKey → Nat) (rnd : R) (c : RChunk CKey), Deliverable ckeyOps idx order c →
          onSnd some (readRecords lib hash text isStub loads args w apply m steps rnd c) =
            onSnd item (readWith lib hash text isStub loads args id steps rnd c) := by
  have hE := engine_result_ok e henum dirHash listing ho
  have hfound : found = e.result enum s.db q := c36_current_result_partial _ hE hs.cache q found hrun
  obtain ⟨sel, hsel⟩ := buildQuery_cons q.1 q.2
  have hreach := hs.reachable hE
  have hwf := (c83_no_dangling _ s.db hreach).1
  obtain ⟨idx, m, item, h1, h2⟩ := c83_trained_records_partial w hw Made hmade s.db hreach hp (q.1 :: q.2) hq sel hsel
    e.leG he.order e.split he.batches e.reorder he.maps e.threads he.threads enum henum apply
  have hqi := queryResult_index h1
  refine ⟨idx, m, sel, item, ?_, hsel, hqi, hwf, ?_⟩
  · rw [hfound]
    unfold Engine.result
    rw [hsel]
    exact h1
  intro order hord
  obtain ⟨idx', -, hidx', hok, -, -, -, -⟩ := c63_index_value_orders s.db hwf hp (q.1 :: q.2) hq sel hsel e.leG he.order e.split he.batches
    e.reorder he.maps e.threads he.threads
  rw [hqi] at hidx'
  injection hidx' with hidx'
  subst hidx'
  have hi := hok order hord
  have hlisted : ∀ c, Deliverable ckeyOps idx order c → ∀ k e, (k, e) ∈ c.content → ∀ d fs, (d, fs) ∈ e → ∀ f ranges,
      (f, ranges) ∈ fs → ∃ ys, readItem w apply m d f ranges = (ys, none) ∧
        List.Forall₂ (fun i y => item (d, f, i) = some y ∧ ∃ r ∈ s.db.samples, (r.dataset, r.file, r.sample) = (d, f, i) ∧
          ∃ func x, StandsFor w Made s.db r func x ∧ y = apply func x) (rowNumbers ranges) ys := by
    intro c hc k e hk d fs hd f ranges hf
    obtain ⟨history, rq, g, g', hh, hrq, hg, hsend⟩ := deliverable_request hc
    obtain ⟨ys, h3, h4⟩ := h2 order hord false history hh rq hrq g g' c hg hsend k e hk d fs hd f ranges hf
    refine ⟨ys, h3, h4.imp ?_⟩
    rintro i y ⟨a1, r, a2, a3, -, -, a4⟩
    exact ⟨a1, r, a2, a3, a4⟩
  refine ⟨hi, ?_, ?_⟩
  · intro c hc k' p hks
    unfold keySamples at hks
    cases hg : c.content.get? k' with
    | none => rw [hg] at hks; simp [entriesSamples] at hks
    | some en =>
      rw [hg] at hks
      obtain ⟨d0, f0, i0⟩ := p
      obtain ⟨fs, ranges, hfs, hra, x, hx, hlo, hhi⟩ := mem_entriesSamples.mp hks
      obtain ⟨ys, -, h4⟩ := hlisted c hc k' en (Dict.mem_of_get? hg) d0 fs hfs f0 ranges hra
      have hnum : i0 ∈ rowNumbers ranges := List.mem_flatMap.mpr ⟨x, hx, by rw [List.mem_range'_1]; omega⟩
      obtain ⟨y, -, hy⟩ := forall₂_left h4 hnum
      exact ⟨y, hy⟩
  · intro lib hash text isStub loads args steps rnd c hc
    refine readRecords_items lib hash text isStub loads args w apply m steps rnd c item ?_
    intro k e hk d fs hd f ranges hf
    obtain ⟨ys, h3, h4⟩ := hlisted c hc k e hk d fs hd f ranges hf
    rw [h3]
    have : ∀ {l : List Nat} {ys : List α}, List.Forall₂ (fun i y => item (d, f, i) = some y ∧
        ∃ r ∈ s.db.samples, (r.dataset, r.file, r.sample) = (d, f, i) ∧
          ∃ func x, StandsFor w Made s.db r func x ∧ y = apply func x) l ys → ys.map some = l.map fun i => item (d, f, i) := by
      intro l ys h
      induction h with
      | nil => rfl
      | cons h _ ih => simp only [List.map_cons, ih, h.1]
    exact this h4

/-- **C83** (the whole run). Take any state that registrations (completed, failed or crashed anywhere), removals, and queries lead
to, execute a query - its result may come from the cache -, and train with it: any numbers of groups, nodes and workers, any
mixtures with updates and feedback during the run, any chunk reading arguments and any interleaving of the loaders. What the
loaders hand over are records of the registered files, each at most once: see `TrainsOnRecords`.

`_partial`: as `c83_through_cache_partial`; with one reader process per chunk; and no restart from a checkpoint (C79 treats
those). -/
theorem c83_training_run_partial (w : FileWorld β ρ) (hw : w.Faithful) (Made : RegCall ρ → Prop)
    (hmade : ∀ k, Made k → ∀ p, k.parser = some p → p.Proper) (e : Engine) (he : e.OK)
    (enum : List Nat → List Nat) (henum : ∀ l, (enum l).Perm l) (dirHash : PyStr → PyStr)
    (listing : List (CacheDir ResultPair) → List (CacheDir ResultPair)) (ho : ∀ l d, d ∈ listing l ↔ d ∈ l)
    (s : Sys ResultPair) (hs : SysReach w Made (e.resultCached enum dirHash listing) s)
    (q : SelectChain) (hp : ReadableDb s.db) (hq : GoodQuery s.db (q.1 :: q.2)) (found : ResultPair)
    (hrun : ((executeQuery (e.resultCached enum dirHash listing) q).run s).2 = .ok found) (apply : PyStr → ρ → α) :
    ∃ idx m, found = .ok (idx, m) ∧
      ∀ (order : List CKey), order.Perm idx.keys → ∀ (fuel : Nat)
        (lib : RandomLib R) (hash : PyStr → Nat) (text : CKey → PyStr) (isStub : Bool) (loads : Nat → Bool) (args : StreamArgs)
        (steps : RChunk CKey → Nat) (rnd : R) (read : RChunk CKey → List (CKey × α)),
        read = readRecords lib hash text isStub loads args w apply m steps rnd →
        ∀ (v : MixView CKey), UsableMix v → ∀ (stopOnNone : Bool) (ref groups nodes workers : Nat)
          (d : Dist (Sess CKey) (Parcel CKey α)),
        Dist.init groups nodes workers (Sess.fresh ckeyOps idx order stopOnNone ref v) = .ok d →
        ∀ es : List (TEv (MixOp CKey)), (∀ e ∈ es, e.Valid groups nodes (effWorkers workers)) →
        UsableOps (idx.keys ++ v.rows.keys) (mixOps es) →
        TrainsOnRecords w Made s.db (q.1 :: q.2) apply ((Train.start d).run (resultSource ckeyOps fuel read) es).1 := by
  obtain ⟨idx, m, sel, item, hfound, hsel, hqi, hwf, hcore⟩ := records_reading (R := R) w hw Made hmade e he enum henum dirHash
    listing ho s hs q hp hq found hrun apply
  refine ⟨idx, m, hfound, ?_⟩
  intro order hord fuel lib hash text isStub loads args steps rnd read hread v hv b ref G N W d hd es hes hu
  obtain ⟨hi, hlisted, hsame⟩ := hcore order hord
  obtain ⟨idx'', hidx'', hdb⟩ := c79_database_value_orders s.db hwf hp (q.1 :: q.2) hq sel hsel e.leG he.order e.split he.batches
    e.reorder he.maps e.threads he.threads
  rw [hqi] at hidx''
  injection hidx'' with hidx''
  subst hidx''
  subst hread
  obtain ⟨dP, hdP, hmap, -⟩ := run_items ckeyOps fuel hi item _ (readWith lib hash text isStub loads args id steps rnd)
    (hsame lib hash text isStub loads args steps rnd) hv
    b ref G N W hd hu
  have hread' := c79_any_reading lib hash text ckeyOps idx order hi isStub loads args steps rnd
  obtain ⟨b1, b2, b3⟩ := hdb order hord fuel _ hread' v hv b ref G N W dP hdP es hes hu _ rfl
  generalize htt : (Train.start d).run (resultSource ckeyOps fuel (readRecords lib hash text isStub loads args w apply m steps rnd)) es
    = T at hmap ⊢
  have hkey : T.1.dist.src = ((Train.start dP).run
      (resultSource ckeyOps fuel (readWith lib hash text isStub loads args id steps rnd)) es).1.dist.src :=
    congrArg (fun t : Train (Sess CKey) CKey (Option α) => t.dist.src) hmap
  refine ⟨fun r => ((((Train.start dP).run (resultSource ckeyOps fuel
    (readWith lib hash text isStub loads args id steps rnd)) es).1.loaders r).out).map Prod.snd, b1, b2, ?_⟩
  intro r
  have hout := congrArg (fun t : Train (Sess CKey) CKey (Option α) => (t.loaders r).out) hmap
  simp only [mapTrain] at hout
  rw [List.forall₂_map_right_iff]
  refine (forall₂_of_maps hout).imp ?_
  rintro ⟨i, y⟩ ⟨j, p⟩ ⟨hxy, hmem⟩
  simp only [Prod.mk.injEq] at hxy
  obtain ⟨rfl, hy⟩ := hxy
  obtain ⟨row, hrow, epos, hwanted, k, hk, hdesc⟩ := b3 r _ hmem
  refine ⟨row, hrow, epos, hwanted, ⟨k, by rw [hkey]; exact hk, hdesc⟩, ?_⟩
  obtain ⟨c, k', hc, hkc⟩ := given_chunk ckeyOps fuel _ hi hv b ref G N W hdP hes hu r i p hmem
  have hks := (hread' c hc).listed hkc
  obtain ⟨y', hyi, row', hrow', epos', func, rec, hst, hya⟩ := hlisted c hc k' p hks
  have hrr : row' = row := List.inj_on_of_nodup_map hwf.keys hrow' hrow (by
    show (row'.dataset, row'.file, row'.sample) = (row.dataset, row.file, row.sample)
    rw [epos', epos])
  subst hrr
  refine ⟨func, rec, hst, ?_⟩
  rw [hyi] at hy
  injection hy with hy
  rw [hy, hya]

/-- **C83** (the whole run, completeness). With ArbitraryMixture and the chunk reading type `"simple"`: when the stream is over, no
request failed and all received items were handed over, every registered record whose row satisfies the query was handed over by
some loader.
`_partial`: as `c83_training_run_partial`. -/
theorem c83_training_complete_partial (w : FileWorld β ρ) (hw : w.Faithful) (Made : RegCall ρ → Prop)
    (hmade : ∀ k, Made k → ∀ p, k.parser = some p → p.Proper) (e : Engine) (he : e.OK)
    (enum : List Nat → List Nat) (henum : ∀ l, (enum l).Perm l) (dirHash : PyStr → PyStr)
    (listing : List (CacheDir ResultPair) → List (CacheDir ResultPair)) (ho : ∀ l d, d ∈ listing l ↔ d ∈ l)
    (s : Sys ResultPair) (hs : SysReach w Made (e.resultCached enum dirHash listing) s)
    (q : SelectChain) (hp : ReadableDb s.db) (hone : OneOrder s.db (q.1 :: q.2)) (hq : GoodQuery s.db (q.1 :: q.2)) (found : ResultPair)
    (hrun : ((executeQuery (e.resultCached enum dirHash listing) q).run s).2 = .ok found) (apply : PyStr → ρ → α) :
    ∃ idx m, found = .ok (idx, m) ∧
      ∀ (order : List CKey), order.Perm idx.keys → ∀ (fuel : Nat)
        (lib : RandomLib R) (hash : PyStr → Nat) (text : CKey → PyStr) (isStub : Bool) (loads : Nat → Bool) (args : StreamArgs),
        ValidArgs isStub loads args → args.mixtureType = "simple" → ∀ (steps : RChunk CKey → Nat),
        (∀ c, (contentSamples c.content).length + 1 ≤ steps c) → ∀ (rnd : R) (read : RChunk CKey → List (CKey × α)),
        read = readRecords lib hash text isStub loads args w apply m steps rnd →
        ∀ (size : Nat), 0 < size → ∀ (stopOnNone : Bool) (groups nodes workers : Nat) (d : Dist (Sess CKey) (Parcel CKey α)),
        Dist.init groups nodes workers (Sess.fresh ckeyOps idx order stopOnNone 0 (arbView size)) = .ok d →
        ∀ es : List (TEv (MixOp CKey)), (∀ e ∈ es, e.Valid groups nodes (effWorkers workers)) → mixOps es = [] →
        ∀ (t : Train (Sess CKey) CKey α) (as : List (DReq × Ans (Parcel CKey α))),
        (Train.start d).run (resultSource ckeyOps fuel read) es = (t, as) →
        (∃ r, (r, Ans.stop) ∈ as) → (∀ r e, (r, Ans.raised e) ∉ as) → (∀ r, (t.loaders r).pending = []) →
        ∀ row ∈ s.db.samples, row.Wanted (q.1 :: q.2) →
          ∃ func rec, StandsFor w Made s.db row func rec ∧ ∃ r, apply func rec ∈ (t.loaders r).out.map Prod.snd := by
  obtain ⟨idx, m, sel, item, hfound, hsel, hqi, hwf, hcore⟩ := records_reading (R := R) w hw Made hmade e he enum henum dirHash
    listing ho s hs q hp hq found hrun apply
  refine ⟨idx, m, hfound, ?_⟩
  intro order hord fuel lib hash text isStub loads args hargs hsimple steps hsteps rnd read hread size hsize b G N W d hd es hes
    hmix t as ht hstop hno hend row hrow hwanted
  obtain ⟨hi, hlisted, hsame⟩ := hcore order hord
  obtain ⟨idx'', hidx'', hdb⟩ := c79_database_complete_any_values s.db hwf hp.types (q.1 :: q.2) hq (hp.textsDistinct hone) sel
    hsel e.leG he.order e.split he.batches
    e.reorder he.maps e.threads he.threads
  rw [hqi] at hidx''
  injection hidx'' with hidx''
  subst hidx''
  subst hread
  have hv : UsableMix (arbView size : MixView CKey) := ⟨List.nodup_nil, by simp [arbView], fun _ => hsize⟩
  have hu : UsableOps (idx.keys ++ (arbView size : MixView CKey).rows.keys) (mixOps es) := by rw [hmix]; trivial
  obtain ⟨dP, hdP, hmap, hans⟩ := run_items ckeyOps fuel hi item _ (readWith lib hash text isStub loads args id steps rnd)
    (hsame lib hash text isStub loads args steps rnd) hv b 0 G N W hd hu
  have hread' := c79_simple_reading lib hash text ckeyOps idx order hi isStub loads args hargs hsimple steps hsteps rnd
  rw [ht] at hmap hans
  generalize hP : (Train.start dP).run (resultSource ckeyOps fuel (readWith lib hash text isStub loads args id steps rnd)) es = P
    at hmap hans
  obtain ⟨tP, asP⟩ := P
  have hback : ∀ (r : DReq) (a : Ans (Parcel CKey α)), (r, a) ∈ as → ∃ a', (r, a') ∈ asP ∧
      mapAns (mapParcel some) a = mapAns (mapParcel item) a' := by
    intro r a ha
    have : (r, mapAns (mapParcel some) a) ∈ mapAnswers some as := List.mem_map.mpr ⟨_, ha, rfl⟩
    rw [hans] at this
    obtain ⟨⟨r', a'⟩, h1, h2⟩ := List.mem_map.mp this
    simp only [Prod.mk.injEq] at h2
    obtain ⟨rfl, h2⟩ := h2
    exact ⟨a', h1, h2.symm⟩
  have hfor : ∀ (r : DReq) (a' : Ans (Parcel CKey Pos)), (r, a') ∈ asP → ∃ a, (r, a) ∈ as ∧
      mapAns (mapParcel some) a = mapAns (mapParcel item) a' := by
    intro r a ha
    have : (r, mapAns (mapParcel item) a) ∈ mapAnswers item asP := List.mem_map.mpr ⟨_, ha, rfl⟩
    rw [← hans] at this
    obtain ⟨⟨r', a'⟩, h1, h2⟩ := List.mem_map.mp this
    simp only [Prod.mk.injEq] at h2
    obtain ⟨rfl, h2⟩ := h2
    exact ⟨a', h1, h2⟩
  have hstopP : ∃ r, (r, Ans.stop) ∈ asP := by
    obtain ⟨r, hr⟩ := hstop
    obtain ⟨a', h1, h2⟩ := hback r _ hr
    cases a' with
    | stop => exact ⟨r, h1⟩
    | chunk c => cases h2
    | raised e => cases h2
  have hnoP : ∀ r e, (r, Ans.raised e) ∉ asP := by
    intro r e hr
    obtain ⟨a, h1, h2⟩ := hfor r _ hr
    cases a with
    | raised e' => exact hno r e' h1
    | stop => cases h2
    | chunk c => cases h2
  have hendP : ∀ r, (tP.loaders r).pending = [] := by
    intro r
    have hpd := congrArg (fun t : Train (Sess CKey) CKey (Option α) => (t.loaders r).pending) hmap
    simp only [mapTrain, hend r, List.map_nil] at hpd
    exact List.map_eq_nil_iff.mp hpd.symm
  obtain ⟨r, hr⟩ := hdb order hord fuel _ hread' size hsize b G N W dP hdP es hes hmix tP asP hP hstopP hnoP hendP row hrow hwanted
  obtain ⟨⟨i, p⟩, hmem, hpos⟩ := List.mem_map.mp hr
  simp only at hpos
  subst hpos
  obtain ⟨c, k', hc, hkc⟩ := given_chunk ckeyOps fuel _ hi hv b 0 G N W hdP hes hu r i _ (by rw [hP]; exact hmem)
  have hks := (hread' c hc).some.listed hkc
  obtain ⟨y, hyi, row', hrow', epos', func, rec, hst, hya⟩ := hlisted c hc k' _ hks
  have hrr : row' = row := List.inj_on_of_nodup_map hwf.keys hrow' hrow epos'
  subst hrr
  refine ⟨func, rec, hst, r, ?_⟩
  have hout := congrArg (fun t : Train (Sess CKey) CKey (Option α) => (t.loaders r).out) hmap
  simp only [mapTrain] at hout
  have : (i, item (row'.dataset, row'.file, row'.sample)) ∈ (t.loaders r).out.map fun x => (x.1, some x.2) := by
    rw [hout]; exact List.mem_map.mpr ⟨_, hmem, rfl⟩
  obtain ⟨⟨i', y'⟩, h1, h2⟩ := List.mem_map.mp this
  simp only [Prod.mk.injEq] at h2
  rw [hyi] at h2
  obtain ⟨-, h2⟩ := h2
  injection h2 with h2
  rw [← hya, ← h2]
  exact List.mem_map.mpr ⟨_, h1, rfl⟩

namespace Ex83

open Mixtera.Ex83

/-- Shuffles that change nothing. -/
def lib : RandomLib Unit := ⟨fun _ => (), fun _ _ => (Equiv.refl _, ())⟩

def args : StreamArgs := ⟨false, 1, "simple", 128, false, "", 0, 0⟩

/-- Two groups with one node and one worker each train on the German records in chunks of two: what they handed over. -/
def handed (es : List (TEv (MixOp CKey))) : Option (List (List String × Bool)) :=
  match Engine.result ⟨e2eLe, fun l => [l], id, 1⟩ id Mixtera.Ex83.db Mixtera.Ex83.chain with
  | .error _ => none
  | .ok (idx, m) =>
    match (Dist.init 2 1 1 (Sess.fresh ckeyOps idx idx.keys false 0 (arbView 2)) :
      Except Err (Dist (Sess CKey) (Parcel CKey PyStr))) with
    | .error _ => none
    | .ok d =>
      let read := readRecords lib (fun _ => 0) (fun _ => []) false (fun _ => true) args world Mixtera.Ex83.apply m (fun _ => 10) ()
      let t := ((Train.start d).run (resultSource ckeyOps 40 read) es).1
      some ([0, 1].map fun g => ((t.loaders ⟨g, 0, 0⟩).out.map fun x => String.ofList x.2, (t.loaders ⟨g, 0, 0⟩).ended))

/-- A loader asks for a chunk and hands over all of it. -/
def turn (g : Nat) : List (TEv (MixOp CKey)) := [.ask ⟨g, 0, 0⟩, .give ⟨g, 0, 0⟩, .give ⟨g, 0, 0⟩]

/-- Non-vacuity of `c83_training_run_partial` and `c83_training_complete_partial` (with the example of `TrainedCache`, which reaches
the state and executes the query): all conditions on the run hold, and the five German records are handed over, each once. -/
example : ValidArgs false (fun _ => true) args ∧ UsableMix (arbView 2 : MixView CKey) ∧
    (∀ e ∈ turn 0 ++ turn 1 ++ turn 1 ++ turn 0 ++ turn 1, e.Valid 2 1 (effWorkers 1)) ∧
    mixOps (turn 0 ++ turn 1 ++ turn 1 ++ turn 0 ++ turn 1) = [] ∧
    handed (turn 0 ++ turn 1 ++ turn 1 ++ turn 0 ++ turn 1) =
      some [(["fde1", "fde3"], true), (["fde4", "gde6", "gde7"], true)] := by
  refine ⟨⟨Or.inl rfl, by decide, by decide⟩, ⟨by decide, by decide, by decide⟩, ?_, rfl, by decide +kernel⟩
  intro e he
  simp only [turn, List.mem_append, List.mem_cons, List.not_mem_nil, or_false] at he
  rcases he with (((h | h) | h) | h) | h <;> rcases h with rfl | rfl | rfl <;> simp [TEv.Valid, effWorkers]

end Ex83

end Mixtera.Torch
