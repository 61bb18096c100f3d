import Verif.Props.TrainingRecords
import Verif.Props.RestartsComplete

/-!
# A training run on records, interrupted and continued (C83 with C79)

From the registered files to what the loaders hand over, over all lives of a job that is continued from checkpoints.
-/

set_option linter.unusedSectionVars false

namespace Mixtera.Torch

variable {K α β ρ R : Type} [DecidableEq K]

/-! ## The distributor alone does not look at the samples -/

theorem distRun_map {σ ι C C' : Type} (f : C → C') (S : Source σ ι C) (S' : Source σ ι C') (J : σ → List ι → Prop)
    (hpoke : ∀ s i l, J s (i :: l) → S'.poke i s = S.poke i s ∧ J (S.poke i s) l)
    (hfetch : ∀ s l, J s l → J (S.fetch s).1 l ∧ S'.fetch s = ((S.fetch s).1, mapFetch f (S.fetch s).2)) :
    ∀ (os : List (DOp ι)) (d : Dist σ C), J d.src (pokes os) →
      (mapDist f d).run S' os = (mapDist f (d.run S os).1, (d.run S os).2.map fun x => (x.1, mapAns f x.2))
  | [], d, _ => rfl
  | .ask r :: os, d, hJ => by
    have hJ' : J d.src (pokes os) := hJ
    obtain ⟨h1, h2⟩ := hfetch _ _ hJ'
    have h3 := nextChunkFor_map f S S' d r h2
    simp only [Dist.run, Dist.op, h3]
    have h4 : J (d.nextChunkFor S r).1.src (pokes os) := by
      rcases nextChunkFor_src S d r with h | h
      · rw [h]; exact hJ'
      · rw [h]; exact h1
    rw [distRun_map f S S' J hpoke hfetch os _ h4]
    simp
  | .poke i :: os, d, hJ => by
    obtain ⟨h1, h2⟩ := hpoke _ _ _ hJ
    simp only [Dist.run, Dist.op]
    have h3 : ({ mapDist f d with src := S'.poke i (mapDist f d).src } : Dist σ C') = mapDist f { d with src := S.poke i d.src } := by
      have : (mapDist f d).src = d.src := rfl
      rw [this, h1]
      rfl
    rw [h3, distRun_map f S S' J hpoke hfetch os _ h2]
    simp

theorem received_map {C C' : Type} (f : C → C') (as : List (DReq × Ans C)) (r : DReq) :
    received (as.map fun x => (x.1, mapAns f x.2)) r = (received as r).map f := by
  induction as with
  | nil => rfl
  | cons x as ih =>
    obtain ⟨r', a⟩ := x
    unfold received at ih ⊢
    rw [List.map_cons, List.filterMap_cons, List.filterMap_cons, ih]
    by_cases h : r' = r
    · cases a <;> simp [h, mapAns]
    · simp [h]

theorem samplesOf_map (f : α → β) (p : Parcel K α) : samplesOf (mapParcel f p) = (samplesOf p).map fun x => (x.1, f x.2) := by
  unfold samplesOf mapParcel onSnd
  simp only [← List.map_drop, List.map_map]
  rfl

theorem init_map {σ : Type} (f : α → β) {G N W : Nat} {src : σ} {d : Dist σ (Parcel K α)} {d' : Dist σ (Parcel K β)}
    (hd : Dist.init G N W src = .ok d) (hd' : Dist.init G N W src = .ok d') : mapDist (mapParcel f) d = d' := by
  unfold Dist.init at hd hd'
  split at hd
  · cases hd
  · rename_i hG
    rw [if_neg hG] at hd'
    injection hd with hd
    injection hd' with hd'
    subst hd
    subst hd'
    rfl

theorem dist_reading {γ : Type} (ops : KeyOps K) (fuel : Nat) {index : Dict K Entries} {order : List K}
    (hi : IndexOk index order) (f : α → γ) (read : RChunk K → List (K × α)) (read' : RChunk K → List (K × γ))
    (hr : ∀ c, Deliverable ops index order c → onSnd f (read c) = read' c)
    {v : MixView K} (hv : UsableMix v) (b : Bool) (ref G N W : Nat)
    {d : Dist (Sess K) (Parcel K α)} (hd : Dist.init G N W (Sess.fresh ops index order b ref v) = .ok d)
    {d' : Dist (Sess K) (Parcel K γ)} (hd' : Dist.init G N W (Sess.fresh ops index order b ref v) = .ok d')
    {os : List (DOp (MixOp K))} (hu : UsableOps (index.keys ++ v.rows.keys) (pokes os)) :
    (d'.run (resultSource ops fuel read') os).2 = mapAnswers f (d.run (resultSource ops fuel read) os).2 := by
  rw [← init_map f hd hd']
  have hsrc : d.src = Sess.fresh ops index order b ref v := by
    unfold Dist.init at hd
    split at hd
    · cases hd
    · cases hd; rfl
  have hJ : RunJ ops index order d.src (pokes os) := by
    rw [hsrc]
    exact ⟨_, [], runInv_fresh ops b ref v hv, hu⟩
  have hfetch : ∀ s l, RunJ ops index order s l → RunJ ops index order ((resultSource ops fuel read).fetch s).1 l ∧
      (resultSource ops fuel read').fetch s = (((resultSource ops fuel read).fetch s).1,
        mapFetch (mapParcel f) ((resultSource ops fuel read).fetch s).2) := by
    intro s l h
    obtain ⟨h1, h2⟩ := runJ_fetch ops fuel hi read s l h
    refine ⟨h1, handOver_map f read read' _ _ ?_⟩
    rintro c hc ⟨p, hp⟩
    exact hr c (h2 c p hc hp)
  rw [distRun_map (mapParcel f) (resultSource ops fuel read) (resultSource ops fuel read') (RunJ ops index order)
    (fun s i l h => ⟨rfl, runJ_poke ops fuel s i l h⟩) hfetch os d hJ]

/-- Two readings with a common image: the distributors' answers are the same up to that. -/
theorem dist_items (ops : KeyOps K) (fuel : Nat) {index : Dict K Entries} {order : List K} (hi : IndexOk index order)
    (item : Pos → Option α) (read : RChunk K → List (K × α)) (readP : RChunk K → List (K × Pos))
    (hr : ∀ c, Deliverable ops index order c → onSnd some (read c) = onSnd item (readP c))
    {v : MixView K} (hv : UsableMix v) (b : Bool) (ref G N W : Nat)
    {d : Dist (Sess K) (Parcel K α)} (hd : Dist.init G N W (Sess.fresh ops index order b ref v) = .ok d)
    {os : List (DOp (MixOp K))} (hu : UsableOps (index.keys ++ v.rows.keys) (pokes os)) :
    ∃ dP : Dist (Sess K) (Parcel K Pos), Dist.init G N W (Sess.fresh ops index order b ref v) = .ok dP ∧
      mapAnswers some (d.run (resultSource ops fuel read) os).2 = mapAnswers item (dP.run (resultSource ops fuel readP) os).2 := by
  have hG : ¬ G < 1 := by
    intro h
    unfold Dist.init at hd
    rw [if_pos h] at hd
    cases hd
  obtain ⟨dP, hdP⟩ : ∃ dP : Dist (Sess K) (Parcel K Pos),
      Dist.init G N W (Sess.fresh ops index order b ref v) = .ok dP := by
    unfold Dist.init; rw [if_neg hG]; exact ⟨_, rfl⟩
  obtain ⟨dO, hdO⟩ : ∃ dO : Dist (Sess K) (Parcel K (Option α)),
      Dist.init G N W (Sess.fresh ops index order b ref v) = .ok dO := by
    unfold Dist.init; rw [if_neg hG]; exact ⟨_, rfl⟩
  have h1 := dist_reading ops fuel hi some read (fun c => onSnd item (readP c)) hr hv b ref G N W hd hdO hu
  have h2 := dist_reading ops fuel hi item readP (fun c => onSnd item (readP c)) (fun _ _ => rfl) hv b ref G N W hdP hdO hu
  exact ⟨dP, hdP, h1.symm.trans h2⟩

/-- What the answers hold for a loader, with mapped samples. -/
theorem got_map (f : α → β) (as : List (DReq × Ans (Parcel K α))) (r : DReq) :
    (received (mapAnswers f as) r).flatMap samplesOf = ((received as r).flatMap samplesOf).map fun x => (x.1, f x.2) := by
  rw [received_map, List.flatMap_map, List.map_flatMap]
  simp only [samplesOf_map]

/-! ## What a distributor hands out -/

/-- All that a distributor on a fresh query result hands out: each position at most once per loader, different positions for
different groups or worker numbers, and every number stands for a key. -/
theorem dist_delivers (ops : KeyOps K) (fuel : Nat) {index : Dict K Entries} {order : List K} (hi : IndexOk index order)
    (hn : (contentSamples index).Nodup) (read : RChunk K → List (K × Pos))
    (hr : ∀ c, Deliverable ops index order c → ReadsSome read c)
    {v : MixView K} (hv : UsableMix v) (b : Bool) (ref G N workers : Nat)
    {d : Dist (Sess K) (Parcel K Pos)} (hd : Dist.init G N workers (Sess.fresh ops index order b ref v) = .ok d)
    {os : List (DOp (MixOp K))} (hos : ∀ o ∈ os, o.Valid G N (effWorkers workers))
    (hu : UsableOps (index.keys ++ v.rows.keys) (pokes os)) (got : DReq → List (Nat × Pos))
    (hgot : got = fun r => (received (d.run (resultSource ops fuel read) os).2 r).flatMap samplesOf) :
    ∃ ids : Dict K Nat, (∀ k k' i, ids.get? k = some i → ids.get? k' = some i → k = k') ∧
      (∀ r, ((got r).map Prod.snd).Nodup) ∧
      (∀ r r', r.group ≠ r'.group ∨ r.worker ≠ r'.worker → ∀ p, p ∈ (got r).map Prod.snd → p ∉ (got r').map Prod.snd) ∧
      ∀ r i p, (i, p) ∈ got r → ∃ c k, Deliverable ops index order c ∧ (k, p) ∈ read c ∧ ids.get? k = some i ∧
        ∃ comp e, (comp, e) ∈ index ∧ p ∈ entriesSamples e ∧ (comp = k ∨ ops.isMatch k comp = true) := by
  obtain ⟨log, known, done, src, hinv, hf, hown⟩ := dist_log ops fuel read hi hv b ref G N workers hd hos hu
  have hskip : ∀ p ∈ log.map Prod.snd, p.skip = 0 := by
    intro p hp
    obtain ⟨c, _, hc⟩ := forall₂_exists hf hp
    exact hc.skip
  have htaken : ((log.map Prod.snd).flatMap fun p => p.source.map Prod.snd).Subperm (contentSamples index) := by
    have hp := parcel_samples hf fun c hc => hr c (hinv.all c hc)
    obtain ⟨history, hh, _, hdone⟩ := hinv.hist
    have hc := c04_delivered_subperm ops false index order hi history hh
    rw [chunksOf_samples, hdone] at hc
    exact hp.trans hc
  have hnd : ((log.map Prod.snd).flatMap fun p => p.source.map Prod.snd).Nodup := by
    obtain ⟨l, hl, hs⟩ := htaken
    exact hl.nodup_iff.mp (hs.nodup hn)
  have hsub0 : ∀ r, (got r).Sublist ((ownedBy log r.group r.worker).flatMap samplesOf) := by
    intro r
    rw [hgot]
    exact flatMap_sublist _ (hown r).sublist
  have hsub : ∀ r, ((got r).map Prod.snd).Sublist ((ownedBy log r.group r.worker).flatMap fun p => p.source.map Prod.snd) := by
    intro r
    have e : ((ownedBy log r.group r.worker).flatMap samplesOf).map Prod.snd =
        (ownedBy log r.group r.worker).flatMap fun p => p.source.map Prod.snd := by
      rw [List.map_flatMap]
      apply List.flatMap_congr
      intro p hp
      exact samplesOf_snd (hskip p ((ownedBy_sublist log r.group r.worker).subset hp))
    rw [← e]
    exact (hsub0 r).map Prod.snd
  refine ⟨src.keyIds, ?_, fun r => ((hsub r).trans (flatMap_sublist _ (ownedBy_sublist log r.group r.worker))).nodup hnd, ?_, ?_⟩
  · intro k k' i h1 h2
    have hvn : src.keyIds.values.Nodup := by rw [hinv.ids.ok.values]; exact List.nodup_range
    exact c79_key_ids.ids_inj hvn h1 h2
  · intro r r' hne p h1 h2
    rw [List.flatMap_map, List.nodup_flatMap] at hnd
    have own : ∀ r, p ∈ (got r).map Prod.snd → ∃ e ∈ log, e.1.group = r.group ∧ e.1.worker = r.worker ∧
        p ∈ e.2.source.map Prod.snd := by
      intro r hp
      have h1 := (hsub r).subset hp
      rw [List.mem_flatMap] at h1
      obtain ⟨c, hc, hpc⟩ := h1
      obtain ⟨q, hq, e1, e2⟩ := mem_ownedBy hc
      exact ⟨(q, c), hq, e1, e2, hpc⟩
    obtain ⟨e, he, e1, e2, hp1⟩ := own r h1
    obtain ⟨e', he', e1', e2', hp2⟩ := own r' h2
    have hdiff : e ≠ e' := by
      rintro rfl
      exact hne.elim (fun x => x (e1.symm.trans e1')) (fun x => x (e2.symm.trans e2'))
    exact pairwise_disjoint hnd.2 he he' hdiff hp1 hp2
  · intro r i p hp
    have h1 := (hsub0 r).subset hp
    rw [List.mem_flatMap] at h1
    obtain ⟨q, hq, hpq⟩ := h1
    obtain ⟨c, hc, hpc⟩ := forall₂_exists hf ((ownedBy_sublist log r.group r.worker).subset hq)
    have hdel := hinv.all c hc
    unfold samplesOf at hpq
    rw [hpc.skip, List.drop_zero, hpc.source, List.mem_map] at hpq
    obtain ⟨⟨k, p'⟩, hk, heq⟩ := hpq
    simp only [Prod.mk.injEq] at heq
    obtain ⟨hidx, rfl⟩ := heq
    subst hidx
    have hks := (hr c hdel).listed hk
    have hkc : k ∈ c.content.keys := by
      by_contra hk'
      have : c.content.get? k = none := by
        cases hg : c.content.get? k with
        | none => rfl
        | some x => exact absurd ((Dict.mem_keys_iff c.content k).mpr ⟨x, hg⟩) hk'
      simp [keySamples, this, entriesSamples] at hks
    refine ⟨c, k, hdel, hk, hpc.keyId k hkc, ?_⟩
    obtain ⟨history, rq, g', hh, hus, hsend⟩ := hdel
    obtain ⟨comp, e, h1, h2, h3⟩ := c05_listed_under_matching_key ops false index order hi history hh rq
      (fun i => (hus i).keys) _ g' c rfl hsend k p' hks
    refine ⟨comp, e, h1, h2, ?_⟩
    split at h3
    · exact Or.inl h3
    · exact Or.inr h3

/-- A sublist of the left side has a counterpart in the right side. -/
theorem forall₂_sublist {A B : Type} {P : A → B → Prop} {l : List A} {l' : List B} (h : List.Forall₂ P l l') :
    ∀ {s : List A}, s.Sublist l → ∃ s', s'.Sublist l' ∧ List.Forall₂ P s s' := by
  induction h with
  | nil => intro s hs; rw [List.sublist_nil.mp hs]; exact ⟨[], List.Sublist.refl _, .nil⟩
  | cons hab _ ih =>
    intro s hs
    cases hs with
    | cons _ hs => obtain ⟨s', h1, h2⟩ := ih hs; exact ⟨s', h1.cons _, h2⟩
    | cons_cons _ hs => obtain ⟨s', h1, h2⟩ := ih hs; exact ⟨_, h1.cons_cons _, .cons hab h2⟩

/-! ## Records over restarts -/

/-- **C83** (restarts). As `c83_training_run_partial`, for a job that is interrupted any number of times and each time continued
from a checkpoint: what the loaders have handed over, over all lives together, are records of the registered files, each at most
once. What is counted are the items before the checkpoints from which the job was continued, except for the very last one before
each checkpoint, which a loader may hand over again; the numbers that come with the items stand for the same keys in all lives.

`_partial`: as `c83_through_cache_partial`; one reader process per chunk; the conditions of a restart, see `Lives` (for the query
result they follow from `c79_restored_source_partial`). -/
theorem c83_restarts_partial (w : FileWorld β ρ) (hw : w.Faithful) (Made : RegCall ρ → Prop)
    (hmade : ∀ k, Made k → ∀ p, k.parser = some p → p.Proper) (e : Engine) (he : e.OK)
    (enum : List Nat → List Nat) (henum : ∀ l, (enum l).Perm l) (dirHash : PyStr → PyStr)
    (listing : List (CacheDir ResultPair) → List (CacheDir ResultPair)) (ho : ∀ l d, d ∈ listing l ↔ d ∈ l)
    (s : Sys ResultPair) (hs : SysReach w Made (e.resultCached enum dirHash listing) s)
    (q : SelectChain) (hp : ReadableDb s.db) (hq : GoodQuery s.db (q.1 :: q.2)) (found : ResultPair)
    (hrun : ((executeQuery (e.resultCached enum dirHash listing) q).run s).2 = .ok found) (apply : PyStr → ρ → α) :
    ∃ idx m, found = .ok (idx, m) ∧
      ∀ (order : List CKey), order.Perm idx.keys → ∀ (fuel : Nat)
        (lib : RandomLib R) (hash : PyStr → Nat) (text : CKey → PyStr) (isStub : Bool) (loads : Nat → Bool) (args : StreamArgs)
        (steps : RChunk CKey → Nat) (rnd : R) (read : RChunk CKey → List (CKey × α)),
        read = readRecords lib hash text isStub loads args w apply m steps rnd →
        ∀ (v : MixView CKey), UsableMix v → ∀ (stopOnNone : Bool) (ref groups nodes workers : Nat), 0 < nodes →
        ∀ d : Dist (Sess CKey) (Parcel CKey α),
        Dist.init groups nodes workers (Sess.fresh ckeyOps idx order stopOnNone ref v) = .ok d →
        ∀ (t : Train (Sess CKey) CKey α) (last : DReq → Option (Parcel CKey α)) (kept : DReq → List (Nat × α))
          (mixes : List (MixOp CKey)),
        Lives (resultSource ckeyOps fuel read) groups nodes (effWorkers workers) d t last kept mixes →
        UsableOps (idx.keys ++ v.rows.keys) mixes →
        ∃ ids : Dict CKey Nat, (∀ k k' i, ids.get? k = some i → ids.get? k' = some i → k = k') ∧
          HandsOverRecords w Made s.db (q.1 :: q.2) apply ids fun r => kept r ++ (t.loaders r).out := by
  obtain ⟨idx, m, sel, item, hfound, hsel, hqi, hwf, hcore⟩ := records_reading (R := R) w hw Made hmade e he enum henum dirHash
    listing ho s hs q hp hq found hrun apply
  refine ⟨idx, m, hfound, ?_⟩
  intro order hord fuel lib hash text isStub loads args steps rnd read hread v hv b ref G N W hN d hd t last kept mixes hlives hu
  obtain ⟨hi, hlisted, hsame⟩ := hcore order hord
  obtain ⟨idx'', keptVals, hidx'', -, -, hnd, -, hks⟩ := c63_index_value_orders s.db hwf hp (q.1 :: q.2) hq sel hsel e.leG he.order e.split
    he.batches e.reorder he.maps e.threads he.threads
  rw [hqi] at hidx''
  injection hidx'' with hidx''
  subst hidx''
  obtain ⟨os, g1, g2, g3⟩ := hlives.virtual hN hd [] (by simp)
  simp only [pokes, List.append_nil] at g2
  rw [← g2] at hu
  subst hread
  obtain ⟨dP, hdP, hans⟩ := dist_items ckeyOps fuel hi item _ (readWith lib hash text isStub loads args id steps rnd)
    (hsame lib hash text isStub loads args steps rnd) hv b ref G N W hd hu
  have hread' := c79_any_reading lib hash text ckeyOps idx order hi isStub loads args steps rnd
  obtain ⟨ids, d0, d1, d2, d3⟩ := dist_delivers ckeyOps fuel hi hnd _ hread' hv b ref G N W hdP g1 hu _ rfl
  refine ⟨ids, d0, ?_⟩
  have hpair : ∀ r, ∃ s' : List (Nat × Pos), s'.Sublist ((received (dP.run (resultSource ckeyOps fuel
      (readWith lib hash text isStub loads args id steps rnd)) os).2 r).flatMap samplesOf) ∧
      List.Forall₂ (fun (x : Nat × α) (y : Nat × Pos) => (x.1, some x.2) = (y.1, item y.2)) (kept r ++ (t.loaders r).out) s' := by
    intro r
    have h1 := congrArg (fun as => (received as r).flatMap samplesOf) hans
    simp only [got_map] at h1
    refine forall₂_sublist ((forall₂_of_maps h1).imp fun _ _ h => h.1) (List.Sublist.trans ?_ (g3 r))
    rw [List.append_assoc, List.append_assoc]
    exact (List.Sublist.refl _).append (List.sublist_append_left _ _)
  choose pos hsub hpos using hpair
  refine ⟨fun r => (pos r).map Prod.snd, fun r => ((hsub r).map Prod.snd).nodup (d1 r), ?_, ?_⟩
  · intro r r' hne p h1 h2
    exact d2 r r' hne p (((hsub r).map Prod.snd).subset h1) (((hsub r').map Prod.snd).subset h2)
  intro r
  rw [List.forall₂_map_right_iff]
  have hmem : List.Forall₂ (fun (x : Nat × α) (y : Nat × Pos) => (x.1, some x.2) = (y.1, item y.2) ∧ y ∈ pos r)
      (kept r ++ (t.loaders r).out) (pos r) := forall₂_of_maps (by
    have : ∀ {l : List (Nat × α)} {l' : List (Nat × Pos)},
        List.Forall₂ (fun (x : Nat × α) (y : Nat × Pos) => (x.1, some x.2) = (y.1, item y.2)) l l' →
        l.map (fun x => (x.1, some x.2)) = l'.map fun y => (y.1, item y.2) := by
      intro l l' h
      induction h with
      | nil => rfl
      | cons h _ ih => simp only [List.map_cons, ih, h]
    exact this (hpos r))
  refine hmem.imp ?_
  rintro ⟨i, y⟩ ⟨j, p⟩ ⟨hxy, hin⟩
  simp only [Prod.mk.injEq] at hxy
  obtain ⟨rfl, hy⟩ := hxy
  obtain ⟨c, k, hc, hkc, hid, comp, en, hcomp, hpe, hmatch⟩ := d3 r i p ((hsub r).subset hin)
  have hkl := (hread' c hc).listed hkc
  obtain ⟨y', hyi, row', hrow', epos', func, rec, hst, hya⟩ := hlisted c hc k p hkl
  have hpc : p ∈ keySamples idx comp := by
    unfold keySamples; rw [Dict.get?_of_mem hi.keys hcomp]; exact hpe
  obtain ⟨row, hrow, er, hw', hhas, -⟩ := (hks comp p).mp hpc
  have hrr : row' = row := List.inj_on_of_nodup_map hwf.keys hrow' hrow (by
    show (row'.dataset, row'.file, row'.sample) = (row.dataset, row.file, row.sample)
    rw [epos', er])
  subst hrr
  refine ⟨row', hrow, er, hw', ⟨k, hid, described hhas hmatch⟩, func, rec, hst, ?_⟩
  rw [hyi] at hy
  injection hy with hy
  rw [hy, hya]

/-- **C83** (restarts, completeness). With ArbitraryMixture, no mixture changes and the chunk reading type `"simple"`: if a job that
was interrupted any number of times, and each time continued from a checkpoint, is run to the end - every loader was told that the
stream is over and has handed over all it received, and no request failed -, then every registered record whose row satisfies the
query was handed over in some life, before the checkpoint from which the job was then continued, or in the last life.
`_partial`: as `c83_restarts_partial`; for the conditions of a restart see `SmoothLives`. -/
theorem c83_restarts_complete_partial (w : FileWorld β ρ) (hw : w.Faithful) (Made : RegCall ρ → Prop)
    (hmade : ∀ k, Made k → ∀ p, k.parser = some p → p.Proper) (e : Engine) (he : e.OK)
    (enum : List Nat → List Nat) (henum : ∀ l, (enum l).Perm l) (dirHash : PyStr → PyStr)
    (listing : List (CacheDir ResultPair) → List (CacheDir ResultPair)) (ho : ∀ l d, d ∈ listing l ↔ d ∈ l)
    (s : Sys ResultPair) (hs : SysReach w Made (e.resultCached enum dirHash listing) s)
    (q : SelectChain) (hp : ReadableDb s.db) (hone : OneOrder s.db (q.1 :: q.2)) (hq : GoodQuery s.db (q.1 :: q.2)) (found : ResultPair)
    (hrun : ((executeQuery (e.resultCached enum dirHash listing) q).run s).2 = .ok found) (apply : PyStr → ρ → α) :
    ∃ idx m, found = .ok (idx, m) ∧
      ∀ (order : List CKey), order.Perm idx.keys → ∀ (fuel : Nat)
        (lib : RandomLib R) (hash : PyStr → Nat) (text : CKey → PyStr) (isStub : Bool) (loads : Nat → Bool) (args : StreamArgs),
        ValidArgs isStub loads args → args.mixtureType = "simple" → ∀ (steps : RChunk CKey → Nat),
        (∀ c, (contentSamples c.content).length + 1 ≤ steps c) → ∀ (rnd : R) (read : RChunk CKey → List (CKey × α)),
        read = readRecords lib hash text isStub loads args w apply m steps rnd →
        ∀ (size : Nat), 0 < size → ∀ (stopOnNone : Bool) (groups nodes workers : Nat), 0 < groups → 0 < nodes →
        ∀ d : Dist (Sess CKey) (Parcel CKey α),
        Dist.init groups nodes workers (Sess.fresh ckeyOps idx order stopOnNone 0 (arbView size)) = .ok d →
        ∀ (t0 : Train (Sess CKey) CKey α) (last : DReq → Option (Parcel CKey α)) (kept : DReq → List (Nat × α)),
        SmoothLives (resultSource ckeyOps fuel read) groups nodes (effWorkers workers) d t0 last kept [] →
        ∀ es : List (TEv (MixOp CKey)), (∀ e ∈ es, e.Valid groups nodes (effWorkers workers)) → mixOps es = [] →
        ∀ (t : Train (Sess CKey) CKey α) (as : List (DReq × Ans (Parcel CKey α))),
        t0.run (resultSource ckeyOps fuel read) es = (t, as) →
        (∀ r : DReq, r.group < groups → r.node < nodes → r.worker < effWorkers workers → (r, Ans.stop) ∈ as) →
        (∀ r e, (r, Ans.raised e) ∉ as) → (∀ r, (t.loaders r).pending = []) →
        ∀ row ∈ s.db.samples, row.Wanted (q.1 :: q.2) →
          ∃ func rec, StandsFor w Made s.db row func rec ∧ ∃ r, apply func rec ∈ (kept r ++ (t.loaders r).out).map Prod.snd := by
  obtain ⟨idx, m, sel, item, hfound, hsel, hqi, hwf, hcore⟩ := records_reading (R := R) w hw Made hmade e he enum henum dirHash
    listing ho s hs q hp hq found hrun apply
  refine ⟨idx, m, hfound, ?_⟩
  intro order hord fuel lib hash text isStub loads args hargs hsimple steps hsteps rnd read hread size hsize b G N W hG hN d hd t0
    last kept h es hes hmix t as ht hstop hno hend row hrow hwanted
  obtain ⟨hi, hlisted, hsame⟩ := hcore order hord
  obtain ⟨idx'', texts, hidx'', -, hnd, hkeys, hch, hks⟩ := c63_index_any_values s.db hwf hp.types (q.1 :: q.2) hq sel hsel e.leG
    he.order e.split he.batches e.reorder he.maps e.threads he.threads
  rw [hqi] at hidx''
  injection hidx'' with hidx''
  subst hidx''
  have hv : UsableMix (arbView size : MixView CKey) := ⟨List.nodup_nil, by simp [arbView], fun _ => hsize⟩
  obtain ⟨later, h1, h2, h3, -⟩ := run_dist (resultSource ckeyOps fuel read) es t0
  rw [ht] at h3
  have hlater : ∀ o ∈ later, o.Valid G N (effWorkers W) := valid_of_sublist hes h1
  have hW : 0 < effWorkers W := by unfold effWorkers; split <;> omega
  obtain ⟨os, g1, g2, g3, g4, g5⟩ := h.covered hN hd later hlater (by rw [h3]; exact hno)
  rw [h3] at g4 g5
  have hpk : pokes os = [] := by rw [g2, h2, pokes_requests, hmix]; rfl
  subst hread
  obtain ⟨dP, hdP, hans⟩ := dist_items ckeyOps fuel hi item _ (readWith lib hash text isStub loads args id steps rnd)
    (hsame lib hash text isStub loads args steps rnd) hv b 0 G N W hd (os := os) (by rw [hpk]; trivial)
  have hread' := c79_simple_reading lib hash text ckeyOps idx order hi isStub loads args hargs hsimple steps hsteps rnd
  generalize hP : (dP.run (resultSource ckeyOps fuel (readWith lib hash text isStub loads args id steps rnd)) os).2 = asP at hans
  have hstopP : ∃ r, (r, Ans.stop) ∈ asP := by
    have : ((⟨0, 0, 0⟩ : DReq), mapAns (mapParcel some) Ans.stop) ∈ mapAnswers (K := CKey) (some : α → Option α) _ :=
      List.mem_map.mpr ⟨_, g4 _ (hstop ⟨0, 0, 0⟩ hG hN hW), rfl⟩
    rw [hans] at this
    obtain ⟨⟨r', a'⟩, e1, e2⟩ := List.mem_map.mp this
    cases a' with
    | stop => exact ⟨r', e1⟩
    | chunk c => simp [mapAns] at e2
    | raised e => simp [mapAns] at e2
  have hnoP : ∀ r e, (r, Ans.raised e) ∉ asP := by
    intro r e hr
    have : (r, mapAns (mapParcel item) (Ans.raised e)) ∈ mapAnswers item asP := List.mem_map.mpr ⟨_, hr, rfl⟩
    rw [← hans] at this
    obtain ⟨⟨r', a'⟩, e1, e2⟩ := List.mem_map.mp this
    cases a' with
    | stop => simp [mapAns] at e2
    | chunk c => simp [mapAns] at e2
    | raised e' => exact g3 r' e' e1
  -- the position of the row
  have hcont : (row.dataset, row.file, row.sample) ∈ contentSamples idx := by
    rw [mem_contentSamples hi.keys]
    obtain ⟨h4, r', hr', hw', h5⟩ := hch _ ((hkeys _).mpr ⟨row, hrow, hwanted, rfl⟩)
    refine ⟨_, (hks _ _).mpr ⟨row, hrow, rfl, hwanted, rfl, ?_⟩⟩
    rw [← h5]
    exact hp.textsDistinct hone row hrow r' hr' hwanted hw' (by rw [h5, h4])
  obtain ⟨r, hg, hn, hw', hin⟩ := dist_complete ckeyOps fuel hi _ hread' hsize hdP g1 hpk (by rw [hP]; exact hstopP)
    (by rw [hP]; exact hnoP) _ hcont
  rw [hP] at hin
  obtain ⟨⟨i, p⟩, hx, hpp⟩ := List.mem_map.mp hin
  simp only at hpp
  subst hpp
  -- the chunk it came from
  obtain ⟨ids, -, -, -, d3⟩ := dist_delivers ckeyOps fuel hi hnd _ (fun c hc => (hread' c hc).some) hv b 0 G N W hdP g1
    (by rw [hpk]; trivial) _ rfl
  obtain ⟨c, k, hc, hkc, -⟩ := d3 r i _ (by rw [hP]; exact hx)
  obtain ⟨y, hyi, row', hrow', epos', func, rec, hst, hya⟩ := hlisted c hc k _ ((hread' c hc).some.listed hkc)
  have hrr : row' = row := List.inj_on_of_nodup_map hwf.keys hrow' hrow epos'
  subst hrr
  refine ⟨func, rec, hst, ?_⟩
  have hgot := congrArg (fun as => (received as r).flatMap samplesOf) hans
  simp only [got_map] at hgot
  have hmem : (i, item (row'.dataset, row'.file, row'.sample)) ∈ ((received asP r).flatMap samplesOf).map fun x => (x.1, item x.2) :=
    List.mem_map.mpr ⟨_, hx, rfl⟩
  rw [← hgot] at hmem
  obtain ⟨⟨i', y'⟩, hx', hxy⟩ := List.mem_map.mp hmem
  simp only [Prod.mk.injEq] at hxy
  rw [hyi] at hxy
  obtain ⟨rfl, hxy⟩ := hxy
  injection hxy with hxy
  subst hxy
  rw [← hya]
  have hasked : DOp.ask r ∈ later := answered_asked (resultSource ckeyOps fuel _) later t0.dist r .stop (by
    rw [h3]; exact hstop r hg hn hw')
  have hst' := run_stream (resultSource ckeyOps fuel (readRecords lib hash text isStub loads args w apply m steps rnd)) es t0 r
  rw [ht] at hst'
  simp only [hend r, List.map_nil, List.append_nil] at hst'
  rcases g5 r hg hn hw' (Or.inr hasked) _ hx' with ⟨n, _, hx⟩ | hx | hx
  · exact ⟨⟨r.group, n, r.worker⟩, List.mem_map.mpr ⟨_, List.mem_append_left _ hx, rfl⟩⟩
  · exact ⟨r, List.mem_map.mpr ⟨_, List.mem_append_right _ (by rw [hst']; exact List.mem_append_left _ hx), rfl⟩⟩
  · exact ⟨r, List.mem_map.mpr ⟨_, List.mem_append_right _ (by rw [hst']; exact List.mem_append_right _ hx), rfl⟩⟩

namespace Ex83

open Mixtera.Ex83

/-- The only loader of a small job. -/
def r0 : DReq := ⟨0, 0, 0⟩

/-- The query result and its metadata. -/
def result : Dict CKey Entries × ResultMeta :=
  match Engine.result ⟨e2eLe, fun l => [l], id, 1⟩ id Mixtera.Ex83.db Mixtera.Ex83.chain with
  | .ok x => x
  | .error _ => ([], ⟨[], [], [], 0⟩)

def reading : RChunk CKey → List (CKey × PyStr) :=
  readRecords lib (fun _ => 0) (fun _ => []) false (fun _ => true) args world Mixtera.Ex83.apply result.2 (fun _ => 10) ()

/-- One loader that trains on the German records in chunks of three. -/
def small : Dist (Sess CKey) (Parcel CKey PyStr) :=
  ⟨1, 1, 1, Sess.fresh ckeyOps result.1 result.1.keys false 0 (arbView 3), fun _ => [], fun _ => [], fun _ _ w => w⟩

def src : Source (Sess CKey) (MixOp CKey) (Parcel CKey PyStr) := resultSource ckeyOps 40 reading

/-- Two records are handed over; then the job is interrupted. -/
def first : Train (Sess CKey) CKey PyStr × List (DReq × Ans (Parcel CKey PyStr)) :=
  (Train.start small).run src [.ask r0, .give r0, .give r0]

/-- The job is continued from a checkpoint and runs to the end. -/
def second : Option (Train (Sess CKey) CKey PyStr) :=
  match first.1.dist.persist Parcel.setSkip (maxStatus (reports first.1 1 1)),
    fromCache ckeyOps 40 first.1.dist.src.mixRef first.1.dist.src.toCache with
  | .ok s, .ok r => some (Train.start (s.restore r))
  | _, _ => none

def rest : List (TEv (MixOp CKey)) := [.ask r0, .give r0, .give r0, .ask r0, .give r0, .give r0, .ask r0]

def texts (t : Train (Sess CKey) CKey PyStr) : List String := (t.loaders r0).out.map fun x => String.ofList x.2

/-- The second record is the very last one before the checkpoint and is handed over again. -/
example : texts first.1 = ["fde1", "fde3"] ∧
    second.map (fun t => texts (t.run src rest).1) = some ["fde3", "fde4", "gde6", "gde7"] := by
  decide +kernel

/-- Restoring the query result after its first chunk. -/
theorem restored {α : Type} (ops : KeyOps K) (fuel : Nat) (hf : 0 < fuel) (read : RChunk K → List (K × α)) (index : Dict K Entries)
    (order : List K) (size : Nat) (s : Sess K) (hs : s = ((Sess.fresh ops index order false 0 (arbView size)).next ops fuel).1)
    (hc : ((Sess.fresh ops index order false 0 (arbView size)).next ops fuel).2.isChunk = true) :
    ∃ r, fromCache ops fuel s.mixRef s.toCache = .ok r ∧ SrcEq (resultSource ops fuel read) s r := by
  obtain ⟨r, hr, hsrc, -⟩ := c79_restored_source_partial ops fuel hf read index order false 0 (arbView size) List.nodup_nil
    [.next] (by intro o ho; simp at ho; subst ho; trivial) _ s rfl hs (by
      intro o ho
      have : o = ((Sess.fresh ops index order false 0 (arbView size)).next ops fuel).2 := by simpa [Sess.run, Sess.op] using ho
      rw [this]; exact hc) trivial (by
      intro v hv
      have : v = (arbView size : MixView K) := by
        have := Option.some.inj hv
        exact this.symm
      subst this
      subst hs
      unfold Sess.next
      split <;> rfl)
  exact ⟨r, hr, hsrc⟩

/-- The state of the query result when one chunk was taken. -/
theorem taken {α : Type} (ops : KeyOps K) (fuel : Nat) (read : RChunk K → List (K × α)) (s : Sess K)
    (cs : List (TEv (MixOp K))) (hcs : ∀ e ∈ cs, ∃ r, e = .give r) :
    ((Train.start (⟨1, 1, 1, s, fun _ => [], fun _ => [], fun _ _ w => w⟩ : Dist (Sess K) (Parcel K α))).run
      (resultSource ops fuel read) (.ask r0 :: cs)).1.dist.src = (handOver read (s.next ops fuel).1 (s.next ops fuel).2).1 := by
  have give : ∀ (cs : List (TEv (MixOp K))), (∀ e ∈ cs, ∃ r, e = .give r) → ∀ t : Train (Sess K) K α,
      (t.run (resultSource ops fuel read) cs).1.dist = t.dist := by
    intro cs
    induction cs with
    | nil => intro _ t; rfl
    | cons e cs ih =>
      intro hcs t
      obtain ⟨r, rfl⟩ := hcs e (by simp)
      simp only [Train.run]
      rw [ih (fun e he => hcs e (by simp [he]))]
      simp only [Train.step]
      split <;> rfl
  simp only [Train.run]
  rw [give cs hcs]
  have h1 : ((Train.start (⟨1, 1, 1, s, fun _ => [], fun _ => [], fun _ _ w => w⟩ : Dist (Sess K) (Parcel K α))).step
      (resultSource ops fuel read) (.ask r0)).1.dist.src =
      ((⟨1, 1, 1, s, fun _ => [], fun _ => [], fun _ _ w => w⟩ : Dist (Sess K) (Parcel K α)).nextChunkFor
        (resultSource ops fuel read) r0).1.src := by
    simp only [Train.step, Train.start, Loader.fresh]
    rw [if_pos (by simp)]
    cases (Dist.nextChunkFor (resultSource ops fuel read)
      (⟨1, 1, 1, s, fun _ => [], fun _ => [], fun _ _ w => w⟩ : Dist (Sess K) (Parcel K α)) r0).2 <;> rfl
  rw [h1]
  unfold Dist.nextChunkFor
  rw [if_pos ⟨Nat.one_pos, Nat.one_pos, Nat.one_pos⟩]
  simp only [Dict.get?]
  rcases hh : (resultSource ops fuel read).fetch s with ⟨s', x⟩
  have h2 : (handOver read (s.next ops fuel).1 (s.next ops fuel).2).1 = s' := congrArg Prod.fst hh
  rw [h2]
  cases x with
  | chunk c => rfl
  | stop => rfl
  | raised e => rfl

/-- Non-vacuity of `c83_restarts_partial`: the job that is continued is one of its histories. -/
example : (Dist.init 1 1 1 (Sess.fresh ckeyOps result.1 result.1.keys false 0 (arbView 3)) :
      Except Err (Dist (Sess CKey) (Parcel CKey PyStr))) = .ok small ∧
    ∃ t last kept, Lives src 1 1 (effWorkers 1) small t last kept [] ∧
      ((kept r0 ++ (t.loaders r0).out).map fun x => String.ofList x.2) = ["fde1", "fde3", "fde4", "gde6", "gde7"] := by
  refine ⟨rfl, ?_⟩
  have hlife : Lives src 1 1 (effWorkers 1) small first.1 (lastReceived (fun _ => none) first.2) (fun _ => []) [] :=
    Lives.events _ _ _ _ .start [.ask r0, .give r0, .give r0] (by
      intro e he
      simp only [List.mem_cons, List.not_mem_nil, or_false] at he
      rcases he with rfl | rfl | rfl <;> first | trivial | exact ⟨by decide, by decide, by decide⟩)
  -- the query result
  have hsrc0 : first.1.dist.src = _ := taken ckeyOps 40 reading (Sess.fresh ckeyOps result.1 result.1.keys false 0 (arbView 3))
    [.give r0, .give r0] (by
      intro e he
      simp only [List.mem_cons, List.not_mem_nil, or_false] at he
      rcases he with rfl | rfl <;> exact ⟨_, rfl⟩)
  have hchunk : ((Sess.fresh ckeyOps result.1 result.1.keys false 0 (arbView 3)).next ckeyOps 40).2.isChunk = true := by
    decide +kernel
  have hkeys : (match ((Sess.fresh ckeyOps result.1 result.1.keys false 0 (arbView 3)).next ckeyOps 40).2 with
    | .chunk c => c.content.keys.all fun k =>
        ((Sess.fresh ckeyOps result.1 result.1.keys false 0 (arbView 3)).next ckeyOps 40).1.keyIds.has k
    | _ => false) = true := by decide +kernel
  have hsrc : first.1.dist.src = ((Sess.fresh ckeyOps result.1 result.1.keys false 0 (arbView 3)).next ckeyOps 40).1 := by
    rw [hsrc0]
    revert hkeys
    generalize (Sess.fresh ckeyOps result.1 result.1.keys false 0 (arbView 3)).next ckeyOps 40 = x
    obtain ⟨s, o⟩ := x
    cases o with
    | chunk c => intro h; simp only at h; simp only [handOver, h, if_true]
    | none => intro _; rfl
    | stop => intro _; rfl
    | raised e => intro _; rfl
  obtain ⟨r, hr, heq⟩ := restored ckeyOps 40 (by decide) reading result.1 result.1.keys 3 first.1.dist.src hsrc hchunk
  -- the checkpoint
  have hok : (match first.1.dist.persist Parcel.setSkip (maxStatus (reports first.1 1 1)) with
    | .ok _ => true
    | .error _ => false) = true := by decide +kernel
  have hsecond : second.map (fun t => texts (t.run src rest).1) = some ["fde3", "fde4", "gde6", "gde7"] := by decide +kernel
  have hfirst : ((first.1.loaders r0).out.dropLast.map fun x => String.ofList x.2) = ["fde1"] := by decide +kernel
  have hrec : (received first.2 r0).map (fun c => c.read.length) = [3] := by decide +kernel
  have hasked : first.2.map Prod.fst = [r0] := by decide +kernel
  have hpend : (first.1.loaders r0).pending.length = 1 ∧ maxStatus (reports first.1 1 1) 0 0 = some (first.1.loaders r0).status := by
    decide +kernel
  have halign : first.1.dist.aligned = true := by decide +kernel
  unfold second at hsecond
  rw [hr] at hsecond
  cases hp : first.1.dist.persist Parcel.setSkip (maxStatus (reports first.1 1 1)) with
  | error e => rw [hp] at hok; cases hok
  | ok saved =>
    rw [hp] at hsecond
    simp only [Option.map_some, Option.some.injEq] at hsecond
    have h2 := Lives.restart first.1 _ _ _ hlife halign _ saved hp (by
      intro q c hc
      have hq : q = r0 := by
        by_contra hne
        unfold lastReceived at hc
        have : received first.2 q = [] := by
          by_contra hno
          obtain ⟨x, hx⟩ := List.exists_mem_of_ne_nil _ hno
          unfold received at hx
          obtain ⟨y, hy, hyx⟩ := List.mem_filterMap.mp hx
          have hy1 : y.1 ∈ first.2.map Prod.fst := List.mem_map_of_mem hy
          rw [hasked] at hy1
          have : y.1 = r0 := by simpa using hy1
          simp [this, Ne.symm hne] at hyx
        rw [this] at hc
        simp at hc
      subst hq
      have hlen : c.read.length = 3 := by
        unfold lastReceived at hc
        have : c ∈ received first.2 r0 := by
          cases hl : (received first.2 r0).getLast? with
          | none => rw [hl] at hc; simp at hc
          | some c' =>
            rw [hl] at hc
            have hc := Option.some.inj hc
            subst hc
            exact List.mem_of_getLast? hl
        have := List.mem_map_of_mem (f := fun c => c.read.length) this
        rw [hrec] at this
        simpa using this
      refine ⟨by rw [hlen, hpend.1]; decide, _, hpend.2, le_refl _⟩) r heq
    have h3 := Lives.events _ _ _ _ h2 rest (by
      intro e he
      simp only [rest, List.mem_cons, List.not_mem_nil, or_false] at he
      rcases he with rfl | rfl | rfl | rfl | rfl | rfl | rfl <;> first | trivial | exact ⟨by decide, by decide, by decide⟩)
    refine ⟨_, _, _, h3, ?_⟩
    rw [List.map_append]
    simp only [List.nil_append]
    rw [hfirst]
    exact congrArg (fun l => ["fde1"] ++ l) hsecond

end Ex83

end Mixtera.Torch
