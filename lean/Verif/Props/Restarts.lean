import Verif.Props.Training
import Verif.Props.Restore
import Verif.Props.Resume
import Mathlib.Tactic.FinCases

/-!
# Whole training runs with restarts (C79)

Composes C79 (one run) with C62 and C20 (resuming from a checkpoint) and C13 (restoring the query result): training runs that
are interrupted and continued from checkpoints, any number of times.
-/

set_option linter.unusedSectionVars false

namespace Mixtera.Torch

variable {K : Type} [DecidableEq K]

/-! ## The restored query result -/

theorem alike_toCache {T : Nat → Prop} {s t : Sess K} (h : Alike T s t) : s.toCache = t.toCache := by
  unfold Sess.toCache
  rw [h.index, h.order, h.son, h.heap _ h.mixT, h.mixRef, h.num, h.replay, h.log, h.ids]

theorem alike_op (ops : KeyOps K) (fuel : Nat) (o : SOp K) {T : Nat → Prop} {s t : Sess K} (h : Alike T s t) :
    ∃ T', Alike T' (s.op ops fuel o).1 (t.op ops fuel o).1 := by
  cases o with
  | update ref v =>
    refine ⟨fun r => r = ref ∨ T r, ?_⟩
    exact ⟨h.index, h.order, h.son, rfl, Or.inl rfl, (by
        intro r hr
        simp only [Sess.op, Sess.update]
        split
        · rfl
        · rename_i hne; exact h.heap r (hr.resolve_left hne)), h.fresh, h.gen,
      fun hs => ⟨(h.pair hs).1, Or.inr (h.pair hs).2⟩, h.idx, h.num, h.replay, h.log, (by
        simp only [Sess.op, Sess.update]; rw [h.index, h.ids])⟩
  | feedback v =>
    refine ⟨T, ?_⟩
    exact ⟨h.index, h.order, h.son, h.mixRef, h.mixT, (by
        intro r hr
        simp only [Sess.op, Sess.feedback]
        rw [h.mixRef]
        split
        · rfl
        · exact h.heap r hr), h.fresh, h.gen, h.pair, h.idx, h.num, h.replay, h.log, h.ids⟩
  | next => exact ⟨T, (alike_next ops fuel h).2⟩

theorem alike_run' (ops : KeyOps K) (fuel : Nat) (os : List (SOp K)) {T : Nat → Prop} {s t : Sess K} (h : Alike T s t) :
    ∃ T', Alike T' (s.run ops fuel os).1 (t.run ops fuel os).1 := by
  induction os generalizing s t T with
  | nil => exact ⟨T, h⟩
  | cons o os ih =>
    obtain ⟨T', h'⟩ := alike_op ops fuel o h
    exact ih h'

theorem alike_handOver {α : Type} (read : RChunk K → List (K × α)) (o : Out K) {T : Nat → Prop} {s t : Sess K}
    (h : Alike T s t) : (handOver read s o).2 = (handOver read t o).2 ∧ Alike T (handOver read s o).1 (handOver read t o).1 := by
  cases o with
  | none => exact ⟨rfl, h⟩
  | stop => exact ⟨rfl, h⟩
  | raised e => exact ⟨rfl, h⟩
  | chunk c =>
    simp only [handOver, h.ids]
    split
    · exact ⟨rfl, h⟩
    · refine ⟨rfl, ?_⟩
      have hg := h.gen
      have hf := h.fresh
      refine ⟨h.index, h.order, h.son, h.mixRef, h.mixT, h.heap, ?_, ?_, ?_, h.idx, h.num, h.replay, h.log,
        (by first | exact h.ids | rfl)⟩
      · cases hs : s.gen <;> cases ht : t.gen <;> simp_all
      · cases hs : s.gen <;> cases ht : t.gen <;> simp_all [Sess.theGen, Gen.bare]
      · cases hs : s.gen with
        | none =>
          intro hsusp
          simp [Sess.theGen, Gen.init, hs] at hsusp
        | some g =>
          intro hsusp
          simp [Sess.theGen, hs] at hsusp

theorem alike_srcEq {α : Type} (ops : KeyOps K) (fuel : Nat) (read : RChunk K → List (K × α)) {T : Nat → Prop} {s t : Sess K}
    (h : Alike T s t) : SrcEq (resultSource ops fuel read) s t := by
  intro os
  induction os generalizing s t T with
  | nil => rfl
  | cons o os ih =>
    cases o with
    | none =>
      obtain ⟨h1, h2⟩ := alike_next ops fuel h
      have h3 := alike_handOver read (t.next ops fuel).2 h2
      simp only [Source.trace, resultSource]
      rw [h1, h3.1]
      exact congrArg _ (ih h3.2)
    | some i =>
      obtain ⟨T', h'⟩ := alike_op ops fuel i.toSOp h
      exact ih h'

/-- **C79** (the restored query result). A query result that has delivered only chunks, with changes of the mixture that are
visible and none after the last chunk (the conditions of C13), can be stored and restored, the distributor cannot tell the
restored one from the original, and storing either of them later, after the same further operations, stores the same: so this
holds after any number of restarts. -/
theorem c79_restored_source_partial {α : Type} (ops : KeyOps K) (fuel : Nat) (hf : 0 < fuel) (read : RChunk K → List (K × α))
    (index : Dict K Entries) (order : List K) (stopOnNone : Bool) (ref0 : Nat) (v0 : MixView K) (hv0 : v0.rows.keys.Nodup)
    (history : List (SOp K)) (hh : ∀ o ∈ history, o.Ok) (s0 s : Sess K)
    (hs0 : s0 = Sess.fresh ops index order stopOnNone ref0 v0) (hs : s = (s0.run ops fuel history).1)
    (hchunks : ∀ o ∈ (s0.run ops fuel history).2, o.isChunk = true)
    (hnoticed : Noticed (s0.views ops fuel history))
    (hlast : ∀ v ∈ (s0.views ops fuel history).getLast?, s.heap s.mixRef = v) :
    ∃ r, fromCache ops fuel s.mixRef s.toCache = .ok r ∧ SrcEq (resultSource ops fuel read) s r ∧
      ∀ later : List (SOp K), (r.run ops fuel later).1.toCache = (s.run ops fuel later).1.toCache ∧
        (r.run ops fuel later).1.mixRef = (s.run ops fuel later).1.mixRef := by
  obtain ⟨r, h1, h2⟩ := restore_alike ops fuel hf index order stopOnNone ref0 v0 hv0 history hh s0 s hs0 hs hchunks hnoticed
    hlast
  refine ⟨r, h1, fun os => (alike_srcEq ops fuel read h2 os).symm, fun later => ?_⟩
  obtain ⟨T', h3⟩ := alike_run' ops fuel later h2
  exact ⟨alike_toCache h3, h3.mixRef⟩

/-! ## Lives -/

section lives

variable {σ ι α : Type}

/-- A job that began with the distributor `d0` and was interrupted and continued any number of times. `last r` is the last
chunk that loader `r` received since the last restart; `kept r` is what `r` had handed over, in all earlier lives together, up
to the checkpoint from which it was continued, without the very last sample before each checkpoint; `mixes` are the changes of
the mixture so far. Conditions of a restart: a checkpoint is allowed and can be written; every loader that has received a chunk
has handed over a sample of it and the largest report for it is not below its own position; the restored query result cannot
be told from the original. -/
inductive Lives (S : Source σ ι (Parcel K α)) (G N W : Nat) (d0 : Dist σ (Parcel K α)) :
    Train σ K α → (DReq → Option (Parcel K α)) → (DReq → List (Nat × α)) → List ι → Prop
  | start : Lives S G N W d0 (Train.start d0) (fun _ => none) (fun _ => []) []
  | events (t : Train σ K α) (last : DReq → Option (Parcel K α)) (kept : DReq → List (Nat × α)) (mixes : List ι)
      (h : Lives S G N W d0 t last kept mixes) (es : List (TEv ι)) (hv : ∀ e ∈ es, e.Valid G N W) :
      Lives S G N W d0 (t.run S es).1 (lastReceived last (t.run S es).2) kept (mixes ++ pokes (requests es))
  | restart (t : Train σ K α) (last : DReq → Option (Parcel K α)) (kept : DReq → List (Nat × α)) (mixes : List ι)
      (h : Lives S G N W d0 t last kept mixes) (ha : t.dist.aligned = true)
      (status : Nat → Nat → Option Nat) (saved : Saved (Parcel K α)) (hs : t.dist.persist Parcel.setSkip status = .ok saved)
      (hgiven : ∀ r c, last r = some c → (t.loaders r).pending.length < c.read.length ∧
        ∃ m, status r.group r.worker = some m ∧ (t.loaders r).status ≤ m)
      (src : σ) (hsrc : SrcEq S t.dist.src src) :
      Lives S G N W d0 (Train.start (saved.restore src)) (fun _ => none)
        (fun r => kept r ++ (t.loaders r).out.dropLast) mixes

theorem Lives.reached {S : Source σ ι (Parcel K α)} {G N workers : Nat} {src0 : σ} {d0 : Dist σ (Parcel K α)}
    (hd : Dist.init G N workers src0 = .ok d0) {t : Train σ K α} {last : DReq → Option (Parcel K α)}
    {kept : DReq → List (Nat × α)} {mixes : List ι} (h : Lives S G N (effWorkers workers) d0 t last kept mixes) :
    Reached S G N (effWorkers workers) t last := by
  induction h with
  | start => exact .init src0 d0 workers rfl hd
  | events t last _ _ _ es hv ih => exact .events t last ih es hv
  | restart t last _ _ _ ha status saved hs _ src _ ih => exact .restart t last ih ha status saved hs src

theorem pokes_append {ι : Type} (a b : List (DOp ι)) : pokes (a ++ b) = pokes a ++ pokes b := by
  induction a with
  | nil => rfl
  | cons o a ih => cases o <;> simp [pokes, ih]

/-- What the loaders have handed over in all lives is part of what one uninterrupted run hands over. -/
theorem Lives.virtual {S : Source σ ι (Parcel K α)} {G N workers : Nat} (hN : 0 < N) {src0 : σ} {d0 : Dist σ (Parcel K α)}
    (hd : Dist.init G N workers src0 = .ok d0) {t : Train σ K α} {last : DReq → Option (Parcel K α)}
    {kept : DReq → List (Nat × α)} {mixes : List ι} (h : Lives S G N (effWorkers workers) d0 t last kept mixes) :
    ∀ later : List (DOp ι), (∀ o ∈ later, o.Valid G N (effWorkers workers)) →
      ∃ os, (∀ o ∈ os, o.Valid G N (effWorkers workers)) ∧ pokes os = mixes ++ pokes later ∧
        ∀ r, (kept r ++ ((t.loaders r).out ++ (t.loaders r).pending.map Prod.snd) ++
          (received (t.dist.run S later).2 r).flatMap samplesOf).Sublist ((received (d0.run S os).2 r).flatMap samplesOf) := by
  induction h with
  | start =>
    intro later hl
    refine ⟨later, hl, rfl, fun r => ?_⟩
    simp [Train.start, Loader.fresh]
  | events t last kept mixes h es hv ih =>
    intro later hl
    obtain ⟨ops, h1, h2, h3, -⟩ := run_dist S es t
    have hops : ∀ o ∈ ops, o.Valid G N (effWorkers workers) := valid_of_sublist hv h1
    obtain ⟨os, g1, g2, g3⟩ := ih (ops ++ later) (by
      intro o ho
      rcases List.mem_append.mp ho with ho | ho
      · exact hops o ho
      · exact hl o ho)
    refine ⟨os, g1, by rw [g2, pokes_append, h2, List.append_assoc], fun r => ?_⟩
    have := g3 r
    rw [dist_run_append, h3, received_append, List.flatMap_append] at this
    rw [run_stream]
    simpa only [List.append_assoc] using this
  | restart t last kept mixes h ha status saved hs hgiven src hsrc ih =>
    intro later hl
    obtain ⟨hdist, hlink⟩ := (h.reached hd).facts
    have h20 := c20_resume S Parcel.setSkip setSkip_setSkip G N (effWorkers workers) hN t.dist last hdist ha status saved hs
      src hsrc later hl
    obtain ⟨ops, h4, h5, h6, -⟩ := resumed_received S later t.dist
      (fun r => (last r).map (Parcel.setSkip ((status r.group r.worker).getD 0)))
    obtain ⟨os, g1, g2, g3⟩ := ih ops (fun o ho => hl o (h4.subset ho))
    refine ⟨os, g1, by rw [g2, h5], fun r => List.Sublist.trans ?_ (g3 r)⟩
    have hst : (Train.start (saved.restore src) : Train σ K α).dist = saved.restore src := rfl
    have hfr : ((Train.start (saved.restore src) : Train σ K α).loaders r).out = [] ∧
        ((Train.start (saved.restore src) : Train σ K α).loaders r).pending = [] := ⟨rfl, rfl⟩
    rw [hst, h20, hfr.1, hfr.2]
    simp only [List.map_nil, List.append_nil]
    have h6r := h6 r
    cases hlr : last r with
    | none =>
      simp only [hlr, Option.map_none] at h6r
      rw [h6r, List.append_assoc, List.append_assoc]
      refine (List.Sublist.refl _).append ?_
      refine ((List.dropLast_sublist _).trans (List.sublist_append_left _ _)).append (List.Sublist.refl _)
    | some c =>
      obtain ⟨hg1, m, hm, hle⟩ := hgiven r c hlr
      simp only [hlr, Option.map_some, hm, Option.getD_some] at h6r
      have hlk := hlink r
      rw [hlr] at hlk
      obtain ⟨handed, before, k1, k2, k3⟩ := hlk
      have hne : handed ≠ [] := by
        rintro rfl
        rw [k1] at hg1; simp at hg1
      obtain ⟨h', x, rfl⟩ : ∃ h' x, handed = h' ++ [x] :=
        ⟨handed.dropLast, handed.getLast hne, (List.dropLast_append_getLast hne).symm⟩
      have hx : (t.loaders r).status = x.1 := k3 x (by simp)
      have hx2 : x.1 = c.skip + h'.length := read_index c h'.length x (by rw [k1]; simp)
      have hout : (t.loaders r).out.dropLast = before ++ h'.map Prod.snd := by
        rw [k2, List.map_append, ← List.append_assoc]
        simp
      have hfull : (t.loaders r).out = before ++ h'.map Prod.snd ++ [x.2] := by rw [k2]; simp
      rcases h6r with h6r | ⟨_, h6r⟩
      · rw [h6r, List.flatMap_cons, ← read_samples, setSkip_read c m (by omega), hout, hfull, k1]
        have e1 : m - c.skip = h'.length + (m - x.1) := by omega
        rw [e1]
        have e2 : (h' ++ [x] ++ (t.loaders r).pending).drop (h'.length + (m - x.1)) =
            (x :: (t.loaders r).pending).drop (m - x.1) := by
          rw [List.append_assoc, List.drop_append, List.drop_eq_nil_of_le (by omega)]
          simp
        rw [e2]
        have e3 := ((List.drop_sublist (m - x.1) (x :: (t.loaders r).pending)).map Prod.snd)
        rw [List.map_cons] at e3
        simp only [List.append_assoc, List.cons_append, List.nil_append]
        refine (List.Sublist.refl _).append ((List.Sublist.refl _).append ((List.Sublist.refl _).append ?_))
        have := e3.append (List.Sublist.refl ((received (t.dist.run S ops).2 r).flatMap samplesOf))
        simpa using this
      · rw [h6r, hout, hfull]
        simp only [List.flatMap_nil, List.append_nil, List.append_assoc]
        refine (List.Sublist.refl _).append ((List.Sublist.refl _).append ?_)
        exact List.sublist_append_left _ _

end lives

/-! ## At most once, over all lives -/

/-- The chunks that a distributor on a fresh query result took, and what every loader received of them. -/
theorem dist_log (ops : KeyOps K) (fuel : Nat) (read : RChunk K → List (K × Pos)) {index : Dict K Entries} {order : List K}
    (hi : IndexOk index order) {v : MixView K} (hv : UsableMix v) (b : Bool) (ref G N workers : Nat)
    {d : Dist (Sess K) (Parcel K Pos)} (hd : Dist.init G N workers (Sess.fresh ops index order b ref v) = .ok d)
    {os : List (DOp (MixOp K))} (hos : ∀ o ∈ os, o.Valid G N (effWorkers workers))
    (hu : UsableOps (index.keys ++ v.rows.keys) (pokes os)) :
    ∃ (log : List (DReq × Parcel K Pos)) (known : List K) (done : List (RChunk K)) (src : Sess K),
      RunInv ops index order known done src ∧ List.Forall₂ (IsParcel read src.keyIds) done (log.map Prod.snd) ∧
      ∀ r, received (d.run (resultSource ops fuel read) os).2 r <+: ownedBy log r.group r.worker := by
  have hsrc : d.src = Sess.fresh ops index order b ref v := by
    unfold Dist.init at hd
    split at hd
    · cases hd
    · cases hd; rfl
  obtain ⟨c1, c2, _⟩ := c16_partition (resultSource ops fuel read) G N workers _ d hd os hos
  have hinv : RunInv ops index order (index.keys ++ v.rows.keys) [] d.src := by rw [hsrc]; exact runInv_fresh ops b ref v hv
  obtain ⟨known', more, g1, _, g3⟩ := runInv_dist ops fuel read hi os (d := d) hinv hu
  exact ⟨d.fetchLog (resultSource ops fuel read) os, known', more, _, by simpa using g1, g3,
    fun r => c1 r.group r.node r.worker⟩

/-- **C79** (restarts). For every query result, reading of chunks, number of groups, nodes and workers, and every history of the
loaders' actions with mixture changes in between and with any number of interruptions, after each of which the job is continued
from a checkpoint: over all lives together no loader hands over a sample twice, loaders of different groups or worker numbers
never hand over the same sample, and every sample that is handed over belongs to the query result. What is counted are the
samples before the checkpoints from which the job was continued, except for the very last one before each checkpoint, which a
loader may hand over again.
Partial: the conditions of a restart, see `Lives`; for the query result see `c79_restored_source_partial`. -/
theorem c79_restarts_partial (ops : KeyOps K) (fuel : Nat) (index : Dict K Entries) (order : List K) (hi : IndexOk index order)
    (hn : (contentSamples index).Nodup) (read : RChunk K → List (K × Pos))
    (hr : ∀ c, Deliverable ops index order c → ReadsSome read c)
    (v : MixView K) (hv : UsableMix v) (stopOnNone : Bool) (ref groups nodes workers : Nat) (hnodes : 0 < nodes)
    (d : Dist (Sess K) (Parcel K Pos))
    (hd : Dist.init groups nodes workers (Sess.fresh ops index order stopOnNone ref v) = .ok d)
    (t : Train (Sess K) K Pos) (last : DReq → Option (Parcel K Pos)) (kept : DReq → List (Nat × Pos)) (mixes : List (MixOp K))
    (h : Lives (resultSource ops fuel read) groups nodes (effWorkers workers) d t last kept mixes)
    (hu : UsableOps (index.keys ++ v.rows.keys) mixes)
    (all : DReq → List Pos) (hall : all = fun r => (kept r ++ (t.loaders r).out).map Prod.snd) :
    (∀ r, (all r).Nodup) ∧
    (∀ r r', r.group ≠ r'.group ∨ r.worker ≠ r'.worker → ∀ p, p ∈ all r → p ∉ all r') ∧
    ∀ r, ∀ p ∈ all r, p ∈ contentSamples index := by
  obtain ⟨os, g1, g2, g3⟩ := h.virtual hnodes hd [] (by simp)
  simp only [pokes, List.append_nil] at g2
  obtain ⟨log, known, done, src, hinv, hf, hown⟩ := dist_log ops fuel read hi hv stopOnNone ref groups nodes workers hd g1
    (by rw [g2]; exact hu)
  have hskip : ∀ p ∈ log.map Prod.snd, p.skip = 0 := by
    intro p hp
    obtain ⟨c, _, hc⟩ := forall₂_exists hf hp
    exact hc.skip
  -- everything that was taken
  have htaken : ((log.map Prod.snd).flatMap fun p => p.source.map Prod.snd).Subperm (contentSamples index) := by
    have hp := parcel_samples hf fun c hc => hr c (hinv.all c hc)
    obtain ⟨history, hh, _, hdone⟩ := hinv.hist
    have hc := c04_delivered_subperm ops false index order hi history hh
    rw [chunksOf_samples, hdone] at hc
    exact hp.trans hc
  have hnd : ((log.map Prod.snd).flatMap fun p => p.source.map Prod.snd).Nodup := by
    obtain ⟨l, hl, hs⟩ := htaken
    exact hl.nodup_iff.mp (hs.nodup hn)
  have hsub : ∀ r, (all r).Sublist ((ownedBy log r.group r.worker).flatMap fun p => p.source.map Prod.snd) := by
    intro r
    have e : ((ownedBy log r.group r.worker).flatMap samplesOf).map Prod.snd =
        (ownedBy log r.group r.worker).flatMap fun p => p.source.map Prod.snd := by
      rw [List.map_flatMap]
      apply List.flatMap_congr
      intro p hp
      exact samplesOf_snd (hskip p ((ownedBy_sublist log r.group r.worker).subset hp))
    rw [← e, hall]
    refine List.Sublist.map Prod.snd ?_
    refine List.Sublist.trans ?_ (flatMap_sublist _ (hown r).sublist)
    refine List.Sublist.trans ?_ (g3 r)
    rw [List.append_assoc, List.append_assoc]
    exact (List.Sublist.refl _).append (List.sublist_append_left _ _)
  have hsub' : ∀ r, (all r).Sublist ((log.map Prod.snd).flatMap fun p => p.source.map Prod.snd) := fun r =>
    (hsub r).trans (flatMap_sublist _ (ownedBy_sublist log r.group r.worker))
  refine ⟨fun r => (hsub' r).nodup hnd, ?_, fun r p hp => htaken.subset ((hsub' r).subset hp)⟩
  intro r r' hne p h1 h2
  rw [List.flatMap_map, List.nodup_flatMap] at hnd
  have own : ∀ r, p ∈ all r → ∃ e ∈ log, e.1.group = r.group ∧ e.1.worker = r.worker ∧ p ∈ e.2.source.map Prod.snd := by
    intro r hp
    have h1 := (hsub r).subset hp
    rw [List.mem_flatMap] at h1
    obtain ⟨c, hc, hpc⟩ := h1
    obtain ⟨q, hq, e1, e2⟩ := mem_ownedBy hc
    exact ⟨(q, c), hq, e1, e2, hpc⟩
  obtain ⟨e, he, e1, e2, hp1⟩ := own r h1
  obtain ⟨e', he', e1', e2', hp2⟩ := own r' h2
  have hdiff : e ≠ e' := by
    rintro rfl
    exact hne.elim (fun x => x (e1.symm.trans e1')) (fun x => x (e2.symm.trans e2'))
  exact pairwise_disjoint hnd.2 he he' hdiff hp1 hp2

/-! ## Examples -/

namespace Ex

/-- One group with one node and two workers, without a mixture, chunks of four samples. -/
def job : Dist (Sess Nat) (Parcel Nat Pos) :=
  match (Dist.init 1 1 2 (Sess.fresh Mixtera.Ex.ops Mixtera.Ex.index Mixtera.Ex.order false 0 (arbView 4)) :
    Except Err (Dist (Sess Nat) (Parcel Nat Pos))) with
  | .ok d => d
  | .error _ => ⟨0, 0, 0, Sess.fresh Mixtera.Ex.ops [] [] false 0 (arbView 4), fun _ => [], fun _ => [], fun _ _ _ => 0⟩

def resSrc : Source (Sess Nat) (MixOp Nat) (Parcel Nat Pos) := resultSource Mixtera.Ex.ops 40 exRead

def l0 : DReq := ⟨0, 0, 0⟩
def l1 : DReq := ⟨0, 0, 1⟩

def go (t : Train (Sess Nat) Nat Pos) (es : List (TEv (MixOp Nat))) : Train (Sess Nat) Nat Pos := (t.run resSrc es).1

/-- All nodes report what their loaders handed over, the checkpoint is written, the job restarted from it. -/
def again (t : Train (Sess Nat) Nat Pos) : Option (Train (Sess Nat) Nat Pos) :=
  match t.dist.persist Parcel.setSkip (maxStatus (reports t 1 1)),
    fromCache Mixtera.Ex.ops 40 t.dist.src.mixRef t.dist.src.toCache with
  | .ok s, .ok r => if t.dist.aligned then some (Train.start (s.restore r)) else none
  | _, _ => none

/-- What both loaders handed over. -/
def handed (t : Train (Sess Nat) Nat Pos) : List (List Pos) := [l0, l1].map fun r => (t.loaders r).out.map Prod.snd

/-- Both loaders read two samples. -/
def before : Train (Sess Nat) Nat Pos := go (Train.start job) [.ask l0, .give l0, .give l0, .ask l1, .give l1, .give l1]

/-- Both loaders read three more. -/
def reading : List (TEv (MixOp Nat)) := [.ask l0, .give l0, .give l0, .give l0, .ask l1, .give l1, .ask l1, .give l1, .give l1]

instance : DecidableEq (List (List Pos)) := inferInstance
instance : DecidableEq (Option (List (List Pos))) := inferInstance

/-- Two lives, and three. -/
example : handed before = [[(0, 0, 0), (0, 0, 1)], [(0, 0, 3), (0, 0, 4)]] ∧
    (again before).map (fun t => handed (go t reading)) =
      some [[(0, 0, 1), (0, 0, 2), (0, 0, 5)], [(0, 0, 4), (0, 1, 0), (0, 1, 1)]] ∧
    ((again before).bind fun t => again (go t [.ask l0, .give l0, .give l0, .ask l1, .give l1])).map (fun t => handed (go t reading)) =
      some [[(0, 0, 2), (0, 0, 5)], [(0, 0, 4), (0, 1, 0), (0, 1, 1)]] := by
  decide +kernel

theorem job_init : (Dist.init 1 1 2 (Sess.fresh Mixtera.Ex.ops Mixtera.Ex.index Mixtera.Ex.order false 0 (arbView 4)) :
    Except Err (Dist (Sess Nat) (Parcel Nat Pos))) = .ok job := rfl

theorem before_src : before.dist.src =
    ((Sess.fresh Mixtera.Ex.ops Mixtera.Ex.index Mixtera.Ex.order false 0 (arbView 4)).run Mixtera.Ex.ops 40
      [.next, .next]).1 := rfl

theorem received_other {as : List (DReq × Ans (Parcel Nat Pos))} (hm : ∀ x ∈ as.map Prod.fst, x = l0 ∨ x = l1) {q : DReq}
    (h0 : q ≠ l0) (h1 : q ≠ l1) : received as q = [] := by
  by_contra hne
  obtain ⟨x, hx⟩ := List.exists_mem_of_ne_nil _ hne
  unfold received at hx
  obtain ⟨y, hy, hyx⟩ := List.mem_filterMap.mp hx
  have hq : y.1 = q := by
    by_contra hq
    simp [hq] at hyx
  rcases hm y.1 (List.mem_map_of_mem hy) with h | h
  · exact h0 (hq ▸ h)
  · exact h1 (hq ▸ h)

theorem before_given (q : DReq) (c : Parcel Nat Pos)
    (hc : lastReceived (fun _ => none) ((Train.start job).run resSrc [.ask l0, .give l0, .give l0, .ask l1, .give l1, .give l1]).2 q =
      some c) : (q = l0 ∨ q = l1) ∧ (before.loaders q).pending.length < c.read.length ∧
        ∃ m, maxStatus (reports before 1 1) q.group q.worker = some m ∧ (before.loaders q).status = m := by
  by_cases h0 : q = l0
  · subst h0
    have : lastReceived (fun _ => none) ((Train.start job).run resSrc
        [.ask l0, .give l0, .give l0, .ask l1, .give l1, .give l1]).2 l0 = some _ := rfl
    rw [this] at hc
    cases hc
    exact ⟨Or.inl rfl, by decide +kernel, _, rfl, by decide +kernel⟩
  · by_cases h1 : q = l1
    · subst h1
      have : lastReceived (fun _ => none) ((Train.start job).run resSrc
          [.ask l0, .give l0, .give l0, .ask l1, .give l1, .give l1]).2 l1 = some _ := rfl
      rw [this] at hc
      cases hc
      exact ⟨Or.inr rfl, by decide +kernel, _, rfl, by decide +kernel⟩
    · have hm : ∀ x ∈ ((Train.start job).run resSrc [.ask l0, .give l0, .give l0, .ask l1, .give l1, .give l1]).2.map Prod.fst,
          x = l0 ∨ x = l1 := by decide +kernel
      unfold lastReceived at hc
      rw [received_other hm h0 h1] at hc
      simp at hc

/-- The query result can be restored from the checkpoint. -/
theorem before_source : ∃ r, fromCache Mixtera.Ex.ops 40 before.dist.src.mixRef before.dist.src.toCache = .ok r ∧
    SrcEq resSrc before.dist.src r := by
  obtain ⟨r, hr, hsrc, -⟩ := c79_restored_source_partial Mixtera.Ex.ops 40 (by decide) exRead Mixtera.Ex.index Mixtera.Ex.order
    false 0 (arbView 4) (by decide) [.next, .next] (by intro o ho; simp at ho; subst ho; trivial) _ before.dist.src rfl before_src
    (by decide +kernel) (by rw [show (Sess.views Mixtera.Ex.ops 40 _ _) = [arbView 4, arbView 4] from rfl]; exact ⟨fun _ => rfl, trivial⟩) (by intro v hv; cases hv; rfl)
  exact ⟨r, hr, hsrc⟩

/-- Non-vacuity: the job with two lives is one of the histories of `c79_restarts_partial`. -/
example : ∃ t last kept, Lives resSrc 1 1 (effWorkers 2) job t last kept [] ∧
    (kept l0 ++ (t.loaders l0).out).map Prod.snd = [(0, 0, 0), (0, 0, 1), (0, 0, 2), (0, 0, 5)] := by
  have hlife : Lives resSrc 1 1 (effWorkers 2) job before _ _ _ :=
    .events _ _ _ _ .start [.ask l0, .give l0, .give l0, .ask l1, .give l1, .give l1] (by
      intro e he; fin_cases he <;> first | trivial | exact ⟨by decide, by decide, by decide⟩)
  obtain ⟨r, hr, hsrc⟩ := before_source
  obtain ⟨saved, hsaved⟩ : ∃ saved, before.dist.persist Parcel.setSkip (maxStatus (reports before 1 1)) = .ok saved := ⟨_, rfl⟩
  have h2 := Lives.restart before _ _ _ hlife (by decide +kernel) _ saved hsaved
    (fun q c hc => ⟨(before_given q c hc).2.1, _, (before_given q c hc).2.2.choose_spec.1,
      (before_given q c hc).2.2.choose_spec.2.le⟩) r hsrc
  have h3 := Lives.events _ _ _ _ h2 reading (by
    intro e he; fin_cases he <;> first | trivial | exact ⟨by decide, by decide, by decide⟩)
  refine ⟨_, _, _, h3, ?_⟩
  have e1 : again before = some (Train.start (saved.restore r)) := by
    unfold again
    rw [hsaved, hr]
    exact if_pos (by decide +kernel)
  have e2 : (again before).map (fun t => ((go t reading).loaders l0).out.map Prod.snd) =
      some [(0, 0, 1), (0, 0, 2), (0, 0, 5)] := by decide +kernel
  rw [e1, Option.map_some, Option.some.injEq] at e2
  rw [List.map_append]
  have e3 : ((before.loaders l0).out.dropLast).map Prod.snd = [(0, 0, 0)] := by decide +kernel
  have e4 : List.map Prod.snd ((((Train.start (saved.restore r)).run resSrc reading).1.loaders l0).out) = _ := e2
  rw [e4]
  simp only [List.nil_append]
  rw [e3]
  rfl

end Ex

/-- **C79** fails if a checkpoint is taken when a loader has received its chunk again after a restart but has not handed over a
sample of it: the reported position is that of a loader that has just started, so that after the next restart the samples
before the first checkpoint are handed over again. -/
theorem c79_restart_repeats_partial : ∃ t2 t3, Ex.again Ex.before = some t2 ∧
    Ex.again (Ex.go t2 [.ask Ex.l0, .ask Ex.l1, .give Ex.l1]) = some t3 ∧
    (0, 0, 0) ∈ ((Ex.before.loaders Ex.l0).out.map Prod.snd).dropLast ∧
    (0, 0, 0) ∈ ((Ex.go t3 Ex.reading).loaders Ex.l0).out.map Prod.snd := by
  refine ⟨_, _, rfl, rfl, ?_, ?_⟩ <;> decide +kernel

end Mixtera.Torch
