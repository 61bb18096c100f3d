import Verif.Model.Torch
import Verif.Props.Resume
import Verif.Props.Window

/-!
# C59, C62: the training side

C59: `client.current_mixture_id`. C62: a restart at the level of samples.
-/

set_option linter.unusedSectionVars false

namespace Mixtera.Torch

variable {σ ι K α : Type} [DecidableEq K]

/-! ## Specification -/

/-- The samples of a chunk, with their key ids, as the training loop gets them. -/
def samplesOf (c : Parcel K α) : List (Nat × α) := (c.source.drop c.skip).map fun p => (c.keyId p.1, p.2)

/-- The event names an existing loader. -/
def TEv.Valid (G N W : Nat) : TEv ι → Prop
  | .ask r => r.group < G ∧ r.node < N ∧ r.worker < W
  | _ => True

/-- What the distributor may see of a history. -/
def requests : List (TEv ι) → List (DOp ι)
  | [] => []
  | .ask r :: es => .ask r :: requests es
  | .give _ :: es => requests es
  | .poke i :: es => .poke i :: requests es

/-- The operations on the query result in a history. -/
def pokes : List (DOp ι) → List ι
  | [] => []
  | .ask _ :: os => pokes os
  | .poke i :: os => i :: pokes os

/-- The jobs that can exist: a fresh one, after any history, and restarted from any checkpoint, any number of times.
`last r` is the last chunk `r` received since the last restart. -/
inductive Reached (S : Source σ ι (Parcel K α)) (G N W : Nat) : Train σ K α → (DReq → Option (Parcel K α)) → Prop
  | init (src : σ) (d : Dist σ (Parcel K α)) (workers : Nat) (hW : W = effWorkers workers)
      (h : Dist.init G N workers src = .ok d) : Reached S G N W (Train.start d) (fun _ => none)
  | events (t : Train σ K α) (last : DReq → Option (Parcel K α)) (h : Reached S G N W t last) (es : List (TEv ι))
      (hv : ∀ e ∈ es, e.Valid G N W) : Reached S G N W (t.run S es).1 (lastReceived last (t.run S es).2)
  | restart (t : Train σ K α) (last : DReq → Option (Parcel K α)) (h : Reached S G N W t last) (ha : t.dist.aligned = true)
      (status : Nat → Nat → Option Nat) (saved : Saved (Parcel K α)) (hs : t.dist.persist Parcel.setSkip status = .ok saved)
      (src : σ) : Reached S G N W (Train.start (saved.restore src)) (fun _ => none)

/-! ## Reading a chunk -/

theorem read_samples (c : Parcel K α) : c.read.map Prod.snd = samplesOf c := by
  unfold Parcel.read samplesOf iterateSamples
  rw [List.map_map]
  apply List.ext_getElem?
  intro i
  simp only [List.getElem?_map, List.getElem?_zipIdx, List.getElem?_drop]
  cases c.source[c.skip + i]? <;> rfl

theorem read_length (c : Parcel K α) : c.read.length = c.source.length - c.skip := by
  unfold Parcel.read iterateSamples
  simp

theorem read_index (c : Parcel K α) (i : Nat) (x : Nat × Nat × α) (h : c.read[i]? = some x) : x.1 = c.skip + i := by
  unfold Parcel.read at h
  rw [c40_index] at h
  rw [Option.map_eq_some_iff] at h
  obtain ⟨p, _, rfl⟩ := h
  rfl

theorem setSkip_read (c : Parcel K α) (n : Nat) (h : c.skip ≤ n) : (c.setSkip n).read = c.read.drop (n - c.skip) := by
  unfold Parcel.read Parcel.setSkip
  dsimp only
  rw [c40_skip c.keyId c.source n, c40_skip c.keyId c.source c.skip, List.drop_drop]
  congr 1
  omega

theorem setSkip_setSkip (k : Nat) (c : Parcel K α) : (c.setSkip k).setSkip k = c.setSkip k := rfl

/-! ## One job -/

theorem received_nil (r : DReq) : received ([] : List (DReq × Ans (Parcel K α))) r = [] := rfl

theorem received_append (a b : List (DReq × Ans (Parcel K α))) (r : DReq) :
    received (a ++ b) r = received a r ++ received b r := by
  unfold received
  rw [List.filterMap_append]

theorem received_one (r' r : DReq) (a : Ans (Parcel K α)) :
    received [(r', a)] r = if r' = r then (match a with | .chunk c => [c] | _ => []) else [] := by
  unfold received
  by_cases h : r' = r
  · cases a <;> simp [h]
  · simp [h]

/-- A loader is not touched by the events of others, and does not change while it has nothing to hand over. -/
theorem step_idle (S : Source σ ι (Parcel K α)) (e : TEv ι) (t : Train σ K α) (r : DReq) (he : ∀ r', e = .ask r' → r' ≠ r)
    (hp : (t.loaders r).pending = []) : (t.step S e).1.loaders r = t.loaders r := by
  cases e with
  | ask r' =>
    have hr : r ≠ r' := fun h => he r' rfl h.symm
    simp only [Train.step]
    split
    · cases (t.dist.nextChunkFor S r').2 <;> simp [Train.answer, Train.setLoader, Train.setCurrent, hr]
    · rfl
  | give r' =>
    simp only [Train.step]
    split
    · rfl
    · rename_i s rest hs
      by_cases hr : r = r'
      · subst hr; rw [hp] at hs; cases hs
      · simp [Train.setLoader, hr]
  | poke i => rfl

/-- The distributor of a job only sees requests of its history, and all operations on the query result. -/
theorem run_dist (S : Source σ ι (Parcel K α)) (es : List (TEv ι)) (t : Train σ K α) :
    ∃ ops, ops.Sublist (requests es) ∧ pokes ops = pokes (requests es) ∧
      t.dist.run S ops = ((t.run S es).1.dist, (t.run S es).2) ∧
      ∀ r, (t.loaders r).pending = [] → (t.loaders r).ended = false → TEv.ask r ∈ es → DOp.ask r ∈ ops := by
  induction es generalizing t with
  | nil => exact ⟨[], List.Sublist.refl _, rfl, rfl, by simp⟩
  | cons e es ih =>
    cases e with
    | ask r =>
      by_cases hp : (t.loaders r).pending.isEmpty = true ∧ (t.loaders r).ended = false
      · have hstep : t.step S (.ask r) =
            (({ t with dist := (t.dist.nextChunkFor S r).1 } : Train σ K α).answer r (t.dist.nextChunkFor S r).2,
              [(r, (t.dist.nextChunkFor S r).2)]) := by
          simp only [Train.step]; rw [if_pos hp]
        obtain ⟨ops, h1, h2, h3, h4⟩ := ih (t.step S (.ask r)).1
        refine ⟨.ask r :: ops, by simpa [requests] using h1, by simpa [requests, pokes] using h2, ?_, fun r' g1 g2 g3 => ?_⟩
        rotate_left
        · by_cases hr : r = r'
          · subst hr; simp
          · have hi := step_idle S (.ask r) t r' (by intro x hx; cases hx; exact hr) g1
            refine List.mem_cons_of_mem _ (h4 r' (by rw [hi]; exact g1) (by rw [hi]; exact g2) ?_)
            have hr' : r' ≠ r := fun h => hr h.symm
            simpa [hr'] using g3
        have hdist : (t.step S (.ask r)).1.dist = (t.dist.nextChunkFor S r).1 := by
          rw [hstep]
          cases (t.dist.nextChunkFor S r).2 <;> rfl
        rw [hdist] at h3
        simp only [Dist.run, Dist.op, Train.run, h3, hstep, Option.toList_some]
      · have hstep : t.step S (.ask r) = (t, []) := by
          simp only [Train.step]; rw [if_neg hp]
        obtain ⟨ops, h1, h2, h3, h4⟩ := ih t
        refine ⟨ops, ?_, by simpa [requests, pokes] using h2, ?_, fun r' g1 g2 g3 => ?_⟩
        · simpa [requests] using h1.trans (List.sublist_cons_self _ _)
        · simp only [Train.run, hstep, h3, List.nil_append]
        · have hr' : r' ≠ r := by
            rintro rfl
            exact hp ⟨by simp [g1], g2⟩
          exact h4 r' g1 g2 (by simpa [hr'] using g3)
    | give r =>
      have hd : (t.step S (.give r)).1.dist = t.dist ∧ (t.step S (.give r)).2 = [] := by
        simp only [Train.step]
        split <;> exact ⟨rfl, rfl⟩
      obtain ⟨ops, h1, h2, h3, h4⟩ := ih (t.step S (.give r)).1
      refine ⟨ops, by simpa [requests] using h1, by simpa [requests] using h2, ?_, fun r' g1 g2 g3 => ?_⟩
      rotate_left
      · have hi := step_idle S (.give r) t r' (by simp) g1
        exact h4 r' (by rw [hi]; exact g1) (by rw [hi]; exact g2) (by simpa using g3)
      rw [hd.1] at h3
      rw [h3]
      simp only [Train.run, hd.2, List.nil_append]
    | poke i =>
      obtain ⟨ops, h1, h2, h3, h4⟩ := ih (t.step S (.poke i)).1
      refine ⟨.poke i :: ops, by simpa [requests] using h1, by simpa [requests, pokes] using h2, ?_, fun r' g1 g2 g3 => ?_⟩
      rotate_left
      · have hi := step_idle S (.poke i) t r' (by simp) g1
        exact List.mem_cons_of_mem _ (h4 r' (by rw [hi]; exact g1) (by rw [hi]; exact g2) (by simpa using g3))
      have hd : (t.step S (.poke i)).1.dist = { t.dist with src := S.poke i t.dist.src } ∧ (t.step S (.poke i)).2 = [] :=
        ⟨rfl, rfl⟩
      rw [hd.1] at h3
      simp only [Dist.run, Dist.op, h3, Train.run, hd.2, Option.toList_none, List.nil_append]

/-- Everything a loader has or will hand over comes from the chunks it received, in order and without gaps. -/
theorem run_stream (S : Source σ ι (Parcel K α)) (es : List (TEv ι)) (t : Train σ K α) (r : DReq) :
    ((t.run S es).1.loaders r).out ++ ((t.run S es).1.loaders r).pending.map Prod.snd =
      (t.loaders r).out ++ (t.loaders r).pending.map Prod.snd ++ (received (t.run S es).2 r).flatMap samplesOf := by
  induction es generalizing t with
  | nil => simp [Train.run, received]
  | cons e es ih =>
    have key : ((t.step S e).1.loaders r).out ++ ((t.step S e).1.loaders r).pending.map Prod.snd =
        (t.loaders r).out ++ (t.loaders r).pending.map Prod.snd ++ (received (t.step S e).2 r).flatMap samplesOf := by
      cases e with
      | ask r' =>
        simp only [Train.step]
        split
        · rename_i hp
          rw [received_one]
          by_cases hr : r' = r
          · subst hr
            have hpe : (t.loaders r').pending = [] := by simpa using hp.1
            cases ha : (t.dist.nextChunkFor S r').2 with
            | chunk c => simp [Train.answer, Train.setLoader, Train.setCurrent, hpe, ← read_samples]
            | stop => simp [Train.answer, Train.setLoader, Train.setCurrent]
            | raised e => simp [Train.answer, Train.setLoader, Train.setCurrent]
          · have hr' : r ≠ r' := fun h => hr h.symm
            rw [if_neg hr]
            cases ha : (t.dist.nextChunkFor S r').2 <;> simp [Train.answer, Train.setLoader, Train.setCurrent, hr']
        · simp [received]
      | give r' =>
        simp only [Train.step]
        split
        · simp [received]
        · rename_i s rest hs
          by_cases hr : r = r'
          · subst hr; simp [Train.setLoader, received, hs]
          · simp [Train.setLoader, received, hr]
      | poke i => simp [Train.step, received]
    have e1 : (t.run S (e :: es)).1 = ((t.step S e).1.run S es).1 := rfl
    have e2 : (t.run S (e :: es)).2 = (t.step S e).2 ++ ((t.step S e).1.run S es).2 := rfl
    rw [e1, e2, ih, key, received_append, List.flatMap_append, List.append_assoc]

/-- How a loader stands with the last chunk it received. -/
def Linked (last : Option (Parcel K α)) (l : Loader α) : Prop :=
  match last with
  | none => l.pending = [] ∧ l.out = [] ∧ l.status = 0
  | some c => ∃ handed before, c.read = handed ++ l.pending ∧ l.out = before ++ handed.map Prod.snd ∧
      ∀ x, handed.getLast? = some x → l.status = x.1

theorem step_linked (S : Source σ ι (Parcel K α)) (e : TEv ι) (t : Train σ K α) (last : DReq → Option (Parcel K α))
    (h : ∀ r, Linked (last r) (t.loaders r)) (r : DReq) :
    Linked (lastReceived last (t.step S e).2 r) ((t.step S e).1.loaders r) := by
  cases e with
  | ask r' =>
    simp only [Train.step]
    split
    · rename_i hp
      have hpe : (t.loaders r').pending = [] := by simpa using hp.1
      unfold lastReceived
      rw [received_one]
      by_cases hr : r' = r
      · subst hr
        cases ha : (t.dist.nextChunkFor S r').2 with
        | chunk c =>
          simp only [if_true, List.getLast?_singleton, Option.some_or, Train.answer, Train.setLoader, Train.setCurrent]
          exact ⟨[], (t.loaders r').out, by simp, by simp, by simp⟩
        | stop =>
          have := h r'
          simp only [if_true, List.getLast?_nil, Option.none_or, Train.answer, Train.setLoader, Train.setCurrent]
          exact this
        | raised e =>
          have := h r'
          simp only [if_true, List.getLast?_nil, Option.none_or, Train.answer, Train.setLoader, Train.setCurrent]
          exact this
      · have hr' : r ≠ r' := fun h => hr h.symm
        rw [if_neg hr]
        have := h r
        cases ha : (t.dist.nextChunkFor S r').2 <;>
          simpa [Train.answer, Train.setLoader, Train.setCurrent, hr'] using this
    · simpa [lastReceived, received] using h r
  | give r' =>
    simp only [Train.step]
    split
    · simpa [lastReceived, received] using h r
    · rename_i s rest hs
      have hl := h r
      simp only [lastReceived, received, List.filterMap_nil, List.getLast?_nil, Option.none_or]
      by_cases hr : r = r'
      · subst hr
        simp only [Train.setLoader, if_true]
        cases hc : last r with
        | none => rw [hc] at hl; simp [Linked, hs] at hl
        | some c =>
          rw [hc] at hl
          obtain ⟨handed, before, h1, h2, h3⟩ := hl
          refine ⟨handed ++ [s], before, by simp [h1, hs], by simp [h2], ?_⟩
          intro x hx
          simp at hx
          rw [← hx]
      · simpa [Train.setLoader, hr] using hl
  | poke i => simpa [Train.step, lastReceived, received] using h r

theorem run_linked (S : Source σ ι (Parcel K α)) (es : List (TEv ι)) (t : Train σ K α) (last : DReq → Option (Parcel K α))
    (h : ∀ r, Linked (last r) (t.loaders r)) (r : DReq) :
    Linked (lastReceived last (t.run S es).2 r) ((t.run S es).1.loaders r) := by
  induction es generalizing t last with
  | nil => simpa [Train.run, lastReceived, received] using h r
  | cons e es ih =>
    have := ih (t.step S e).1 _ (step_linked S e t last h)
    have e2 : (t.run S (e :: es)).2 = (t.step S e).2 ++ ((t.step S e).1.run S es).2 := rfl
    rw [e2]
    rw [lastReceived_append]
    exact this

theorem valid_of_sublist {G N W : Nat} {es : List (TEv ι)} (hv : ∀ e ∈ es, e.Valid G N W) {ops : List (DOp ι)}
    (h : ops.Sublist (requests es)) : ∀ o ∈ ops, o.Valid G N W := by
  intro o ho
  have := h.subset ho
  clear h ho
  induction es with
  | nil => simp [requests] at this
  | cons e es ih =>
    have ih := ih fun e he => hv e (by simp [he])
    cases e with
    | ask r =>
      simp only [requests, List.mem_cons] at this
      rcases this with rfl | h
      · exact hv (.ask r) (by simp)
      · exact ih h
    | give r => exact ih this
    | poke i =>
      simp only [requests, List.mem_cons] at this
      rcases this with rfl | h
      · trivial
      · exact ih h

theorem Reached.facts {S : Source σ ι (Parcel K α)} {G N W : Nat} {t : Train σ K α} {last : DReq → Option (Parcel K α)}
    (h : Reached S G N W t last) :
    Mixtera.Reached S Parcel.setSkip G N W t.dist last ∧ ∀ r, Linked (last r) (t.loaders r) := by
  induction h with
  | init src d workers hW h => exact ⟨.init src d workers hW h, fun r => ⟨rfl, rfl, rfl⟩⟩
  | events t last _ es hv ih =>
    refine ⟨?_, run_linked S es t last ih.2⟩
    obtain ⟨ops, h1, _, h3, _⟩ := run_dist S es t
    have := Mixtera.Reached.ops t.dist last ih.1 ops (valid_of_sublist hv h1)
    rw [h3] at this
    exact this
  | restart t last _ ha status saved hs src ih =>
    exact ⟨.restore t.dist last ih.1 ha status saved hs src, fun r => ⟨rfl, rfl, rfl⟩⟩

/-! ## Restarting -/

/-- What one worker gets after a restart, by comparison with the uninterrupted distributor. -/
theorem resumed_received (S : Source σ ι (Parcel K α)) (later : List (DOp ι)) (d : Dist σ (Parcel K α))
    (again : DReq → Option (Parcel K α)) :
    ∃ ops, ops.Sublist later ∧ pokes ops = pokes later ∧ (∀ r,
      match again r with
      | none => received (resumed S d again later) r = received (d.run S ops).2 r
      | some c => received (resumed S d again later) r = c :: received (d.run S ops).2 r ∨
          (DOp.ask r ∉ later ∧ received (resumed S d again later) r = [])) ∧
      (∀ r, again r = none → DOp.ask r ∈ later → DOp.ask r ∈ ops) ∧
      (∀ x ∈ (d.run S ops).2, x ∈ resumed S d again later) ∧
      (∀ r, (r, Ans.stop) ∈ resumed S d again later → (r, Ans.stop) ∈ (d.run S ops).2) := by
  induction later generalizing d again with
  | nil =>
    refine ⟨[], List.Sublist.refl _, rfl, fun r => ?_, by simp, by simp [Dist.run], by simp [resumed]⟩
    cases again r with
    | none => simp [resumed, Dist.run, received]
    | some c => exact Or.inr ⟨by simp, rfl⟩
  | cons o later ih =>
    cases o with
    | poke i =>
      obtain ⟨ops, h1, h2, h3, h4, h5, h6⟩ := ih (d.op S (.poke i)).1 again
      have e : (d.run S (.poke i :: ops)).2 = ((d.op S (.poke i)).1.run S ops).2 := by
        simp [Dist.run, Dist.op]
      refine ⟨.poke i :: ops, by simpa using h1, by simpa [pokes] using h2, fun r => ?_, ?_, ?_, ?_⟩
      · have h := h3 r
        rw [e]
        cases hr : again r with
        | none => rw [hr] at h; exact h
        | some c =>
          rw [hr] at h
          rcases h with h | ⟨h, h'⟩
          · exact Or.inl h
          · exact Or.inr ⟨by simpa using h, h'⟩
      · intro r hr hin
        exact List.mem_cons_of_mem _ (h4 r hr (by simpa using hin))
      · rw [e]; exact h5
      · rw [e]; exact h6
    | ask r0 =>
      cases ha : again r0 with
      | some c0 =>
        obtain ⟨ops, h1, h2, h3, h4, h5, h6⟩ := ih d (fun r' => if r' = r0 then none else again r')
        have e : resumed S d again (.ask r0 :: later) =
            [(r0, .chunk c0)] ++ resumed S d (fun r' => if r' = r0 then none else again r') later := by
          rw [resumed, ha]; rfl
        refine ⟨ops, h1.trans (List.sublist_cons_self _ _), by simpa [pokes] using h2, fun r => ?_, ?_, ?_, ?_⟩
        · have h := h3 r
          rw [e, received_append, received_one]
          by_cases hr : r0 = r
          · subst hr
            rw [ha]
            simp only [if_true] at h ⊢
            exact Or.inl (by rw [h]; rfl)
          · have hr' : r ≠ r0 := fun h => hr h.symm
            simp only [if_neg hr', if_neg hr, List.nil_append] at h ⊢
            cases hx : again r with
            | none => rw [hx] at h; exact h
            | some c =>
              rw [hx] at h
              rcases h with h | ⟨h, h'⟩
              · exact Or.inl h
              · exact Or.inr ⟨by simp [hr', h], h'⟩
        · intro r hr hin
          have hne : r ≠ r0 := by rintro rfl; rw [ha] at hr; cases hr
          rcases List.mem_cons.mp hin with hx | hx
          · exact absurd (DOp.ask.inj hx) hne
          · exact h4 r (by simpa [hne] using hr) hx
        · intro x hx
          rw [e]
          exact List.mem_append_right _ (h5 x hx)
        · intro r hr
          rw [e] at hr
          rcases List.mem_append.mp hr with hr | hr
          · simp at hr
          · exact h6 r hr
      | none =>
        obtain ⟨ops, h1, h2, h3, h4, h5, h6⟩ := ih (d.nextChunkFor S r0).1 again
        have e : resumed S d again (.ask r0 :: later) =
            [(r0, (d.nextChunkFor S r0).2)] ++ resumed S (d.nextChunkFor S r0).1 again later := by
          rw [resumed, ha]; rfl
        have e' : (d.run S (.ask r0 :: ops)).2 =
            [(r0, (d.nextChunkFor S r0).2)] ++ ((d.nextChunkFor S r0).1.run S ops).2 := by
          simp [Dist.run, Dist.op]
        refine ⟨.ask r0 :: ops, by simpa using h1, by simpa [pokes] using h2, fun r => ?_, ?_, ?_, ?_⟩
        · have h := h3 r
          rw [e, e', received_append, received_append]
          cases hx : again r with
          | none => rw [hx] at h; dsimp only; rw [h]
          | some c =>
            rw [hx] at h
            have hr : r0 ≠ r := by rintro rfl; rw [ha] at hx; cases hx
            have hr' : r ≠ r0 := fun h => hr h.symm
            simp only [received_one, if_neg hr, List.nil_append] at h ⊢
            rcases h with h | ⟨h, h'⟩
            · exact Or.inl h
            · exact Or.inr ⟨by simp [hr', h], h'⟩
        · intro r hr hin
          rcases List.mem_cons.mp hin with hx | hx
          · exact hx ▸ List.mem_cons_self
          · exact List.mem_cons_of_mem _ (h4 r hr hx)
        · intro x hx
          rw [e'] at hx; rw [e]
          rcases List.mem_append.mp hx with hx | hx
          · exact List.mem_append_left _ hx
          · exact List.mem_append_right _ (h5 x hx)
        · intro r hr
          rw [e] at hr; rw [e']
          rcases List.mem_append.mp hr with hr | hr
          · exact List.mem_append_left _ hr
          · exact List.mem_append_right _ (h6 r hr)

/-- **C62.** For every job that can exist, in a state in which a checkpoint is allowed: let loader `r` have received chunk
`c` and handed over at least one of its samples. Let `U` be everything the loader delivers without an interruption since its
last start. If the largest status reported for it is `m`, then after a restart the loader delivers exactly `U` from the sample
with index `m` of the chunk on - that is from the last sample it had handed over, plus the distance to the largest report.
So with `m` its own status nothing is left out and one sample, the last one, is delivered again.
Missing (see the theorems below): loaders that have received a chunk but not handed over a sample of it, and samples that
wait in the data loader's queue. -/
theorem c62_resume_partial (S : Source σ ι (Parcel K α)) (G N W : Nat) (hN : 0 < N) (t : Train σ K α)
    (last : DReq → Option (Parcel K α)) (ht : Reached S G N W t last) (ha : t.dist.aligned = true)
    (status : Nat → Nat → Option Nat) (saved : Saved (Parcel K α))
    (hs : t.dist.persist Parcel.setSkip status = .ok saved) (src : σ) (hsrc : SrcEq S t.dist.src src)
    (r : DReq) (c : Parcel K α) (hc : last r = some c) (hgiven : (t.loaders r).pending.length < c.read.length)
    (m : Nat) (hm : status r.group r.worker = some m) (hle : (t.loaders r).status ≤ m) (hlen : m < c.source.length)
    (es : List (TEv ι)) (hv : ∀ e ∈ es, e.Valid G N W) :
    let t' := ((Train.start (saved.restore src)).run S es).1
    ∃ ops, ops.Sublist (requests es) ∧ pokes ops = pokes (requests es) ∧
      let U := (t.loaders r).out ++ (t.loaders r).pending.map Prod.snd ++ (received (t.dist.run S ops).2 r).flatMap samplesOf
      ((t'.loaders r).out ++ (t'.loaders r).pending.map Prod.snd =
          U.drop ((t.loaders r).out.length - 1 + (m - (t.loaders r).status))) ∨
        (TEv.ask r ∉ es ∧ (t'.loaders r).out = [] ∧ (t'.loaders r).pending = []) := by
  obtain ⟨hd, hl⟩ := ht.facts
  obtain ⟨ops1, h1, h2, h3, hasked⟩ := run_dist S es (Train.start (saved.restore src))
  have h20 := c20_resume S Parcel.setSkip setSkip_setSkip G N W hN t.dist last hd ha status saved hs src hsrc ops1
    (valid_of_sublist hv h1)
  obtain ⟨ops, h4, h5, h6, -⟩ := resumed_received S ops1 t.dist
    (fun r => (last r).map (Parcel.setSkip ((status r.group r.worker).getD 0)))
  refine ⟨ops, h4.trans h1, h5.trans h2, ?_⟩
  have hst := run_stream S es (Train.start (saved.restore src)) r
  have hans : (((Train.start (saved.restore src)).run S es).2 : List (DReq × Ans (Parcel K α))) =
      ((saved.restore src).run S ops1).2 := by
    have : ((Train.start (saved.restore src) : Train σ K α).dist.run S ops1).2 = _ := congrArg Prod.snd h3
    exact this.symm
  have h6r := h6 r
  simp only [hc, Option.map_some, hm, Option.getD_some] at h6r
  rw [hans, h20] at hst
  have hfr : ((Train.start (saved.restore src) : Train σ K α).loaders r).out = [] ∧
      ((Train.start (saved.restore src) : Train σ K α).loaders r).pending = [] := ⟨rfl, rfl⟩
  rw [hfr.1, hfr.2] at hst
  simp only [List.map_nil, List.nil_append] at hst
  rcases h6r with h6r | ⟨hno, h6r⟩
  · left
    rw [hst, h6r, List.flatMap_cons]
    have hlr := hl r
    rw [hc] at hlr
    obtain ⟨handed, before, g1, g2, g3⟩ := hlr
    have hne : handed ≠ [] := by
      rintro rfl
      rw [g1] at hgiven; simp at hgiven
    obtain ⟨h', x, rfl⟩ : ∃ h' x, handed = h' ++ [x] := ⟨handed.dropLast, handed.getLast hne, (List.dropLast_append_getLast hne).symm⟩
    have hx : (t.loaders r).status = x.1 := g3 x (by simp)
    have hx2 : x.1 = c.skip + h'.length := read_index c h'.length x (by rw [g1]; simp)
    rw [← read_samples (c.setSkip m), setSkip_read c m (by omega)]
    have hrl := read_length c
    have e1 : m - c.skip = h'.length + (m - (t.loaders r).status) := by omega
    rw [e1, g1, g2]
    have hk : m - (t.loaders r).status ≤ (t.loaders r).pending.length := by
      rw [g1] at hrl
      simp only [List.length_append, List.length_singleton] at hrl
      omega
    generalize m - (t.loaders r).status = k at hk ⊢
    have e2 : (before ++ (h' ++ [x]).map Prod.snd).length - 1 + k = before.length + h'.length + k := by
      simp only [List.map_append, List.length_append, List.length_map, List.map_cons, List.map_nil, List.length_singleton]
      omega
    rw [e2]
    simp only [List.map_append, List.append_assoc, List.map_cons, List.map_nil, List.singleton_append]
    have d1 : ∀ (z : List (Nat × α)), (before ++ (h'.map Prod.snd ++ z)).drop (before.length + h'.length + k) = z.drop k := by
      intro z
      rw [← List.append_assoc, List.drop_append]
      have : (before ++ h'.map Prod.snd).length = before.length + h'.length := by simp
      rw [this, List.drop_eq_nil_of_le (by rw [this]; omega)]
      simp
    rw [d1, List.map_drop]
    simp only [List.map_append, List.map_cons]
    have d2 : ∀ (z : List (Nat × α)), (h'.map Prod.snd ++ z).drop (h'.length + k) = z.drop k := by
      intro z
      rw [List.drop_append, List.drop_eq_nil_of_le (by simp)]
      simp
    rw [d2, List.drop_append_of_le_length (by simp; omega)]
  · right
    rw [h6r] at hst
    exact ⟨fun h => hno (hasked r rfl rfl h), by simpa using hst⟩

/-- What all nodes report if they all read their status array now. -/
def reports (t : Train σ K α) (G N : Nat) : Dict (Nat × Nat) (List Nat) :=
  (List.range G).flatMap fun g => (List.range N).map fun n => ((g, n), t.workerStatus g n)

theorem mem_reports (t : Train σ K α) (G N g n : Nat) (l : List Nat) :
    ((g, n), l) ∈ reports t G N ↔ g < G ∧ n < N ∧ l = t.workerStatus g n := by
  unfold reports
  simp only [List.mem_flatMap, List.mem_range, List.mem_map, Prod.mk.injEq]
  constructor
  · rintro ⟨g', hg, n', hn, ⟨rfl, rfl⟩, rfl⟩; exact ⟨hg, hn, rfl⟩
  · rintro ⟨hg, hn, rfl⟩; exact ⟨g, hg, n, hn, ⟨rfl, rfl⟩, rfl⟩

theorem workerStatus_get (t : Train σ K α) (g n w : Nat) :
    (t.workerStatus g n)[w]? = if w < t.dist.workers then some (t.loaders ⟨g, n, w⟩).status else none := by
  unfold Train.workerStatus
  rw [List.getElem?_map]
  split
  · rename_i h; rw [List.getElem?_range h]; rfl
  · rename_i h; rw [List.getElem?_eq_none (by simpa using h)]; rfl

/-- A loader that has handed over a sample of its chunk reports an index inside the chunk. -/
theorem status_lt {c : Parcel K α} {l : Loader α} (h : Linked (some c) l) (hgiven : l.pending.length < c.read.length) :
    l.status < c.source.length := by
  obtain ⟨handed, before, g1, g2, g3⟩ := h
  have hne : handed ≠ [] := by
    rintro rfl
    rw [g1] at hgiven; simp at hgiven
  obtain ⟨h', x, rfl⟩ : ∃ h' x, handed = h' ++ [x] :=
    ⟨handed.dropLast, handed.getLast hne, (List.dropLast_append_getLast hne).symm⟩
  have hx : l.status = x.1 := g3 x (by simp)
  have hx2 : x.1 = c.skip + h'.length := read_index c h'.length x (by rw [g1]; simp)
  have hrl := read_length c
  rw [g1] at hrl
  simp only [List.length_append, List.length_singleton] at hrl
  omega

/-- **C62** (all nodes report what their loaders have handed over, and all loaders of the group's worker are equally far).
After the restart the loader delivers again the last sample it had handed over, and then exactly what an uninterrupted run
delivers: nothing is left out. -/
theorem c62_no_gap_partial (S : Source σ ι (Parcel K α)) (G N W : Nat) (t : Train σ K α)
    (last : DReq → Option (Parcel K α)) (ht : Reached S G N W t last) (ha : t.dist.aligned = true)
    (saved : Saved (Parcel K α)) (hs : t.dist.persist Parcel.setSkip (maxStatus (reports t G N)) = .ok saved)
    (src : σ) (hsrc : SrcEq S t.dist.src src)
    (r : DReq) (hr : r.group < G ∧ r.node < N ∧ r.worker < W) (c : Parcel K α) (hc : last r = some c)
    (hgiven : (t.loaders r).pending.length < c.read.length)
    (hsame : ∀ n, n < N → (t.loaders ⟨r.group, n, r.worker⟩).status = (t.loaders r).status)
    (es : List (TEv ι)) (hv : ∀ e ∈ es, e.Valid G N W) :
    let t' := ((Train.start (saved.restore src)).run S es).1
    ∃ sample ops, (t.loaders r).out.getLast? = some sample ∧ ops.Sublist (requests es) ∧ pokes ops = pokes (requests es) ∧
      ((t'.loaders r).out ++ (t'.loaders r).pending.map Prod.snd =
          sample :: ((t.loaders r).pending.map Prod.snd ++ (received (t.dist.run S ops).2 r).flatMap samplesOf) ∨
        (TEv.ask r ∉ es ∧ (t'.loaders r).out = [] ∧ (t'.loaders r).pending = [])) := by
  obtain ⟨hd, hl⟩ := ht.facts
  have hlr := hl r
  rw [hc] at hlr
  have hN : 0 < N := by omega
  obtain ⟨s0, hlife⟩ := reached_life S Parcel.setSkip setSkip_setSkip hN hd
  have hW := hlife.rel.workers
  have hmax : maxStatus (reports t G N) r.group r.worker = some (t.loaders r).status := by
    rw [c20_skip_is_largest_report]
    refine ⟨⟨r.node, _, (mem_reports t G N _ _ _).mpr ⟨hr.1, hr.2.1, rfl⟩, ?_⟩, ?_⟩
    · rw [workerStatus_get, if_pos (by omega)]
    · intro n l x hm hx
      obtain ⟨_, hn, rfl⟩ := (mem_reports t G N _ _ _).mp hm
      rw [workerStatus_get, if_pos (by omega)] at hx
      have := hsame n hn
      simp only [Option.some.injEq] at hx
      omega
  have hres := c62_resume_partial S G N W hN t last ht ha _ saved hs src hsrc r c hc hgiven _ hmax (Nat.le_refl _)
    (status_lt hlr hgiven) es hv
  obtain ⟨handed, before, g1, g2, g3⟩ := hlr
  have hne : handed ≠ [] := by
    rintro rfl
    rw [g1] at hgiven; simp at hgiven
  obtain ⟨h', x, rfl⟩ : ∃ h' x, handed = h' ++ [x] :=
    ⟨handed.dropLast, handed.getLast hne, (List.dropLast_append_getLast hne).symm⟩
  obtain ⟨ops, h1, h2, h3⟩ := hres
  refine ⟨x.2, ops, by rw [g2]; simp, h1, h2, ?_⟩
  rcases h3 with h3 | h3
  · left
    rw [h3, g2]
    have e : (before ++ (h' ++ [x]).map Prod.snd).length - 1 + ((t.loaders r).status - (t.loaders r).status) =
        (before ++ h'.map Prod.snd).length := by simp
    rw [e]
    simp only [List.map_append, List.append_assoc, List.map_cons, List.map_nil, List.singleton_append]
    rw [← List.append_assoc before, List.drop_left]
    simp
  · exact Or.inr h3

/-! ## C59 -/

/-- The chunks a node's loaders received after the last end of one of their streams, from the answers to the node. -/
def sinceEnd (as : List (Ans (Parcel K α))) : List (Parcel K α) :=
  as.foldl (fun cs a => match a with | .chunk c => cs ++ [c] | .stop => [] | .raised _ => cs) []

/-- The answers to the loaders of one node. -/
def toNode (g n : Nat) (as : List (DReq × Ans (Parcel K α))) : List (Ans (Parcel K α)) :=
  (as.filter fun a => decide (a.1.group = g ∧ a.1.node = n)).map Prod.snd

theorem toNode_append (g n : Nat) (a b : List (DReq × Ans (Parcel K α))) : toNode g n (a ++ b) = toNode g n a ++ toNode g n b := by
  unfold toNode
  rw [List.filter_append, List.map_append]

/-- The value after an answer. -/
def idAfter (v : Int) : Ans (Parcel K α) → Int
  | .chunk c => max c.mixtureId v
  | .stop => -1
  | .raised _ => v

theorem current_step (S : Source σ ι (Parcel K α)) (e : TEv ι) (t : Train σ K α) (g n : Nat) :
    (t.step S e).1.current g n = (toNode g n (t.step S e).2).foldl idAfter (t.current g n) := by
  cases e with
  | ask r =>
    simp only [Train.step]
    split
    · by_cases hr : r.group = g ∧ r.node = n
      · obtain ⟨rfl, rfl⟩ := hr
        cases (t.dist.nextChunkFor S r).2 <;>
          simp [Train.answer, Train.setLoader, Train.setCurrent, toNode, idAfter]
      · have hr' : ¬ (g = r.group ∧ n = r.node) := fun h => hr ⟨h.1.symm, h.2.symm⟩
        cases (t.dist.nextChunkFor S r).2 <;>
          simp [Train.answer, Train.setLoader, Train.setCurrent, toNode, hr, hr']
    · simp [toNode]
  | give r =>
    simp only [Train.step]
    split
    · simp [toNode]
    · simp [toNode, Train.setLoader]
  | poke i => simp [Train.step, toNode]

theorem current_run (S : Source σ ι (Parcel K α)) (es : List (TEv ι)) (t : Train σ K α) (g n : Nat) :
    (t.run S es).1.current g n = (toNode g n (t.run S es).2).foldl idAfter (t.current g n) := by
  induction es generalizing t with
  | nil => rfl
  | cons e es ih =>
    have e1 : (t.run S (e :: es)).1 = ((t.step S e).1.run S es).1 := rfl
    have e2 : (t.run S (e :: es)).2 = (t.step S e).2 ++ ((t.step S e).1.run S es).2 := rfl
    rw [e1, e2, ih, toNode_append, List.foldl_append, current_step]

theorem idAfter_sinceEnd (as : List (Ans (Parcel K α))) (v : Int) (cs : List (Parcel K α))
    (hv : v = cs.foldl (fun v c => max c.mixtureId v) (-1)) :
    as.foldl idAfter v = (as.foldl (fun cs a => match a with | .chunk c => cs ++ [c] | .stop => [] | .raised _ => cs) cs).foldl
      (fun v c => max c.mixtureId v) (-1) := by
  induction as generalizing v cs with
  | nil => exact hv
  | cons a as ih =>
    simp only [List.foldl_cons]
    cases a with
    | chunk c => exact ih _ _ (by simp [idAfter, hv])
    | stop => exact ih _ _ (by simp [idAfter])
    | raised e => exact ih _ _ (by simp [idAfter, hv])

theorem foldl_max_spec (cs : List (Parcel K α)) (v : Int) :
    (∀ c ∈ cs, c.mixtureId ≤ cs.foldl (fun v c => max c.mixtureId v) v) ∧ v ≤ cs.foldl (fun v c => max c.mixtureId v) v ∧
    (cs.foldl (fun v c => max c.mixtureId v) v = v ∨ ∃ c ∈ cs, cs.foldl (fun v c => max c.mixtureId v) v = c.mixtureId) := by
  induction cs generalizing v with
  | nil => simp
  | cons c cs ih =>
    simp only [List.foldl_cons]
    obtain ⟨h1, h2, h3⟩ := ih (max c.mixtureId v)
    refine ⟨?_, by omega, ?_⟩
    · intro x hx
      rcases List.mem_cons.mp hx with rfl | hx
      · omega
      · exact h1 x hx
    · rcases h3 with h3 | ⟨x, hx, h3⟩
      · by_cases h : c.mixtureId ≤ v
        · left; omega
        · right; exact ⟨c, by simp, by omega⟩
      · exact Or.inr ⟨x, by simp [hx], h3⟩

/-- **C59.** After any history of a job the mixture id that a node's client reports is the largest mixture id of the chunks
that the node's loaders received since the last end of one of the node's streams, and there is none if they received none. -/
theorem c59_current_id (S : Source σ ι (Parcel K α)) (d : Dist σ (Parcel K α)) (es : List (TEv ι)) (g n : Nat)
    (hid : ∀ c ∈ sinceEnd (toNode g n ((Train.start d).run S es).2), 0 ≤ c.mixtureId) :
    let t := ((Train.start d).run S es).1
    let cs := sinceEnd (toNode g n ((Train.start d).run S es).2)
    (t.currentMixtureId g n = none ↔ cs = []) ∧
    ∀ m, t.currentMixtureId g n = some m ↔ (∃ c ∈ cs, c.mixtureId = m) ∧ ∀ c ∈ cs, c.mixtureId ≤ m := by
  have hcur := current_run S es (Train.start d) g n
  have hst : (Train.start d : Train σ K α).current g n = -1 := rfl
  rw [hst, idAfter_sinceEnd _ (-1) [] rfl] at hcur
  change _ = (sinceEnd (toNode g n ((Train.start d).run S es).2)).foldl _ _ at hcur
  dsimp only
  generalize sinceEnd (toNode g n ((Train.start d).run S es).2) = cs at hcur hid
  obtain ⟨h1, h2, h3⟩ := foldl_max_spec cs (-1)
  unfold Train.currentMixtureId
  rw [hcur]
  generalize cs.foldl (fun v c => max c.mixtureId v) (-1) = v at h1 h2 h3
  constructor
  · constructor
    · intro h
      split at h
      · rename_i hv
        rcases h3 with h3 | ⟨c, hc, h3⟩
        · by_contra hne
          obtain ⟨c, hc⟩ := List.exists_mem_of_ne_nil cs hne
          have := h1 c hc; have := hid c hc; omega
        · have := hid c hc; omega
      · cases h
    · rintro rfl
      rcases h3 with h3 | ⟨c, hc, _⟩
      · rw [if_pos (by omega)]
      · cases hc
  · intro m
    constructor
    · intro h
      split at h
      · cases h
      · rename_i hv
        cases h
        rcases h3 with h3 | ⟨c, hc, h3⟩
        · omega
        · exact ⟨⟨c, hc, h3.symm⟩, h1⟩
    · rintro ⟨⟨c, hc, rfl⟩, hall⟩
      have hm : v = c.mixtureId := by
        rcases h3 with h3 | ⟨c', hc', h3⟩
        · have := h1 c hc; have := hid c hc; omega
        · have := h1 c hc; have := hall c' hc'; omega
      rw [if_neg (by have := hid c hc; omega), hm]

/-- **C59** (monotone). As long as no stream of the node ends, the mixture id a node reports never decreases and never
disappears. -/
theorem c59_monotone (S : Source σ ι (Parcel K α)) (t : Train σ K α) (es : List (TEv ι)) (g n : Nat)
    (hno : ∀ a ∈ toNode g n (t.run S es).2, a ≠ .stop) (m : Int) (hm : t.currentMixtureId g n = some m) :
    ∃ m', (t.run S es).1.currentMixtureId g n = some m' ∧ m ≤ m' := by
  have hmono : ∀ (as : List (Ans (Parcel K α))) (v : Int), (∀ a ∈ as, a ≠ .stop) → v ≤ as.foldl idAfter v := by
    intro as
    induction as with
    | nil => intro v _; exact Int.le_refl _
    | cons a as ih =>
      intro v h
      have := ih (idAfter v a) fun x hx => h x (by simp [hx])
      refine Int.le_trans ?_ this
      cases a with
      | chunk c => simp only [idAfter]; omega
      | stop => exact absurd rfl (h _ (by simp))
      | raised e => exact Int.le_refl _
  have := hmono _ (t.current g n) hno
  rw [← current_run] at this
  unfold Train.currentMixtureId at hm ⊢
  split at hm
  · cases hm
  · cases hm
    refine ⟨_, if_neg (by omega), this⟩

/-- **C59** (feedback). Feedback is sent only by the first rank, with the id of the node's client; it fails if there is none. -/
theorem c59_feedback (t : Train σ K α) (g n dpRank tpRank : Nat) :
    (t.feedbackId g n dpRank tpRank = .error .assertion ↔ dpRank = 0 ∧ tpRank = 0 ∧ t.currentMixtureId g n = none) ∧
    ∀ m, t.feedbackId g n dpRank tpRank = .ok (some m) ↔ dpRank = 0 ∧ tpRank = 0 ∧ t.currentMixtureId g n = some m := by
  unfold Train.feedbackId
  split
  · rename_i h
    constructor
    · constructor
      · intro h; cases h
      · rintro ⟨rfl, rfl, _⟩; simp at h
    · intro m
      constructor
      · intro h; cases h
      · rintro ⟨rfl, rfl, _⟩; simp at h
  · rename_i h
    have hd : dpRank = 0 ∧ tpRank = 0 := by omega
    cases t.currentMixtureId g n <;> simp [hd]

/-! ## Concrete cases -/

/-- A query result with a list of chunks. -/
def listed : Source (List (Parcel Nat Char)) Unit (Parcel Nat Char) where
  fetch
    | [] => ([], .stop)
    | c :: cs => (cs, .chunk c)
  poke := fun _ s => s

/-- A chunk with the given samples. -/
def parcel (s : List Char) (m : Int) : Parcel Nat Char := ⟨s.map fun x => (0, x), fun _ => 7, m, 0⟩

def chunks3 : List (Parcel Nat Char) := [parcel ['a', 'b', 'c'] 0, parcel ['d', 'e', 'f'] 1, parcel ['g', 'h', 'i'] 1]

def fresh1 (W : Nat) : Dist (List (Parcel Nat Char)) (Parcel Nat Char) :=
  { groups := 1, nodes := 1, workers := W, src := chunks3, cache := fun _ => [], usage := fun _ => [], next := fun _ _ w => w }

def w0 : DReq := ⟨0, 0, 0⟩
def w1 : DReq := ⟨0, 0, 1⟩

/-- One worker, which has handed over `a`, `b`, `c`, `d`, `e`. -/
def mid : Train (List (Parcel Nat Char)) Nat Char :=
  ((Train.start (fresh1 1)).run listed
    [.ask w0, .give w0, .give w0, .give w0, .ask w0, .give w0, .give w0]).1

/-- Non-vacuity of C62: after the restart the worker delivers `e` again, then `f`, and then the next chunk. -/
example : ∃ saved, mid.dist.persist Parcel.setSkip (maxStatus (reports mid 1 1)) = .ok saved ∧ mid.dist.aligned = true ∧
    Reached listed 1 1 1 mid (lastReceived (fun _ => none) ((Train.start (fresh1 1)).run listed
      [.ask w0, .give w0, .give w0, .give w0, .ask w0, .give w0, .give w0]).2) ∧
    (((Train.start (saved.restore mid.dist.src)).run listed
      [.ask w0, .give w0, .give w0, .ask w0, .give w0]).1.loaders w0).out = [(7, 'e'), (7, 'f'), (7, 'g')] := by
  refine ⟨_, rfl, by decide, ?_, by decide +kernel⟩
  exact Reached.events _ _ (Reached.init chunks3 (fresh1 1) 1 rfl rfl) _ (by
    intro e he
    simp only [List.mem_cons, List.not_mem_nil, or_false] at he
    rcases he with rfl | rfl | rfl | rfl | rfl | rfl | rfl <;> simp [TEv.Valid, w0, effWorkers])

/-- One worker, which has handed over the first chunk and already received the second one, but not handed over any of its
samples. -/
def stale : Train (List (Parcel Nat Char)) Nat Char :=
  ((Train.start (fresh1 1)).run listed [.ask w0, .give w0, .give w0, .give w0, .ask w0]).1

/-- **C62** (finding). A loader that has received its next chunk, but not yet handed over a sample of it, still reports the
last index of the previous chunk; the restart applies it to the new chunk, and samples `d` and `e` are never delivered. -/
theorem c62_stale_status_loses : ∃ saved,
    stale.dist.persist Parcel.setSkip (maxStatus (reports stale 1 1)) = .ok saved ∧ stale.dist.aligned = true ∧
    (stale.loaders w0).out = [(7, 'a'), (7, 'b'), (7, 'c')] ∧
    (((Train.start (saved.restore stale.dist.src)).run listed
      [.ask w0, .give w0, .ask w0, .give w0, .give w0, .give w0, .ask w0]).1.loaders w0).out =
        [(7, 'f'), (7, 'g'), (7, 'h'), (7, 'i')] := by
  refine ⟨_, rfl, by decide, by decide +kernel, by decide +kernel⟩

/-- **C62** (finding). The status counts the samples a loader process has handed to the data loader, not those the training
loop has taken from it. If the training loop has only taken `a` when the checkpoint is made in state `mid`, the samples `b`,
`c` and `d` are not delivered after the restart. -/
theorem c62_prefetched_lost : ∃ saved,
    mid.dist.persist Parcel.setSkip (maxStatus (reports mid 1 1)) = .ok saved ∧
    [(7, 'a')] <+: (mid.loaders w0).out ∧ (mid.loaders w0).out = [(7, 'a'), (7, 'b'), (7, 'c'), (7, 'd'), (7, 'e')] ∧
    ((((Train.start (saved.restore mid.dist.src)).run listed
      [.ask w0, .give w0, .give w0, .ask w0, .give w0, .give w0, .give w0, .ask w0]).1.loaders w0).out =
        [(7, 'e'), (7, 'f'), (7, 'g'), (7, 'h'), (7, 'i')]) := by
  refine ⟨_, rfl, by decide +kernel, by decide +kernel, by decide +kernel⟩

/-- Non-vacuity of C59: the second worker's chunk carries the newer mixture. -/
example : let t := ((Train.start (fresh1 2)).run listed [.ask w0, .ask w1]).1
    t.currentMixtureId 0 0 = some 1 ∧ t.feedbackId 0 0 0 0 = .ok (some 1) ∧ t.feedbackId 0 0 1 0 = .ok none := by
  decide +kernel

/-- **C59** (finding). When the stream of one worker ends, the node's mixture id is gone although the other worker still hands
over samples; feedback then fails. -/
theorem c59_gone_while_streaming :
    let two := { fresh1 2 with src := [parcel ['a'] 3, parcel ['b', 'c'] 3] }
    let t := ((Train.start two).run listed [.ask w0, .ask w1, .give w0, .give w1, .ask w0]).1
    (t.loaders w1).pending ≠ [] ∧ t.feedbackId 0 0 0 0 = .error .assertion := by
  decide +kernel

end Mixtera.Torch
