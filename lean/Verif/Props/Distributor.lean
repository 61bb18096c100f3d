import Verif.Lemmas.Distributor

/-!
# C15 - C18: the chunk distributor

All statements are about arbitrary sequences of requests of existing groups, nodes and workers, with
arbitrary operations on the query result in between, and an arbitrary query result.
-/

set_option linter.unusedSectionVars false

namespace Mixtera

variable {σ ι C : Type}

/-- Number of workers as the distributor counts them. -/
def effWorkers (workers : Nat) : Nat := if workers > 0 then workers else 1

/-- C15 (construction). A distributor exists for every number of groups, nodes and workers except zero groups, which is
rejected with a ValueError. -/
theorem c15_construction (groups nodes workers : Nat) (src : σ) :
    (∃ d : Dist σ C, Dist.init groups nodes workers src = .ok d) ↔ 1 ≤ groups := by
  unfold Dist.init
  by_cases h : groups < 1
  · rw [if_pos h]
    exact ⟨fun ⟨_, e⟩ => by simp at e, fun h' => absurd h (by omega)⟩
  · rw [if_neg h]
    exact ⟨fun _ => by omega, fun _ => ⟨_, rfl⟩⟩

/-- Zero groups: the error. -/
theorem c15_zero_groups (nodes workers : Nat) (src : σ) :
    (Dist.init 0 nodes workers src : Except Err (Dist σ C)) = .error .valueError := rfl

/-! ### Refinement -/

/-- C15/C16/C17 (refinement). The answers of the distributor are those of the specification with an unbounded
memory (`Spec/Distributor.lean`): the cache and its eviction are unobservable. -/
theorem c17_refines_unbounded_memory (S : Source σ ι C) (groups nodes workers : Nat) (src : σ) (d : Dist σ C)
    (hd : Dist.init groups nodes workers src = .ok d) (os : List (DOp ι))
    (ho : ∀ o ∈ os, o.Valid groups nodes (effWorkers workers)) :
    (d.run S os).2 = ((SDist.init src).run S os).2 :=
  (run_rel S os ho (init_rel groups nodes workers src hd)).1

theorem received_append (a b : List (DReq × Ans C)) (r : DReq) : received (a ++ b) r = received a r ++ received b r := by
  simp [received]

theorem received_other (r r' : DReq) (a : Ans C) (h : r' ≠ r) : received [(r', a)] r = [] := by
  simp [received, h]

/-- A request moves only its own cursor and only its own stream. -/
theorem spec_next_facts (S : Source σ ι C) (s : SDist σ C) (q : DReq)
    (hp : ∀ g n w, s.pos g n w ≤ (s.stream g w).length) :
    (∀ g n w, (s.next S q).1.pos g n w ≤ ((s.next S q).1.stream g w).length) ∧
    ∀ r : DReq, (s.stream r.group r.worker).take (s.pos r.group r.node r.worker) ++ received [(q, (s.next S q).2)] r =
      ((s.next S q).1.stream r.group r.worker).take ((s.next S q).1.pos r.group r.node r.worker) := by
  unfold SDist.next
  dsimp only
  cases hst : (s.stream q.group q.worker)[s.pos q.group q.node q.worker]? with
  | some c =>
    dsimp only
    have hlt := (List.getElem?_eq_some_iff.mp hst).1
    constructor
    · intro g n w
      simp only [upd3]
      split
      · rename_i e; obtain ⟨rfl, rfl, rfl⟩ := e; omega
      · exact hp g n w
    · intro r
      by_cases hr : q = r
      · subst hr
        simp only [upd3, received, and_self, if_true, List.filterMap_cons, List.filterMap_nil]
        rw [List.take_succ, hst]
        rfl
      · rw [received_other r q _ hr]
        simp only [upd3]
        rw [if_neg, List.append_nil]
        rintro ⟨e1, e2, e3⟩
        exact hr (by cases q; cases r; simp_all)
  | none =>
    have hge := List.getElem?_eq_none_iff.mp hst
    have hle := hp q.group q.node q.worker
    dsimp only
    match S.fetch s.src with
    | (t, .stop) =>
      exact ⟨hp, fun r => by by_cases hr : q = r <;> simp [received, hr]⟩
    | (t, .raised e) =>
      exact ⟨hp, fun r => by by_cases hr : q = r <;> simp [received, hr]⟩
    | (t, .chunk c) =>
      dsimp only
      constructor
      · intro g n w
        have := hp g n w
        simp only [upd3, upd2]
        split
        · rename_i e
          obtain ⟨rfl, rfl, rfl⟩ := e
          simp; omega
        · split
          · rename_i e; obtain ⟨rfl, rfl⟩ := e; simp; omega
          · exact this
      · intro r
        by_cases hr : q = r
        · subst hr
          simp only [upd3, upd2, received, and_self, if_true, List.filterMap_cons, List.filterMap_nil]
          have e : s.pos q.group q.node q.worker = (s.stream q.group q.worker).length := by omega
          rw [e]
          simp
        · rw [received_other r q _ hr, List.append_nil]
          have hne : ¬ (r.group = q.group ∧ r.node = q.node ∧ r.worker = q.worker) := by
            rintro ⟨e1, e2, e3⟩
            exact hr (by cases q; cases r; simp_all)
          simp only [upd3, upd2]
          rw [if_neg hne]
          split
          · rename_i e
            rw [e.1, e.2, List.take_append_of_le_length]
            have := hp q.group r.node q.worker
            exact this
          · rfl

theorem spec_run_facts (S : Source σ ι C) (os : List (DOp ι)) (s : SDist σ C)
    (hp : ∀ g n w, s.pos g n w ≤ (s.stream g w).length) (r : DReq) :
    (s.stream r.group r.worker).take (s.pos r.group r.node r.worker) ++ received (s.run S os).2 r =
      ((s.run S os).1.stream r.group r.worker).take ((s.run S os).1.pos r.group r.node r.worker) := by
  induction os generalizing s with
  | nil => simp [SDist.run, received]
  | cons o os ih =>
    rw [SDist.run]
    dsimp only
    match o with
    | .poke i => simpa [SDist.op] using ih { s with src := S.poke i s.src } hp
    | .ask q =>
      obtain ⟨h1, h2⟩ := spec_next_facts S s q hp
      simp only [SDist.op, Option.toList_some]
      rw [received_append, ← List.append_assoc, h2 r]
      exact ih _ h1

theorem init_received (S : Source σ ι C) (groups nodes workers : Nat) (src : σ) (d : Dist σ C)
    (hd : Dist.init groups nodes workers src = .ok d) (os : List (DOp ι))
    (ho : ∀ o ∈ os, o.Valid groups nodes (effWorkers workers)) (r : DReq) :
    received (d.run S os).2 r =
      (((SDist.init src).run S os).1.stream r.group r.worker).take (((SDist.init src).run S os).1.pos r.group r.node r.worker) := by
  rw [c17_refines_unbounded_memory S groups nodes workers src d hd os ho]
  have := spec_run_facts (C := C) S os (SDist.init src) (fun _ _ _ => Nat.le_refl _) r
  simpa [SDist.init] using this

/-- C15. For every worker id of a group, the chunk sequences received on two nodes agree as far as both have
got: one is a prefix of the other. -/
theorem c15_nodes_see_same_chunks (S : Source σ ι C) (groups nodes workers : Nat) (src : σ) (d : Dist σ C)
    (hd : Dist.init groups nodes workers src = .ok d) (os : List (DOp ι))
    (ho : ∀ o ∈ os, o.Valid groups nodes (effWorkers workers)) (g w n n' : Nat) :
    received (d.run S os).2 ⟨g, n, w⟩ <+: received (d.run S os).2 ⟨g, n', w⟩ ∨
    received (d.run S os).2 ⟨g, n', w⟩ <+: received (d.run S os).2 ⟨g, n, w⟩ := by
  rw [init_received S groups nodes workers src d hd os ho, init_received S groups nodes workers src d hd os ho]
  exact List.prefix_or_prefix_of_prefix (List.take_prefix _ _) (List.take_prefix _ _)

/-! ### Concrete cases -/

/-- A query result with the chunks 100, 101, ..., 109; a poke discards the next one. -/
def exSource : Source Nat Unit Nat :=
  { fetch := fun s => if s < 10 then (s + 1, .chunk (100 + s)) else (s, .stop)
    poke := fun _ s => s + 1 }

def exDist : Dist Nat Nat :=
  { groups := 2, nodes := 2, workers := 2, src := 0, cache := fun _ => [], usage := fun _ => [],
    next := fun _ _ w => w }

def exOps : List (DOp Unit) :=
  [.ask ⟨0, 0, 0⟩, .ask ⟨0, 0, 0⟩, .ask ⟨1, 1, 0⟩, .ask ⟨0, 1, 0⟩, .poke (), .ask ⟨0, 0, 1⟩, .ask ⟨1, 1, 0⟩, .ask ⟨0, 1, 0⟩,
    .ask ⟨0, 1, 0⟩]

instance : DecidablePred (DOp.Valid (ι := ι) G N W) := fun o =>
  match o with
  | .ask _ => inferInstanceAs (Decidable (_ ∧ _ ∧ _))
  | .poke _ => isTrue trivial

example : Dist.init 2 2 2 0 = .ok exDist ∧ (∀ o ∈ exOps, o.Valid 2 2 (effWorkers 2)) ∧
    received (exDist.run exSource exOps).2 ⟨0, 0, 0⟩ = [100, 101] ∧
    received (exDist.run exSource exOps).2 ⟨0, 1, 0⟩ = [100, 101, 106] ∧
    received (exDist.run exSource exOps).2 ⟨1, 1, 0⟩ = [102, 105] ∧
    received (exDist.run exSource exOps).2 ⟨0, 0, 1⟩ = [104] := by
  refine ⟨rfl, ?_⟩
  decide

/-! ### C16 -/

/-- The chunk taken from the query result by a request, if any. -/
def Dist.fetches (S : Source σ ι C) (d : Dist σ C) (r : DReq) : Option C :=
  if r.group < d.groups ∧ r.node < d.nodes ∧ r.worker < d.workers then
    match (d.cache r.group).get? (d.next r.group r.node r.worker) with
    | some _ => none
    | none =>
      match S.fetch d.src with
      | (_, .chunk c) => some c
      | _ => none
  else none

/-- The chunks taken from the query result, in order, each with the request that caused it. -/
def Dist.fetchLog (S : Source σ ι C) : Dist σ C → List (DOp ι) → List (DReq × C)
  | _, [] => []
  | d, o :: os =>
    (match o with
      | .ask r => (d.fetches S r).toList.map fun c => (r, c)
      | .poke _ => []) ++ Dist.fetchLog S (d.op S o).1 os

/-- The chunks of a fetch log that belong to worker `w` of group `g`. -/
def ownedBy (log : List (DReq × C)) (g w : Nat) : List C :=
  log.filterMap fun (r, c) => if r.group = g ∧ r.worker = w then some c else none

/-- All chunks handed out, in order. -/
def delivered (as : List (DReq × Ans C)) : List C :=
  as.filterMap fun (_, a) => match a with | .chunk c => some c | _ => none

theorem fetches_spec (S : Source σ ι C) {G N W : Nat} {d : Dist σ C} {s : SDist σ C} (h : DRel G N W d s) (r : DReq)
    (hg : r.group < G) (hn : r.node < N) (hw : r.worker < W) :
    ∀ g w, ((s.next S r).1.stream g w) = s.stream g w ++
      (if r.group = g ∧ r.worker = w then (d.fetches S r).toList else []) := by
  intro g w
  have hok : r.group < d.groups ∧ r.node < d.nodes ∧ r.worker < d.workers :=
    ⟨h.groups ▸ hg, h.nodes ▸ hn, h.workers ▸ hw⟩
  unfold Dist.fetches SDist.next
  rw [if_pos hok]
  dsimp only
  rw [h.next]
  cases hst : (s.stream r.group r.worker)[s.pos r.group r.node r.worker]? with
  | some c =>
    obtain ⟨c', hc'⟩ := h.avail r.group r.worker _ r.node hw hn (Nat.le_refl _) (List.getElem?_eq_some_iff.mp hst).1
    rw [hc']
    simp
  | none =>
    have hnc : (d.cache r.group).get? (r.worker + W * s.pos r.group r.node r.worker) = none := by
      cases hc : (d.cache r.group).get? (r.worker + W * s.pos r.group r.node r.worker) with
      | none => rfl
      | some c => have := h.value _ _ _ _ hw hc; rw [hst] at this; simp at this
    rw [hnc, h.src]
    dsimp only
    match S.fetch s.src with
    | (t, .stop) => simp
    | (t, .raised e) => simp
    | (t, .chunk c) =>
      simp only [upd2, Option.toList_some]
      by_cases e : r.group = g ∧ r.worker = w
      · obtain ⟨rfl, rfl⟩ := e; simp
      · rw [if_neg e, if_neg (fun e' => e ⟨e'.1.symm, e'.2.symm⟩), List.append_nil]

theorem ownedBy_append (a b : List (DReq × C)) (g w : Nat) : ownedBy (a ++ b) g w = ownedBy a g w ++ ownedBy b g w := by
  simp [ownedBy]

theorem ownedBy_one (r : DReq) (o : Option C) (g w : Nat) : ownedBy (o.toList.map fun c => (r, c)) g w =
    if r.group = g ∧ r.worker = w then o.toList else [] := by
  cases o with
  | none => simp [ownedBy]
  | some c => by_cases e : r.group = g ∧ r.worker = w <;> simp [ownedBy, e]

theorem fetchLog_streams (S : Source σ ι C) {G N W : Nat} (os : List (DOp ι)) (ho : ∀ o ∈ os, o.Valid G N W)
    {d : Dist σ C} {s : SDist σ C} (h : DRel G N W d s) (g w : Nat) :
    (s.run S os).1.stream g w = s.stream g w ++ ownedBy (d.fetchLog S os) g w := by
  induction os generalizing d s with
  | nil => simp [SDist.run, Dist.fetchLog, ownedBy]
  | cons o os ih =>
    rw [SDist.run, Dist.fetchLog.eq_def]
    dsimp only
    have ho' : ∀ o ∈ os, o.Valid G N W := fun o h' => ho o (by simp [h'])
    have hv := ho o (by simp)
    rw [ownedBy_append]
    match o with
    | .poke i =>
      have h2 : DRel G N W { d with src := S.poke i d.src } { s with src := S.poke i s.src } :=
        { h with src := by dsimp only; rw [h.src] }
      have := ih ho' h2
      simpa [SDist.op, Dist.op, ownedBy] using this
    | .ask r =>
      have h2 := (next_rel S h r hv.1 hv.2.1 hv.2.2).2
      have := ih ho' h2
      simp only [SDist.op, Dist.op]
      rw [this, fetches_spec S h r hv.1 hv.2.1 hv.2.2, List.append_assoc]
      congr 2
      rw [ownedBy_one]

/-- Some node has read everything fetched for its group and worker. -/
def TopRead (N : Nat) (s : SDist σ C) : Prop :=
  ∀ g w, s.stream g w ≠ [] → ∃ n < N, s.pos g n w = (s.stream g w).length

theorem topRead_next (S : Source σ ι C) {N : Nat} {s : SDist σ C} (h : TopRead N s)
    (hp : ∀ g n w, s.pos g n w ≤ (s.stream g w).length) (r : DReq) (hn : r.node < N) : TopRead N (s.next S r).1 := by
  unfold SDist.next
  dsimp only
  cases hst : (s.stream r.group r.worker)[s.pos r.group r.node r.worker]? with
  | some c =>
    dsimp only
    intro g w hne
    obtain ⟨n, hn', he⟩ := h g w hne
    refine ⟨n, hn', ?_⟩
    simp only [upd3]
    rw [if_neg]
    · exact he
    · rintro ⟨rfl, rfl, rfl⟩
      have := (List.getElem?_eq_some_iff.mp hst).1
      omega
  | none =>
    have hge := List.getElem?_eq_none_iff.mp hst
    have hle := hp r.group r.node r.worker
    dsimp only
    match S.fetch s.src with
    | (t, .stop) => exact h
    | (t, .raised e) => exact h
    | (t, .chunk c) =>
      dsimp only
      intro g w hne
      by_cases e : g = r.group ∧ w = r.worker
      · obtain ⟨rfl, rfl⟩ := e
        refine ⟨r.node, hn, ?_⟩
        simp only [upd3, upd2, and_self, if_true, List.length_append, List.length_cons, List.length_nil]
        omega
      · simp only [upd2, if_neg e] at hne ⊢
        obtain ⟨n, hn', he⟩ := h g w hne
        refine ⟨n, hn', ?_⟩
        simp only [upd3]
        rw [if_neg (fun e' => e ⟨e'.1, e'.2.2⟩)]
        exact he

theorem topRead_run (S : Source σ ι C) {G N W : Nat} (os : List (DOp ι)) (ho : ∀ o ∈ os, o.Valid G N W)
    {s : SDist σ C} (h : TopRead N s) (hp : ∀ g n w, s.pos g n w ≤ (s.stream g w).length) : TopRead N (s.run S os).1 := by
  induction os generalizing s with
  | nil => exact h
  | cons o os ih =>
    have ho' : ∀ o ∈ os, o.Valid G N W := fun o h' => ho o (by simp [h'])
    have hv := ho o (by simp)
    rw [SDist.run]
    dsimp only
    match o with
    | .poke i => exact ih ho' (s := { s with src := S.poke i s.src }) h hp
    | .ask r => exact ih ho' (topRead_next S h hp r hv.2.1) (spec_next_facts S s r hp).1

theorem fetchLog_sublist (S : Source σ ι C) {G N W : Nat} (os : List (DOp ι)) (ho : ∀ o ∈ os, o.Valid G N W)
    {d : Dist σ C} {s : SDist σ C} (h : DRel G N W d s) :
    ((d.fetchLog S os).map Prod.snd).Sublist (delivered (d.run S os).2) := by
  induction os generalizing d s with
  | nil => simp [Dist.fetchLog]
  | cons o os ih =>
    have ho' : ∀ o ∈ os, o.Valid G N W := fun o h' => ho o (by simp [h'])
    have hv := ho o (by simp)
    rw [Dist.run, Dist.fetchLog.eq_def]
    dsimp only
    match o with
    | .poke i =>
      have h2 : DRel G N W { d with src := S.poke i d.src } { s with src := S.poke i s.src } :=
        { h with src := by dsimp only; rw [h.src] }
      have := ih ho' h2
      simpa [Dist.op] using this
    | .ask r =>
      obtain ⟨h1, h2⟩ := next_rel S h r hv.1 hv.2.1 hv.2.2
      have hi := ih ho' h2
      simp only [Dist.op, Option.toList_some]
      rw [List.map_append]
      show List.Sublist _ (delivered ([(r, (d.nextChunkFor S r).2)] ++ _))
      rw [show ∀ a b : List (DReq × Ans C), delivered (a ++ b) = delivered a ++ delivered b by
        intro a b; simp [delivered]]
      refine List.Sublist.append ?_ hi
      cases hf : d.fetches S r with
      | none => simp
      | some c =>
        have hs := fetches_spec S h r hv.1 hv.2.1 hv.2.2 r.group r.worker
        rw [hf] at hs
        have ha : (s.next S r).2 = .chunk c := by
          unfold SDist.next at hs ⊢
          dsimp only at hs ⊢
          cases hst : (s.stream r.group r.worker)[s.pos r.group r.node r.worker]? with
          | some c' => rw [hst] at hs; simp at hs
          | none =>
            rw [hst] at hs
            dsimp only at hs ⊢
            match hfe : S.fetch s.src with
            | (t, .stop) => rw [hfe] at hs; simp at hs
            | (t, .raised e) => rw [hfe] at hs; simp at hs
            | (t, .chunk c') => rw [hfe] at hs; simp [upd2] at hs; simp [hs]
        rw [h1, ha]
        simp [delivered]

/-- C16. Split the chunks taken from the query result by the group and worker of the request that took them.
Then every worker of every node receives a prefix of the chunks of its own class and nothing else; for each
class some node has received all of it (nothing fetched is dropped); and the chunks are first handed out in
the order in which they were fetched. -/
theorem c16_partition (S : Source σ ι C) (groups nodes workers : Nat) (src : σ) (d : Dist σ C)
    (hd : Dist.init groups nodes workers src = .ok d) (os : List (DOp ι))
    (ho : ∀ o ∈ os, o.Valid groups nodes (effWorkers workers)) :
    (∀ g n w, received (d.run S os).2 ⟨g, n, w⟩ <+: ownedBy (d.fetchLog S os) g w) ∧
    (∀ g w, ownedBy (d.fetchLog S os) g w ≠ [] →
      ∃ n < nodes, received (d.run S os).2 ⟨g, n, w⟩ = ownedBy (d.fetchLog S os) g w) ∧
    ((d.fetchLog S os).map Prod.snd).Sublist (delivered (d.run S os).2) := by
  have hr := init_rel groups nodes workers src hd
  have hst : ∀ g w, ((SDist.init src).run S os).1.stream g w = ownedBy (d.fetchLog S os) g w := by
    intro g w
    rw [fetchLog_streams S os ho hr]
    simp [SDist.init]
  refine ⟨?_, ?_, fetchLog_sublist S os ho hr⟩
  · intro g n w
    rw [init_received S groups nodes workers src d hd os ho, ← hst]
    exact List.take_prefix _ _
  · intro g w hne
    rw [← hst] at hne ⊢
    obtain ⟨n, hn, he⟩ := topRead_run S os ho (s := SDist.init src) (fun g w h => absurd rfl h)
      (fun _ _ _ => Nat.le_refl _) g w hne
    refine ⟨n, hn, ?_⟩
    rw [init_received S groups nodes workers src d hd os ho]
    dsimp only
    rw [he, List.take_length]

example : exDist.fetchLog exSource exOps =
    [(⟨0, 0, 0⟩, 100), (⟨0, 0, 0⟩, 101), (⟨1, 1, 0⟩, 102), (⟨0, 0, 1⟩, 104), (⟨1, 1, 0⟩, 105), (⟨0, 1, 0⟩, 106)] := by decide

/-! ### C17 -/

/-- C17 (cache contents). After any sequence of events: a chunk is kept only while some node has received it
and some node is at it or right after it; a chunk that some node of the group still has to read is kept. -/
theorem c17_cache_contents (S : Source σ ι C) (groups nodes workers : Nat) (src : σ) (d e : Dist σ C)
    (hd : Dist.init groups nodes workers src = .ok d) (os : List (DOp ι))
    (ho : ∀ o ∈ os, o.Valid groups nodes (effWorkers workers)) (he : e = (d.run S os).1) (g id : Nat) :
    let w := id % effWorkers workers
    (id ∈ (e.cache g).keys → (∃ n < nodes, id < e.next g n w) ∧ ∃ n < nodes, e.next g n w ≤ id + effWorkers workers) ∧
    ((∃ n < nodes, id < e.next g n w) → (∃ n < nodes, e.next g n w ≤ id) → id ∈ (e.cache g).keys) := by
  intro w
  have hr := (run_rel S os ho (init_rel groups nodes workers src hd)).2
  have ht := topRead_run S os ho (s := (SDist.init src : SDist σ C)) (fun g w h => absurd rfl h) (fun _ _ _ => Nat.le_refl _)
  rw [← he] at hr
  generalize ((SDist.init src).run S os).1 = s at hr ht
  have hW : 0 < effWorkers workers := hr.wpos
  have hr' : DRel groups nodes (effWorkers workers) e s := hr
  clear hr
  have hid : id = w + effWorkers workers * (id / effWorkers workers) := (Nat.mod_add_div id (effWorkers workers)).symm
  have hw : w < effWorkers workers := Nat.mod_lt _ hW
  generalize hj : id / effWorkers workers = j at hid
  clear_value w
  subst hid
  clear hj
  generalize effWorkers workers = W at *
  have lt_iff : ∀ p, w + W * j < w + W * p ↔ j < p := by
    intro p
    rw [Nat.add_lt_add_iff_left, Nat.mul_lt_mul_left hW]
  have le_iff : ∀ p q, w + W * p ≤ w + W * q ↔ p ≤ q := by
    intro p q
    rw [Nat.add_le_add_iff_left, Nat.mul_le_mul_left_iff hW]
  constructor
  · intro hc
    rw [Dict.mem_keys_iff] at hc
    obtain ⟨c, hc⟩ := hc
    have hv := h_value hr' hw hc
    have hne : s.stream g w ≠ [] := by intro h0; rw [h0] at hv; simp at hv
    obtain ⟨n, hn, hp⟩ := ht g w hne
    obtain ⟨n', hn', hb⟩ := hr'.bound g w j c hw hc
    refine ⟨⟨n, hn, ?_⟩, n', hn', ?_⟩
    · rw [hr'.next, lt_iff, hp]
      exact (List.getElem?_eq_some_iff.mp hv).1
    · rw [hr'.next, show w + W * j + W = w + W * (j + 1) by rw [Nat.mul_add]; omega, le_iff]
      exact hb
  · rintro ⟨n, hn, h1⟩ ⟨n', hn', h2⟩
    rw [hr'.next, lt_iff] at h1
    rw [hr'.next, le_iff] at h2
    obtain ⟨c, hc⟩ := hr'.avail g w j n' hw hn' h2 (Nat.lt_of_lt_of_le h1 (hr'.posLe g n w))
    rw [Dict.mem_keys_iff]
    exact ⟨c, hc⟩
where
  h_value {σ C : Type} {G N W g w j : Nat} {e : Dist σ C} {s : SDist σ C} {c : C} (h : DRel G N W e s) (hw : w < W)
      (hc : (e.cache g).get? (w + W * j) = some c) : (s.stream g w)[j]? = some c := h.value g w j c hw hc

theorem length_le_of_inj {l : List Nat} (hl : l.Nodup) (f : Nat → Nat) (m : Nat) (hf : ∀ a ∈ l, f a < m)
    (hi : ∀ a ∈ l, ∀ b ∈ l, f a = f b → a = b) : l.length ≤ m := by
  have hn : (l.map f).Nodup := List.Nodup.map_on hi hl
  have hs : l.map f ⊆ List.range m := by
    intro x hx
    obtain ⟨a, ha, rfl⟩ := List.mem_map.mp hx
    exact List.mem_range.mpr (hf a ha)
  have := (List.subperm_of_subset hn hs).length_le
  simpa using this

theorem run_nodup (S : Source σ ι C) (groups nodes workers : Nat) (src : σ) (d e : Dist σ C)
    (hd : Dist.init groups nodes workers src = .ok d) (os : List (DOp ι))
    (ho : ∀ o ∈ os, o.Valid groups nodes (effWorkers workers)) (he : e = (d.run S os).1) (g : Nat) :
    (e.cache g).keys.Nodup :=
  he ▸ (run_rel S os ho (init_rel groups nodes workers src hd)).2.cacheNodup g

/-- C17 (bound). The number of chunks kept for a worker id is at most one more than the number of chunks by
which the fastest node is ahead of the slowest. -/
theorem c17_cache_bound (S : Source σ ι C) (groups nodes workers : Nat) (src : σ) (d e : Dist σ C)
    (hd : Dist.init groups nodes workers src = .ok d) (os : List (DOp ι))
    (ho : ∀ o ∈ os, o.Valid groups nodes (effWorkers workers)) (he : e = (d.run S os).1) (g w slow fast : Nat)
    (hs : ∀ n < nodes, e.next g slow w ≤ e.next g n w) (hf : ∀ n < nodes, e.next g n w ≤ e.next g fast w) :
    ((e.cache g).keys.filter fun id => id % effWorkers workers = w).length ≤
      (e.next g fast w - e.next g slow w) / effWorkers workers + 1 := by
  have hr : DRel groups nodes (effWorkers workers) e ((SDist.init src).run S os).1 := by
    rw [he]; exact (run_rel S os ho (init_rel groups nodes workers src hd)).2
  have hW := hr.wpos
  have hcc := c17_cache_contents S groups nodes workers src d e hd os ho he g
  have hnd := run_nodup S groups nodes workers src d e hd os ho he g
  rw [hr.next g fast, hr.next g slow] at *
  generalize hW' : effWorkers workers = W at *
  generalize ((SDist.init src).run S os).1.pos g fast w = b at *
  generalize ((SDist.init src).run S os).1.pos g slow w = a at *
  rw [Nat.add_sub_add_left, ← Nat.mul_sub, Nat.mul_div_cancel_left _ hW]
  have key : ∀ id ∈ (e.cache g).keys.filter (fun id => id % W = w), ∃ j, id = w + W * j ∧ j < b ∧ a ≤ j + 1 := by
    intro id hid
    rw [List.mem_filter] at hid
    obtain ⟨h1, h2⟩ := hid
    have h2 : id % W = w := by simpa using h2
    obtain ⟨⟨n, hn, h3⟩, n', hn', h4⟩ := (hcc id).1 h1
    rw [h2] at h3 h4
    have h5 := Nat.lt_of_lt_of_le h3 (hf n hn)
    have h6 := Nat.le_trans (hs n' hn') h4
    refine ⟨id / W, by rw [← h2]; exact (Nat.mod_add_div id W).symm, ?_, ?_⟩
    · have e1 : id = w + W * (id / W) := by rw [← h2]; exact (Nat.mod_add_div id W).symm
      rw [e1, Nat.add_lt_add_iff_left, Nat.mul_lt_mul_left hW] at h5
      exact h5
    · have e1 : id + W = w + W * (id / W + 1) := by rw [Nat.mul_add, ← h2]; have := Nat.mod_add_div id W; omega
      rw [e1, Nat.add_le_add_iff_left, Nat.mul_le_mul_left_iff hW] at h6
      exact h6
  refine length_le_of_inj (hnd.filter _) (fun id => id / W + 1 - a) _ ?_ ?_
  · intro id hid
    obtain ⟨j, rfl, h1, h2⟩ := key id hid
    have hw : w < W := by
      rw [List.mem_filter] at hid
      have : (w + W * j) % W = w := by simpa using hid.2
      rw [← this]; exact Nat.mod_lt _ hW
    have : (w + W * j) / W = j := by
      rw [Nat.add_mul_div_left _ _ hW, Nat.div_eq_of_lt hw, Nat.zero_add]
    rw [this]
    omega
  · intro x hx y hy hxy
    obtain ⟨i, rfl, h1, h2⟩ := key x hx
    obtain ⟨j, rfl, h3, h4⟩ := key y hy
    have hw : w < W := by
      rw [List.mem_filter] at hx
      have : (w + W * i) % W = w := by simpa using hx.2
      rw [← this]; exact Nat.mod_lt _ hW
    have hd : ∀ j, (w + W * j) / W = j := by
      intro j
      rw [Nat.add_mul_div_left _ _ hW, Nat.div_eq_of_lt hw, Nat.zero_add]
    simp only [hd] at hxy
    have : i = j := by omega
    rw [this]

/-- C17 (one node). With one node per group at most one chunk per worker is kept. -/
theorem c17_single_node (S : Source σ ι C) (groups workers : Nat) (src : σ) (d e : Dist σ C)
    (hd : Dist.init groups 1 workers src = .ok d) (os : List (DOp ι))
    (ho : ∀ o ∈ os, o.Valid groups 1 (effWorkers workers)) (he : e = (d.run S os).1) (g : Nat) :
    (e.cache g).length ≤ effWorkers workers := by
  have hW : 0 < effWorkers workers := (init_rel groups 1 workers src hd).wpos
  have hcc := c17_cache_contents S groups 1 workers src d e hd os ho he g
  rw [← Dict.length_keys]
  refine length_le_of_inj (run_nodup S groups 1 workers src d e hd os ho he g) (· % effWorkers workers) _
    (fun _ _ => Nat.mod_lt _ hW) ?_
  intro a ha b hb hab
  obtain ⟨⟨n1, hn1, h1⟩, n2, hn2, h2⟩ := (hcc a).1 ha
  obtain ⟨⟨n3, hn3, h3⟩, n4, hn4, h4⟩ := (hcc b).1 hb
  have e1 : n1 = 0 := by omega
  have e2 : n2 = 0 := by omega
  have e3 : n3 = 0 := by omega
  have e4 : n4 = 0 := by omega
  subst e1 e2 e3 e4
  rw [hab] at h1 h2
  have ea := Nat.mod_add_div a (effWorkers workers)
  have eb := Nat.mod_add_div b (effWorkers workers)
  generalize effWorkers workers = W at *
  rcases Nat.lt_trichotomy (a / W) (b / W) with h | h | h
  · have : W * (a / W) + W ≤ W * (b / W) := by
      rw [← Nat.mul_succ]; exact Nat.mul_le_mul_left _ h
    omega
  · rw [h] at ea; omega
  · have : W * (b / W) + W ≤ W * (a / W) := by
      rw [← Nat.mul_succ]; exact Nat.mul_le_mul_left _ h
    omega

/-- C17 (no lookup failures). A request of an existing worker fails only if the query result itself raised that
exception: never because of the distributor's own dictionaries. -/
theorem c17_no_internal_error (S : Source σ ι C) (groups nodes workers : Nat) (src : σ) (d : Dist σ C)
    (hd : Dist.init groups nodes workers src = .ok d) (os : List (DOp ι))
    (ho : ∀ o ∈ os, o.Valid groups nodes (effWorkers workers)) (r : DReq)
    (hr : (DOp.ask r : DOp ι).Valid groups nodes (effWorkers workers)) (e : Err)
    (ha : ((d.run S os).1.nextChunkFor S r).2 = .raised e) : ∃ t, S.fetch (d.run S os).1.src = (t, .raised e) := by
  have h := (run_rel S os ho (init_rel groups nodes workers src hd)).2
  rw [(next_rel S h r hr.1 hr.2.1 hr.2.2).1] at ha
  rw [h.src]
  generalize ((SDist.init src).run S os).1 = s at ha
  unfold SDist.next at ha
  dsimp only at ha
  cases hst : (s.stream r.group r.worker)[s.pos r.group r.node r.worker]? with
  | some c => rw [hst] at ha; simp at ha
  | none =>
    rw [hst] at ha
    dsimp only at ha
    match hf : S.fetch s.src with
    | (t, .stop) => rw [hf] at ha; simp at ha
    | (t, .chunk c) => rw [hf] at ha; simp at ha
    | (t, .raised e') => rw [hf] at ha; simp at ha; exact ⟨t, by rw [ha]⟩

/-! ### C18 -/

/-- C18. If a request is answered with "no more chunks", nothing but the query result itself has changed:
counters, cache and usage are as before, for every state of the distributor. -/
theorem c18_exhausted_unchanged (S : Source σ ι C) (d d' : Dist σ C) (r : DReq)
    (h : d.nextChunkFor S r = (d', .stop)) : d' = { d with src := (S.fetch d.src).1 } ∧ (S.fetch d.src).2 = .stop := by
  have deliver_ne : ∀ (x : Dist σ C) id c, (x.deliver r id c).2 ≠ .stop := by
    intro x id c
    unfold Dist.deliver
    dsimp only
    repeat' (first | (split) | simp)
  unfold Dist.nextChunkFor at h
  split at h
  · dsimp only at h
    split at h
    · exact absurd (congrArg Prod.snd h) (deliver_ne _ _ _)
    · split at h
      · exact absurd (congrArg Prod.snd h) (deliver_ne _ _ _)
      · rename_i s hf
        simp only [Prod.mk.injEq] at h
        rw [hf]
        exact ⟨h.1.symm, rfl⟩
      · simp at h
  · simp at h

/-- C18 (consequences, in any reachable state). The failed request had no other effect: after it, every request
of another worker that does not need the query result is answered as before, and if the query result has not
changed (as at the end of the data), all further answers are as if the request had not been made. -/
theorem c18_others_unaffected (S : Source σ ι C) (d d' : Dist σ C) (r : DReq)
    (h : d.nextChunkFor S r = (d', .stop)) (hsrc : (S.fetch d.src).1 = d.src) (later : List (DOp ι)) :
    d'.run S later = d.run S later ∧ d'.nextChunkFor S r = (d', .stop) := by
  have e : d' = d := by
    have := (c18_exhausted_unchanged S d d' r h).1
    rw [this, hsrc]
  subst e
  exact ⟨rfl, h⟩

/-- With ten chunks consumed, worker (0, 0, 0) gets nothing while the slower node still gets its chunks. -/
example : let d := (exDist.run exSource (List.replicate 10 (.ask ⟨0, 0, 0⟩))).1
    (match (d.nextChunkFor exSource ⟨0, 0, 0⟩).2 with | .stop => true | _ => false) = true ∧
    (exSource.fetch d.src).1 = d.src ∧
    received (d.run exSource [.ask ⟨0, 0, 0⟩, .ask ⟨0, 1, 0⟩, .ask ⟨0, 1, 0⟩]).2 ⟨0, 1, 0⟩ = [100, 101] ∧
    (d.cache 0).keys = [0, 2, 4, 6, 8, 10, 12, 14, 16, 18] := by
  decide

end Mixtera
