import Verif.Props.Distributor

/-!
# C19 and C20: checkpoints of the distributor
-/

set_option linter.unusedSectionVars false

namespace Mixtera

variable {σ ι C : Type}

/-! ### C19 -/

/-- A call of `checkpoint`: group, node, worker status, and the verdict that the validation of the distributor's
state would give at that moment. -/
structure Report where
  group : Nat
  node : Nat
  status : List Nat
  aligned : Bool

/-- A sequence of calls. -/
def Chk.run (groups nodes : Nat) : Chk → List Report → Chk × List ChkAns
  | c, [] => (c, [])
  | c, r :: rs =>
    let (c1, a) := c.report groups nodes r.aligned r.group r.node r.status
    let (c2, as) := Chk.run groups nodes c1 rs
    (c2, a :: as)

/-- What `checkpoint` should answer: `finished` rounds are over, `seen` has reported in the current one. -/
def roundAnswers (groups nodes : Nat) : Nat → List (Nat × Nat) → List Report → List ChkAns
  | _, _, [] => []
  | finished, seen, r :: rs =>
    if (r.group, r.node) ∈ seen then .raised .runtimeError :: roundAnswers groups nodes finished seen rs
    else if ∀ g < groups, ∀ n < nodes, (g, n) = (r.group, r.node) ∨ (g, n) ∈ seen then
      .accepted (finished + 1) true :: roundAnswers groups nodes (finished + 1) [] rs
    else .accepted (finished + 1) false :: roundAnswers groups nodes finished ((r.group, r.node) :: seen) rs

/-- All (group, node) pairs. -/
def allPairs (groups nodes : Nat) : List (Nat × Nat) :=
  (List.range groups).flatMap fun g => (List.range nodes).map fun n => (g, n)

theorem mem_allPairs (G N g n : Nat) : (g, n) ∈ allPairs G N ↔ g < G ∧ n < N := by
  simp [allPairs, List.mem_flatMap]

theorem length_allPairs (G N : Nat) : (allPairs G N).length = G * N := by
  simp [allPairs, List.length_flatMap]

theorem covers_iff (G N : Nat) (l : List (Nat × Nat)) (hl : l.Nodup) (hv : ∀ p ∈ l, p.1 < G ∧ p.2 < N) :
    l.length = G * N ↔ ∀ g < G, ∀ n < N, (g, n) ∈ l := by
  have hsub : l ⊆ allPairs G N := by
    rintro ⟨g, n⟩ hp
    exact (mem_allPairs G N g n).mpr (hv _ hp)
  have hsp := List.subperm_of_subset hl hsub
  rw [← length_allPairs]
  constructor
  · intro hlen g hg n hn
    have hp := hsp.perm_of_length_le (by omega)
    exact hp.mem_iff.mpr ((mem_allPairs G N g n).mpr ⟨hg, hn⟩)
  · intro hall
    apply Nat.le_antisymm hsp.length_le
    have hnd : (allPairs G N).Nodup := by
      unfold allPairs
      rw [List.nodup_flatMap]
      constructor
      · intro g _
        exact List.Nodup.map (fun a b h => by simpa using h) List.nodup_range
      · refine List.Nodup.pairwise_of_forall_ne List.nodup_range ?_
        intro a _ b _ hab
        rw [Function.onFun, List.disjoint_left]
        intro p hp hq
        simp only [List.mem_map] at hp hq
        obtain ⟨_, _, rfl⟩ := hp
        obtain ⟨_, _, h⟩ := hq
        simp at h
        exact hab h.1.symm
    have : allPairs G N ⊆ l := by
      rintro ⟨g, n⟩ hp
      obtain ⟨h1, h2⟩ := (mem_allPairs G N g n).mp hp
      exact hall g h1 n h2
    exact (List.subperm_of_subset hnd this).length_le

/-- The state of a distributor between reports. -/
structure ChkRel (G N : Nat) (c : Chk) (finished : Nat) (seen : List (Nat × Nat)) : Prop where
  keys : ∀ p, p ∈ c.statuses.keys ↔ p ∈ seen
  nodup : c.statuses.keys.Nodup
  valid : ∀ p ∈ seen, p.1 < G ∧ p.2 < N
  counter : c.counter = if seen = [] then finished else finished + 1
  current : c.current = if seen = [] then none else some (finished + 1)

theorem report_rel {G N : Nat} {c : Chk} {finished : Nat} {seen : List (Nat × Nat)} (h : ChkRel G N c finished seen)
    (g n : Nat) (st : List Nat) (aligned : Bool) (hg : g < G) (hn : n < N) :
    ((g, n) ∈ seen → c.report G N aligned g n st = (c, .raised .runtimeError)) ∧
    ((g, n) ∉ seen → (∀ g' < G, ∀ n' < N, (g', n') = (g, n) ∨ (g', n') ∈ seen) →
      (aligned = true → (c.report G N aligned g n st).2 = .accepted (finished + 1) true ∧
        ChkRel G N (c.report G N aligned g n st).1 (finished + 1) []) ∧
      (aligned = false → (c.report G N aligned g n st).2 = .raised .runtimeError ∧
        ChkRel G N (c.report G N aligned g n st).1 finished ((g, n) :: seen))) ∧
    ((g, n) ∉ seen → ¬ (∀ g' < G, ∀ n' < N, (g', n') = (g, n) ∨ (g', n') ∈ seen) →
      (c.report G N aligned g n st).2 = .accepted (finished + 1) false ∧
        ChkRel G N (c.report G N aligned g n st).1 finished ((g, n) :: seen)) := by
  have hhas : c.statuses.has (g, n) = true ↔ (g, n) ∈ seen := by
    rw [← h.keys, Dict.mem_keys_iff, Dict.has, Option.isSome_iff_exists]
  constructor
  · intro hm
    unfold Chk.report
    rw [if_pos (hhas.mpr hm)]
  · rw [← imp_and]
    intro hm
    have hnk : (g, n) ∉ c.statuses.keys := fun hh => hm ((h.keys _).mp hh)
    have hkeys' : (c.statuses.set (g, n) st).keys = c.statuses.keys ++ [(g, n)] := Dict.keys_upsert_of_not_mem hnk _
    have hnd : (c.statuses.set (g, n) st).keys.Nodup := Dict.nodup_keys_upsert h.nodup _ _
    have hmem : ∀ p, p ∈ (c.statuses.set (g, n) st).keys ↔ p ∈ (g, n) :: seen := by
      intro p
      rw [hkeys', List.mem_append, List.mem_singleton, List.mem_cons, h.keys]
      exact or_comm
    have hcov : (c.statuses.set (g, n) st).length = G * N ↔
        ∀ g' < G, ∀ n' < N, (g', n') = (g, n) ∨ (g', n') ∈ seen := by
      rw [← Dict.length_keys, covers_iff G N _ hnd]
      · simp only [hmem, List.mem_cons]
      · intro p hp
        rw [hmem, List.mem_cons] at hp
        rcases hp with rfl | hp
        · exact ⟨hg, hn⟩
        · exact h.valid p hp
    -- the id
    have hid : (match c.current with | none => (c.counter + 1, c.counter + 1) | some id => (c.counter, id)) =
        (finished + 1, finished + 1) := by
      rw [h.current, h.counter]
      by_cases hs : seen = [] <;> simp [hs]
    have hrep : c.report G N aligned g n st =
        if (c.statuses.set (g, n) st).length = G * N then
          if aligned then ({ statuses := [], counter := finished + 1, current := none }, .accepted (finished + 1) true)
          else ({ statuses := c.statuses.set (g, n) st, counter := finished + 1, current := some (finished + 1) },
            .raised .runtimeError)
        else ({ statuses := c.statuses.set (g, n) st, counter := finished + 1, current := some (finished + 1) },
          .accepted (finished + 1) false) := by
      unfold Chk.report
      rw [if_neg (fun hh => hm (hhas.mp hh))]
      cases hcur : c.current with
      | none => rw [hcur] at hid; simp only [Prod.mk.injEq] at hid; simp only [hid.1]
      | some id => rw [hcur] at hid; simp only [Prod.mk.injEq] at hid; simp only [hid.1, hid.2]
    have hrel : ChkRel G N { statuses := c.statuses.set (g, n) st, counter := finished + 1, current := some (finished + 1) }
        finished ((g, n) :: seen) := {
      keys := hmem
      nodup := hnd
      valid := by
        intro p hp
        rw [List.mem_cons] at hp
        rcases hp with rfl | hp
        · exact ⟨hg, hn⟩
        · exact h.valid p hp
      counter := by simp
      current := by simp }
    rw [hrep]
    constructor
    · intro hall
      rw [if_pos (hcov.mpr hall)]
      constructor
      · intro ha
        rw [if_pos ha]
        exact ⟨rfl, ⟨by simp [Dict.keys], by simp [Dict.keys], by simp, by simp, by simp⟩⟩
      · intro ha
        rw [if_neg (by simp [ha])]
        exact ⟨rfl, hrel⟩
    · intro hall
      rw [if_neg (fun hh => hall (hcov.mp hh))]
      exact ⟨rfl, hrel⟩

/-- C19. For every sequence of reports of existing nodes, in any order and with any repetitions, at times when the
distributor's state is consistent: a node that already reported in this round is rejected; the checkpoint is
started exactly by the report after which all nodes of all groups have reported; all reports of a round get the
same id, which is larger than all earlier ids; and then the next round begins.
Missing: rounds in which the validation fails, see `c19_failed_validation_is_final`; and reports with ids of
nodes that do not exist, which are accepted, see `c19_unknown_node_counts`. -/
theorem c19_rounds_partial (groups nodes : Nat) (rs : List Report)
    (hv : ∀ r ∈ rs, r.group < groups ∧ r.node < nodes) (ha : ∀ r ∈ rs, r.aligned = true) :
    (Chk.init.run groups nodes rs).2 = roundAnswers groups nodes 0 [] rs := by
  suffices H : ∀ (rs : List Report) (c : Chk) finished seen, (∀ r ∈ rs, r.group < groups ∧ r.node < nodes) →
      (∀ r ∈ rs, r.aligned = true) → ChkRel groups nodes c finished seen →
      (c.run groups nodes rs).2 = roundAnswers groups nodes finished seen rs from
    H rs Chk.init 0 [] hv ha ⟨by simp [Chk.init, Dict.keys], by simp [Chk.init, Dict.keys], by simp, rfl, rfl⟩
  intro rs
  induction rs with
  | nil => intro c finished seen _ _ _; rfl
  | cons r rs ih =>
    intro c finished seen hv ha h
    obtain ⟨hg, hn⟩ := hv r (by simp)
    have hal := ha r (by simp)
    have hv' : ∀ r ∈ rs, r.group < groups ∧ r.node < nodes := fun r h => hv r (by simp [h])
    have ha' : ∀ r ∈ rs, r.aligned = true := fun r h => ha r (by simp [h])
    obtain ⟨h1, h2, h3⟩ := report_rel h r.group r.node r.status r.aligned hg hn
    rw [Chk.run, roundAnswers]
    dsimp only
    by_cases hm : (r.group, r.node) ∈ seen
    · rw [if_pos hm, h1 hm]
      dsimp only
      rw [ih c finished seen hv' ha' h]
    · rw [if_neg hm]
      by_cases hall : ∀ g < groups, ∀ n < nodes, (g, n) = (r.group, r.node) ∨ (g, n) ∈ seen
      · rw [if_pos hall]
        obtain ⟨a1, a2⟩ := (h2 hm hall).1 hal
        rw [a1, ih _ _ _ hv' ha' a2]
      · rw [if_neg hall]
        obtain ⟨a1, a2⟩ := h3 hm hall
        rw [a1, ih _ _ _ hv' ha' a2]

example : let rs : List Report := [⟨0, 1, [3], true⟩, ⟨1, 0, [], true⟩, ⟨0, 1, [4], true⟩, ⟨1, 1, [], true⟩, ⟨0, 0, [], true⟩, ⟨0, 0, [], true⟩]
    (Chk.init.run 2 2 rs).2 = [.accepted 1 false, .accepted 1 false, .raised .runtimeError, .accepted 1 false,
      .accepted 1 true, .accepted 2 false] := by decide

/-- C19 is violated by the code if the validation fails once: the collected reports are kept, so every further
report of any existing node, also after the distributor's state has become consistent, is rejected as a
duplicate. No checkpoint can be taken any more. -/
theorem c19_failed_validation_is_final (groups nodes : Nat) (rs : List Report)
    (hv : ∀ r ∈ rs, r.group < groups ∧ r.node < nodes) (ha : ∀ r ∈ rs, r.aligned = true) (r : Report)
    (hr : r.group < groups ∧ r.node < nodes) (hbad : r.aligned = false)
    (hlast : (∀ a ∈ (Chk.init.run groups nodes (rs ++ [{ r with aligned := true }])).2.getLast?,
      ∃ id, a = .accepted id true))
    (later : List Report) (hl : ∀ r ∈ later, r.group < groups ∧ r.node < nodes) :
    (((Chk.init.run groups nodes rs).1.report groups nodes r.aligned r.group r.node r.status).1.run groups nodes later).2 =
      later.map fun _ => .raised .runtimeError := by
  -- the state after `rs`
  have hst : ∀ (rs : List Report) (c : Chk) finished seen, (∀ r ∈ rs, r.group < groups ∧ r.node < nodes) →
      (∀ r ∈ rs, r.aligned = true) → ChkRel groups nodes c finished seen →
      ∃ f s, ChkRel groups nodes (c.run groups nodes rs).1 f s ∧
        ∀ x, (c.run groups nodes (rs ++ [x])).2.getLast? =
          some ((c.run groups nodes rs).1.report groups nodes x.aligned x.group x.node x.status).2 := by
    intro rs
    induction rs with
    | nil => intro c f s _ _ h; exact ⟨f, s, h, fun x => rfl⟩
    | cons r rs ih =>
      intro c finished seen hv ha h
      obtain ⟨hg, hn⟩ := hv r (by simp)
      have hal := ha r (by simp)
      obtain ⟨h1, h2, h3⟩ := report_rel h r.group r.node r.status r.aligned hg hn
      have hnext : ∃ f s, ChkRel groups nodes (c.report groups nodes r.aligned r.group r.node r.status).1 f s := by
        by_cases hm : (r.group, r.node) ∈ seen
        · rw [h1 hm]; exact ⟨_, _, h⟩
        · by_cases hall : ∀ g < groups, ∀ n < nodes, (g, n) = (r.group, r.node) ∨ (g, n) ∈ seen
          · exact ⟨_, _, ((h2 hm hall).1 hal).2⟩
          · exact ⟨_, _, (h3 hm hall).2⟩
      obtain ⟨f, s, hfs⟩ := hnext
      obtain ⟨f', s', h', hx⟩ := ih _ f s (fun r h => hv r (by simp [h])) (fun r h => ha r (by simp [h])) hfs
      refine ⟨f', s', h', fun x => ?_⟩
      rw [List.cons_append, Chk.run, Chk.run]
      dsimp only
      rw [List.getLast?_cons, hx x]
      rfl
  obtain ⟨f, s, hrel, hx⟩ := hst rs Chk.init 0 [] hv ha
    ⟨by simp [Chk.init, Dict.keys], by simp [Chk.init, Dict.keys], by simp, rfl, rfl⟩
  obtain ⟨id, hid⟩ := hlast _ (hx _)
  obtain ⟨t1, t2, t3⟩ := report_rel hrel r.group r.node r.status true hr.1 hr.2
  obtain ⟨h1, h2, h3⟩ := report_rel hrel r.group r.node r.status r.aligned hr.1 hr.2
  dsimp only at hid
  have hm : (r.group, r.node) ∉ s := by
    intro hm; rw [t1 hm] at hid; simp at hid
  have hall : ∀ g < groups, ∀ n < nodes, (g, n) = (r.group, r.node) ∨ (g, n) ∈ s := by
    by_contra hall; rw [(t3 hm hall).1] at hid; simp at hid
  obtain ⟨_, hfull⟩ := (h2 hm hall).2 hbad
  clear hx hid h1 h2 h3 t1 t2 t3 hlast
  generalize (Chk.report groups nodes r.aligned (Chk.run groups nodes Chk.init rs).1 r.group r.node r.status).1 = c at hfull
  induction later with
  | nil => rfl
  | cons q later ih =>
    obtain ⟨hq1, hq2⟩ := hl q (by simp)
    obtain ⟨h1, _, _⟩ := report_rel hfull q.group q.node q.status q.aligned hq1 hq2
    rw [Chk.run]
    dsimp only
    rw [h1 (by rw [List.mem_cons]; exact hall _ hq1 _ hq2)]
    dsimp only
    rw [ih (fun r h => hl r (by simp [h]))]
    rfl

/-- C19 is violated for ids of nodes that do not exist: node 7 of a group with two nodes is counted, so the
checkpoint starts although node 1 has not reported. -/
theorem c19_unknown_node_counts :
    (Chk.init.run 1 2 [⟨0, 0, [5], true⟩, ⟨0, 7, [5], true⟩]).2 = [.accepted 1 false, .accepted 1 true] := by decide

theorem foldl_max_ge (dirs : List Nat) (a : Nat) : a ≤ dirs.foldl max a ∧ ∀ n ∈ dirs, n ≤ dirs.foldl max a := by
  induction dirs generalizing a with
  | nil => simp
  | cons x dirs ih =>
    obtain ⟨h1, h2⟩ := ih (max a x)
    rw [List.foldl_cons]
    refine ⟨by omega, fun n hn => ?_⟩
    rcases List.mem_cons.mp hn with rfl | hn
    · omega
    · exact h2 n hn

/-- C19 (fresh ids after a restart). The first id given out after a restore is larger than the restored
checkpoint's counter and than every checkpoint directory on disk, so no checkpoint is overwritten. -/
theorem c19_fresh_after_restore (saved : Nat) (dirs : List Nat) (groups nodes g n : Nat) (st : List Nat) (aligned : Bool)
    (id : Nat) (started : Bool)
    (h : (Chk.report groups nodes aligned { statuses := [], counter := restoredCounter saved dirs, current := none } g n st).2
      = .accepted id started) : saved < id ∧ ∀ k ∈ dirs, k < id := by
  have hge := foldl_max_ge dirs saved
  have hid : id = restoredCounter saved dirs + 1 := by
    unfold Chk.report at h
    simp only [Dict.has, Dict.get?, Option.isSome_none, Bool.false_eq_true, if_false] at h
    split at h
    · split at h
      · simp at h; exact h.1.symm
      · simp at h
    · simp at h; exact h.1.symm
  unfold restoredCounter at hid
  exact ⟨by omega, fun k hk => by have := hge.2 k hk; omega⟩

end Mixtera
