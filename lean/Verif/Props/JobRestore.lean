import Verif.Props.CacheHit
import Verif.Model.JobRestore

/-!
# C95: the domain ids and the answers of a job after its checkpoint is restored
-/

set_option linter.unusedSectionVars false

namespace Mixtera

variable {K : Type} [DecidableEq K]

/-! ### Vocabulary -/

/-- What a running job does with its query result: it takes chunks, and feedback changes its mixture, which keeps to the domains
`dom`. -/
def ByJob (dom : List K) : SOp K → Prop
  | .next => True
  | .feedback v => v.rows.keys.Nodup ∧ ∀ k ∈ v.rows.keys, k ∈ dom
  | .update _ _ => False

/-! ### The ids depend only on the set of domains -/

theorem assignIds_set {ops : KeyOps K} (ht : ops.Total) : ∀ (l l' : List K) (n : Nat) (m : Dict K Nat),
    l.Pairwise (fun a b => ops.le a b = true) → l'.Pairwise (fun a b => ops.le a b = true) →
    (∀ k, k ∉ m.keys → (k ∈ l ↔ k ∈ l')) → assignIds l n m = assignIds l' n m
  | [], l', n, m, _, _, h => by
    rw [assignIds_noop l' n m]
    · rfl
    · intro k hk
      by_contra hn
      exact absurd ((h k hn).2 hk) (by simp)
  | a :: l, [], n, m, _, _, h => by
    rw [assignIds_noop (a :: l) n m]
    · rfl
    · intro k hk
      by_contra hn
      exact absurd ((h k hn).1 hk) (by simp)
  | a :: l, b :: l', n, m, hl, hl', h => by
    rw [List.pairwise_cons] at hl hl'
    by_cases ha : a ∈ m.keys
    · rw [assignIds, if_pos ((has_iff m a).mpr ha)]
      refine assignIds_set ht l (b :: l') n m hl.2 (List.pairwise_cons.mpr hl') fun k hk => ?_
      rw [← h k hk, List.mem_cons]
      constructor
      · exact Or.inr
      · rintro (rfl | h')
        · exact absurd ha hk
        · exact h'
    · by_cases hb : b ∈ m.keys
      · rw [assignIds.eq_def _ _ m]
        conv => rhs; rw [assignIds, if_pos ((has_iff m b).mpr hb)]
        have := assignIds_set ht (a :: l) l' n m (List.pairwise_cons.mpr hl) hl'.2 (fun k hk => by
          rw [h k hk, List.mem_cons]
          constructor
          · rintro (rfl | h')
            · exact absurd hb hk
            · exact h'
          · exact Or.inr)
        rw [← this]
        rw [assignIds]
      · have hab : a = b := by
          have h1 : a ∈ b :: l' := (h a ha).1 (by simp)
          have h2 : b ∈ a :: l := (h b hb).2 (by simp)
          rw [List.mem_cons] at h1 h2
          rcases h1 with h1 | h1
          · exact h1
          · rcases h2 with h2 | h2
            · exact h2.symm
            · exact ht.antisymm a b (hl.1 b h2) (hl'.1 a h1)
        subst hab
        rw [assignIds, assignIds, if_neg (fun h' => ha ((has_iff m a).mp h')), if_neg (fun h' => ha ((has_iff m a).mp h'))]
        refine assignIds_set ht l l' (n + 1) _ hl.2 hl'.2 fun k hk => ?_
        have hkm : k ∉ m.keys ∧ k ≠ a := by
          constructor
          · intro h'
            apply hk
            rw [Dict.mem_keys_iff] at h' ⊢
            rw [Dict.get?_set]
            split
            · exact ⟨n, rfl⟩
            · exact h'
          · rintro rfl
            exact hk (by rw [Dict.mem_keys_iff]; exact ⟨n, by rw [Dict.get?_set, if_pos rfl]⟩)
        have := h k hkm.1
        simpa [hkm.2] using this
termination_by l l' => l.length + l'.length

/-- Two mixtures over the same domains, counting those of the index, give the same ids. -/
theorem initialIds_set {ops : KeyOps K} (ht : ops.Total) (rows rows' index : List K)
    (h : ∀ k, (k ∈ rows ∨ k ∈ index) ↔ (k ∈ rows' ∨ k ∈ index)) : updateKeyIds ops rows index [] = updateKeyIds ops rows' index [] := by
  show assignIds (ops.sort (rows ++ index)) 0 [] = assignIds (ops.sort (rows' ++ index)) 0 []
  refine assignIds_set ht _ _ 0 [] (sortBy_sorted _ ht.total ht.trans _) (sortBy_sorted _ ht.total ht.trans _) fun k _ => ?_
  rw [(sort_perm ops _).mem_iff, (sort_perm ops _).mem_iff, List.mem_append, List.mem_append]
  exact h k

/-! ### A job keeps its ids -/

theorem job_ids (ops : KeyOps K) (fuel : Nat) (index : Dict K Entries) (dom : List K) (ids : Dict K Nat) :
    ∀ (os : List (SOp K)) (s : Sess K), (∀ o ∈ os, ByJob dom o) → s.index = index → s.keyIds = ids →
    (∀ k ∈ index.keys, k ∈ ids.keys) → (∀ k ∈ dom, k ∈ ids.keys) → (∀ k ∈ (s.heap s.mixRef).rows.keys, k ∈ dom) →
    (s.run ops fuel os).1.keyIds = ids ∧ (∀ v ∈ s.views ops fuel os, ∀ k ∈ v.rows.keys, k ∈ dom)
  | [], s, _, _, h2, _, _, _ => ⟨h2, by simp [Sess.views]⟩
  | o :: os, s, ho, h1, h2, h3, h4, h5 => by
    rw [Sess.run, Sess.views.eq_def]
    dsimp only
    have ho' : ∀ o ∈ os, ByJob dom o := fun o' h' => ho o' (by simp [h'])
    match o, ho o (by simp) with
    | .feedback v, hv =>
      have := job_ids ops fuel index dom ids os (s.feedback v) ho' h1 h2 h3 h4 (by simpa [Sess.feedback] using hv.2)
      simpa [Sess.op] using this
    | .next, _ =>
      obtain ⟨e1, e2, e3, e4⟩ : (s.next ops fuel).1.index = s.index ∧ (s.next ops fuel).1.mixRef = s.mixRef ∧
          (s.next ops fuel).1.heap = s.heap ∧ ((s.next ops fuel).1.keyIds = s.keyIds ∨ (s.next ops fuel).1.keyIds =
            updateKeyIds ops (s.heap s.mixRef).rows.keys s.index.keys s.keyIds) := by
        unfold Sess.next
        split
        · exact ⟨rfl, rfl, rfl, Or.inl rfl⟩
        · refine ⟨rfl, rfl, rfl, ?_⟩
          dsimp only
          split
          · exact Or.inl rfl
          · exact Or.inr rfl
      have hk : (s.next ops fuel).1.keyIds = ids := by
        rcases e4 with e4 | e4
        · rw [e4, h2]
        · rw [e4, h1, h2]
          exact updateKeyIds_noop ops _ _ _ (fun k hk => h4 k (h5 k hk)) h3
      obtain ⟨r1, r2⟩ := job_ids ops fuel index dom ids os (s.next ops fuel).1 ho' (e1.trans h1) hk h3 h4
        (by rw [e2, e3]; exact h5)
      refine ⟨by simpa [Sess.op] using r1, ?_⟩
      intro v hv
      simp only [Sess.op, List.cons_append, List.nil_append, List.mem_cons] at hv
      rcases hv with rfl | hv
      · exact h5
      · exact r2 v hv

/-! ### Replaying from another object -/

/-- Loading a query result from a directory that lists ids `ids` for all domains and replaying its log gives one that, but for the
ids, cannot be told apart from it. -/
theorem replay_alike (ops : KeyOps K) (fuel : Nat) (hf : 0 < fuel) (index : Dict K Entries) (order : List K) (s : Sess K)
    (u : MixView K) (ws : List (MixView K)) (ho : Orig ops fuel index order (u :: ws) s) (hnoticed : Noticed (u :: ws))
    (hlast : s.heap s.mixRef = (u :: ws).getLast (by simp)) (m : MixView K) (hm : m.rows.keys.Nodup) (b : Bool)
    (ids : Dict K Nat) (hidx : ∀ k ∈ index.keys, k ∈ ids.keys) (hrows : ∀ w ∈ u :: ws, ∀ k ∈ w.rows.keys, k ∈ ids.keys) :
    ∃ r, Sess.replay ops fuel s.mixRef s.numReturns
        { index := index, order := order, stopOnNone := b, heap := fun _ => m, mixRef := s.mixRef, gen := none, idx := 0,
          numReturns := 0, isReplay := false, log := s.log, keyIds := ids } = .ok r ∧ r.keyIds = ids ∧
      Alike (fun x => x = s.mixRef) { r with stopOnNone := s.stopOnNone, keyIds := s.keyIds } s := by
  have hnf := ho.nf
  generalize hr0 : (Sess.mk index order b (fun _ => m) s.mixRef none 0 0 false s.log ids : Sess K) = r0
  have hu : u.rows.keys.Nodup := ho.vsOk u (by simp)
  have hlog : s.log = (0, u) :: logOf (some u) 1 ws := by
    rw [ho.log]; simp [logOf, isNew]
  have hloop : logOf (some u) 0 (u :: ws) = logOf (some u) 1 ws := by
    simp [logOf, isNew, visible_self u hu]
  have hn : s.numReturns = (u :: ws).length := hnf.num
  have hkeys : updateKeyIds ops u.rows.keys index.keys ids = ids :=
    updateKeyIds_noop ops _ _ _ (hrows u (by simp)) hidx
  have hstart : NF ops fuel index order [] (({ r0 with isReplay := true } : Sess K).update ops s.mixRef u) := by
    rw [← hr0]
    exact {
      idxEq := rfl, ordEq := rfl, fresh := rfl, ok := rfl, susp := rfl, ns := rfl, cur := rfl, idx := rfl
      num := rfl, log := rfl
      core := by
        simp only [Sess.update, Sess.theGen, askAll, List.foldl_nil]; rfl
      prev := rfl
      heap := by
        intro i
        simp only [Sess.update]
        split
        · exact hu
        · exact hm }
  obtain ⟨r, l1, l2, l3, l4, l5, l6, l7, l8⟩ := replayLoop_ok ops fuel hf s.mixRef ids s.log b hidx
    (u :: ws) [] u _ hstart rfl rfl (by simp [Sess.update]) (by rw [← hr0]; exact hkeys) (by rw [← hr0]; rfl)
    (by rw [← hr0]; rfl) (fun w hw => ⟨ho.vsOk w hw, hrows w hw⟩) ⟨fun _ => rfl, hnoticed⟩ ho.chunks
  rw [List.nil_append] at l2
  refine ⟨{ r with isReplay := false }, ?_, l6, ?_⟩
  · unfold Sess.replay
    have hrl : r0.log = (0, u) :: logOf (some u) 1 ws := by rw [← hr0]; exact hlog
    rw [hn, if_neg (by simp)]
    rw [List.length_nil, hloop] at l1
    split
    · rename_i hl; rw [hrl] at hl; simp at hl
    · rename_i x v rest hl
      rw [hrl] at hl
      simp only [List.cons.injEq, Prod.mk.injEq] at hl
      obtain ⟨⟨_, rfl⟩, rfl⟩ := hl
      rw [l1]
      dsimp only
      rw [if_pos ⟨l2.num, l2.idx⟩]
  · have hcore : r.theGen.core = s.theGen.core := l2.core.trans hnf.core.symm
    have hlogs : r.theGen.log = s.theGen.log := by rw [l2.log, hnf.log, l7]
    have htg : ({ r with isReplay := false, stopOnNone := s.stopOnNone, keyIds := s.keyIds } : Sess K).theGen = r.theGen := rfl
    exact {
      index := l2.idxEq.trans hnf.idxEq.symm
      order := l2.ordEq.trans hnf.ordEq.symm
      son := rfl
      mixRef := l4
      mixT := l4
      heap := by
        rintro x rfl
        rw [hlast]
        rw [l4] at l5
        show r.heap s.mixRef = _
        rw [l5]
        simp
      fresh := l2.fresh.trans hnf.fresh.symm
      gen := by
        show r.theGen.bare = _
        have := congrArg (fun x : Gen K => { x with log := s.theGen.log }) hcore
        simp only [Gen.core] at this
        unfold Gen.bare
        rw [hlogs]
        exact this
      pair := by
        intro h
        have h' : r.theGen.susp = .afterNone := h
        rw [l2.susp] at h'
        cases h'
      idx := l2.idx.trans hnf.idx.symm
      num := l2.num.trans hnf.num.symm
      replay := ho.replay.symm
      log := l7
      ids := rfl }

/-- What a started job looks like. -/
theorem startJob_spec (ops : KeyOps K) (fuel : Nat) (index : Dict K Entries) (order : List K) (v0 : MixView K)
    (hv0 : v0.rows.keys.Nodup) (hit : Bool) (ref : Nat) (v : MixView K) (hv : v.rows.keys.Nodup) (s0 : Sess K)
    (h : startJob ops fuel index order v0 hit ref v = .ok s0) :
    Orig ops fuel index order [] s0 ∧ s0.mixRef = ref ∧ s0.heap ref = v ∧ s0.stopOnNone = false ∧
      s0.keyIds = updateKeyIds ops v.rows.keys index.keys [] := by
  cases hit with
  | false =>
    have h' : ({ Sess.fresh ops index order true ref v with stopOnNone := false } : Sess K) = s0 := by
      simpa [startJob] using h
    subst h'
    exact ⟨orig_fresh ops fuel index order false ref v hv, rfl, rfl, rfl, rfl⟩
  | true =>
    have h' : ({ (Sess.mk index order true (fun _ => v0) ref none 0 0 false [] [] : Sess K).update ops ref v with
        stopOnNone := false } : Sess K) = s0 := Except.ok.inj h
    subst h'
    refine ⟨?_, rfl, by simp [Sess.update], rfl, rfl⟩
    exact {
      nf := { idxEq := rfl, ordEq := rfl, fresh := rfl, ok := rfl, susp := rfl, ns := rfl, cur := rfl, idx := rfl, num := rfl,
              log := rfl, core := rfl, prev := rfl, heap := by
                intro i
                simp only [Sess.update]
                split
                · exact hv
                · exact hv0 }
      replay := rfl
      log := rfl
      ids := by
        have := (keyIdInv_fresh ops index order true ref v).1
        exact ⟨this.ok, this.index⟩
      keys := by simp
      chunks := trivial
      vsOk := by simp }

theorem idsOk_nil : IdsOk ([] : Dict K Nat) := ⟨by simp [Dict.keys], rfl⟩

theorem next_stopOnNone (ops : KeyOps K) (fuel : Nat) (s : Sess K) : (s.next ops fuel).1.stopOnNone = s.stopOnNone := by
  unfold Sess.next
  split <;> rfl

theorem run_stopOnNone (ops : KeyOps K) (fuel : Nat) : ∀ (os : List (SOp K)) (s : Sess K),
    (s.run ops fuel os).1.stopOnNone = s.stopOnNone
  | [], _ => rfl
  | o :: os, s => by
    rw [Sess.run]
    dsimp only
    rw [run_stopOnNone ops fuel os]
    match o with
    | .update _ _ => rfl
    | .feedback _ => rfl
    | .next => exact next_stopOnNone ops fuel s

theorem views_length (ops : KeyOps K) (fuel : Nat) : ∀ (os : List (SOp K)) (s : Sess K),
    (s.views ops fuel os).length = (s.run ops fuel os).2.length
  | [], _ => rfl
  | o :: os, s => by
    rw [Sess.run, Sess.views.eq_def]
    dsimp only
    rw [List.length_append, List.length_append, views_length ops fuel os]
    match o with
    | .update _ _ => rfl
    | .feedback _ => rfl
    | .next => rfl

/-- The key ids of a query result have no influence on its answers and its log. -/
theorem run_ids_irrelevant (ops : KeyOps K) (fuel : Nat) : ∀ (os : List (SOp K)) (s : Sess K) (ids : Dict K Nat),
    (({ s with keyIds := ids } : Sess K).run ops fuel os).2 = (s.run ops fuel os).2 ∧
    (({ s with keyIds := ids } : Sess K).run ops fuel os).1.log = (s.run ops fuel os).1.log
  | [], _, _ => ⟨rfl, rfl⟩
  | o :: os, s, ids => by
    rw [Sess.run, Sess.run]
    dsimp only
    have : ∃ ids', (({ s with keyIds := ids } : Sess K).op ops fuel o).1 = { (s.op ops fuel o).1 with keyIds := ids' } ∧
        (({ s with keyIds := ids } : Sess K).op ops fuel o).2 = (s.op ops fuel o).2 := by
      match o with
      | .update _ _ => exact ⟨_, rfl, rfl⟩
      | .feedback _ => exact ⟨_, rfl, rfl⟩
      | .next =>
        simp only [Sess.op]
        unfold Sess.next
        dsimp only
        cases hc : (s.gen.isNone && s.numReturns != 0) with
        | true => exact ⟨ids, rfl, rfl⟩
        | false => exact ⟨_, rfl, rfl⟩
    obtain ⟨ids', e1, e2⟩ := this
    rw [e1, e2]
    obtain ⟨i1, i2⟩ := run_ids_irrelevant ops fuel os (s.op ops fuel o).1 ids'
    rw [i1, i2]
    exact ⟨rfl, rfl⟩

/-! ### The theorems -/

/-- **C95** (the ids of a job). A job runs with a query result that is new (`hit = false`) or was stored by a job with the mixture
`v0`. Whatever chunks it takes and whatever feedback changes its mixture within its domains, every domain keeps the id it has at
the start, and exactly the domains of mixture and data have one. -/
theorem c95_ids_while_running (ops : KeyOps K) (fuel : Nat) (index : Dict K Entries) (order : List K)
    (v0 : MixView K) (hv0 : v0.rows.keys.Nodup) (hit : Bool) (ref : Nat) (v : MixView K) (hv : v.rows.keys.Nodup)
    (history : List (SOp K)) (hh : ∀ o ∈ history, ByJob (v.rows.keys ++ index.keys) o)
    (s0 s : Sess K) (hs0 : startJob ops fuel index order v0 hit ref v = .ok s0) (hs : s = (s0.run ops fuel history).1) :
    s.keyIds = s0.keyIds ∧ ∀ k, (k ∈ v.rows.keys ∨ k ∈ index.keys) ↔ k ∈ s.keyIds.keys := by
  obtain ⟨h1, h2, h3, -, h5⟩ := startJob_spec ops fuel index order v0 hv0 hit ref v hv s0 hs0
  have hid := (updateKeyIds_spec ops v.rows.keys index.keys [] idsOk_nil).2.2
  have hd : ∀ k, (k ∈ v.rows.keys ∨ k ∈ index.keys) ↔ k ∈ s0.keyIds.keys := by
    intro k
    rw [h5, hid]
    simp [Dict.keys]
  have := (job_ids ops fuel index (v.rows.keys ++ index.keys) s0.keyIds history s0 hh h1.nf.idxEq rfl
    (fun k hk => (hd k).1 (Or.inr hk)) (fun k hk => (hd k).1 (List.mem_append.1 hk))
    (by rw [h2, h3]; intro k hk; exact List.mem_append_left _ hk)).1
  rw [hs, this]
  exact ⟨rfl, hd⟩

/-- **C95** (the restored job). The job takes at least one chunk, only chunks are answered, and a checkpoint is restored. If the
mixture with which the query was first executed knows all domains of the job's mixture, restoring succeeds; to all requests and
feedback that follow the restored job gives the answers, and keeps the mixture log, that the job would have given without the
interruption; but its domain ids are those of a query executed with the *first* mixture. Missing: a checkpoint before the first
chunk (`c95_other_mixture`), for the ids first mixtures that lack a domain, and what C13 misses. -/
theorem c95_restored_answers_partial (ops : KeyOps K) (fuel : Nat) (hf : 0 < fuel) (index : Dict K Entries)
    (order : List K) (v0 : MixView K) (hv0 : v0.rows.keys.Nodup) (hit : Bool) (ref : Nat) (v : MixView K)
    (hv : v.rows.keys.Nodup) (hknown : ∀ k ∈ v.rows.keys, k ∈ v0.rows.keys ∨ k ∈ index.keys)
    (history : List (SOp K)) (hh : ∀ o ∈ history, ByJob (v.rows.keys ++ index.keys) o)
    (s0 s : Sess K) (hs0 : startJob ops fuel index order v0 hit ref v = .ok s0) (hs : s = (s0.run ops fuel history).1)
    (hchunks : ∀ o ∈ (s0.run ops fuel history).2, o.isChunk = true) (hone : (s0.run ops fuel history).2 ≠ [])
    (hnoticed : Noticed (s0.views ops fuel history))
    (hlast : ∀ w ∈ (s0.views ops fuel history).getLast?, s.heap s.mixRef = w) :
    ∃ r, restoreJob ops fuel s.mixRef (queryDir ops index order v0) s.point = .ok r ∧
      r.keyIds = (Sess.fresh ops index order false ref v0).keyIds ∧
      ∀ later : List (SOp K), (∀ o ∈ later, ByJob (v.rows.keys ++ index.keys) o) →
        (r.run ops fuel later).2 = (s.run ops fuel later).2 ∧ (r.run ops fuel later).1.keyIds = r.keyIds ∧
        (r.run ops fuel later).1.log = (s.run ops fuel later).1.log := by
  obtain ⟨h1, h2, h3, h4, h5⟩ := startJob_spec ops fuel index order v0 hv0 hit ref v hv s0 hs0
  have hok : ∀ o ∈ history, o.Ok := by
    intro o ho
    match o, hh o ho with
    | .next, _ => trivial
    | .feedback w, hw => exact hw.1
  have ho := orig_run ops fuel hf history hok h1 hchunks
  rw [← hs, List.nil_append] at ho
  have hson : s.stopOnNone = false := by
    rw [hs, run_stopOnNone]; exact h4
  have hlen := views_length ops fuel history s0
  have hid := (updateKeyIds_spec ops v0.rows.keys index.keys [] idsOk_nil).2.2
  have hd : ∀ k, (k ∈ v0.rows.keys ∨ k ∈ index.keys) → k ∈ (updateKeyIds ops v0.rows.keys index.keys []).keys := by
    intro k h
    rw [hid]
    rcases h with h | h
    · exact Or.inl h
    · exact Or.inr (Or.inr ⟨rfl, h⟩)
  have hdom : ∀ k ∈ v.rows.keys ++ index.keys, k ∈ (updateKeyIds ops v0.rows.keys index.keys []).keys := by
    intro k hk
    rcases List.mem_append.1 hk with hk | hk
    · exact hd k (hknown k hk)
    · exact hd k (Or.inr hk)
  have hid0 := (updateKeyIds_spec ops v.rows.keys index.keys [] idsOk_nil).2.2
  have hd0 : ∀ k ∈ v.rows.keys ++ index.keys, k ∈ s0.keyIds.keys := by
    intro k hk
    rw [h5, hid0]
    rcases List.mem_append.1 hk with hk | hk
    · exact Or.inl hk
    · exact Or.inr (Or.inr ⟨rfl, hk⟩)
  have hviewsDom := (job_ids ops fuel index (v.rows.keys ++ index.keys) s0.keyIds history s0 hh h1.nf.idxEq rfl
    (fun k hk => hd0 k (List.mem_append_right _ hk)) hd0
    (by rw [h2, h3]; intro k hk; exact List.mem_append_left _ hk)).2
  match hviews : s0.views ops fuel history with
  | [] =>
    rw [hviews] at hlen
    exact absurd (List.length_eq_zero_iff.mp hlen.symm) hone
  | u :: ws =>
    rw [hviews] at ho hnoticed hlast hviewsDom
    have hl : s.heap s.mixRef = (u :: ws).getLast (by simp) :=
      hlast _ (by rw [List.getLast?_eq_getLast_of_ne_nil (by simp)]; rfl)
    obtain ⟨r, r1, r2, r3⟩ := replay_alike ops fuel hf index order s u ws ho hnoticed hl v0 hv0 true
      (updateKeyIds ops v0.rows.keys index.keys []) (fun k hk => hd k (Or.inr hk))
      (fun w hw k hk => hdom k (hviewsDom w hw k hk))
    refine ⟨{ r with stopOnNone := false }, ?_, r2, fun later hlater => ?_⟩
    · simp only [restoreJob, queryDir, Sess.fresh, Sess.toCache, Sess.point]
      rw [r1]
    · rw [hson] at r3
      have hi := (job_ids ops fuel index (v.rows.keys ++ index.keys) r.keyIds later { r with stopOnNone := false } hlater
        (r3.index.trans ho.nf.idxEq) rfl (fun k hk => by rw [r2]; exact hd k (Or.inr hk))
        (fun k hk => by rw [r2]; exact hdom k hk) (by
          intro k hk
          have e1 : r.heap r.mixRef = s.heap s.mixRef := by
            have := r3.heap r.mixRef r3.mixT
            rw [show s.mixRef = r.mixRef from r3.mixRef.symm]; exact this
          have hk' : k ∈ (r.heap r.mixRef).rows.keys := hk
          rw [e1, hl] at hk'
          exact hviewsDom _ (List.getLast_mem _) k hk')).1
      obtain ⟨q1, q2⟩ := run_ids_irrelevant ops fuel later { r with stopOnNone := false } s.keyIds
      obtain ⟨a1, -, a3⟩ := alike_run ops fuel later r3
      exact ⟨q1.symm.trans a1, hi, q2.symm.trans a3⟩

/-! ### A first mixture that lacks domains -/

theorem next_ids (ops : KeyOps K) (fuel : Nat) (s : Sess K) (ids : Dict K Nat) (hi : IdsOk ids) :
    ∃ ids', (({ s with keyIds := ids } : Sess K).next ops fuel) =
        ({ (s.next ops fuel).1 with keyIds := ids' }, (s.next ops fuel).2) ∧ IdsOk ids' ∧
      ∀ k i, ids.get? k = some i → ids'.get? k = some i := by
  obtain ⟨u1, u2, -⟩ := updateKeyIds_spec ops (s.heap s.mixRef).rows.keys s.index.keys ids hi
  unfold Sess.next
  dsimp only
  cases hc : (s.gen.isNone && s.numReturns != 0) with
  | true => exact ⟨ids, rfl, hi, fun _ _ h => h⟩
  | false =>
    refine ⟨_, rfl, ?_, ?_⟩
    · split
      · exact hi
      · exact u1
    · split
      · exact fun _ _ h => h
      · exact u2

theorem due_ids (ops : KeyOps K) (ref i : Nat) (s : Sess K) (ids : Dict K Nat) (hi : IdsOk ids)
    (pending : List (Nat × MixView K)) :
    ∃ ids', ({ s with keyIds := ids } : Sess K).due ops ref i pending =
        ({ (s.due ops ref i pending).1 with keyIds := ids' }, (s.due ops ref i pending).2) ∧ IdsOk ids' ∧
      ∀ k i, ids.get? k = some i → ids'.get? k = some i := by
  match pending with
  | [] => exact ⟨ids, rfl, hi, fun _ _ h => h⟩
  | (c, v) :: rest =>
    obtain ⟨u1, u2, -⟩ := updateKeyIds_spec ops v.rows.keys s.index.keys ids hi
    rw [Sess.due, Sess.due]
    split
    · exact ⟨_, rfl, u1, u2⟩
    · exact ⟨ids, rfl, hi, fun _ _ h => h⟩

theorem replayLoop_ids (ops : KeyOps K) (fuel ref : Nat) : ∀ (n i : Nat) (pending : List (Nat × MixView K)) (s r : Sess K)
    (ids : Dict K Nat), IdsOk ids → replayLoop ops fuel ref i n pending s = .ok r →
    ∃ ids', replayLoop ops fuel ref i n pending { s with keyIds := ids } = .ok { r with keyIds := ids' } ∧ IdsOk ids' ∧
      ∀ k i, ids.get? k = some i → ids'.get? k = some i
  | 0, i, pending, s, r, ids, hi, h => by
    rw [replayLoop] at h
    cases h
    exact ⟨ids, by rw [replayLoop], hi, fun _ _ h => h⟩
  | n + 1, i, pending, s, r, ids, hi, h => by
    obtain ⟨ids1, d1, d2, d3⟩ := due_ids ops ref i s ids hi pending
    obtain ⟨ids2, e1, e2, e3⟩ := next_ids ops fuel (s.due ops ref i pending).1 ids1 d2
    rw [replayLoop] at h ⊢
    rw [d1]
    dsimp only
    rw [e1]
    revert h
    match (s.due ops ref i pending).1.next ops fuel with
    | (s', .chunk c) =>
      intro h
      obtain ⟨ids3, f1, f2, f3⟩ := replayLoop_ids ops fuel ref n (i + 1) _ s' r ids2 e2 h
      exact ⟨ids3, f1, f2, fun k j hk => f3 k j (e3 k j (d3 k j hk))⟩
    | (s', .none) =>
      intro h
      by_cases hb : s'.stopOnNone = true
      · exact absurd (h.symm.trans (if_pos hb)) (by simp)
      · obtain ⟨ids3, f1, f2, f3⟩ := replayLoop_ids ops fuel ref n (i + 1) _ s' r ids2 e2 ((if_neg hb).symm.trans h)
        exact ⟨ids3, (if_neg hb).trans f1, f2, fun k j hk => f3 k j (e3 k j (d3 k j hk))⟩
    | (s', .stop) => intro h; cases h
    | (s', .raised e) => intro h; cases h

theorem replay_ids (ops : KeyOps K) (fuel ref n : Nat) (s r : Sess K) (ids : Dict K Nat) (hi : IdsOk ids)
    (h : s.replay ops fuel ref n = .ok r) :
    ∃ ids', ({ s with keyIds := ids } : Sess K).replay ops fuel ref n = .ok { r with keyIds := ids' } ∧
      ∀ k i, ids.get? k = some i → ids'.get? k = some i := by
  obtain ⟨index, order, son, heap, mixRef, gen, idx, num, rep, log, keys⟩ := s
  unfold Sess.replay at h ⊢
  by_cases hn : n < 1
  · rw [if_pos hn] at h ⊢
    cases h
    exact ⟨ids, rfl, fun _ _ h => h⟩
  · rw [if_neg hn] at h ⊢
    cases log with
    | nil => cases h
    | cons e rest =>
      obtain ⟨c, v⟩ := e
      dsimp only at h ⊢
      obtain ⟨u1, u2, -⟩ := updateKeyIds_spec ops v.rows.keys index.keys ids hi
      generalize ht : Sess.update ops (Sess.mk index order son heap mixRef gen idx num true ((c, v) :: rest) keys) ref v = t at h
      rw [show Sess.update ops (Sess.mk index order son heap mixRef gen idx num true ((c, v) :: rest) ids) ref v =
        { t with keyIds := updateKeyIds ops v.rows.keys index.keys ids } by rw [← ht]; rfl]
      cases hl : replayLoop ops fuel ref 0 n rest t with
      | error e => rw [hl] at h; cases h
      | ok s' =>
        rw [hl] at h
        dsimp only at h
        obtain ⟨ids', f1, f2, f3⟩ := replayLoop_ids ops fuel ref n 0 rest t s' _ u1 hl
        rw [f1]
        dsimp only
        by_cases hd : s'.numReturns = n ∧ s'.idx = n
        · rw [if_pos hd] at h ⊢
          cases h
          exact ⟨ids', rfl, fun k j hk => f3 k j (u2 k j hk)⟩
        · rw [if_neg hd] at h
          cases h

theorem restored_chunks (ops : KeyOps K) (fuel : Nat) (hf : 0 < fuel) (index : Dict K Entries)
    (order : List K) (v0 : MixView K) (hv0 : v0.rows.keys.Nodup) (hit : Bool) (ref : Nat) (v : MixView K)
    (hv : v.rows.keys.Nodup) (history : List (SOp K)) (hh : ∀ o ∈ history, o.Ok)
    (s0 s : Sess K) (hs0 : startJob ops fuel index order v0 hit ref v = .ok s0) (hs : s = (s0.run ops fuel history).1)
    (hchunks : ∀ o ∈ (s0.run ops fuel history).2, o.isChunk = true) (hone : (s0.run ops fuel history).2 ≠ [])
    (hnoticed : Noticed (s0.views ops fuel history))
    (hlast : ∀ w ∈ (s0.views ops fuel history).getLast?, s.heap s.mixRef = w) :
    ∃ r, restoreJob ops fuel s.mixRef (queryDir ops index order v0) s.point = .ok r ∧
      (∀ k i, (Sess.fresh ops index order false ref v0).keyIds.get? k = some i → r.keyIds.get? k = some i) ∧
      (∀ later : List (SOp K), (r.run ops fuel later).2 = (s.run ops fuel later).2 ∧
        (r.run ops fuel later).1.log = (s.run ops fuel later).1.log) ∧ r.numReturns = s.numReturns ∧ r.mixRef = s.mixRef := by
  obtain ⟨h1, -, -, h4, -⟩ := startJob_spec ops fuel index order v0 hv0 hit ref v hv s0 hs0
  have ho := orig_run ops fuel hf history hh h1 hchunks
  rw [← hs, List.nil_append] at ho
  have hson : s.stopOnNone = false := by
    rw [hs, run_stopOnNone]; exact h4
  have hlen := views_length ops fuel history s0
  match hviews : s0.views ops fuel history with
  | [] =>
    rw [hviews] at hlen
    exact absurd (List.length_eq_zero_iff.mp hlen.symm) hone
  | u :: ws =>
    rw [hviews] at ho hnoticed hlast
    have hl : s.heap s.mixRef = (u :: ws).getLast (by simp) :=
      hlast _ (by rw [List.getLast?_eq_getLast_of_ne_nil (by simp)]; rfl)
    obtain ⟨r, r1, -, r3⟩ := replay_alike ops fuel hf index order s u ws ho hnoticed hl v0 hv0 true s.keyIds
      (by rw [← ho.nf.idxEq]; exact ho.ids.index) ho.keys
    obtain ⟨ids', q1, q2⟩ := replay_ids ops fuel s.mixRef s.numReturns _ r (updateKeyIds ops v0.rows.keys index.keys [])
      (updateKeyIds_spec ops v0.rows.keys index.keys [] idsOk_nil).1 r1
    refine ⟨{ r with stopOnNone := false, keyIds := ids' }, ?_, q2, fun later => ?_, r3.num, r3.mixRef⟩
    · simp only [restoreJob, queryDir, Sess.fresh, Sess.toCache, Sess.point]
      rw [q1]
    · rw [hson] at r3
      obtain ⟨p1, p2⟩ := run_ids_irrelevant ops fuel later { r with stopOnNone := false, keyIds := s.keyIds } ids'
      obtain ⟨a1, -, a3⟩ := alike_run ops fuel later r3
      exact ⟨p1.trans a1, p2.trans a3⟩

/-- **C95** (the restored job, whatever the first mixture). A job with any query result, new or stored by a job with any other
mixture, takes at least one chunk, only chunks are answered, and a checkpoint is restored: restoring succeeds, and to everything
that follows, also updates, the restored job gives the answers, and keeps the mixture log, that the job would have given without
the interruption. The ids of the first mixture's domains are those they had for the job that first executed the query. Missing: a
checkpoint before the first chunk (`c95_other_mixture`), and what C13 misses. -/
theorem c95_restored_chunks_partial (ops : KeyOps K) (fuel : Nat) (hf : 0 < fuel) (index : Dict K Entries)
    (order : List K) (v0 : MixView K) (hv0 : v0.rows.keys.Nodup) (hit : Bool) (ref : Nat) (v : MixView K)
    (hv : v.rows.keys.Nodup) (history : List (SOp K)) (hh : ∀ o ∈ history, o.Ok)
    (s0 s : Sess K) (hs0 : startJob ops fuel index order v0 hit ref v = .ok s0) (hs : s = (s0.run ops fuel history).1)
    (hchunks : ∀ o ∈ (s0.run ops fuel history).2, o.isChunk = true) (hone : (s0.run ops fuel history).2 ≠ [])
    (hnoticed : Noticed (s0.views ops fuel history))
    (hlast : ∀ w ∈ (s0.views ops fuel history).getLast?, s.heap s.mixRef = w) :
    ∃ r, restoreJob ops fuel s.mixRef (queryDir ops index order v0) s.point = .ok r ∧
      (∀ k i, (Sess.fresh ops index order false ref v0).keyIds.get? k = some i → r.keyIds.get? k = some i) ∧
      ∀ later : List (SOp K), (r.run ops fuel later).2 = (s.run ops fuel later).2 ∧
        (r.run ops fuel later).1.log = (s.run ops fuel later).1.log := by
  obtain ⟨r, h1, h2, h3, -⟩ := restored_chunks ops fuel hf index order v0 hv0 hit ref v hv history hh s0 s hs0 hs hchunks hone
    hnoticed hlast
  exact ⟨r, h1, h2, h3⟩

/-! ### Many restores -/

theorem run_append' (ops : KeyOps K) (fuel : Nat) : ∀ (a b : List (SOp K)) (s : Sess K),
    s.run ops fuel (a ++ b) =
      (((s.run ops fuel a).1.run ops fuel b).1, (s.run ops fuel a).2 ++ ((s.run ops fuel a).1.run ops fuel b).2)
  | [], b, s => rfl
  | o :: a, b, s => by
    rw [List.cons_append, Sess.run, Sess.run]
    dsimp only
    rw [run_append' ops fuel a b]
    simp [List.append_assoc]

theorem views_append' (ops : KeyOps K) (fuel : Nat) : ∀ (a b : List (SOp K)) (s : Sess K),
    s.views ops fuel (a ++ b) = s.views ops fuel a ++ (s.run ops fuel a).1.views ops fuel b
  | [], b, s => rfl
  | o :: a, b, s => by
    rw [List.cons_append, Sess.run, Sess.views.eq_def]
    conv => rhs; rw [Sess.views.eq_def]
    dsimp only
    rw [views_append' ops fuel a b]
    simp [List.append_assoc]

theorem noticed_left : ∀ (a b : List (MixView K)), Noticed (a ++ b) → Noticed a
  | [], _, _ => trivial
  | [_], _, _ => trivial
  | u :: v :: a, b, h => ⟨h.1, noticed_left (v :: a) b h.2⟩

theorem next_heap (ops : KeyOps K) (fuel : Nat) (s : Sess K) :
    (s.next ops fuel).1.heap = s.heap ∧ (s.next ops fuel).1.mixRef = s.mixRef := by
  unfold Sess.next
  split <;> exact ⟨rfl, rfl⟩

theorem run_mixRef (ops : KeyOps K) (fuel : Nat) : ∀ (os : List (SOp K)) (s t : Sess K), s.mixRef = t.mixRef →
    (s.run ops fuel os).1.mixRef = (t.run ops fuel os).1.mixRef
  | [], _, _, h => h
  | o :: os, s, t, h => by
    rw [Sess.run, Sess.run]
    refine run_mixRef ops fuel os _ _ ?_
    match o with
    | .update _ _ => rfl
    | .feedback _ => exact h
    | .next =>
      simp only [Sess.op]
      rw [(next_heap ops fuel s).2, (next_heap ops fuel t).2, h]

theorem run_num (ops : KeyOps K) (fuel : Nat) : ∀ (os : List (SOp K)) (s : Sess K),
    (∀ o ∈ (s.run ops fuel os).2, o.isChunk = true) →
    (s.run ops fuel os).1.numReturns = s.numReturns + (s.run ops fuel os).2.length
  | [], _, _ => rfl
  | o :: os, s, h => by
    rw [Sess.run] at h ⊢
    dsimp only at h ⊢
    rw [run_num ops fuel os _ fun x hx => h x (List.mem_append_right _ hx), List.length_append]
    match o with
    | .update _ _ => simp [Sess.op, Sess.update]
    | .feedback _ => simp [Sess.op, Sess.feedback]
    | .next =>
      have hc : (s.next ops fuel).2.isChunk = true := h _ (List.mem_append_left _ (by simp [Sess.op]))
      have : (s.next ops fuel).1.numReturns = s.numReturns + 1 := by
        unfold Sess.next at hc ⊢
        split
        · rename_i hb
          rw [if_pos hb] at hc
          simp [Out.isChunk] at hc
        · rfl
      simp only [Sess.op, Option.toList_some, List.length_singleton]
      rw [this]
      omega

theorem lives_spec (ops : KeyOps K) (fuel : Nat) (hf : 0 < fuel) (index : Dict K Entries)
    (order : List K) (v0 : MixView K) (hv0 : v0.rows.keys.Nodup) (hit : Bool) (ref : Nat) (v : MixView K)
    (hv : v.rows.keys.Nodup) (s0 : Sess K) (hs0 : startJob ops fuel index order v0 hit ref v = .ok s0) :
    ∀ (segs : List (List (SOp K))) (done : List (SOp K)) (c : Sess K),
    (∀ later, (c.run ops fuel later).2 = ((s0.run ops fuel done).1.run ops fuel later).2 ∧
      (c.run ops fuel later).1.log = ((s0.run ops fuel done).1.run ops fuel later).1.log) →
    c.numReturns = (s0.run ops fuel done).1.numReturns → c.mixRef = (s0.run ops fuel done).1.mixRef →
    (∀ o ∈ done ++ segs.flatMap (· ++ [.next]), o.Ok) →
    (∀ o ∈ (s0.run ops fuel (done ++ segs.flatMap (· ++ [.next]))).2, o.isChunk = true) →
    Noticed (s0.views ops fuel (done ++ segs.flatMap (· ++ [.next]))) →
    ∃ t, Sess.lives ops fuel (queryDir ops index order v0) c segs =
        .ok (t, ((s0.run ops fuel done).1.run ops fuel (segs.flatMap (· ++ [.next]))).2) ∧
      ∀ later, (t.run ops fuel later).2 =
          ((s0.run ops fuel (done ++ segs.flatMap (· ++ [.next]))).1.run ops fuel later).2 ∧
        (t.run ops fuel later).1.log =
          ((s0.run ops fuel (done ++ segs.flatMap (· ++ [.next]))).1.run ops fuel later).1.log
  | [], done, c, h, _, _, _, _, _ => ⟨c, rfl, by simpa using h⟩
  | seg :: segs, done, c, h, hn, hm, hok, hch, hno => by
    rw [List.flatMap_cons, ← List.append_assoc] at hok hch hno ⊢
    generalize hd : done ++ (seg ++ [.next]) = done' at hok hch hno ⊢
    have hrun : s0.run ops fuel done' = (((s0.run ops fuel done).1.run ops fuel (seg ++ [.next])).1,
        (s0.run ops fuel done).2 ++ ((s0.run ops fuel done).1.run ops fuel (seg ++ [.next])).2) := by
      rw [← hd, run_append']
    rw [run_append'] at hch
    rw [views_append'] at hno
    have hch1 : ∀ o ∈ (s0.run ops fuel done').2, o.isChunk = true := fun o ho => hch o (List.mem_append_left _ ho)
    have hchs : ∀ o ∈ ((s0.run ops fuel done).1.run ops fuel (seg ++ [.next])).2, o.isChunk = true := by
      intro o ho
      refine hch1 o ?_
      rw [hrun]
      exact List.mem_append_right _ ho
    have hlast : ∀ w ∈ (s0.views ops fuel done').getLast?, (s0.run ops fuel done').1.heap (s0.run ops fuel done').1.mixRef = w := by
      intro w hw
      rw [← hd, ← List.append_assoc, views_append'] at hw
      rw [← hd, ← List.append_assoc, run_append']
      simp only [Sess.views, List.append_nil, List.getLast?_append, List.getLast?_singleton, Option.some_or,
        Option.mem_some_iff] at hw
      subst hw
      simp only [Sess.run, Sess.op]
      rw [(next_heap ops fuel _).1, (next_heap ops fuel _).2]
    have hone : (s0.run ops fuel done').2 ≠ [] := by
      rw [← hd, ← List.append_assoc, run_append']
      simp [Sess.run, Sess.op]
    obtain ⟨r, r1, -, r3, r4, r5⟩ := restored_chunks ops fuel hf index order v0 hv0 hit ref v hv done'
      (fun o ho => hok o (List.mem_append_left _ ho)) s0 _ hs0 rfl hch1 hone (noticed_left _ _ hno) hlast
    -- the point of the current life is that of the uninterrupted job
    have k1 := h (seg ++ [.next])
    have hs' : (s0.run ops fuel done').1 = ((s0.run ops fuel done).1.run ops fuel (seg ++ [.next])).1 := by rw [hrun]
    have hpoint : (c.run ops fuel (seg ++ [.next])).1.point = (s0.run ops fuel done').1.point := by
      unfold Sess.point
      rw [hs', k1.2, run_num ops fuel _ c (by rw [k1.1]; exact hchs), run_num ops fuel _ _ hchs, k1.1, hn]
    have hmix : (c.run ops fuel (seg ++ [.next])).1.mixRef = (s0.run ops fuel done').1.mixRef := by
      rw [hs']; exact run_mixRef ops fuel _ _ _ hm
    obtain ⟨t, t1, t2⟩ := lives_spec ops fuel hf index order v0 hv0 hit ref v hv s0 hs0 segs done' r r3 r4 r5 hok
      (by rw [run_append']; exact hch) (by rw [views_append']; exact hno)
    refine ⟨t, ?_, t2⟩
    rw [Sess.lives]
    rw [hpoint, hmix, r1]
    dsimp only
    rw [t1, run_append' ops fuel (seg ++ [SOp.next]) _ (s0.run ops fuel done).1, ← hs', k1.1]

/-- **C95** (many restores). A job with any query result is interrupted and restored any number of times, each time from a
checkpoint taken right after a chunk, and all its requests are answered with chunks. Then every restore succeeds, the chunks of
all its lives are those it would have got without interruptions, and so are all later answers and the mixture log: nothing is
lost and nothing comes twice. Missing: as for `c95_restored_chunks_partial`. -/
theorem c95_many_restores_partial (ops : KeyOps K) (fuel : Nat) (hf : 0 < fuel) (index : Dict K Entries)
    (order : List K) (v0 : MixView K) (hv0 : v0.rows.keys.Nodup) (hit : Bool) (ref : Nat) (v : MixView K)
    (hv : v.rows.keys.Nodup) (segs : List (List (SOp K))) (s0 : Sess K)
    (hs0 : startJob ops fuel index order v0 hit ref v = .ok s0)
    (hh : ∀ o ∈ segs.flatMap (· ++ [.next]), o.Ok)
    (hchunks : ∀ o ∈ (s0.run ops fuel (segs.flatMap (· ++ [.next]))).2, o.isChunk = true)
    (hnoticed : Noticed (s0.views ops fuel (segs.flatMap (· ++ [.next])))) :
    ∃ t, s0.lives ops fuel (queryDir ops index order v0) segs = .ok (t, (s0.run ops fuel (segs.flatMap (· ++ [.next]))).2) ∧
      ∀ later : List (SOp K),
        (t.run ops fuel later).2 = ((s0.run ops fuel (segs.flatMap (· ++ [.next]))).1.run ops fuel later).2 ∧
        (t.run ops fuel later).1.log = ((s0.run ops fuel (segs.flatMap (· ++ [.next]))).1.run ops fuel later).1.log := by
  have := lives_spec ops fuel hf index order v0 hv0 hit ref v hv s0 hs0 segs [] s0 (fun _ => ⟨rfl, rfl⟩) rfl rfl
    (by simpa using hh) (by simpa using hchunks) (by simpa using hnoticed)
  simpa [Sess.run] using this

/-- **C95** (same domains, same ids). If the mixture with which the query was first executed has the same domains as that of the
job (in particular if the query was executed for this job), the restored job has the ids the job had. -/
theorem c95_same_domains_same_ids (ops : KeyOps K) (ht : ops.Total) (fuel : Nat) (index : Dict K Entries)
    (order : List K) (v0 : MixView K) (hv0 : v0.rows.keys.Nodup) (hit : Bool) (ref : Nat) (v : MixView K)
    (hv : v.rows.keys.Nodup)
    (hsame : ∀ k, (k ∈ v0.rows.keys ∨ k ∈ index.keys) ↔ (k ∈ v.rows.keys ∨ k ∈ index.keys))
    (history : List (SOp K)) (hh : ∀ o ∈ history, ByJob (v.rows.keys ++ index.keys) o)
    (s0 s : Sess K) (hs0 : startJob ops fuel index order v0 hit ref v = .ok s0) (hs : s = (s0.run ops fuel history).1) :
    (Sess.fresh ops index order false ref v0).keyIds = s.keyIds := by
  obtain ⟨-, -, -, -, h5⟩ := startJob_spec ops fuel index order v0 hv0 hit ref v hv s0 hs0
  rw [(c95_ids_while_running ops fuel index order v0 hv0 hit ref v hv history hh s0 s hs0 hs).1, h5]
  exact initialIds_set ht _ _ _ hsame

/-! ### Examples, and where the property fails -/

namespace Ex

/-- The mixture with which the query was first executed: it has a domain 0, of which there is no data. -/
def firstMix : MixView Nat := ⟨[(0, 1), (1, 3), (2, 2)], false, 6⟩

/-- The job: chunks of three samples of domain 1 and two of domain 2, and one after feedback. -/
def jobHistory : List (SOp Nat) := [.next, .feedback ⟨[(1, 1), (2, 1)], true, 2⟩, .next]

/-- The job that found its query in the cache, before and after its checkpoint is restored: the ids it gives to the domains, the
answers to two more requests. -/
def jobAndRestored (v0 : MixView Nat) (history : List (SOp Nat)) :
    Option ((Dict Nat Nat × List Seen) × (Dict Nat Nat × List Seen)) :=
  match startJob Ex.ops 20 Ex.index Ex.order v0 true 7 Ex.strictMix with
  | .error _ => none
  | .ok s0 =>
    let s := (s0.run Ex.ops 20 history).1
    match restoreJob Ex.ops 20 s.mixRef (queryDir Ex.ops Ex.index Ex.order v0) s.point with
    | .error _ => none
    | .ok r => some ((s.keyIds, (s.run Ex.ops 20 [.next, .next]).2.map Out.seen),
        (r.keyIds, (r.run Ex.ops 20 [.next, .next]).2.map Out.seen))

end Ex

/-- The hypotheses of the theorems are met by a job that found its query in the cache, with feedback between two chunks. -/
example : ∃ s0, startJob Ex.ops 20 Ex.index Ex.order Ex.firstMix true 7 Ex.strictMix = .ok s0 ∧
    (∀ o ∈ (s0.run Ex.ops 20 Ex.jobHistory).2, o.isChunk = true) ∧ (s0.run Ex.ops 20 Ex.jobHistory).2.length = 2 ∧
    (s0.views Ex.ops 20 Ex.jobHistory).map (·.rows) = [[(1, 3), (2, 2)], [(1, 1), (2, 1)]] ∧
    ((s0.run Ex.ops 20 Ex.jobHistory).1.heap 7).rows = [(1, 1), (2, 1)] ∧
    (∀ k ∈ Ex.strictMix.rows.keys, k ∈ Ex.firstMix.rows.keys ∨ k ∈ Ex.index.keys) :=
  ⟨_, rfl, by decide +kernel, by decide +kernel, by decide +kernel, by decide +kernel, by decide +kernel⟩

/-- With the same domains everything is as before the interruption. -/
example : Ex.jobAndRestored ⟨[(2, 1), (1, 3)], false, 4⟩ Ex.jobHistory =
    some (([(1, 0), (2, 1), (11, 2)], [.chunk [(1, [(0, 0, 2)]), (2, [(0, 1, 3)])], .chunk [(1, [(0, 0, 5)]), (2, [(0, 1, 4)])]]),
      ([(1, 0), (2, 1), (11, 2)], [.chunk [(1, [(0, 0, 2)]), (2, [(0, 1, 3)])], .chunk [(1, [(0, 0, 5)]), (2, [(0, 1, 4)])]])) := by
  decide +kernel

/-- A first mixture that lacks a domain of the job: the same ids here, as domain 1 is in the data. -/
example : (Ex.jobAndRestored ⟨[(2, 5)], true, 5⟩ Ex.jobHistory).isSome = true ∧
    (Ex.jobAndRestored ⟨[(2, 5)], true, 5⟩ Ex.jobHistory).all (fun x => decide (x.1 = x.2)) = true := by
  decide +kernel

/-- Three lives of a job that found its query in the cache, the second with feedback: the theorem about many restores applies, and
the three chunks and one more are those of the uninterrupted job. -/
example : ∃ s0, startJob Ex.ops 20 Ex.index Ex.order Ex.firstMix true 7 Ex.strictMix = .ok s0 ∧
    let segs : List (List (SOp Nat)) := [[], [.feedback ⟨[(1, 1), (2, 1)], true, 2⟩], []]
    (s0.run Ex.ops 20 (segs.flatMap (· ++ [.next]))).2.map Out.seen =
      [.chunk [(1, [(0, 0, 0), (0, 0, 3), (0, 0, 4)]), (2, [(0, 1, 0), (0, 1, 1)])], .chunk [(1, [(0, 0, 1)]), (2, [(0, 1, 2)])],
        .chunk [(1, [(0, 0, 2)]), (2, [(0, 1, 3)])]] ∧
    ((s0.views Ex.ops 20 (segs.flatMap (· ++ [.next]))).map fun w => w.rows.length) = [2, 2, 2] ∧
    (s0.lives Ex.ops 20 (queryDir Ex.ops Ex.index Ex.order Ex.firstMix) segs).toOption.map
        (fun x => (x.2.length, (x.1.run Ex.ops 20 [.next]).2.map Out.seen)) =
      some (3, [.chunk [(1, [(0, 0, 5)]), (2, [(0, 1, 4)])]]) :=
  ⟨_, rfl, by decide +kernel, by decide +kernel, by decide +kernel⟩

/-- **C95 fails** if the query was first executed with a mixture that has another domain, which sorts before those of the job:
after its checkpoint is restored, the job gets the same samples, but each domain has another id than before, so that the losses
reported under an id concern another domain. -/
theorem c95_other_ids : Ex.jobAndRestored Ex.firstMix Ex.jobHistory =
    some (([(1, 0), (2, 1), (11, 2)], [.chunk [(1, [(0, 0, 2)]), (2, [(0, 1, 3)])], .chunk [(1, [(0, 0, 5)]), (2, [(0, 1, 4)])]]),
      ([(0, 0), (1, 1), (2, 2), (11, 3)],
        [.chunk [(1, [(0, 0, 2)]), (2, [(0, 1, 3)])], .chunk [(1, [(0, 0, 5)]), (2, [(0, 1, 4)])]])) := by
  decide +kernel

/-- **C95 fails** if the checkpoint was taken before the first chunk: the restored job goes on with the mixture with which the
query was first executed, here single samples of domain 2 instead of three of domain 1 and two of domain 2. -/
theorem c95_other_mixture : Ex.jobAndRestored ⟨[(2, 1)], false, 1⟩ [] =
    some (([(1, 0), (2, 1), (11, 2)], [.chunk [(1, [(0, 0, 0), (0, 0, 3), (0, 0, 4)]), (2, [(0, 1, 0), (0, 1, 1)])],
        .chunk [(1, [(0, 0, 1), (0, 0, 2), (0, 0, 5)]), (2, [(0, 1, 2), (0, 1, 3)])]]),
      ([(1, 0), (2, 1), (11, 2)], [.chunk [(2, [(0, 1, 0)])], .chunk [(2, [(0, 1, 1)])]])) := by
  decide +kernel

end Mixtera
