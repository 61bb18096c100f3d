import Verif.Props.CacheUse
import Verif.Model.Jobs
import Verif.Model.Mixture
import Verif.Spec.Example

set_option linter.unusedSectionVars false

/-! # C81: the jobs of one server do not influence each other -/

namespace Mixtera

variable {Q R : Type}

/-! ### A query cache in which nothing was interrupted -/

/-- Every directory of the cache is complete. -/
def Complete (s : Sys R) : Prop := ∀ h d, s.Holds h d → ∃ v t r, d.info = .full v t ∧ d.results = some r

theorem scan_broken {text : PyStr} {v : Nat} : ∀ {l : List (CacheDir R)}, scan text v l = .broken →
    ∃ d ∈ l, d.info = .torn ∨ d.results = none
  | [], h => by simp [scan] at h
  | d :: l, h => by
    rw [scan] at h
    split at h
    · obtain ⟨d', hd, h'⟩ := scan_broken h
      exact ⟨d', List.mem_cons_of_mem _ hd, h'⟩
    · rename_i hi
      exact ⟨d, List.mem_cons_self, .inl hi⟩
    · split at h
      · split at h
        · cases h
        · split at h
          · cases h
          · rename_i hr
            exact ⟨d, List.mem_cons_self, .inr hr⟩
      · obtain ⟨d', hd, h'⟩ := scan_broken h
        exact ⟨d', List.mem_cons_of_mem _ hd, h'⟩

theorem not_broken {E : CacheEnv Q R} (hE : E.OK) {s : Sys R} (hc : Complete s) (q : Q) : lookup E q s ≠ .broken := by
  intro h
  rw [lookup_eq E hE] at h
  obtain ⟨d, hd, h'⟩ := scan_broken h
  rw [hE.order, ← holds_iff] at hd
  obtain ⟨v, t, r, e1, e2⟩ := hc _ d hd
  rcases h' with h' | h'
  · rw [e1] at h'; cases h'
  · rw [e2] at h'; cases h'

/-- Executing a query where nothing was interrupted. -/
theorem executeQuery_complete {E : CacheEnv Q R} (hE : E.OK) {s : Sys R} (hs : CacheReach E s) (hc : Complete s) (q : Q) :
    ∃ t, (executeQuery E q).run s = (t, .ok (E.eval s.db q)) ∧ t.db = s.db ∧ CacheReach E t ∧ Complete t := by
  have hT := tidy_reach hE hs
  have hdb := (lookupCache_inv (cacheReach_inv hE hs) q).2
  have hsub : Complete (lookupCache E q s) := by
    intro h d hd
    rw [holds_iff, (dirsAt_lookupCache E hE q hT).2 h, List.mem_filter, ← holds_iff] at hd
    exact hc h d hd.1
  have hreach : CacheReach E ((executeQuery E q).run s).1 := .query q hs (Prog.run_mem_states _ _)
  rcases executeQuery_cases E q s with ⟨r, _, e, _⟩ | ⟨hb, _, _⟩ | ⟨_, e, _⟩
  · have := c36_current_result_partial E hE hs q r (by rw [e])
    rw [e] at hreach
    exact ⟨_, by rw [e, this], hdb, hreach, hsub⟩
  · exact absurd hb (not_broken hE hc q)
  · refine ⟨((executeQuery E q).run s).1, by rw [e, hdb], by rw [e]; exact hdb, hreach, ?_⟩
    rw [e]
    intro h d hd
    rw [holds_iff, dirsAt_withDir] at hd
    split at hd
    · rcases List.mem_append.mp hd with hd | hd
      · exact hsub h d ((holds_iff _ _ _).mpr hd)
      · rw [List.mem_singleton] at hd
        subst hd
        exact ⟨_, _, _, rfl, rfl⟩
    · exact hsub h d ((holds_iff _ _ _).mpr hd)

end Mixtera

namespace Mixtera.Jobs

open Mixtera.Torch

variable {J Q K α M F S T : Type} [DecidableEq J] [DecidableEq K]

/-! ### Specification -/

/-- The job an event is about. -/
def Ev.job : Ev J Q F T → Option J
  | .data _ => none
  | .execute j _ _ _ _ _ => some j
  | .ask j _ => some j
  | .feedback j _ => some j
  | .checkpoint j _ => some j
  | .restore j _ => some j

/-- What is seen of one job. -/
def seenOf (j : J) (log : List (Ev J Q F T × Seen K α)) : List (Ev J Q F T × Seen K α) :=
  log.filter fun x => decide (x.1.job = some j)

/-- The events of the job `j`. -/
def only (j : J) (es : List (Ev J Q F T)) : List (Ev J Q F T) := es.filter fun e => decide (e.job = some j)

/-- The events of the job `j` and the changes of the datasets. -/
def onlyData (j : J) (es : List (Ev J Q F T)) : List (Ev J Q F T) :=
  es.filter fun e => decide (e.job = some j) || decide (e.job = none)

/-- No mixture object that is passed to an execution for job `j` is passed to one for another job. -/
def OwnMixture (j : J) (es : List (Ev J Q F T)) : Prop :=
  ∀ q ref G N W j' q' G' N' W', Ev.execute j q ref G N W ∈ es → Ev.execute j' q' ref G' N' W' ∈ es → j' = j

/-- Nobody takes checkpoints of job `j`. -/
def NoCheckpoint (j : J) (es : List (Ev J Q F T)) : Prop := ∀ st, Ev.checkpoint j st ∉ es

/-! ### How a job starts -/

/-- The query result a job starts with. -/
def firstSess (env : Env Q K α M F S T) (r : Result K) (v : MixView K) : Sess K :=
  withView v { Sess.fresh env.ops r.1 r.2 true 0 v with stopOnNone := false }

/-- A cached query result starts exactly as a new one. -/
theorem startSess_eq (env : Env Q K α M F S T) (hit : Bool) (r : Result K) (v0 v : MixView K) :
    ∃ sess, startSess env hit r v0 v = .ok sess ∧ withView v { sess with stopOnNone := false } = firstSess env r v := by
  cases hit with
  | false => exact ⟨_, rfl, rfl⟩
  | true => exact ⟨_, rfl, rfl⟩

/-- The result of the query is still in the job's cache directory, as that of the present version of the database. -/
def Stored (s : Sys (Result K)) (dir : Option (PyStr × Nat)) (r : Result K) : Prop :=
  ∃ h d t, dir = some (h, d.num) ∧ s.Holds h d ∧ d.info = .full s.db.version t ∧ d.results = some r

theorem Stored.content {E : CacheEnv Q (Result K)} (hE : E.OK) {s : Sys (Result K)} (hs : CacheReach E s)
    {dir : Option (PyStr × Nat)} {r : Result K} (h : Stored s dir r) : dir.bind (cacheContent s) = some r := by
  obtain ⟨h, d, t, e, hd, _, hr⟩ := h
  have hT := tidy_reach hE hs
  rw [e]
  show cacheContent s (h, d.num) = some r
  rw [holds_iff] at hd
  unfold cacheContent
  show ((s.dirsAt h).find? _).bind _ = _
  cases hf : (s.dirsAt h).find? (fun d' => d'.num == d.num) with
  | none =>
    rw [List.find?_eq_none] at hf
    exact absurd (by simp) (hf d hd)
  | some d' =>
    have hn : d'.num = d.num := by simpa using List.find?_some hf
    have := eq_of_text (hT.apart _) (List.mem_of_find?_eq_some hf) hd (.inl hn)
    subst this
    exact hr

theorem Stored.keep {E : CacheEnv Q (Result K)} (hE : E.OK) {s t : Sys (Result K)} (hs : CacheReach E s) (q : Q)
    (o : Except Err (Result K)) (ht : (executeQuery E q).run s = (t, o)) (hdb : t.db = s.db)
    {dir : Option (PyStr × Nat)} {r : Result K} (h : Stored s dir r) : Stored t dir r := by
  obtain ⟨h, d, x, e, hd, hi, hr⟩ := h
  refine ⟨h, d, x, e, ?_, by rw [hdb]; exact hi, hr⟩
  refine c36_keeps_others E hE hs q (by have := Prog.run_mem_states (executeQuery E q) s; rwa [ht] at this) h d hd ?_
  intro v hv
  rw [hi] at hv
  simp only [MetaFile.full.injEq] at hv
  exact hv.1.symm

theorem Stored.start (env : Env Q K α M F S T) (hE : env.E.OK) {s t : Sys (Result K)} (hs : CacheReach env.E s) (q : Q)
    (r : Result K) (h : (executeQuery env.E q).run s = (t, .ok r)) (hdb : t.db = s.db) :
    Stored t ((cacheNumber env q t).map fun n => (env.E.hash (env.E.text q), n)) r := by
  obtain ⟨⟨d0, hd0, hi0, -⟩, hall⟩ := c36_stored env.E hE hs q r h
  rw [holds_iff] at hd0
  unfold cacheNumber
  show Stored t ((((t.dirsAt (env.E.hash (env.E.text q))).find? _).map _).map _) r
  cases hf : (t.dirsAt (env.E.hash (env.E.text q))).find? (fun d => decide (d.info = .full t.db.version (env.E.text q))) with
  | none =>
    rw [List.find?_eq_none] at hf
    exact absurd (by rw [hi0, hdb]; simp) (hf d0 hd0)
  | some d =>
    have hi : d.info = .full t.db.version (env.E.text q) := by simpa using List.find?_some hf
    have hm := List.mem_of_find?_eq_some hf
    exact ⟨_, d, _, rfl, (holds_iff _ _ _).mpr hm, hi, (hall d _ ((holds_iff _ _ _).mpr hm) hi).2⟩

/-! ### The simulation -/

/-- Two entries of the job map that differ at most in the cache directory. -/
def Alike (a b : Job J K α) : Prop := a.dist = b.dist ∧ a.mix = b.mix ∧ a.counter = b.counter

/-- The addresses that belong to job `j`; `A` are the mixture objects the user passes to its executions. -/
def Mine (j : J) (A : Nat → Prop) (a : Nat ⊕ J) : Prop := a = .inr j ∨ ∃ ref, A ref ∧ a = .inl ref

/-- For job `j`, the server in state `s` and the one in state `s'` are the same; `chk`: also as far as its first checkpoint
goes. -/
structure Sim (env : Env Q K α M F S T) (j : J) (A : Nat → Prop) (chk : Prop) (s s' : Stub J K α M S) : Prop where
  job : Option.Rel Alike (s.jobs.get? j) (s'.jobs.get? j)
  own : ∀ job, s.jobs.get? j = some job → Mine j A job.mix
  others : ∀ j', j' ≠ j → ∀ job, s.jobs.get? j' = some job → ¬ Mine j A job.mix
  heap : ∀ a, Mine j A a → s.heap a = s'.heap a
  copies : s.copies.get? j = s'.copies.get? j
  saved : ∀ id, s.saved.get? (j, id) = s'.saved.get? (j, id)
  ids : savedIds s.saved j = savedIds s'.saved j
  pos : ∀ id x, s.saved.get? (j, id) = some x → 0 < id
  data : s.jobs.get? j = none → s.sys.db = s'.sys.db
  reach : CacheReach env.E s.sys
  complete : Complete s.sys
  reach' : CacheReach env.E s'.sys
  complete' : Complete s'.sys
  dir : chk → ∀ a b, s.jobs.get? j = some a → s'.jobs.get? j = some b → a.counter = 0 →
    ∃ r, Stored s.sys a.cacheDir r ∧ Stored s'.sys b.cacheDir r

theorem Sim.none_iff {env : Env Q K α M F S T} {j : J} {A : Nat → Prop} {chk : Prop} {s s' : Stub J K α M S}
    (h : Sim env j A chk s s') : s.jobs.get? j = none ↔ s'.jobs.get? j = none := by
  have := h.job
  revert this
  cases s.jobs.get? j <;> cases s'.jobs.get? j <;> intro h <;> cases h <;> simp

theorem savedIds_set {j : J} {saved : Dict (J × Nat) S} {k : J × Nat} (h : saved.has k = false) (x : S) :
    savedIds (saved.set k x) j = savedIds saved j ++ if k.1 = j then [k.2] else [] := by
  have hk : k ∉ saved.keys := by
    rw [← Dict.get?_eq_none_iff]
    unfold Dict.has at h
    cases hg : saved.get? k with
    | none => rfl
    | some v => rw [hg] at h; simp at h
  have : (saved.set k x).keys = saved.keys ++ [k] := Dict.keys_upsert_of_not_mem hk _
  unfold savedIds
  rw [this, List.filter_append, List.map_append]
  congr 1
  by_cases hj : k.1 = j
  · simp [hj]
  · simp [hj]

theorem le_restored (l : List Nat) : ∀ a, a ≤ restoredCounter a l := by
  unfold restoredCounter
  induction l with
  | nil => intro a; exact le_refl a
  | cons x l ih => intro a; exact le_trans (le_max_left a x) (ih (max a x))

theorem has_get? {α β : Type} [DecidableEq α] {d d' : Dict α β} {k k' : α} (h : d.get? k = d'.get? k') :
    d.has k = d'.has k' := by unfold Dict.has; rw [h]

section
variable {env : Env Q K α M F S T} {j : J} {A : Nat → Prop} {chk : Prop} {s s' : Stub J K α M S}

/-- An execution of another job. -/
theorem Sim.execute_other (hE : env.E.OK) (h : Sim env j A chk s s') (j' : J) (hj : j' ≠ j) (q : Q) (ref G N W : Nat)
    (hA : ¬ A ref) : Sim env j A chk (s.execute env j' q ref G N W).1 s' := by
  unfold Stub.execute
  split
  · exact h
  split
  · exact h
  obtain ⟨t, hrun, hdb, ht, htc⟩ := executeQuery_complete hE h.reach h.complete q
  rw [hrun]
  simp only [Stub.start]
  obtain ⟨sess, hs, -⟩ := startSess_eq env (Found.isHit (lookup env.E q s.sys)) (env.E.eval s.sys.db q)
    (s.firstMix (env.E.text q)) (env.view (env.processIndex (env.E.eval s.sys.db q).1 (s.heap (.inl ref))))
  rw [hs]
  have hna : ¬ Mine j A (.inl ref) := by
    rintro (e | ⟨ref', hr, e⟩)
    · cases e
    · cases e; exact hA hr
  have base : ∀ jobs : Dict J (Job J K α), jobs.get? j = s.jobs.get? j →
      (∀ j', j' ≠ j → ∀ job, jobs.get? j' = some job → ¬ Mine j A job.mix) →
      ∀ fm, Sim env j A chk
        { s with
          sys := t
          heap := fun a => if a = .inl ref then env.processIndex (env.E.eval s.sys.db q).1 (s.heap (.inl ref)) else s.heap a
          firstMix := fm
          jobs := jobs } s' := by
    intro jobs hjobs hoth fm
    refine ⟨by show Option.Rel Alike (jobs.get? j) _; rw [hjobs]; exact h.job,
      fun job hg => h.own job (by rw [← hjobs]; exact hg), hoth, ?_, h.copies, h.saved, h.ids, h.pos,
      fun hn => by show t.db = _; rw [hdb]; exact h.data (by rw [← hjobs]; exact hn), ht, htc, h.reach', h.complete', ?_⟩
    · intro a ha
      show (if a = _ then _ else _) = _
      rw [if_neg (by rintro rfl; exact hna ha)]
      exact h.heap a ha
    · intro hc a b ha hb h0
      obtain ⟨r, h1, h2⟩ := h.dir hc a b (by rw [← hjobs]; exact ha) hb h0
      exact ⟨r, h1.keep hE h.reach q _ hrun hdb, h2⟩
  simp only
  split
  · exact base s.jobs rfl h.others _
  · refine base _ (by rw [Dict.get?_set, if_neg hj]) ?_ _
    intro j2 hj2 job hg
    rw [Dict.get?_set] at hg
    split at hg
    · simp only [Option.some.injEq] at hg
      rw [← hg]; exact hna
    · exact h.others j2 hj2 job hg

/-- Any event of another job. -/
theorem Sim.other (hE : env.E.OK) (h : Sim env j A chk s s') (e : Ev J Q F T) (j' : J) (he : e.job = some j') (hj : j' ≠ j)
    (hA : ∀ q ref G N W, e = .execute j' q ref G N W → ¬ A ref) : Sim env j A chk (s.step env e).1 s' := by
  cases e with
  | data o => cases he
  | execute j2 q ref G N W =>
    simp only [Ev.job, Option.some.injEq] at he
    subst he
    exact h.execute_other hE j2 hj q ref G N W (hA _ _ _ _ _ rfl)
  | ask j2 r =>
    simp only [Ev.job, Option.some.injEq] at he
    subst he
    simp only [Stub.step, Stub.ask]
    split
    · exact h
    · rename_i job hg
      have hget : ∀ x : Job J K α, (s.jobs.set j2 x).get? j = s.jobs.get? j := fun x => by rw [Dict.get?_set, if_neg hj]
      refine ⟨?_, ?_, ?_, h.heap, h.copies, h.saved, h.ids, h.pos, ?_, h.reach, h.complete, h.reach', h.complete', ?_⟩
      · simp only [hget]; exact h.job
      · simp only [hget]; exact h.own
      · intro j3 hj3 job3 hg3
        simp only [Dict.get?_set] at hg3
        split at hg3
        · simp only [Option.some.injEq] at hg3
          rw [← hg3]; exact h.others j2 hj job hg
        · exact h.others j3 hj3 job3 hg3
      · simp only [hget]; exact h.data
      · simp only [hget]; exact h.dir
  | feedback j2 f =>
    simp only [Ev.job, Option.some.injEq] at he
    subst he
    simp only [Stub.step, Stub.feedback]
    split
    · exact h
    · rename_i job hg
      refine ⟨h.job, h.own, h.others, ?_, h.copies, h.saved, h.ids, h.pos, h.data, h.reach, h.complete, h.reach', h.complete', h.dir⟩
      intro a ha
      show (if a = job.mix then _ else _) = _
      rw [if_neg (by rintro rfl; exact h.others j2 hj job hg ha)]
      exact h.heap a ha
  | checkpoint j2 st =>
    simp only [Ev.job, Option.some.injEq] at he
    subst he
    simp only [Stub.step, Stub.checkpoint]
    split
    · exact h
    · rename_i job hg
      have hget : ∀ x : Job J K α, (s.jobs.set j2 x).get? j = s.jobs.get? j := fun x => by rw [Dict.get?_set, if_neg hj]
      have base : ∀ (copies : Dict J (Result K)) (saved : Dict (J × Nat) S), copies.get? j = s.copies.get? j →
          (∀ id, saved.get? (j, id) = s.saved.get? (j, id)) → savedIds saved j = savedIds s.saved j →
          Sim env j A chk { s with
            jobs := s.jobs.set j2 { job with counter := job.counter + 1 }
            copies := copies
            saved := saved } s' := by
        intro copies saved hc hs hi
        refine ⟨?_, ?_, ?_, h.heap, hc.trans h.copies, fun id => (hs id).trans (h.saved id), hi.trans h.ids,
          fun id x hx => h.pos id x (by rw [← hs id]; exact hx), ?_, h.reach,
          h.complete, h.reach', h.complete', ?_⟩
        · simp only [hget]; exact h.job
        · simp only [hget]; exact h.own
        · intro j3 hj3 job3 hg3
          simp only [Dict.get?_set] at hg3
          split at hg3
          · simp only [Option.some.injEq] at hg3
            rw [← hg3]; exact h.others j2 hj job hg
          · exact h.others j3 hj3 job3 hg3
        · simp only [hget]; exact h.data
        · simp only [hget]; exact h.dir
      split
      · exact base _ _ rfl (fun _ => rfl) rfl
      · rename_i copies hcp
        have hc : copies.get? j = s.copies.get? j := by
          unfold Stub.copyResult at hcp
          split at hcp
          · split at hcp
            · simp only [Option.some.injEq] at hcp
              rw [← hcp, Dict.get?_set, if_neg hj]
            · cases hcp
          · split at hcp
            · simp only [Option.some.injEq] at hcp
              rw [hcp]
            · cases hcp
        split
        · exact base _ _ hc (fun _ => rfl) rfl
        · rename_i hhas
          split
          · exact base _ _ hc (fun _ => rfl) rfl
          · refine base _ _ hc (fun id => ?_) ?_
            · rw [Dict.get?_set, if_neg]
              intro e; cases e; exact hj rfl
            · rw [savedIds_set (by simpa using hhas), if_neg hj, List.append_nil]
  | restore j2 id =>
    simp only [Ev.job, Option.some.injEq] at he
    subst he
    simp only [Stub.step, Stub.restore]
    split
    · split
      · exact h
      · rename_i m d _
        have hget : ∀ x : Job J K α, (s.jobs.set j2 x).get? j = s.jobs.get? j := fun x => by rw [Dict.get?_set, if_neg hj]
        have hnm : ¬ Mine j A (.inr j2) := by
          rintro (e | ⟨ref', hr, e⟩)
          · cases e; exact hj rfl
          · cases e
        refine ⟨?_, ?_, ?_, ?_, h.copies, h.saved, h.ids, h.pos, ?_, h.reach, h.complete, h.reach', h.complete', ?_⟩
        · simp only [hget]; exact h.job
        · simp only [hget]; exact h.own
        · intro j3 hj3 job3 hg3
          simp only [Dict.get?_set] at hg3
          split at hg3
          · simp only [Option.some.injEq] at hg3
            rw [← hg3]; exact hnm
          · exact h.others j3 hj3 job3 hg3
        · intro a ha
          show (if a = .inr j2 then _ else _) = _
          rw [if_neg (by rintro rfl; exact hnm ha)]
          exact h.heap a ha
        · simp only [hget]; exact h.data
        · simp only [hget]; exact h.dir
    · exact h

theorem holds_db (x : Sys (Result K)) (db : Db) (h : PyStr) (d : CacheDir (Result K)) :
    ({ x with db := db } : Sys (Result K)).Holds h d ↔ x.Holds h d := Iff.rfl

/-- A change of the datasets, seen by both. -/
theorem Sim.data_both (h : Sim env j A chk s s') (o : DbOp) (hc : chk → s.jobs.get? j = none) :
    Sim env j A chk (s.step env (.data o)).1 (s'.step env (.data o)).1 :=
  ⟨h.job, h.own, h.others, h.heap, h.copies, h.saved, h.ids, h.pos, fun hn => by simp only [Stub.step]; rw [h.data hn], .op o h.reach,
    fun x d hd => h.complete x d hd, .op o h.reach', fun x d hd => h.complete' x d hd,
    fun c a b ha _ _ => by rw [show s.jobs.get? j = some a from ha] at hc; cases hc c⟩

/-- A change of the datasets while the job is running. -/
theorem Sim.data_left (h : Sim env j A chk s s') (o : DbOp) (hj : s.jobs.get? j ≠ none) (hc : ¬ chk) :
    Sim env j A chk (s.step env (.data o)).1 s' :=
  ⟨h.job, h.own, h.others, h.heap, h.copies, h.saved, h.ids, h.pos, fun hn => absurd hn hj, .op o h.reach,
    fun x d hd => h.complete x d hd, h.reach', h.complete', fun c => absurd c hc⟩

theorem job_cases (h : Sim env j A chk s s') : (s.jobs.get? j = none ∧ s'.jobs.get? j = none) ∨
    ∃ a dir, s.jobs.get? j = some a ∧ s'.jobs.get? j = some { a with cacheDir := dir } := by
  have := h.job
  revert this
  cases h1 : s.jobs.get? j <;> cases h2 : s'.jobs.get? j <;> intro h
  · exact .inl ⟨rfl, rfl⟩
  · cases h
  · cases h
  · cases h with
    | some h =>
      rename_i a b
      refine .inr ⟨a, b.cacheDir, rfl, ?_⟩
      obtain ⟨e1, e2, e3⟩ := h
      cases a
      cases b
      simp only at e1 e2 e3
      rw [e1, e2, e3]

/-- The execution of the job itself. -/
theorem Sim.execute_mine (hE : env.E.OK) (h : Sim env j A chk s s') (q : Q) (ref G N W : Nat) (hA : A ref) :
    Sim env j A chk (s.execute env j q ref G N W).1 (s'.execute env j q ref G N W).1 ∧
    (s.execute env j q ref G N W).2 = (s'.execute env j q ref G N W).2 := by
  unfold Stub.execute
  by_cases hG : 0 < G ∧ 0 < N
  · rw [if_neg (not_not.mpr hG), if_neg (not_not.mpr hG)]
    rcases job_cases h with ⟨h1, h2⟩ | ⟨a, dir, h1, h2⟩
    · have e1 : s.jobs.has j = false := by unfold Dict.has; rw [h1]; rfl
      have e2 : s'.jobs.has j = false := by unfold Dict.has; rw [h2]; rfl
      rw [e1, e2]
      simp only [Bool.false_eq_true, if_false]
      obtain ⟨t, hrun, hdb, ht, htc⟩ := executeQuery_complete hE h.reach h.complete q
      obtain ⟨t', hrun', hdb', ht', htc'⟩ := executeQuery_complete hE h.reach' h.complete' q
      have hdd := h.data h1
      rw [← hdd] at hrun' hdb'
      rw [hrun, hrun']
      have hheap := h.heap (.inl ref) (.inr ⟨ref, hA, rfl⟩)
      obtain ⟨sess, hs, hs2⟩ := startSess_eq env (Found.isHit (lookup env.E q s.sys)) (env.E.eval s.sys.db q)
        (s.firstMix (env.E.text q)) (env.view (env.processIndex (env.E.eval s.sys.db q).1 (s.heap (.inl ref))))
      obtain ⟨sess', hs', hs2'⟩ := startSess_eq env (Found.isHit (lookup env.E q s'.sys)) (env.E.eval s.sys.db q)
        (s'.firstMix (env.E.text q)) (env.view (env.processIndex (env.E.eval s.sys.db q).1 (s.heap (.inl ref))))
      simp only [Stub.start]
      rw [← hheap, hs, hs']
      simp only
      rw [hs2, hs2']
      unfold Dist.init
      rw [if_neg (by omega)]
      refine ⟨⟨?_, ?_, ?_, ?_, h.copies, h.saved, h.ids, h.pos, ?_, ht, htc, ht', htc', ?_⟩, rfl⟩
      · simp only [Dict.get?_set, if_pos]
        exact .some ⟨rfl, rfl, rfl⟩
      · intro job hg
        simp only [Dict.get?_set, if_pos, Option.some.injEq] at hg
        rw [← hg]; exact .inr ⟨ref, hA, rfl⟩
      · intro j3 hj3 job3 hg3
        simp only [Dict.get?_set, if_neg (Ne.symm hj3)] at hg3
        exact h.others j3 hj3 job3 hg3
      · intro a ha
        show (if a = _ then _ else _) = (if a = _ then _ else _)
        split
        · rfl
        · exact h.heap a ha
      · intro hn; simp only [Dict.get?_set, if_pos] at hn; cases hn
      · intro hc a b ha hb _
        simp only [Dict.get?_set, if_pos, Option.some.injEq] at ha hb
        rw [← ha, ← hb]
        exact ⟨_, Stored.start env hE h.reach q _ hrun hdb, Stored.start env hE h.reach' q _ hrun' (hdb'.trans hdd)⟩
    · have e1 : s.jobs.has j = true := by unfold Dict.has; rw [h1]; rfl
      have e2 : s'.jobs.has j = true := by unfold Dict.has; rw [h2]; rfl
      rw [e1, e2]
      exact ⟨h, rfl⟩
  · rw [if_pos hG, if_pos hG]
    exact ⟨h, rfl⟩

/-- The entry of the job is replaced in both. -/
theorem Sim.setJob (h : Sim env j A chk s s') (a b : Job J K α) (hab : Alike a b) (hm : Mine j A a.mix)
    (hd : chk → a.counter = 0 → ∃ r, Stored s.sys a.cacheDir r ∧ Stored s'.sys b.cacheDir r) :
    Sim env j A chk { s with jobs := s.jobs.set j a } { s' with jobs := s'.jobs.set j b } := by
  refine ⟨?_, ?_, ?_, h.heap, h.copies, h.saved, h.ids, h.pos, ?_, h.reach, h.complete, h.reach', h.complete', ?_⟩
  · simp only [Dict.get?_set, if_pos]
    exact .some hab
  · intro job hg
    simp only [Dict.get?_set, if_pos, Option.some.injEq] at hg
    rw [← hg]; exact hm
  · intro j3 hj3 job3 hg3
    simp only [Dict.get?_set, if_neg (Ne.symm hj3)] at hg3
    exact h.others j3 hj3 job3 hg3
  · intro hn; simp only [Dict.get?_set, if_pos] at hn; cases hn
  · intro hc x y hx hy h0
    simp only [Dict.get?_set, if_pos, Option.some.injEq] at hx hy
    subst hx hy
    exact hd hc h0

/-- Mixture objects of the job are changed in both. -/
theorem Sim.setHeap (h : Sim env j A chk s s') (f f' : Nat ⊕ J → M) (hf : ∀ a, Mine j A a → f a = f' a) :
    Sim env j A chk { s with heap := f } { s' with heap := f' } :=
  ⟨h.job, h.own, h.others, hf, h.copies, h.saved, h.ids, h.pos, h.data, h.reach, h.complete, h.reach', h.complete', h.dir⟩

/-- The checkpoint directory of the job is changed in both. -/
theorem Sim.setDisk (h : Sim env j A chk s s') (c c' : Dict J (Result K)) (d d' : Dict (J × Nat) S)
    (hc : c.get? j = c'.get? j) (hd : ∀ id, d.get? (j, id) = d'.get? (j, id)) (hi : savedIds d j = savedIds d' j)
    (hp : ∀ id x, d.get? (j, id) = some x → 0 < id) :
    Sim env j A chk { s with copies := c, saved := d } { s' with copies := c', saved := d' } :=
  ⟨h.job, h.own, h.others, h.heap, hc, hd, hi, hp, h.data, h.reach, h.complete, h.reach', h.complete', h.dir⟩

/-- What the first checkpoint copies is the same in both. -/
theorem Sim.copyResult (hE : env.E.OK) (h : Sim env j A chk s s') (hc : chk ∨ s = s') (a b : Job J K α)
    (ha : s.jobs.get? j = some a) (hb : s'.jobs.get? j = some b) (hcnt : a.counter = b.counter) :
    (s.copyResult j a = none ∧ s'.copyResult j b = none) ∨
    ∃ c c', s.copyResult j a = some c ∧ s'.copyResult j b = some c' ∧ c.get? j = c'.get? j := by
  rcases hc with hc | hc
  case inr =>
    subst hc
    rw [ha, Option.some.injEq] at hb
    subst hb
    cases hx : s.copyResult j a with
    | none => exact .inl ⟨rfl, rfl⟩
    | some c => exact .inr ⟨c, c, rfl, rfl, rfl⟩
  unfold Stub.copyResult
  have hhas := has_get? h.copies
  rw [← hcnt]
  by_cases h0 : a.counter = 0
  · obtain ⟨r, h1, h2⟩ := h.dir hc a b ha hb h0
    rw [if_pos h0, if_pos h0, h1.content hE h.reach, h2.content hE h.reach', ← hhas]
    cases s.copies.has j with
    | true => exact .inl ⟨rfl, rfl⟩
    | false => exact .inr ⟨_, _, rfl, rfl, by rw [Dict.get?_set, if_pos rfl, Dict.get?_set, if_pos rfl]⟩
  · rw [if_neg h0, if_neg h0, ← hhas]
    cases s.copies.has j with
    | true => exact .inr ⟨_, _, rfl, rfl, h.copies⟩
    | false => exact .inl ⟨rfl, rfl⟩

/-- Any event of the job itself is seen in the same way in both. -/
theorem Sim.mine (hE : env.E.OK) (h : Sim env j A chk s s') (e : Ev J Q F T) (he : e.job = some j)
    (hA : ∀ q ref G N W, e = .execute j q ref G N W → A ref) (hk : ∀ st, e = .checkpoint j st → chk ∨ s = s') :
    Sim env j A chk (s.step env e).1 (s'.step env e).1 ∧ (s.step env e).2 = (s'.step env e).2 := by
  cases e with
  | data o => cases he
  | execute j2 q ref G N W =>
    simp only [Ev.job, Option.some.injEq] at he
    subst he
    exact h.execute_mine hE q ref G N W (hA _ _ _ _ _ rfl)
  | ask j2 r =>
    simp only [Ev.job, Option.some.injEq] at he
    subst he
    simp only [Stub.step, Stub.ask]
    rcases job_cases h with ⟨h1, h2⟩ | ⟨a, dir, h1, h2⟩
    · rw [h1, h2]; exact ⟨h, rfl⟩
    · rw [h1, h2]
      have hh := h.heap a.mix (h.own a h1)
      simp only
      rw [hh]
      have hd : chk → a.counter = 0 → ∃ r, Stored s.sys a.cacheDir r ∧ Stored s'.sys dir r :=
        fun c h0 => h.dir c a { a with cacheDir := dir } h1 h2 h0
      exact ⟨h.setJob _ _ ⟨rfl, rfl, rfl⟩ (h.own a h1) hd, rfl⟩
  | feedback j2 f =>
    simp only [Ev.job, Option.some.injEq] at he
    subst he
    simp only [Stub.step, Stub.feedback]
    rcases job_cases h with ⟨h1, h2⟩ | ⟨a, dir, h1, h2⟩
    · rw [h1, h2]; exact ⟨h, rfl⟩
    · rw [h1, h2]
      refine ⟨h.setHeap _ _ fun x hx => ?_, rfl⟩
      rw [h.heap x hx]
  | checkpoint j2 st =>
    simp only [Ev.job, Option.some.injEq] at he
    subst he
    have hc := hk st rfl
    simp only [Stub.step, Stub.checkpoint]
    rcases job_cases h with ⟨h1, h2⟩ | ⟨a, dir, h1, h2⟩
    · rw [h1, h2]; exact ⟨h, rfl⟩
    · rw [h1, h2]
      simp only
      have hset : Sim env j2 A chk { s with jobs := s.jobs.set j2 { a with counter := a.counter + 1 } }
          { s' with jobs := s'.jobs.set j2 { a with cacheDir := dir, counter := a.counter + 1 } } :=
        h.setJob _ _ ⟨rfl, rfl, rfl⟩ (h.own a h1) (fun _ h0 => by simp at h0)
      have hsv := h.saved (a.counter + 1)
      have hh := h.heap a.mix (h.own a h1)
      rcases h.copyResult hE hc a _ h1 h2 rfl with ⟨c1, c2⟩ | ⟨c, c', c1, c2, hcc⟩
      · rw [c1, c2]; exact ⟨hset, rfl⟩
      · rw [c1, c2]
        simp only
        rw [← has_get? hsv, ← hh]
        by_cases hs : s.saved.has (j2, a.counter + 1) = true
        · rw [if_pos hs, if_pos hs]
          exact ⟨hset.setDisk c c' s.saved s'.saved hcc h.saved h.ids h.pos, rfl⟩
        · rw [if_neg hs, if_neg hs]
          have hs1 : s.saved.has (j2, a.counter + 1) = false := by simpa using hs
          have hs2 : s'.saved.has (j2, a.counter + 1) = false := by rw [← has_get? hsv]; exact hs1
          cases env.save a.dist (s.heap a.mix) st with
          | none => exact ⟨hset.setDisk c c' s.saved s'.saved hcc h.saved h.ids h.pos, rfl⟩
          | some x =>
            refine ⟨hset.setDisk c c' _ _ hcc (fun id => ?_) ?_ (fun id y hy => ?_), rfl⟩
            · rw [Dict.get?_set, Dict.get?_set, h.saved id]
            · rw [savedIds_set hs1, savedIds_set hs2, h.ids]
            · rw [Dict.get?_set] at hy
              split at hy
              · rename_i e
                simp only [Prod.mk.injEq] at e
                omega
              · exact h.pos id y hy
  | restore j2 id =>
    simp only [Ev.job, Option.some.injEq] at he
    subst he
    simp only [Stub.step, Stub.restore]
    rw [← h.copies, ← h.saved id, ← h.ids]
    cases s.copies.get? j2 with
    | none => exact ⟨h, rfl⟩
    | some r =>
      cases hx : s.saved.get? (j2, id) with
      | none => exact ⟨h, rfl⟩
      | some x =>
        simp only
        cases env.load r x with
        | none => exact ⟨h, rfl⟩
        | some md =>
          obtain ⟨m, d⟩ := md
          simp only
          have h' := h.setHeap (fun a => if a = .inr j2 then m else s.heap a) (fun a => if a = .inr j2 then m else s'.heap a)
            (fun a ha => by split <;> [rfl; exact h.heap a ha])
          exact ⟨h'.setJob _ _ ⟨rfl, rfl, rfl⟩ (.inl rfl) (fun hc h0 => absurd h0 (by
            have h1 := h.pos id x hx
            have h2 := le_restored (savedIds s.saved j2) id
            simp only; omega)), trivial⟩

end

/-! ### Histories -/

theorem sim_init (env : Env Q K α M F S T) (heap : Nat ⊕ J → M) (fm : PyStr → MixView K) (j : J) (A : Nat → Prop) (chk : Prop) :
    Sim env j A chk (Stub.init heap fm) (Stub.init heap fm) := by
  have hc : Complete (⟨{}, []⟩ : Sys (Result K)) := by
    intro h d ⟨dirs, hd, _⟩
    cases hd
  refine ⟨.none, ?_, ?_, fun _ _ => rfl, rfl, fun _ => rfl, rfl, ?_, fun _ => rfl, .init, hc, .init, hc, ?_⟩
  · intro job h; cases h
  · intro j' _ job h; cases h
  · intro id x h; cases h
  · intro _ a b h; cases h

/-- The mixture objects passed to executions for job `j`. -/
def Refs (j : J) (es : List (Ev J Q F T)) (ref : Nat) : Prop := ∃ q G N W, Ev.execute j q ref G N W ∈ es

/-- Two runs, of which the second leaves out the other jobs, and also changes of the datasets if `keep` is false. -/
theorem sim_run (env : Env Q K α M F S T) (hE : env.E.OK) (j : J) (A : Nat → Prop) (chk : Prop) (keep : Bool) :
    ∀ (es : List (Ev J Q F T)) (s s' : Stub J K α M S), Sim env j A chk s s' →
      (∀ q ref G N W, Ev.execute j q ref G N W ∈ es → A ref) →
      (∀ j', j' ≠ j → ∀ q ref G N W, Ev.execute j' q ref G N W ∈ es → ¬ A ref) →
      (∀ st, Ev.checkpoint j st ∈ es → chk) →
      (chk → ∀ o, Ev.data o ∉ es) →
      (keep = false → s.jobs.get? j ≠ none) →
      let es' := es.filter fun e => decide (e.job = some j) || (keep && decide (e.job = none))
      Sim env j A chk (s.run env es).1 (s'.run env es').1 ∧ seenOf j (s.run env es).2 = seenOf j (s'.run env es').2 := by
  intro es
  induction es with
  | nil => intro s s' h _ _ _ _ _; exact ⟨h, rfl⟩
  | cons e es ih =>
    intro s s' h hA hB hk hd hj
    have hA' : ∀ q ref G N W, Ev.execute j q ref G N W ∈ es → A ref :=
      fun q ref G N W hm => hA q ref G N W (List.mem_cons_of_mem _ hm)
    have hB' : ∀ j', j' ≠ j → ∀ q ref G N W, Ev.execute j' q ref G N W ∈ es → ¬ A ref :=
      fun j' hj q ref G N W hm => hB j' hj q ref G N W (List.mem_cons_of_mem _ hm)
    have hk' : ∀ st, Ev.checkpoint j st ∈ es → chk := fun st hm => hk st (List.mem_cons_of_mem _ hm)
    have hd' : chk → ∀ o, Ev.data o ∉ es := fun c o hm => hd c o (List.mem_cons_of_mem _ hm)
    dsimp only
    cases hjob : e.job with
    | none =>
      obtain ⟨o, rfl⟩ : ∃ o, e = .data o := by cases e <;> first | exact ⟨_, rfl⟩ | cases hjob
      have hnc : ¬ chk := fun c => hd c o List.mem_cons_self
      cases keep with
      | true =>
        have := ih _ _ (h.data_both o (fun c => absurd c hnc)) hA' hB' hk' hd' (fun hf => by cases hf)
        rw [List.filter_cons_of_pos (by simp [Ev.job])]
        simp only [Stub.run, seenOf, List.filter_cons_of_neg (show ¬ (decide ((Ev.data o : Ev J Q F T).job = some j) = true) by
          simp [Ev.job])]
        exact this
      | false =>
        have := ih _ _ (h.data_left o (hj rfl) hnc) hA' hB' hk' hd' (fun _ => hj rfl)
        rw [List.filter_cons_of_neg (by simp [Ev.job])]
        simp only [Stub.run, seenOf, List.filter_cons_of_neg (show ¬ (decide ((Ev.data o : Ev J Q F T).job = some j) = true) by
          simp [Ev.job])]
        exact this
    | some j' =>
      by_cases hjj : j' = j
      · subst hjj
        obtain ⟨h1, h2⟩ := h.mine hE e hjob (fun q ref G N W he => hA q ref G N W (by rw [← he]; exact List.mem_cons_self))
          (fun st he => .inl (hk st (by rw [← he]; exact List.mem_cons_self)))
        have := ih _ _ h1 hA' hB' hk' hd' (fun hf hn => by
          have hp := hj hf
          revert hn
          cases e with
          | data o => cases hjob
          | execute j2 q ref G N W =>
            simp only [Ev.job, Option.some.injEq] at hjob
            subst hjob
            simp only [Stub.step, Stub.execute]
            split
            · exact hp
            · rw [if_pos]
              · exact hp
              · unfold Dict.has
                cases hg : s.jobs.get? j2 with
                | none => exact absurd hg hp
                | some a => rfl
          | ask j2 r =>
            simp only [Ev.job, Option.some.injEq] at hjob
            subst hjob
            simp only [Stub.step, Stub.ask]
            split
            · exact hp
            · simp only [Dict.get?_set, if_pos]; simp
          | feedback j2 f =>
            simp only [Ev.job, Option.some.injEq] at hjob
            subst hjob
            simp only [Stub.step, Stub.feedback]
            split
            · exact hp
            · exact hp
          | checkpoint j2 st =>
            simp only [Ev.job, Option.some.injEq] at hjob
            subst hjob
            simp only [Stub.step, Stub.checkpoint]
            split
            · exact hp
            · split
              · simp only [Dict.get?_set, if_pos]; simp
              · split
                · simp only [Dict.get?_set, if_pos]; simp
                · split <;> (simp only [Dict.get?_set, if_pos]; simp)
          | restore j2 id =>
            simp only [Ev.job, Option.some.injEq] at hjob
            subst hjob
            simp only [Stub.step, Stub.restore]
            split
            · split
              · exact hp
              · simp only [Dict.get?_set, if_pos]; simp
            · exact hp)
        rw [List.filter_cons_of_pos (by simp [hjob])]
        simp only [Stub.run, seenOf]
        rw [List.filter_cons_of_pos (by simp [hjob]), List.filter_cons_of_pos (by simp [hjob]), h2]
        exact ⟨this.1, by rw [show List.filter _ _ = _ from this.2]; rfl⟩
      · have h1 := h.other hE e j' hjob hjj (fun q ref G N W he => hB j' hjj q ref G N W (by rw [← he]; exact List.mem_cons_self))
        have hkeepjob : (s.step env e).1.jobs.get? j = none ↔ s.jobs.get? j = none := by
          rw [h1.none_iff, h.none_iff]
        have := ih _ _ h1 hA' hB' hk' hd' (fun hf => by rw [Ne, hkeepjob]; exact hj hf)
        rw [List.filter_cons_of_neg (by simp [hjob, hjj])]
        simp only [Stub.run, seenOf]
        rw [List.filter_cons_of_neg (by simp [hjob, hjj])]
        exact this

theorem OwnMixture.refs {j : J} {es : List (Ev J Q F T)} (h : OwnMixture j es) :
    (∀ q ref G N W, Ev.execute j q ref G N W ∈ es → Refs j es ref) ∧
    ∀ j', j' ≠ j → ∀ q ref G N W, Ev.execute j' q ref G N W ∈ es → ¬ Refs j es ref :=
  ⟨fun q ref G N W hm => ⟨q, G, N, W, hm⟩,
    fun j' hj q ref G N W hm ⟨q', G', N', W', hm'⟩ => hj (h q' ref G' N' W' j' q G N W hm' hm)⟩

theorem Sim.left {env : Env Q K α M F S T} {j : J} {A : Nat → Prop} {chk : Prop} {s s' : Stub J K α M S}
    (h : Sim env j A chk s s') : Sim env j A False s s := by
  refine ⟨?_, h.own, h.others, fun _ _ => rfl, rfl, fun _ => rfl, rfl, h.pos, fun _ => rfl, h.reach, h.complete, h.reach,
    h.complete, fun c => c.elim⟩
  cases s.jobs.get? j with
  | none => exact .none
  | some a => exact .some ⟨rfl, rfl, rfl⟩

/-- What holds of a server after any history. -/
theorem sim_refl (env : Env Q K α M F S T) (hE : env.E.OK) (j : J) (A : Nat → Prop) :
    ∀ (es : List (Ev J Q F T)) (s : Stub J K α M S), Sim env j A False s s →
      (∀ q ref G N W, Ev.execute j q ref G N W ∈ es → A ref) →
      (∀ j', j' ≠ j → ∀ q ref G N W, Ev.execute j' q ref G N W ∈ es → ¬ A ref) →
      Sim env j A False (s.run env es).1 (s.run env es).1 := by
  intro es
  induction es with
  | nil => intro s h _ _; exact h
  | cons e es ih =>
    intro s h hA hB
    refine ih _ ?_ (fun q ref G N W hm => hA q ref G N W (List.mem_cons_of_mem _ hm))
      (fun j' hj q ref G N W hm => hB j' hj q ref G N W (List.mem_cons_of_mem _ hm))
    cases hjob : e.job with
    | none =>
      obtain ⟨o, rfl⟩ : ∃ o, e = .data o := by cases e <;> first | exact ⟨_, rfl⟩ | cases hjob
      exact h.data_both o (fun c => c.elim)
    | some j' =>
      by_cases hjj : j' = j
      · subst hjj
        exact (h.mine hE e hjob (fun q ref G N W he => hA q ref G N W (by rw [← he]; exact List.mem_cons_self))
          (fun st _ => .inr rfl)).1
      · exact (h.other hE e j' hjob hjj
          (fun q ref G N W he => hB j' hjj q ref G N W (by rw [← he]; exact List.mem_cons_self))).left

/-- **C81.** Whatever other jobs do — execute queries, the same ones or different ones, stream, give feedback, take and restore
checkpoints —, what is seen of a job that takes no checkpoints is what would be seen if they did not exist, provided that no
mixture object was passed to this job and to another one. -/
theorem c81_isolation (env : Env Q K α M F S T) (hE : env.E.OK) (heap : Nat ⊕ J → M) (fm : PyStr → MixView K) (j : J)
    (es : List (Ev J Q F T)) (hown : OwnMixture j es) (hck : NoCheckpoint j es) :
    seenOf j ((Stub.init heap fm).run env es).2 = seenOf j ((Stub.init heap fm).run env (onlyData j es)).2 := by
  have := (sim_run env hE j (Refs j es) False true es _ _ (sim_init env heap fm j _ _) hown.refs.1 hown.refs.2
    (fun st hm => hck st hm) (fun c => c.elim) (fun hf => by cases hf)).2
  simpa [onlyData] using this

/-- **C81.** Once a job is running, not even registering and removing datasets changes what is seen of it: after any history
`es0`, with any checkpoints, it goes on as if only its own events happened — requests, feedback, restores — as long as it takes
no further checkpoints. -/
theorem c81_running (env : Env Q K α M F S T) (hE : env.E.OK) (heap : Nat ⊕ J → M) (fm : PyStr → MixView K) (j : J)
    (es0 es : List (Ev J Q F T)) (hown : OwnMixture j (es0 ++ es)) (hck : NoCheckpoint j es)
    (hrun : (((Stub.init heap fm : Stub J K α M S).run env es0).1.jobs.get? j).isSome) :
    seenOf j ((((Stub.init heap fm : Stub J K α M S).run env es0).1).run env es).2 =
      seenOf j ((((Stub.init heap fm : Stub J K α M S).run env es0).1).run env (only j es)).2 := by
  obtain ⟨h1, h2⟩ := hown.refs
  have h := sim_refl env hE j (Refs j (es0 ++ es)) es0 _ (sim_init env heap fm j _ _)
    (fun q ref G N W hm => h1 q ref G N W (List.mem_append_left _ hm))
    (fun j' hj q ref G N W hm => h2 j' hj q ref G N W (List.mem_append_left _ hm))
  have := (sim_run env hE j (Refs j (es0 ++ es)) False false es _ _ h
    (fun q ref G N W hm => h1 q ref G N W (List.mem_append_right _ hm))
    (fun j' hj q ref G N W hm => h2 j' hj q ref G N W (List.mem_append_right _ hm))
    (fun st hm => hck st hm) (fun c => c.elim) (fun _ hn => by rw [hn] at hrun; cases hrun)).2
  simpa [only] using this

theorem run_append (env : Env Q K α M F S T) (a b : List (Ev J Q F T)) : ∀ s : Stub J K α M S,
    (s.run env (a ++ b)).1 = ((s.run env a).1.run env b).1 ∧
    (s.run env (a ++ b)).2 = (s.run env a).2 ++ ((s.run env a).1.run env b).2 := by
  induction a with
  | nil => intro s; exact ⟨rfl, rfl⟩
  | cons e a ih =>
    intro s
    obtain ⟨h1, h2⟩ := ih (s.step env e).1
    exact ⟨h1, by simp only [List.cons_append, Stub.run]; rw [h2]⟩

/-- Before its first event there is no job. -/
theorem sim_before (env : Env Q K α M F S T) (hE : env.E.OK) (j : J) (A : Nat → Prop) :
    ∀ (es : List (Ev J Q F T)) (s s' : Stub J K α M S), Sim env j A True s s' → s.jobs.get? j = none →
      (∀ e ∈ es, e.job ≠ some j) →
      (∀ j', j' ≠ j → ∀ q ref G N W, Ev.execute j' q ref G N W ∈ es → ¬ A ref) →
      Sim env j A True (s.run env es).1 (s'.run env (onlyData j es)).1 ∧
      seenOf j (s.run env es).2 = [] ∧ seenOf j (s'.run env (onlyData j es)).2 = [] := by
  intro es
  induction es with
  | nil => intro s s' h _ _ _; exact ⟨h, rfl, rfl⟩
  | cons e es ih =>
    intro s s' h hn hne hB
    have hne' : ∀ e ∈ es, e.job ≠ some j := fun x hx => hne x (List.mem_cons_of_mem _ hx)
    have hB' : ∀ j', j' ≠ j → ∀ q ref G N W, Ev.execute j' q ref G N W ∈ es → ¬ A ref :=
      fun j' hj q ref G N W hm => hB j' hj q ref G N W (List.mem_cons_of_mem _ hm)
    have he := hne e List.mem_cons_self
    cases hjob : e.job with
    | none =>
      obtain ⟨o, rfl⟩ : ∃ o, e = .data o := by cases e <;> first | exact ⟨_, rfl⟩ | cases hjob
      obtain ⟨g1, g2, g3⟩ := ih _ _ (h.data_both o (fun _ => hn)) hn hne' hB'
      have hf : onlyData j (Ev.data o :: es) = Ev.data o :: onlyData j es := List.filter_cons_of_pos (by simp [Ev.job])
      rw [hf]
      refine ⟨g1, ?_, ?_⟩
      · simp only [Stub.run, seenOf]
        rw [List.filter_cons_of_neg (by simp [Ev.job])]; exact g2
      · simp only [Stub.run, seenOf]
        rw [List.filter_cons_of_neg (by simp [Ev.job])]; exact g3
    | some j' =>
      have hjj : j' ≠ j := fun h => he (by rw [hjob, h])
      have h1 := h.other hE e j' hjob hjj (fun q ref G N W he => hB j' hjj q ref G N W (by rw [← he]; exact List.mem_cons_self))
      obtain ⟨g1, g2, g3⟩ := ih _ _ h1 (by rw [h1.none_iff, ← h.none_iff]; exact hn) hne' hB'
      have hf : onlyData j (e :: es) = onlyData j es := List.filter_cons_of_neg (by simp [hjob, hjj])
      rw [hf]
      refine ⟨g1, ?_, g3⟩
      simp only [Stub.run, seenOf]
      rw [List.filter_cons_of_neg (by simp [hjob, hjj])]; exact g2

/-- **C81.** The same with checkpoints of the job, if no dataset is registered or removed after its first event: what is seen
of it, checkpoints and restores included, does not depend on the other jobs. Missing: checkpoints after a change of the datasets
(`c81_checkpoint_of_other_data_partial`). -/
theorem c81_checkpoints_partial (env : Env Q K α M F S T) (hE : env.E.OK) (heap : Nat ⊕ J → M) (fm : PyStr → MixView K) (j : J)
    (es0 es : List (Ev J Q F T)) (hown : OwnMixture j (es0 ++ es)) (h0 : ∀ e ∈ es0, e.job ≠ some j)
    (hd : ∀ e ∈ es, e.job ≠ none) :
    seenOf j ((Stub.init heap fm).run env (es0 ++ es)).2 =
      seenOf j ((Stub.init heap fm).run env (onlyData j (es0 ++ es))).2 := by
  obtain ⟨h1, h2⟩ := hown.refs
  obtain ⟨g1, g2, g3⟩ := sim_before env hE j (Refs j (es0 ++ es)) es0 _ _ (sim_init env heap fm j _ True) rfl h0
    (fun j' hj q ref G N W hm => h2 j' hj q ref G N W (List.mem_append_left _ hm))
  have := (sim_run env hE j (Refs j (es0 ++ es)) True true es _ _ g1
    (fun q ref G N W hm => h1 q ref G N W (List.mem_append_right _ hm))
    (fun j' hj q ref G N W hm => h2 j' hj q ref G N W (List.mem_append_right _ hm))
    (fun _ _ => trivial) (fun _ o hm => hd _ hm rfl) (fun hf => by cases hf)).2
  have hsplit : onlyData j (es0 ++ es) = onlyData j es0 ++ onlyData j es := List.filter_append ..
  rw [hsplit, (run_append env es0 es _).2, (run_append env (onlyData j es0) (onlyData j es) _).2]
  simp only [seenOf, List.filter_append] at g2 g3 this ⊢
  rw [g2, g3, List.nil_append, List.nil_append, this]
  simp [onlyData]

/-! ### Non-vacuity, and where the property fails -/

namespace Ex

/-- The number of samples of a dataset. -/
def count (db : Db) (d : Nat) : Nat := (db.samples.filter fun r => r.dataset == d).length

/-- A query finds everything; the samples of dataset 1 have key 1, those of dataset 2 key 2. -/
def found (db : Db) : Result Nat :=
  if count db 2 = 0 then ([(1, [(0, [(0, [(0, count db 1)])])])], [1])
  else ([(1, [(0, [(0, [(0, count db 1)])])]), (2, [(0, [(1, [(0, count db 2)])])])], [1, 2])

def cacheEnv : CacheEnv SelectChain (Result Nat) where
  text := queryText
  hash := fun _ => ['h']
  order := id
  eval := fun db _ => found db

theorem cacheEnv_ok : cacheEnv.OK where
  inj := c36_text_identifies_query
  order := fun _ _ => Iff.rfl
  sees := by
    intro db db' q h
    simp only [Db.visible, Prod.mk.injEq] at h
    have e : count db = count db' := by funext d; unfold count; rw [h.2.1]
    show found db = found db'
    unfold found
    rw [e]

/-- What is stored of a job: the distributor, the number of chunks, the mixture log and the mixture. -/
abbrev Snap := Saved (Parcel Nat Pos) × Nat × List (Nat × MixView Nat) × BaseMix Nat

/-- The mixtures are static or inferring; feedback sets the rows (as a dynamic mixture would). -/
def env : Env SelectChain Nat Pos (BaseMix Nat) (Dict Nat Nat) Snap Nat where
  E := cacheEnv
  ops := Mixtera.Ex.ops
  fuel := 20
  read := fun c => c.content.flatMap fun kv => (entriesSamples kv.2).map fun p => (kv.1, p)
  view := fun m => ⟨m.rows, m.strict, m.chunk⟩
  processIndex := fun index m => match m.processIndex index with
    | .ok m' => m'
    | .error _ => m
  feedback := fun rows m => { m with rows := rows }
  save := fun d m k => match d.persist Parcel.setSkip fun _ _ => some k with
    | .ok sv => some (sv, d.src.numReturns, d.src.log, m)
    | .error _ => none
  load := fun r x =>
    match Sess.replay Mixtera.Ex.ops 20 0 x.2.1 { Sess.fresh Mixtera.Ex.ops r.1 r.2 true 0 ⟨x.2.2.2.rows, x.2.2.2.strict, x.2.2.2.chunk⟩ with
        log := x.2.2.1 } with
    | .ok s => some (x.2.2.2, x.1.restore { s with stopOnNone := false })
    | .error _ => none

/-- A chunk with the number of samples to skip, or what else is seen. -/
abbrev Short := String ⊕ (List (Nat × Nat × Nat × Nat) × Nat)

instance : DecidableEq Short := instDecidableEqSum

/-- What is seen, in a form that can be compared. -/
def _root_.Mixtera.Jobs.Seen.show : Seen Nat Pos → Short
  | .nothing => .inl "nothing"
  | .started => .inl "started"
  | .refused => .inl "refused"
  | .raised _ => .inl "raised"
  | .answer (.chunk p) => .inr (p.source, p.skip)
  | .answer .stop => .inl "stop"
  | .answer (.raised _) => .inl "chunk raised"
  | .fed b => .inl (if b then "fed" else "not fed")
  | .checkpointed _ => .inl "checkpointed"
  | .checkpointFailed => .inl "checkpoint failed"
  | .restored => .inl "restored"
  | .restoreFailed => .inl "restore failed"

/-- All objects are inferring mixtures with two rows, but number 5, which asks for any two rows. -/
def heap : Nat ⊕ Nat → BaseMix Nat := fun a => if a = .inl 5 then ⟨false, 2, [], true⟩ else ⟨true, 2, [], true⟩

def stub : Stub Nat Nat Pos (BaseMix Nat) Snap := Stub.init heap fun _ => ⟨[], true, 1⟩

def regA : Ev Nat SelectChain (Dict Nat Nat) Nat := .data (.register Mixtera.Ex.regA)
def regB : Ev Nat SelectChain (Dict Nat Nat) Nat := .data (.register Mixtera.Ex.regB)
def q0 : SelectChain := ([], [])

def shown (j : Nat) (es : List (Ev Nat SelectChain (Dict Nat Nat) Nat)) : List Short :=
  (seenOf j (stub.run env es).2).map fun x => x.2.show

/-- Requests of the only loader of a job. -/
def ask (j : Nat) : Ev Nat SelectChain (Dict Nat Nat) Nat := .ask j ⟨0, 0, 0⟩

/-- Two jobs with the same query and different mixture objects, with a dataset registered in between. -/
def twoJobs : List (Ev Nat SelectChain (Dict Nat Nat) Nat) :=
  [regA, .execute 0 q0 0 1 1 1, regB, .execute 1 q0 1 1 1 1, ask 1, .feedback 1 [(2, 2)], ask 0, ask 1]

-- both jobs get chunks, the feedback changes those of job 1 only, and job 0 sees the same without job 1
example : shown 0 twoJobs = [.inl "started", .inr ([(1, 0, 0, 0), (1, 0, 0, 1)], 0)] ∧
    shown 1 twoJobs = [.inl "started", .inr ([(1, 0, 0, 0), (2, 0, 1, 0)], 0), .inl "fed", .inl "stop"] ∧
    shown 0 (onlyData 0 twoJobs) = shown 0 twoJobs := by decide +kernel

theorem twoJobs_own : OwnMixture 0 twoJobs ∧ NoCheckpoint 0 twoJobs := by
  refine ⟨?_, ?_⟩
  · intro q ref G N W j' q' G' N' W' h h'
    simp only [twoJobs, regA, regB, ask, List.mem_cons, reduceCtorEq, Ev.execute.injEq, List.not_mem_nil, or_false, false_or,
      Nat.zero_ne_one, false_and] at h h'
    omega
  · intro st h
    simp [twoJobs, regA, regB, ask] at h

/-- Two jobs that take checkpoints, with the same query. -/
def twoCheckpoints : List (Ev Nat SelectChain (Dict Nat Nat) Nat) :=
  [.execute 0 q0 5 1 1 1, ask 0, .execute 1 q0 1 1 1 1, ask 1, .checkpoint 0 1, .checkpoint 1 0, ask 0, .restore 0 1, ask 0,
    ask 0, ask 0]

-- the job takes a checkpoint and goes back to it
example : shown 0 ([regA] ++ twoCheckpoints) = [.inl "started", .inr ([(1, 0, 0, 0), (1, 0, 0, 1)], 0), .inl "checkpointed",
    .inr ([(1, 0, 0, 2)], 0), .inl "restored", .inr ([(1, 0, 0, 0), (1, 0, 0, 1)], 1), .inr ([(1, 0, 0, 2)], 0), .inl "stop"] ∧
    shown 0 (onlyData 0 ([regA] ++ twoCheckpoints)) = shown 0 ([regA] ++ twoCheckpoints) := by decide +kernel

example : OwnMixture 0 ([regA] ++ twoCheckpoints) ∧ (∀ e ∈ [regA], e.job ≠ some 0) ∧ ∀ e ∈ twoCheckpoints, e.job ≠ none := by
  refine ⟨?_, by decide, by decide⟩
  intro q ref G N W j' q' G' N' W' h h'
  simp only [twoCheckpoints, regA, ask, List.cons_append, List.nil_append, List.mem_cons, reduceCtorEq, Ev.execute.injEq,
    List.not_mem_nil, or_false, false_or, Nat.zero_ne_one, false_and] at h h'
  omega

-- a running job with a checkpoint: later dataset changes and other jobs do not matter for its restore
example : let es0 := [regA, .execute 0 q0 5 1 1 1, ask 0, .checkpoint 0 1]
    let es := [regB, .execute 1 q0 1 1 1 1, ask 0, .restore 0 1, ask 0]
    let s := (stub.run env es0).1
    (s.jobs.get? 0).isSome ∧ ((seenOf 0 (s.run env es).2).map fun x => x.2.show) =
      [.inr ([(1, 0, 0, 2)], 0), .inl "restored", .inr ([(1, 0, 0, 0), (1, 0, 0, 1)], 1)] := by decide +kernel

/-- Two jobs that were given the same inferring mixture. -/
def sharedMixture : List (Ev Nat SelectChain (Dict Nat Nat) Nat) :=
  [regA, .execute 0 q0 0 1 1 1, regB, .execute 1 q0 0 1 1 1, ask 0]

/-- A first checkpoint after a dataset was registered and another job executed the same query. -/
def lateCheckpoint : List (Ev Nat SelectChain (Dict Nat Nat) Nat) :=
  [regA, .execute 0 q0 5 1 1 1, ask 0, regB, .execute 1 q0 1 1 1 1, .checkpoint 0 1, .restore 0 1, ask 0, ask 0, ask 0]

end Ex

/-- **C81, why the mixture objects must be different.** If a job is executed with an `InferringMixture` object that another job
already uses, the other job's mixture becomes that of the new job's data: here it then gets no chunk at all. -/
theorem c81_shared_mixture_partial :
    Ex.shown 0 Ex.sharedMixture = [.inl "started", .inl "stop"] ∧
    Ex.shown 0 (onlyData 0 Ex.sharedMixture) = [.inl "started", .inr ([(1, 0, 0, 0), (1, 0, 0, 1)], 0)] := by
  decide +kernel

/-- **C81, what fails.** If a dataset was registered and then another job executed the same query before the first checkpoint
of a job, then the checkpoint contains the query result of the other job: it is reported as written and can be restored, but
the job then delivers samples a second time (0 and 1). Without the other job it continues correctly. -/
theorem c81_checkpoint_of_other_data_partial :
    Ex.shown 0 Ex.lateCheckpoint = [.inl "started", .inr ([(1, 0, 0, 0), (1, 0, 0, 1)], 0), .inl "checkpointed", .inl "restored",
      .inr ([(1, 0, 0, 0), (1, 0, 0, 1)], 1), .inr ([(1, 0, 0, 0), (1, 0, 0, 1)], 0), .inr ([(1, 0, 0, 2)], 0)] ∧
    Ex.shown 0 (onlyData 0 Ex.lateCheckpoint) = [.inl "started", .inr ([(1, 0, 0, 0), (1, 0, 0, 1)], 0), .inl "checkpointed",
      .inl "restored", .inr ([(1, 0, 0, 0), (1, 0, 0, 1)], 1), .inr ([(1, 0, 0, 2)], 0), .inl "stop"] ∧
    OwnMixture 0 Ex.lateCheckpoint := by
  refine ⟨by decide +kernel, by decide +kernel, ?_⟩
  intro q ref G N W j' q' G' N' W' h h'
  simp only [Ex.lateCheckpoint, Ex.regA, Ex.regB, Ex.ask, List.mem_cons, reduceCtorEq, Ev.execute.injEq,
    List.not_mem_nil, or_false, false_or, Nat.zero_ne_one, false_and] at h h'
  omega

end Mixtera.Jobs
