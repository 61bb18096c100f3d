import Verif.Lemmas.Dict
import Verif.Model.Server

/-!
# C52, C56: jobs at the server
-/

set_option linter.unusedSectionVars false

namespace Mixtera.Srv

variable {J : Type} [DecidableEq J]

/-- Inside the critical section of the registration lock. -/
def Phase.active : Phase → Bool
  | .waiting => false
  | .done _ => false
  | _ => true

/-- What holds of the task inside the critical section. -/
def Good (s : State J) (t : Task J) : Prop :=
  match t.phase with
  | .queried => t.kind = .register
  | .checked => t.kind = .register
  | .inserting => t.kind = .register ∧ s.jobs.get? t.job = none
  | .updating => t.kind = .restore ∧ ∃ d, s.jobs.get? t.job = some d
  | .finishing true => ∃ d, s.jobs.get? t.job = some d
  | _ => True

/-- The restore of `job` has replaced the job in the stub but not yet in the server's own map. -/
def Switching (s : State J) (job : J) : Prop :=
  ∃ i t, s.lock = some i ∧ s.tasks[i]? = some t ∧ t.phase = .updating ∧ t.job = job

/-- The invariant of the server. -/
structure Inv (s : State J) : Prop where
  excl : ∀ i t, s.tasks[i]? = some t → t.phase.active = true → s.lock = some i
  holder : ∀ i, s.lock = some i → ∃ t, s.tasks[i]? = some t ∧ t.phase.active = true ∧ Good s t
  coherent : ∀ job d, s.served.get? job = some d → s.jobs.get? job = some d ∨ Switching s job
  bound : ∀ job d, s.jobs.get? job = some d → d < s.fresh
  inj : ∀ job job' d, s.jobs.get? job = some d → s.jobs.get? job' = some d → job = job'
  statusOk : ∀ job, s.status.get? job = some true → ∃ d, s.jobs.get? job = some d
  servedBound : ∀ job d, s.served.get? job = some d → d < s.fresh

theorem Inv.init : Inv (State.init : State J) := by
  constructor <;> simp [State.init, Dict.get?]

theorem tasks_goto (s : State J) (i : Nat) (p : Phase) (t : Task J) (ht : s.tasks[i]? = some t) (j : Nat) :
    (s.goto i p).tasks[j]? = if j = i then some { t with phase := p } else s.tasks[j]? := by
  simp only [State.goto]
  rw [List.getElem?_modify]
  split
  · rename_i h; subst h; simp [ht]
  · rename_i h
    rw [if_neg (fun e => h e.symm)]
    cases s.tasks[j]? <;> rfl

/-- Preservation when task `i`, which holds the lock or takes it, moves to phase `p`. -/
theorem Inv.move {s s' : State J} (hI : Inv s) {i : Nat} {t : Task J} (ht : s.tasks[i]? = some t)
    (hl : s.lock = some i ∨ s.lock = none) (p : Phase)
    (hT : ∀ j, s'.tasks[j]? = if j = i then some { t with phase := p } else s.tasks[j]?)
    (hL : s'.lock = if p.active then some i else none)
    (hG : p.active = true → Good s' { t with phase := p })
    (hC : ∀ job d, s'.served.get? job = some d → s'.jobs.get? job = some d ∨ Switching s' job)
    (hB : ∀ job d, s'.jobs.get? job = some d → d < s'.fresh)
    (hJ : ∀ job job' d, s'.jobs.get? job = some d → s'.jobs.get? job' = some d → job = job')
    (hS : ∀ job, s'.status.get? job = some true → ∃ d, s'.jobs.get? job = some d)
    (hSB : ∀ job d, s'.served.get? job = some d → d < s'.fresh) : Inv s' := by
  refine ⟨?_, ?_, hC, hB, hJ, hS, hSB⟩
  · intro j t' hj ha
    rw [hT] at hj
    split at hj
    · rename_i e
      injection hj with hj
      subst hj
      rw [hL, if_pos ha, e]
    · rename_i e
      have := hI.excl j t' hj ha
      rcases hl with hl | hl
      · rw [hl] at this; injection this with this; exact absurd this.symm e
      · rw [hl] at this; cases this
  · intro j hj
    rw [hL] at hj
    split at hj
    · rename_i ha
      injection hj with hj
      subst hj
      exact ⟨{ t with phase := p }, by rw [hT, if_pos rfl], ha, hG ha⟩
    · cases hj

/-- While the task is not switching, the server serves what the stub holds. -/
theorem Inv.served_eq {s : State J} (hI : Inv s) {i : Nat} {t : Task J} (ht : s.tasks[i]? = some t)
    (hl : s.lock = some i ∨ s.lock = none) (hp : t.phase ≠ .updating) {job : J} {d : Nat}
    (h : s.served.get? job = some d) : s.jobs.get? job = some d := by
  rcases hI.coherent job d h with h | ⟨i', t', h1, h2, h3, _⟩
  · exact h
  · rcases hl with hl | hl
    · rw [hl] at h1
      injection h1 with h1
      subst h1
      rw [ht] at h2
      injection h2 with h2
      subst h2
      exact absurd h3 hp
    · rw [hl] at h1; cases h1

theorem has_iff (d : Dict J Nat) (k : J) : d.has k = true ↔ ∃ v, d.get? k = some v := by
  rw [Dict.has, Option.isSome_iff_exists]

theorem has_false (d : Dict J Nat) (k : J) : ¬ d.has k = true ↔ d.get? k = none := by
  rw [Dict.has, Option.not_isSome_iff_eq_none]

theorem Inv.advance {s : State J} (hI : Inv s) {i : Nat} {t : Task J} (ht : s.tasks[i]? = some t) (ok : Bool) :
    Inv (Srv.advance true i t ok s) := by
  have hactive : t.phase.active = true → s.lock = some i ∧ Good s t := by
    intro ha
    have hl := hI.excl i t ht ha
    obtain ⟨t', h1, _, h3⟩ := hI.holder i hl
    rw [ht] at h1
    injection h1 with h1
    subst h1
    exact ⟨hl, h3⟩
  cases hp : t.phase with
  | waiting =>
    simp only [Srv.advance, hp, if_true]
    split
    · rename_i hl
      refine hI.move ht (Or.inr hl) .started (tasks_goto _ _ _ _ ht) rfl (fun _ => ?_) ?_ hI.bound hI.inj hI.statusOk
        hI.servedBound
      · trivial
      · intro job d h
        exact Or.inl (hI.served_eq ht (Or.inr hl) (by rw [hp]; simp) h)
    · exact hI
  | started =>
    obtain ⟨hl, _⟩ := hactive (by rw [hp]; rfl)
    have hs : ∀ {job d}, s.served.get? job = some d → s.jobs.get? job = some d :=
      fun h => hI.served_eq ht (Or.inl hl) (by rw [hp]; simp) h
    simp only [Srv.advance, hp]
    cases hk : t.kind with
    | register =>
      simp only
      split
      · exact hI.move ht (Or.inl hl) (.finishing false) (tasks_goto _ _ _ _ ht) hl (fun _ => trivial)
          (fun _ _ h => Or.inl (hs h)) hI.bound hI.inj hI.statusOk hI.servedBound
      · exact hI.move ht (Or.inl hl) .queried (tasks_goto _ _ _ _ ht) hl (fun _ => hk)
          (fun _ _ h => Or.inl (hs h)) hI.bound hI.inj hI.statusOk hI.servedBound
    | restore =>
      simp only
      split
      · refine hI.move ht (Or.inl hl) .updating (tasks_goto _ _ _ _ ht) hl (fun _ => ?_) ?_ ?_ ?_ ?_ ?_
        · exact ⟨hk, s.fresh, by simp [State.goto, Dict.get?_set]⟩
        · intro job d h
          by_cases e : job = t.job
          · refine Or.inr ⟨i, { t with phase := .updating }, hl, ?_, rfl, e.symm⟩
            rw [tasks_goto _ _ _ _ (by exact ht), if_pos rfl]
          · refine Or.inl ?_
            simp only [State.goto, Dict.get?_set]
            rw [if_neg (fun e' => e e'.symm)]
            exact hs h
        · intro job d h
          simp only [State.goto, Dict.get?_set] at h ⊢
          split at h
          · injection h with h; omega
          · have := hI.bound job d h; omega
        · intro job job' d h h'
          simp only [State.goto, Dict.get?_set] at h h'
          split at h
          · rename_i e
            injection h with h
            subst h
            split at h'
            · rename_i e'; exact e.symm.trans e'
            · exact absurd (hI.bound _ _ h') (by omega)
          · split at h'
            · injection h' with h'
              subst h'
              exact absurd (hI.bound _ _ h) (by omega)
            · exact hI.inj _ _ _ h h'
        · intro job h
          obtain ⟨d, hd⟩ := hI.statusOk job h
          simp only [State.goto, Dict.get?_set]
          split
          · exact ⟨_, rfl⟩
          · exact ⟨d, hd⟩
        · intro job d h
          have := hI.servedBound job d h
          simp only [State.goto]; omega
      · exact hI.move ht (Or.inl hl) (.finishing false) (tasks_goto _ _ _ _ ht) hl (fun _ => trivial)
          (fun _ _ h => Or.inl (hs h)) hI.bound hI.inj hI.statusOk hI.servedBound
  | queried =>
    obtain ⟨hl, hg⟩ := hactive (by rw [hp]; rfl)
    have hs : ∀ {job d}, s.served.get? job = some d → s.jobs.get? job = some d :=
      fun h => hI.served_eq ht (Or.inl hl) (by rw [hp]; simp) h
    simp only [Good, hp] at hg
    simp only [Srv.advance, hp]
    split
    · exact hI.move ht (Or.inl hl) .checked (tasks_goto _ _ _ _ ht) hl (fun _ => hg)
        (fun _ _ h => Or.inl (hs h)) hI.bound hI.inj hI.statusOk hI.servedBound
    · exact hI.move ht (Or.inl hl) (.finishing false) (tasks_goto _ _ _ _ ht) hl (fun _ => trivial)
        (fun _ _ h => Or.inl (hs h)) hI.bound hI.inj hI.statusOk hI.servedBound
  | checked =>
    obtain ⟨hl, hg⟩ := hactive (by rw [hp]; rfl)
    have hs : ∀ {job d}, s.served.get? job = some d → s.jobs.get? job = some d :=
      fun h => hI.served_eq ht (Or.inl hl) (by rw [hp]; simp) h
    simp only [Good, hp] at hg
    simp only [Srv.advance, hp]
    split
    · exact hI.move ht (Or.inl hl) (.finishing false) (tasks_goto _ _ _ _ ht) hl (fun _ => trivial)
        (fun _ _ h => Or.inl (hs h)) hI.bound hI.inj hI.statusOk hI.servedBound
    · rename_i hno
      exact hI.move ht (Or.inl hl) .inserting (tasks_goto _ _ _ _ ht) hl
        (fun _ => ⟨hg, (has_false _ _).1 hno⟩)
        (fun _ _ h => Or.inl (hs h)) hI.bound hI.inj hI.statusOk hI.servedBound
  | inserting =>
    obtain ⟨hl, hg⟩ := hactive (by rw [hp]; rfl)
    have hs : ∀ {job d}, s.served.get? job = some d → s.jobs.get? job = some d :=
      fun h => hI.served_eq ht (Or.inl hl) (by rw [hp]; simp) h
    simp only [Good, hp] at hg
    simp only [Srv.advance, hp]
    refine hI.move ht (Or.inl hl) (.finishing true) (tasks_goto _ _ _ _ ht) hl (fun _ => ?_) ?_ ?_ ?_ ?_ ?_
    · exact ⟨s.fresh, by simp [State.goto, Dict.get?_set]⟩
    · intro job d h
      refine Or.inl ?_
      have h' := hs h
      simp only [State.goto, Dict.get?_set]
      rw [if_neg]
      · exact h'
      · intro e
        rw [← e, hg.2] at h'
        cases h'
    · intro job d h
      simp only [State.goto, Dict.get?_set] at h ⊢
      split at h
      · injection h with h; omega
      · have := hI.bound job d h; omega
    · intro job job' d h h'
      simp only [State.goto, Dict.get?_set] at h h'
      split at h
      · rename_i e
        injection h with h
        subst h
        split at h'
        · rename_i e'; exact e.symm.trans e'
        · exact absurd (hI.bound _ _ h') (by omega)
      · split at h'
        · injection h' with h'
          subst h'
          exact absurd (hI.bound _ _ h) (by omega)
        · exact hI.inj _ _ _ h h'
    · intro job h
      obtain ⟨d, hd⟩ := hI.statusOk job h
      simp only [State.goto, Dict.get?_set]
      split
      · exact ⟨_, rfl⟩
      · exact ⟨d, hd⟩
    · intro job d h
      have := hI.servedBound job d h
      simp only [State.goto]; omega
  | updating =>
    obtain ⟨hl, hg⟩ := hactive (by rw [hp]; rfl)
    simp only [Good, hp] at hg
    obtain ⟨_, d0, hd0⟩ := hg
    simp only [Srv.advance, hp, hd0]
    refine hI.move ht (Or.inl hl) (.finishing true) (tasks_goto _ _ _ _ ht) hl (fun _ => ⟨d0, hd0⟩) ?_ hI.bound hI.inj
      hI.statusOk ?_
    · intro job d h
      refine Or.inl ?_
      simp only [State.goto, Dict.get?_set] at h
      split at h
      · rename_i e
        injection h with h
        subst h
        rw [← e]
        exact hd0
      · rename_i e
        rcases hI.coherent job d h with h | ⟨i', t', h1, h2, _, h4⟩
        · exact h
        · rw [hl] at h1
          injection h1 with h1
          subst h1
          rw [ht] at h2
          injection h2 with h2
          subst h2
          exact absurd h4 e
    · intro job d h
      simp only [State.goto, Dict.get?_set] at h
      split at h
      · injection h with h
        subst h
        exact hI.bound _ _ hd0
      · exact hI.servedBound _ _ h
  | finishing b =>
    obtain ⟨hl, hg⟩ := hactive (by rw [hp]; rfl)
    have hs : ∀ {job d}, s.served.get? job = some d → s.jobs.get? job = some d :=
      fun h => hI.served_eq ht (Or.inl hl) (by rw [hp]; simp) h
    simp only [Good, hp] at hg
    simp only [Srv.advance, hp, if_true]
    refine hI.move ht (Or.inl hl) (.done b) (tasks_goto _ _ _ _ ht) rfl (fun h => by simp [Phase.active] at h)
      (fun _ _ h => Or.inl (hs h)) hI.bound hI.inj ?_ hI.servedBound
    intro job h
    simp only [State.goto, Dict.get?_set] at h
    split at h
    · rename_i e
      injection h with h
      subst h
      rw [← e]
      exact hg
    · exact hI.statusOk job h
  | done b =>
    simp only [Srv.advance, hp]
    exact hI

theorem getElem?_append_waiting {l : List (Task J)} {x t : Task J} {i : Nat} (h : (l ++ [x])[i]? = some t)
    (ha : t.phase.active = true) (hx : x.phase.active = false) : l[i]? = some t := by
  rw [List.getElem?_append] at h
  split at h
  · exact h
  · rw [List.getElem?_singleton] at h
    split at h
    · injection h with h
      subst h
      rw [hx] at ha
      cases ha
    · cases h

theorem Inv.spawn {s s' : State J} (hI : Inv s) (x : Task J) (hx : x.phase.active = false) (hj : s'.jobs = s.jobs)
    (hf : s'.fresh = s.fresh) (hsv : s'.served = s.served) (ht : s'.tasks = s.tasks ++ [x]) (hl : s'.lock = s.lock)
    (hst : ∀ job, s'.status.get? job = some true → s.status.get? job = some true) : Inv s' := by
  have hget : ∀ (i : Nat) (t : Task J), s.tasks[i]? = some t → s'.tasks[i]? = some t := by
    intro i t h
    rw [ht, List.getElem?_append_left (by
      rw [List.getElem?_eq_some_iff] at h; exact h.1)]
    exact h
  have hgood : ∀ t, Good s t → Good s' t := by
    intro t h
    unfold Good at h ⊢
    rw [hj]
    exact h
  refine ⟨?_, ?_, ?_, ?_, ?_, ?_, ?_⟩
  · intro i t h ha
    rw [hl]
    rw [ht] at h
    exact hI.excl i t (getElem?_append_waiting h ha hx) ha
  · intro i h
    rw [hl] at h
    obtain ⟨t, h1, h2, h3⟩ := hI.holder i h
    exact ⟨t, hget _ _ h1, h2, hgood t h3⟩
  · intro job d h
    rw [hsv] at h
    rcases hI.coherent job d h with h | ⟨i, t, h1, h2, h3, h4⟩
    · exact Or.inl (by rw [hj]; exact h)
    · exact Or.inr ⟨i, t, by rw [hl]; exact h1, hget _ _ h2, h3, h4⟩
  · rw [hj, hf]; exact hI.bound
  · rw [hj]; exact hI.inj
  · intro job h; rw [hj]; exact hI.statusOk job (hst job h)
  · rw [hsv, hf]; exact hI.servedBound

theorem nodup_act {s : State J} (hn : s.status.keys.Nodup) (u : Bool) (a : Act J) : (Srv.act u s a).1.status.keys.Nodup := by
  cases a with
  | register job => exact hn
  | restore job => exact Dict.nodup_keys_pop hn job
  | nextChunk job =>
    simp only [Srv.act, serveChunk]
    split
    · exact hn
    · split <;> exact hn
  | metadata job => exact hn
  | askStatus job => exact hn
  | step i ok =>
    simp only [Srv.act, stepTask]
    split
    · exact hn
    · rename_i t ht
      unfold Srv.advance
      repeat' split
      all_goals first | exact hn | exact Dict.nodup_keys_upsert hn _ _

theorem Inv.act {s : State J} (hI : Inv s) (hn : s.status.keys.Nodup) (a : Act J) : Inv (Srv.act true s a).1 := by
  cases a with
  | register job => exact hI.spawn ⟨.register, job, .waiting⟩ rfl rfl rfl rfl rfl rfl fun _ h => h
  | restore job =>
    refine hI.spawn ⟨.restore, job, .waiting⟩ rfl rfl rfl rfl rfl rfl fun j h => ?_
    simp only [Srv.act] at h
    rw [Dict.get?_pop hn] at h
    split at h
    · cases h
    · exact h
  | nextChunk job =>
    simp only [Srv.act, serveChunk]
    split
    · exact hI
    · split
      · rename_i d hd
        refine ⟨hI.excl, hI.holder, ?_, hI.bound, hI.inj, hI.statusOk, ?_⟩
        · intro j d' h
          simp only [Dict.get?_set] at h
          split at h
          · rename_i e
            injection h with h
            subst h
            exact Or.inl (by rw [← e]; exact hd)
          · exact hI.coherent j d' h
        · intro j d' h
          simp only [Dict.get?_set] at h
          split at h
          · injection h with h
            subst h
            exact hI.bound _ _ hd
          · exact hI.servedBound j d' h
      · exact hI
  | metadata job => exact hI
  | askStatus job => exact hI
  | step i ok =>
    simp only [Srv.act, stepTask]
    split
    · exact hI
    · rename_i t ht
      exact hI.advance ht ok

/-- A state the server can be in. -/
def Reachable (u : Bool) (s : State J) : Prop := ∃ as : List (Act J), (run u State.init as).1 = s

theorem run_inv : ∀ (as : List (Act J)) {s : State J}, Inv s → s.status.keys.Nodup →
    Inv (run true s as).1 ∧ (run true s as).1.status.keys.Nodup
  | [], _, hI, hn => ⟨hI, hn⟩
  | a :: as, _, hI, hn => run_inv as (hI.act hn a) (nodup_act hn true a)

theorem Reachable.inv {s : State J} (h : Reachable true s) : Inv s ∧ s.status.keys.Nodup := by
  obtain ⟨as, rfl⟩ := h
  exact run_inv as Inv.init (by simp [State.init, Dict.keys])

theorem Reachable.act {u : Bool} {s : State J} (h : Reachable u s) (a : Act J) : Reachable u (Srv.act u s a).1 := by
  obtain ⟨as, rfl⟩ := h
  refine ⟨as ++ [a], ?_⟩
  generalize (State.init : State J) = s0
  induction as generalizing s0 with
  | nil => rfl
  | cons b bs ih => exact ih _

/-! ## What a step does to the tasks and the jobs -/

/-- A step leaves kind and job of every task as they are, changes the phase of its own task only, and never removes a
task. -/
theorem advance_tasks (u : Bool) {s : State J} {i : Nat} {t : Task J} (ht : s.tasks[i]? = some t) (ok : Bool) (j : Nat) :
    ∃ p, (Srv.advance u i t ok s).tasks[j]? = if j = i then some { t with phase := p } else s.tasks[j]? := by
  have hsame : ∃ p, s.tasks[j]? = if j = i then some { t with phase := p } else s.tasks[j]? := by
    refine ⟨t.phase, ?_⟩
    split
    · rename_i e; subst e; exact ht
    · rfl
  have hgo : ∀ (s' : State J) (q : Phase), s'.tasks = s.tasks →
      ∃ p, (s'.goto i q).tasks[j]? = if j = i then some { t with phase := p } else s.tasks[j]? :=
    fun s' q e => ⟨q, by rw [tasks_goto _ _ _ _ (by rw [e]; exact ht) j, e]⟩
  have key : ∀ r : State J, r = Srv.advance u i t ok s → r = s ∨ ∃ (s' : State J) (q : Phase), s'.tasks = s.tasks ∧ r = s'.goto i q := by
    intro r hr
    unfold Srv.advance at hr
    repeat' split at hr
    all_goals first
      | exact Or.inl hr
      | (refine Or.inr ⟨_, _, ?_, hr⟩; rfl)
  rcases key _ rfl with h | ⟨s', q, hs, h⟩
  · rw [h]; exact hsame
  · rw [h]; exact hgo s' q hs

theorem advance_kind (u : Bool) {s : State J} {i : Nat} {t : Task J} (ht : s.tasks[i]? = some t) (ok : Bool) {j : Nat}
    {t' : Task J} (h : (Srv.advance u i t ok s).tasks[j]? = some t') :
    ∃ t0, s.tasks[j]? = some t0 ∧ t'.kind = t0.kind ∧ t'.job = t0.job ∧ (j ≠ i → t' = t0) := by
  obtain ⟨p, hp⟩ := advance_tasks u ht ok j
  rw [hp] at h
  split at h
  · rename_i e
    subst e
    injection h with h
    subst h
    exact ⟨t, ht, rfl, rfl, fun e => absurd rfl e⟩
  · exact ⟨t', h, rfl, rfl, fun _ => rfl⟩

/-- A job, once there, stays; what it is served by changes only when a restore of this job succeeds. -/
theorem advance_jobs {s : State J} (hI : Inv s) {i : Nat} {t : Task J} (ht : s.tasks[i]? = some t) (ok : Bool)
    {job : J} {d : Nat} (h : s.jobs.get? job = some d) :
    (Srv.advance true i t ok s).jobs.get? job = some d ∨
      (t.kind = .restore ∧ t.job = job ∧ t.phase = .started ∧ ok = true ∧
        (Srv.advance true i t ok s).jobs.get? job = some s.fresh) := by
  have hg : t.phase.active = true → Good s t := by
    intro ha
    obtain ⟨t', h1, _, h3⟩ := hI.holder i (hI.excl i t ht ha)
    rw [ht] at h1
    injection h1 with h1
    subst h1
    exact h3
  cases hp : t.phase with
  | started =>
    cases hk : t.kind with
    | register =>
      simp only [Srv.advance, hp, hk]
      split <;> exact Or.inl h
    | restore =>
      cases ok with
      | false => simp only [Srv.advance, hp, hk]; exact Or.inl h
      | true =>
        simp only [Srv.advance, hp, hk, if_true, State.goto, Dict.get?_set]
        split
        · rename_i e; exact Or.inr ⟨trivial, e, trivial, trivial, rfl⟩
        · exact Or.inl h
  | inserting =>
    have := hg (by rw [hp]; rfl)
    simp only [Good, hp] at this
    simp only [Srv.advance, hp, State.goto, Dict.get?_set]
    rw [if_neg]
    · exact Or.inl h
    · intro e
      rw [e, h] at this
      cases this.2
  | waiting => simp only [Srv.advance, hp, if_true]; split <;> exact Or.inl h
  | queried => simp only [Srv.advance, hp]; repeat' split <;> exact Or.inl h
  | checked => simp only [Srv.advance, hp]; repeat' split <;> exact Or.inl h
  | updating => simp only [Srv.advance, hp]; repeat' split <;> exact Or.inl h
  | finishing b => simp only [Srv.advance, hp]; exact Or.inl h
  | done b => simp only [Srv.advance, hp]; exact Or.inl h

theorem act_jobs {s : State J} (hI : Inv s) (a : Act J) {job : J} {d : Nat} (h : s.jobs.get? job = some d) :
    (Srv.act true s a).1.jobs.get? job = some d ∨
      ∃ i t, a = .step i true ∧ s.tasks[i]? = some t ∧ t.kind = .restore ∧ t.job = job ∧ t.phase = .started ∧
        (Srv.act true s a).1.jobs.get? job = some s.fresh := by
  cases a with
  | register j => exact Or.inl h
  | restore j => exact Or.inl h
  | nextChunk j =>
    simp only [Srv.act, serveChunk]
    split
    · exact Or.inl h
    · split <;> exact Or.inl h
  | metadata j => exact Or.inl h
  | askStatus j => exact Or.inl h
  | step i ok =>
    simp only [Srv.act, stepTask]
    split
    · exact Or.inl h
    · rename_i t ht
      rcases advance_jobs hI ht ok h with h | ⟨h1, h2, h3, rfl, h5⟩
      · exact Or.inl h
      · exact Or.inr ⟨i, t, rfl, ht, h1, h2, h3, h5⟩

/-- No restore of the job was requested. -/
def NoRestore (s : State J) (job : J) : Prop :=
  ∀ (i : Nat) (t : Task J), s.tasks[i]? = some t → t.job = job → t.kind = .register

theorem NoRestore.act {s : State J} {job : J} (h : NoRestore s job) (u : Bool) (a : Act J) (ha : a ≠ .restore job) :
    NoRestore (Srv.act u s a).1 job := by
  have happ : ∀ (x : Task J), (x.job = job → x.kind = .register) → ∀ (i : Nat) (t : Task J),
      (s.tasks ++ [x])[i]? = some t → t.job = job → t.kind = .register := by
    intro x hx i t hi hj
    rw [List.getElem?_append] at hi
    split at hi
    · exact h i t hi hj
    · rw [List.getElem?_singleton] at hi
      split at hi
      · injection hi with hi; subst hi; exact hx hj
      · cases hi
  cases a with
  | register j => exact happ ⟨.register, j, .waiting⟩ fun _ => rfl
  | restore j =>
    exact happ ⟨.restore, j, .waiting⟩ fun e => absurd (congrArg Act.restore e) (by simpa using ha)
  | nextChunk j =>
    simp only [Srv.act, serveChunk]
    split
    · exact h
    · split <;> exact h
  | metadata j => exact h
  | askStatus j => exact h
  | step i ok =>
    simp only [Srv.act, stepTask]
    split
    · exact h
    · rename_i t ht
      intro j t' hj e
      obtain ⟨t0, h1, h2, h3, _⟩ := advance_kind u ht ok hj
      rw [h2]
      exact h j t0 h1 (h3 ▸ e)

theorem serve_current {s : State J} (hI : Inv s) {job : J} (h : ¬ Switching s job) :
    (serveChunk job s).2 = s.jobs.get? job := by
  unfold serveChunk
  split
  · rename_i d hd
    rcases hI.coherent job d hd with h' | h'
    · exact h'.symm
    · exact absurd h' h
  · split
    · rename_i h'; exact h'.symm
    · rename_i h'; exact h'.symm

theorem NoRestore.not_switching {s : State J} (hI : Inv s) {job : J} (h : NoRestore s job) : ¬ Switching s job := by
  rintro ⟨i, t, hl, ht, hp, hj⟩
  obtain ⟨t', h1, _, h3⟩ := hI.holder i hl
  rw [ht] at h1
  injection h1 with h1
  subst h1
  simp only [Good, hp] at h3
  rw [h i t ht hj] at h3
  cases h3.1

/-- What a client of `job` sees refers to the distributor `d`. -/
def Seen.by' (job : J) (d : Nat) : Seen J → Prop
  | .chunk j o => j = job → o = some d
  | .metadata j o => j = job → o = some d
  | .status _ _ => True

theorem same_after {job : J} {d : Nat} : ∀ (as : List (Act J)) {s : State J}, Inv s → s.status.keys.Nodup →
    NoRestore s job → (∀ a ∈ as, a ≠ .restore job) → s.jobs.get? job = some d →
    (∀ o ∈ (run true s as).2, o.by' job d) ∧ (run true s as).1.jobs.get? job = some d := by
  intro as
  induction as with
  | nil => intro s _ _ _ _ hd; exact ⟨by simp [run], hd⟩
  | cons a as ih =>
    intro s hI hn hr has hd
    have ha := has a List.mem_cons_self
    have hd' : (Srv.act true s a).1.jobs.get? job = some d := by
      rcases act_jobs hI a hd with h | ⟨i, t, _, h2, h3, h4, _⟩
      · exact h
      · have := hr i t h2 h4
        rw [h3] at this
        cases this
    obtain ⟨h1, h2⟩ := ih (hI.act hn a) (nodup_act hn true a) (hr.act true a ha)
      (fun b hb => has b (List.mem_cons_of_mem _ hb)) hd'
    refine ⟨?_, h2⟩
    intro o ho
    simp only [run, List.mem_append] at ho
    rcases ho with ho | ho
    · cases a with
      | nextChunk j =>
        simp only [Srv.act, Option.toList, List.mem_singleton] at ho
        subst ho
        intro e
        subst e
        rw [serve_current hI (hr.not_switching hI), hd]
      | metadata j =>
        simp only [Srv.act, Option.toList, List.mem_singleton] at ho
        subst ho
        intro e
        subst e
        exact hd
      | askStatus j =>
        simp only [Srv.act, Option.toList, List.mem_singleton] at ho
        subst ho
        trivial
      | register j => simp [Srv.act] at ho
      | restore j => simp [Srv.act] at ho
      | step i ok => simp [Srv.act] at ho
    · exact h1 o ho

/-- Specification: what a client sees comes from distributor `d` of job `job`. -/
inductive From (job : J) (d : Nat) : Seen J → Prop
  | chunk : From job d (.chunk job (some d))
  | metadata : From job d (.metadata job (some d))

theorem same_before {job : J} : ∀ (as : List (Act J)) {s : State J}, Inv s → s.status.keys.Nodup →
    NoRestore s job → (∀ a ∈ as, a ≠ .restore job) → ∀ d d' o o', o ∈ (run true s as).2 → o' ∈ (run true s as).2 →
    From job d o → From job d' o' → d = d' := by
  intro as
  have hfrom : ∀ {o : Seen J} {d d'}, o.by' job d → From job d' o → d' = d := by
    intro o d d' h1 h2
    cases h2 with
    | chunk => have := h1 rfl; injection this
    | metadata => have := h1 rfl; injection this
  induction as with
  | nil => intro s _ _ _ _ d d' o o' ho; simp [run] at ho
  | cons a as ih =>
    intro s hI hn hr has d d' o o' ho ho' hf hf'
    have ha := has a List.mem_cons_self
    cases hd : s.jobs.get? job with
    | some x =>
      obtain ⟨h1, _⟩ := same_after (a :: as) hI hn hr has hd
      rw [hfrom (h1 o ho) hf, hfrom (h1 o' ho') hf']
    | none =>
      have hnone : ∀ o ∈ (Srv.act true s a).2.toList, ∀ d, ¬ From job d o := by
        intro o ho d hf
        cases a with
        | nextChunk j =>
          simp only [Srv.act, Option.toList, List.mem_singleton] at ho
          subst ho
          have hc := serve_current hI (hr.not_switching hI)
          rw [hd] at hc
          generalize hx : (serveChunk j s).2 = x at hf
          cases hf
          rw [hc] at hx
          cases hx
        | metadata j =>
          simp only [Srv.act, Option.toList, List.mem_singleton] at ho
          subst ho
          generalize hx : s.jobs.get? j = x at hf
          cases hf
          rw [hd] at hx
          cases hx
        | askStatus j =>
          simp only [Srv.act, Option.toList, List.mem_singleton] at ho
          subst ho
          cases hf
        | register j => simp [Srv.act] at ho
        | restore j => simp [Srv.act] at ho
        | step i ok => simp [Srv.act] at ho
      simp only [run, List.mem_append] at ho ho'
      rcases ho with ho | ho
      · exact absurd hf (hnone o ho d)
      · rcases ho' with ho' | ho'
        · exact absurd hf' (hnone o' ho' d')
        · exact ih (hI.act hn a) (nodup_act hn true a) (hr.act true a ha)
            (fun b hb => has b (List.mem_cons_of_mem _ hb)) d d' o o' ho ho' hf hf'

/-- **C52** (the first job wins). At the server, for every history of requests of any clients and every interleaving of the
background tasks: as long as no restore of the job is requested, all chunk and metadata requests of the job are answered by
one and the same chunk distributor, however often the job is registered again. -/
theorem c52_first_wins (as : List (Act J)) (job : J) (h : ∀ a ∈ as, a ≠ .restore job) (d d' : Nat) (o o' : Seen J)
    (ho : o ∈ (run true State.init as).2) (ho' : o' ∈ (run true State.init as).2) (hf : From job d o)
    (hf' : From job d' o') : d = d' :=
  same_before as Inv.init (by simp [State.init, Dict.keys]) (by intro i t ht; simp [State.init] at ht) h d d' o o' ho ho' hf
    hf'

/-- A registration that has succeeded. -/
def Succeeded (t : Task J) : Prop := t.kind = .register ∧ (t.phase = .finishing true ∨ t.phase = .done true)

/-- At most one registration of a job succeeds, and then the job exists. -/
structure Once (s : State J) : Prop where
  exists_ : ∀ (i : Nat) (t : Task J), s.tasks[i]? = some t → Succeeded t → ∃ d, s.jobs.get? t.job = some d
  once : ∀ (i j : Nat) (t t' : Task J), s.tasks[i]? = some t → s.tasks[j]? = some t' → Succeeded t → Succeeded t' →
    t.job = t'.job → i = j

theorem advance_succeeded {s : State J} {i : Nat} {t t' : Task J} (ht : s.tasks[i]? = some t) (ok : Bool) {j : Nat}
    (h : (Srv.advance true i t ok s).tasks[j]? = some t') (hs : Succeeded t') :
    (∃ t0, s.tasks[j]? = some t0 ∧ Succeeded t0 ∧ t0.job = t'.job) ∨
      (j = i ∧ t.phase = .inserting ∧ t'.job = t.job) ∨ (j = i ∧ t.phase = .updating ∧ t.kind = .register) := by
  by_cases e : j = i
  · subst e
    obtain ⟨t0, h1, h2, h3, _⟩ := advance_kind true ht ok h
    rw [ht] at h1
    injection h1 with h1
    subst h1
    have hk : t.kind = .register := by rw [← h2]; exact hs.1
    cases hp : t.phase with
    | inserting => exact Or.inr (Or.inl ⟨rfl, rfl, h3⟩)
    | updating => exact Or.inr (Or.inr ⟨rfl, rfl, hk⟩)
    | finishing b =>
      refine Or.inl ⟨t, ht, ⟨hk, ?_⟩, h3.symm⟩
      simp only [Srv.advance, hp] at h
      rw [tasks_goto _ _ _ _ (by exact ht), if_pos rfl] at h
      injection h with h
      subst h
      rcases hs.2 with hs | hs
      · cases hs
      · simp only at hs
        injection hs with hs
        subst hs
        exact Or.inl hp
    | done b =>
      refine Or.inl ⟨t, ht, ?_, h3.symm⟩
      simp only [Srv.advance, hp] at h
      rw [ht] at h
      injection h with h
      subst h
      exact hs
    | waiting =>
      exfalso
      simp only [Srv.advance, hp, if_true] at h
      split at h
      · rw [tasks_goto _ _ _ _ (by exact ht), if_pos rfl] at h
        injection h with h
        subst h
        rcases hs.2 with hs | hs <;> cases hs
      · rw [ht] at h
        injection h with h
        subst h
        rcases hs.2 with hs | hs <;> (rw [hp] at hs; cases hs)
    | started =>
      exfalso
      simp only [Srv.advance, hp, hk] at h
      split at h <;>
      · rw [tasks_goto _ _ _ _ (by exact ht), if_pos rfl] at h
        injection h with h
        subst h
        rcases hs.2 with hs | hs <;> cases hs
    | queried =>
      exfalso
      simp only [Srv.advance, hp] at h
      split at h <;>
      · rw [tasks_goto _ _ _ _ (by exact ht), if_pos rfl] at h
        injection h with h
        subst h
        rcases hs.2 with hs | hs <;> cases hs
    | checked =>
      exfalso
      simp only [Srv.advance, hp] at h
      split at h <;>
      · rw [tasks_goto _ _ _ _ (by exact ht), if_pos rfl] at h
        injection h with h
        subst h
        rcases hs.2 with hs | hs <;> cases hs
  · obtain ⟨t0, h1, h2, h3, h4⟩ := advance_kind true ht ok h
    have := h4 e
    subst this
    exact Or.inl ⟨t', h1, hs, rfl⟩

theorem Once.act {s : State J} (hO : Once s) (hI : Inv s) (a : Act J) : Once (Srv.act true s a).1 := by
  have hspawn : ∀ (x : Task J), ¬ Succeeded x → ∀ (i : Nat) (t : Task J), (s.tasks ++ [x])[i]? = some t → Succeeded t →
      s.tasks[i]? = some t := by
    intro x hx i t hi hs
    rw [List.getElem?_append] at hi
    split at hi
    · exact hi
    · rw [List.getElem?_singleton] at hi
      split at hi
      · injection hi with hi; subst hi; exact absurd hs hx
      · cases hi
  have hw : ∀ (k : Kind) (j : J), ¬ Succeeded (⟨k, j, .waiting⟩ : Task J) := by
    rintro k j ⟨_, h | h⟩ <;> cases h
  cases a with
  | register j =>
    exact ⟨fun i t hi hs => hO.exists_ i t (hspawn _ (hw _ _) i t hi hs) hs, fun i k t t' hi hk hs hs' e =>
      hO.once i k t t' (hspawn _ (hw _ _) i t hi hs) (hspawn _ (hw _ _) k t' hk hs') hs hs' e⟩
  | restore j =>
    exact ⟨fun i t hi hs => hO.exists_ i t (hspawn _ (hw _ _) i t hi hs) hs, fun i k t t' hi hk hs hs' e =>
      hO.once i k t t' (hspawn _ (hw _ _) i t hi hs) (hspawn _ (hw _ _) k t' hk hs') hs hs' e⟩
  | nextChunk j =>
    simp only [Srv.act, serveChunk]
    split
    · exact hO
    · split
      · exact ⟨hO.exists_, hO.once⟩
      · exact hO
  | metadata j => exact hO
  | askStatus j => exact hO
  | step i ok =>
    simp only [Srv.act, stepTask]
    split
    · exact hO
    · rename_i t ht
      have hgood : t.phase.active = true → Good s t := by
        intro ha
        obtain ⟨t', h1, _, h3⟩ := hI.holder i (hI.excl i t ht ha)
        rw [ht] at h1
        injection h1 with h1
        subst h1
        exact h3
      have hins : t.phase = .inserting → s.jobs.get? t.job = none := by
        intro hp
        have := hgood (by rw [hp]; rfl)
        simp only [Good, hp] at this
        exact this.2
      have hupd : ¬ (t.phase = .updating ∧ t.kind = .register) := by
        rintro ⟨hp, hk⟩
        have := hgood (by rw [hp]; rfl)
        simp only [Good, hp, hk] at this
        cases this.1
      have hkeep : ∀ job, (∃ d, s.jobs.get? job = some d) → ∃ d, (Srv.advance true i t ok s).jobs.get? job = some d := by
        rintro job ⟨d, hd⟩
        rcases advance_jobs hI ht ok hd with h | h
        · exact ⟨_, h⟩
        · exact ⟨_, h.2.2.2.2⟩
      constructor
      · intro j t' hj hs
        rcases advance_succeeded ht ok hj hs with ⟨t0, h1, h2, h3⟩ | ⟨rfl, h2, h3⟩ | ⟨rfl, h2, h3⟩
        · exact h3 ▸ hkeep _ (hO.exists_ j t0 h1 h2)
        · refine ⟨s.fresh, ?_⟩
          simp only [Srv.advance, h2, State.goto, Dict.get?_set]
          rw [if_pos h3.symm]
        · exact absurd ⟨h2, h3⟩ hupd
      · intro j k t1 t2 hj hk hs1 hs2 e
        rcases advance_succeeded ht ok hj hs1 with ⟨t0, h1, h2, h3⟩ | ⟨rfl, h2, h3⟩ | ⟨rfl, h2, h3⟩
        · rcases advance_succeeded ht ok hk hs2 with ⟨t0', h1', h2', h3'⟩ | ⟨rfl, h2', h3'⟩ | ⟨rfl, h2', h3'⟩
          · exact hO.once j k t0 t0' h1 h1' h2 h2' (by rw [h3, h3', e])
          · obtain ⟨d, hd⟩ := hO.exists_ j t0 h1 h2
            rw [h3, e, h3', hins h2'] at hd
            cases hd
          · exact absurd ⟨h2', h3'⟩ hupd
        · rcases advance_succeeded ht ok hk hs2 with ⟨t0', h1', h2', h3'⟩ | ⟨rfl, h2', h3'⟩ | ⟨rfl, h2', h3'⟩
          · obtain ⟨d, hd⟩ := hO.exists_ k t0' h1' h2'
            rw [h3', ← e, h3, hins h2] at hd
            cases hd
          · rfl
          · exact absurd ⟨h2', h3'⟩ hupd
        · exact absurd ⟨h2, h3⟩ hupd

theorem Reachable.once {s : State J} (h : Reachable true s) : Once s := by
  obtain ⟨as, rfl⟩ := h
  have : ∀ (as : List (Act J)) {s : State J}, Inv s → s.status.keys.Nodup → Once s → Once (run true s as).1 := by
    intro as
    induction as with
    | nil => intro s _ _ h; exact h
    | cons a as ih => intro s hI hn hO; exact ih (hI.act hn a) (nodup_act hn true a) (hO.act hI a)
  exact this as Inv.init (by simp [State.init, Dict.keys])
    ⟨by intro i t ht; simp [State.init] at ht, by intro i j t t' ht; simp [State.init] at ht⟩

/-- **C52** (refused). At the server at most one registration of a job ever succeeds, for every history, also with restores
in between: of two registrations of the same job at most one ends successfully. -/
theorem c52_at_most_one {s : State J} (h : Reachable true s) (i j : Nat) (job : J)
    (hi : s.tasks[i]? = some ⟨.register, job, .done true⟩) (hj : s.tasks[j]? = some ⟨.register, job, .done true⟩) : i = j :=
  h.once.once i j _ _ hi hj ⟨rfl, Or.inr rfl⟩ ⟨rfl, Or.inr rfl⟩ rfl

/-- **C52** (different jobs). Two jobs are never answered by the same chunk distributor at the same time. -/
theorem c52_jobs_separate {s : State J} (h : Reachable true s) (job job' : J) (d : Nat)
    (hd : s.jobs.get? job = some d) (hd' : s.jobs.get? job' = some d) : job = job' := h.inv.1.inj job job' d hd hd'

/-- **C52** (success means the job exists). If the server answers a status request with `1`, the job exists: chunk and
metadata requests are answered. -/
theorem c52_status_success {s : State J} (h : Reachable true s) (job : J) (hs : (act true s (.askStatus job)).2 = some (.status job 1)) :
    (∃ d, (act true s (.nextChunk job)).2 = some (.chunk job (some d))) ∧
      ∃ d, (act true s (.metadata job)).2 = some (.metadata job (some d)) := by
  simp only [Srv.act, Option.some.injEq, Seen.status.injEq, true_and] at hs
  have hst : s.status.get? job = some true := by
    cases hx : s.status.get? job with
    | none => rw [hx] at hs; cases hs
    | some b => cases b with
      | false => rw [hx] at hs; cases hs
      | true => rfl
  obtain ⟨d, hd⟩ := h.inv.1.statusOk job hst
  refine ⟨?_, d, by simp [Srv.act, hd]⟩
  simp only [Srv.act, serveChunk]
  cases s.served.get? job with
  | some d' => exact ⟨d', rfl⟩
  | none => rw [hd]; exact ⟨d, rfl⟩

/-- **C52** (progress). The lock never blocks the server: whenever some task is unfinished, some task can make a step. -/
theorem c52_no_deadlock {s : State J} (h : Reachable true s) (i : Nat) (t : Task J) (ht : s.tasks[i]? = some t)
    (hd : ∀ b, t.phase ≠ .done b) :
    ∃ j t' p, s.tasks[j]? = some t' ∧ p ≠ t'.phase ∧ (stepTask true j true s).tasks[j]? = some { t' with phase := p } := by
  have hI := h.inv.1
  have hstep : ∀ (j : Nat) (t' : Task J), s.tasks[j]? = some t' → (t'.phase = .waiting → s.lock = none) → (∀ b, t'.phase ≠ .done b) →
      ∃ p, p ≠ t'.phase ∧ (stepTask true j true s).tasks[j]? = some { t' with phase := p } := by
    intro j t' hj hw hnd
    simp only [stepTask, hj]
    cases hp : t'.phase with
    | waiting =>
      refine ⟨.started, by simp, ?_⟩
      simp only [Srv.advance, hp, if_true, hw hp]
      rw [tasks_goto _ _ _ _ (by exact hj), if_pos rfl]
    | started =>
      cases hk : t'.kind with
      | register =>
        simp only [Srv.advance, hp, hk]
        split
        · exact ⟨.finishing false, by simp, by rw [tasks_goto _ _ _ _ (by exact hj), if_pos rfl, hk]⟩
        · exact ⟨.queried, by simp, by rw [tasks_goto _ _ _ _ (by exact hj), if_pos rfl, hk]⟩
      | restore =>
        simp only [Srv.advance, hp, hk, if_true]
        exact ⟨.updating, by simp, by rw [tasks_goto _ _ _ _ (by exact hj), if_pos rfl, hk]⟩
    | queried =>
      simp only [Srv.advance, hp, if_true]
      exact ⟨.checked, by simp, by rw [tasks_goto _ _ _ _ (by exact hj), if_pos rfl]⟩
    | checked =>
      simp only [Srv.advance, hp]
      split
      · exact ⟨.finishing false, by simp, by rw [tasks_goto _ _ _ _ (by exact hj), if_pos rfl]⟩
      · exact ⟨.inserting, by simp, by rw [tasks_goto _ _ _ _ (by exact hj), if_pos rfl]⟩
    | inserting =>
      simp only [Srv.advance, hp]
      exact ⟨.finishing true, by simp, by rw [tasks_goto _ _ _ _ (by exact hj), if_pos rfl]⟩
    | updating =>
      simp only [Srv.advance, hp]
      split
      · exact ⟨.finishing true, by simp, by rw [tasks_goto _ _ _ _ (by exact hj), if_pos rfl]⟩
      · exact ⟨.finishing false, by simp, by rw [tasks_goto _ _ _ _ (by exact hj), if_pos rfl]⟩
    | finishing b =>
      simp only [Srv.advance, hp]
      exact ⟨.done b, by simp, by rw [tasks_goto _ _ _ _ (by exact hj), if_pos rfl]⟩
    | done b => exact absurd hp (hnd b)
  cases hl : s.lock with
  | none =>
    obtain ⟨p, h1, h2⟩ := hstep i t ht (fun _ => hl) hd
    exact ⟨i, t, p, ht, h1, h2⟩
  | some j =>
    obtain ⟨t', h1, h2, _⟩ := hI.holder j hl
    obtain ⟨p, h3, h4⟩ := hstep j t' h1 (fun e => by rw [e] at h2; cases h2) (fun b e => by rw [e] at h2; cases h2)
    exact ⟨j, t', p, h1, h3, h4⟩

/-! ### Where C52 fails -/

/-- All steps of task `i` in a row. -/
def steps (i n : Nat) : List (Act J) := List.replicate n (.step i true)

/-- **C52** (misleading status). A second registration of a job is refused, and from then on the status of the job is
"failed" (2) although the first one is being served. -/
theorem c52_status_misleading :
    (run true State.init (.register 7 :: steps 0 6 ++ [.askStatus 7, .register 7] ++ steps 1 4 ++
      [.askStatus 7, .nextChunk 7])).2 = [.status 7 1, .status 7 2, .chunk 7 (some 0)] := by decide +kernel

/-- **C52** (local stub). Without the server's lock - two threads that use one local stub - both registrations of a job can
succeed, and the second replaces the first one's chunk distributor while it is being used. -/
theorem c52_local_race :
    (run false State.init (.register 7 :: .register 7 :: steps 0 4 ++ steps 1 4 ++ steps 0 2 ++ [.metadata 7] ++ steps 1 2 ++
      [.metadata 7])).2 = [.metadata 7 (some 0), .metadata 7 (some 1)] ∧
    ((run false State.init (.register 7 :: .register 7 :: steps 0 4 ++ steps 1 4 ++ steps 0 2 ++ [.metadata 7] ++ steps 1 2 ++
      [.metadata 7])).1.tasks.map Task.phase) = [.done true, .done true] := by decide +kernel

/-! ## C56 -/

/-- **C56** (coherence). In every reachable state, unless a restore of the job is just between replacing the job and
switching the server over to it, chunk requests are answered by the distributor that checkpoints, metadata and feedback
requests of the job refer to. -/
theorem c56_coherent {s : State J} (h : Reachable true s) (job : J) (hs : ¬ Switching s job) :
    (act true s (.nextChunk job)).2 = some (.chunk job (s.jobs.get? job)) ∧
      (act true s (.metadata job)).2 = some (.metadata job (s.jobs.get? job)) := by
  simp only [Srv.act, serve_current h.inv.1 hs]
  exact ⟨trivial, trivial⟩

/-- No other restore of the job than task `i`. -/
def OnlyRestore (s : State J) (job : J) (i : Nat) : Prop :=
  ∀ (j : Nat) (t : Task J), s.tasks[j]? = some t → t.job = job → j ≠ i → t.kind = .register ∨ ∃ b, t.phase = .done b

theorem OnlyRestore.act {s : State J} {job : J} {i : Nat} (h : OnlyRestore s job i) (a : Act J) (ha : a ≠ .restore job) :
    OnlyRestore (Srv.act true s a).1 job i := by
  have happ : ∀ (x : Task J), (x.job = job → x.kind = .register) → ∀ (j : Nat) (t : Task J),
      (s.tasks ++ [x])[j]? = some t → t.job = job → j ≠ i → t.kind = .register ∨ ∃ b, t.phase = .done b := by
    intro x hx j t hj e hne
    rw [List.getElem?_append] at hj
    split at hj
    · exact h j t hj e hne
    · rw [List.getElem?_singleton] at hj
      split at hj
      · injection hj with hj; subst hj; exact Or.inl (hx e)
      · cases hj
  cases a with
  | register j => exact happ ⟨.register, j, .waiting⟩ fun _ => rfl
  | restore j =>
    exact happ ⟨.restore, j, .waiting⟩ fun e => absurd (congrArg Act.restore e) (by simpa using ha)
  | nextChunk j =>
    simp only [Srv.act, serveChunk]
    split
    · exact h
    · split <;> exact h
  | metadata j => exact h
  | askStatus j => exact h
  | step k ok =>
    simp only [Srv.act, stepTask]
    split
    · exact h
    · rename_i t ht
      intro j t' hj e hne
      obtain ⟨t0, h1, h2, h3, h4⟩ := advance_kind true ht ok hj
      rcases h j t0 h1 (h3 ▸ e) hne with hk | ⟨b, hb⟩
      · exact Or.inl (by rw [h2]; exact hk)
      · right
        by_cases ejk : j = k
        · subst ejk
          rw [ht] at h1
          injection h1 with h1
          subst h1
          simp only [Srv.advance, hb] at hj
          rw [ht] at hj
          injection hj with hj
          subst hj
          exact ⟨b, hb⟩
        · rw [h4 ejk]; exact ⟨b, hb⟩

/-- The task has replaced the job. -/
def Phase.replaced : Phase → Bool
  | .updating => true
  | .finishing true => true
  | .done true => true
  | _ => false

theorem restored_after {job : J} {d i : Nat} : ∀ (as : List (Act J)) {s : State J}, Inv s → s.status.keys.Nodup →
    OnlyRestore s job i → (∃ p, s.tasks[i]? = some ⟨.restore, job, p⟩ ∧ p.replaced = true) → (∀ a ∈ as, a ≠ .restore job) →
    s.jobs.get? job = some d →
    let s' := (run true s as).1
    s'.jobs.get? job = some d ∧ ∃ p, s'.tasks[i]? = some ⟨.restore, job, p⟩ ∧ p.replaced = true ∧
      (p ≠ .updating → (serveChunk job s').2 = some d) := by
  intro as
  induction as with
  | nil =>
    intro s hI hn hr ⟨p, hp, hpr⟩ _ hd
    refine ⟨hd, p, hp, hpr, ?_⟩
    intro hne
    have : ¬ Switching s job := by
      rintro ⟨j, t, h1, h2, h3, h4⟩
      obtain ⟨t', g1, g2, g3⟩ := hI.holder j h1
      rw [h2] at g1
      injection g1 with g1
      subst g1
      by_cases e : j = i
      · subst e
        rw [hp] at h2
        injection h2 with h2
        subst h2
        exact hne h3
      · rcases hr j t h2 h4 e with hk | ⟨b, hb⟩
        · simp only [Good, h3, hk] at g3
          cases g3.1
        · rw [h3] at hb; cases hb
    show (serveChunk job s).2 = some d
    rw [serve_current hI this, hd]
  | cons a as ih =>
    intro s hI hn hr ⟨p, hp, hpr⟩ has hd
    have ha := has a List.mem_cons_self
    refine ih (hI.act hn a) (nodup_act hn true a) (hr.act a ha) ?_ (fun b hb => has b (List.mem_cons_of_mem _ hb)) ?_
    · have hlt : i < s.tasks.length := by
        rw [List.getElem?_eq_some_iff] at hp; exact hp.1
      cases a with
      | register j => exact ⟨p, by simp only [Srv.act]; rw [List.getElem?_append_left hlt]; exact hp, hpr⟩
      | restore j => exact ⟨p, by simp only [Srv.act]; rw [List.getElem?_append_left hlt]; exact hp, hpr⟩
      | nextChunk j =>
        refine ⟨p, ?_, hpr⟩
        simp only [Srv.act, serveChunk]
        split
        · exact hp
        · split <;> exact hp
      | metadata j => exact ⟨p, hp, hpr⟩
      | askStatus j => exact ⟨p, hp, hpr⟩
      | step k ok =>
        simp only [Srv.act, stepTask]
        split
        · exact ⟨p, hp, hpr⟩
        · rename_i t ht
          by_cases e : i = k
          · subst e
            rw [hp] at ht
            injection ht with ht
            subst ht
            cases p with
            | updating =>
              simp only [Srv.advance, hd]
              exact ⟨.finishing true, by rw [tasks_goto _ _ _ _ (by exact hp), if_pos rfl], rfl⟩
            | finishing b =>
              cases b with
              | false => cases hpr
              | true =>
                simp only [Srv.advance]
                exact ⟨.done true, by rw [tasks_goto _ _ _ _ (by exact hp), if_pos rfl], rfl⟩
            | done b => exact ⟨.done b, hp, hpr⟩
            | waiting => cases hpr
            | started => cases hpr
            | queried => cases hpr
            | checked => cases hpr
            | inserting => cases hpr
          · obtain ⟨p', hp'⟩ := advance_tasks true ht ok i
            rw [if_neg e] at hp'
            exact ⟨p, by rw [hp']; exact hp, hpr⟩
    · rcases act_jobs hI a hd with h | ⟨k, t, _, h2, h3, h4, h5, _⟩
      · exact h
      · exfalso
        by_cases e : k = i
        · subst e
          rw [hp] at h2
          injection h2 with h2
          subst h2
          simp only at h5
          subst h5
          cases hpr
        · rcases hr k t h2 h4 e with hk | ⟨b, hb⟩
          · rw [hk] at h3; cases h3
          · rw [h5] at hb; cases hb

/-- **C56** (after a restore). From the moment a restore of a job has replaced the job, the job's distributor is the
restored one (`s.fresh`, the object the restore creates), and once the restore is finished all chunk requests are answered
by it - for every later history, with any registrations of the same job and any requests for other jobs in between, until
another restore of the job. -/
theorem c56_restored {s : State J} (h : Reachable true s) (i : Nat) (job : J)
    (hi : s.tasks[i]? = some ⟨.restore, job, .started⟩) (hr : OnlyRestore s job i) (as : List (Act J))
    (has : ∀ a ∈ as, a ≠ .restore job) :
    let s' := (run true (act true s (.step i true)).1 as).1
    s'.jobs.get? job = some s.fresh ∧
      ((∃ b, s'.tasks[i]? = some ⟨.restore, job, .done b⟩) →
        (act true s' (.nextChunk job)).2 = some (.chunk job (some s.fresh)) ∧
        (act true s' (.metadata job)).2 = some (.metadata job (some s.fresh))) := by
  obtain ⟨hI, hn⟩ := h.inv
  have e1 : (act true s (.step i true)).1.jobs.get? job = some s.fresh := by
    simp [Srv.act, stepTask, hi, Srv.advance, State.goto, Dict.get?_set]
  have e2 : (act true s (.step i true)).1.tasks[i]? = some ⟨.restore, job, .updating⟩ := by
    simp only [Srv.act, stepTask, hi, Srv.advance, if_true]
    rw [tasks_goto _ _ _ _ (by exact hi), if_pos rfl]
  obtain ⟨h1, p, h2, _, h4⟩ := restored_after (d := s.fresh) (i := i) as (hI.act hn (.step i true))
    (nodup_act hn true _) (hr.act (.step i true) (by simp)) ⟨.updating, e2, rfl⟩ has e1
  refine ⟨h1, ?_⟩
  rintro ⟨b, hb⟩
  have hp : p ≠ .updating := by
    intro e
    rw [h2, e] at hb
    injection hb with hb
    injection hb with _ _ hb
    cases hb
  exact ⟨congrArg (fun o => some (Seen.chunk job o)) (h4 hp), congrArg (fun o => some (Seen.metadata job o)) h1⟩

/-- **C56** (a failed restore). If loading the checkpoint fails, the job keeps its distributor and the status becomes
"failed". -/
theorem c56_failed {s : State J} (h : Reachable true s) (i : Nat) (job : J)
    (hi : s.tasks[i]? = some ⟨.restore, job, .started⟩) :
    let s' := (run true s [.step i false, .step i true]).1
    s'.jobs = s.jobs ∧ s'.served = s.served ∧ (act true s' (.askStatus job)).2 = some (.status job 2) := by
  have e : (stepTask true i false s).tasks[i]? = some ⟨.restore, job, .finishing false⟩ := by
    simp only [stepTask, hi, Srv.advance]
    simp only [Bool.false_eq_true, if_false]
    rw [tasks_goto _ _ _ _ (by exact hi), if_pos rfl]
  have e' : stepTask true i false s = s.goto i (.finishing false) := by
    simp only [stepTask, hi, Srv.advance]
    simp only [Bool.false_eq_true, if_false]
  simp only [run, Srv.act]
  rw [stepTask, e]
  simp only [Srv.advance, State.goto, Dict.get?_set, if_true, statusCode]
  rw [e']
  exact ⟨rfl, rfl, trivial⟩

/-! ### Where C56 fails -/

/-- **C56** (status too early). The status is cleared when a restore is requested, not when it starts: a registration of
the same job that is still running sets it again, so the client is told that its restore has succeeded and gets chunks from
the old distributor. -/
theorem c56_early_status :
    (run true State.init (.register 7 :: steps 0 5 ++ [.restore 7] ++ steps 0 1 ++ [.askStatus 7, .nextChunk 7] ++ steps 1 4 ++
      [.nextChunk 7])).2 = [.status 7 1, .chunk 7 (some 0), .chunk 7 (some 1)] := by decide +kernel

/-- **C56** (during the switch). While a restore is between its two steps, chunks come from the old distributor and
checkpoints and metadata from the new one. -/
theorem c56_switching :
    (run true State.init (.register 7 :: steps 0 6 ++ [.nextChunk 7, .restore 7] ++ steps 1 2 ++
      [.nextChunk 7, .metadata 7] ++ steps 1 2 ++ [.nextChunk 7, .metadata 7])).2 =
      [.chunk 7 (some 0), .chunk 7 (some 0), .metadata 7 (some 1), .chunk 7 (some 1), .metadata 7 (some 1)] := by
  decide +kernel

/-- A history that meets the hypotheses of `c56_restored` and `c52_first_wins`. -/
example : ∃ s : State Nat, Reachable true s ∧ s.tasks[1]? = some ⟨.restore, 7, .started⟩ ∧ OnlyRestore s 7 1 ∧
    s.jobs.get? 7 = some 0 := by
  refine ⟨(run true State.init (.register 7 :: steps 0 6 ++ [.restore 7] ++ steps 1 1)).1, ⟨_, rfl⟩, rfl, ?_, rfl⟩
  intro j t hj _ hne
  match j, hne with
  | 0, _ => exact Or.inl (by
      have : t = ⟨.register, 7, .done true⟩ := by injection hj with hj; exact hj.symm
      rw [this])
  | n + 2, _ => exact absurd hj (by
      rw [List.getElem?_eq_none]
      · simp
      · show 2 ≤ n + 2
        omega)

end Mixtera.Srv
