import Verif.Model.Registration
import Mathlib.Data.List.Induction

/-! # C67: what a client learns about a registration or a query at the server -/

namespace Mixtera.Reg

/-! ### Specification -/

/-- Everything that is observed in a history. -/
def log (es : List Ev) : List Obs := (run init es).2

/-- Every exchange of the call `c` is delivered. -/
def Delivered (c : Nat) (es : List Ev) : Prop := ∀ n, (Ev.submit c n ∈ es → n = .ok) ∧ (Ev.poll c n ∈ es → n = .ok)

/-- The call has ended. -/
def Ended (c : Nat) (es : List Ev) : Prop := (∃ b, Obs.returned c b ∈ log es) ∨ Obs.raised c ∈ log es

/-! ### Lemmas -/

theorem run_append (es es' : List Ev) : ∀ s, run s (es ++ es') =
    ((run (run s es).1 es').1, (run s es).2 ++ (run (run s es).1 es').2) := by
  induction es with
  | nil => intro s; rfl
  | cons e es ih => intro s; simp only [List.cons_append, run, ih, List.append_assoc]

theorem run_snoc (es : List Ev) (e : Ev) (s : State) : run s (es ++ [e]) =
    ((step (run s es).1 e).1, (run s es).2 ++ (step (run s es).1 e).2) := by
  rw [run_append]; simp [run]

theorem log_snoc (es : List Ev) (e : Ev) : log (es ++ [e]) = log es ++ (step (run init es).1 e).2 := by
  unfold log; rw [run_snoc]

/-- What ties the state to the log. -/
structure Inv (l : List Obs) (s : State) : Prop where
  status : ∀ j b, s.status j = some b → Obs.finished j b ∈ l
  polling : ∀ c j, s.calls c = .polling j → Obs.started c j ∈ l
  fresh : ∀ c j, Obs.started c j ∈ l → j < s.next
  tasks : ∀ j ∈ s.tasks, j < s.next ∧ ∀ b, Obs.finished j b ∉ l
  fin : ∀ j b, Obs.finished j b ∈ l → j < s.next
  owner : ∀ c c' j, Obs.started c j ∈ l → Obs.started c' j ∈ l → c = c'
  once : ∀ j b b', Obs.finished j b ∈ l → Obs.finished j b' ∈ l → b = b'
  ended : ∀ c, ((∃ b, Obs.returned c b ∈ l) ∨ Obs.raised c ∈ l) → (∃ b, s.calls c = .returned b) ∨ s.calls c = .raised
  idle : ∀ c j, Obs.started c j ∈ l → s.calls c ≠ .idle
  single : ∀ c j j', Obs.started c j ∈ l → Obs.started c j' ∈ l → j = j'
  true_ : ∀ c, Obs.returned c true ∈ l → ∃ j, Obs.started c j ∈ l ∧ Obs.finished j true ∈ l
  open_ : ∀ c j, Obs.started c j ∈ l → s.calls c = .polling j ∨ (∃ b, Obs.returned c b ∈ l) ∨ Obs.raised c ∈ l

theorem inv_init : Inv [] init := by
  refine ⟨?_, ?_, ?_, ?_, ?_, ?_, ?_, ?_, ?_, ?_, ?_, ?_⟩ <;> simp [init]

/-- Ending a call. -/
theorem Inv.endCall {l : List Obs} {s : State} (h : Inv l s) (c : Nat) (x : Call) (o : Obs)
    (hx : (∃ b, x = .returned b ∧ o = .returned c b ∧ (b = true → ∃ j, Obs.started c j ∈ l ∧ Obs.finished j true ∈ l)) ∨
      (x = .raised ∧ o = .raised c)) : Inv (l ++ [o]) (s.setCall c x) := by
  have hn1 : ∀ c' j, o ≠ .started c' j := by
    rcases hx with ⟨b, _, rfl, _⟩ | ⟨_, rfl⟩ <;> intro c' j h' <;> cases h'
  have hn2 : ∀ j b, o ≠ .finished j b := by
    rcases hx with ⟨b, _, rfl, _⟩ | ⟨_, rfl⟩ <;> intro c' j h' <;> cases h'
  have m1 : ∀ c' j, Obs.started c' j ∈ l ++ [o] ↔ Obs.started c' j ∈ l := by
    intro c' j; simp [(hn1 c' j).symm]
  have m2 : ∀ j b, Obs.finished j b ∈ l ++ [o] ↔ Obs.finished j b ∈ l := by
    intro j b; simp [(hn2 j b).symm]
  have hcalls : ∀ c', (s.setCall c x).calls c' = if c' = c then x else s.calls c' := fun _ => rfl
  refine ⟨?_, ?_, ?_, ?_, ?_, ?_, ?_, ?_, ?_, ?_, ?_, ?_⟩
  · intro j b hj; rw [m2]; exact h.status j b hj
  · intro c' j hc
    rw [m1]
    rw [hcalls] at hc
    split at hc
    · rcases hx with ⟨b, rfl, _⟩ | ⟨rfl, _⟩ <;> cases hc
    · exact h.polling c' j hc
  · intro c' j hj; exact h.fresh c' j ((m1 _ _).1 hj)
  · intro j hj
    obtain ⟨a, b⟩ := h.tasks j hj
    exact ⟨a, fun b' hb => b b' ((m2 _ _).1 hb)⟩
  · intro j b hj; exact h.fin j b ((m2 _ _).1 hj)
  · intro c1 c2 j h1 h2; exact h.owner c1 c2 j ((m1 _ _).1 h1) ((m1 _ _).1 h2)
  · intro j b b' h1 h2; exact h.once j b b' ((m2 _ _).1 h1) ((m2 _ _).1 h2)
  · intro c' hc
    rw [hcalls]
    split
    · rcases hx with ⟨b, rfl, _⟩ | ⟨rfl, _⟩
      · exact Or.inl ⟨b, rfl⟩
      · exact Or.inr rfl
    · rename_i hne
      refine h.ended c' ?_
      rcases hc with ⟨b, hb⟩ | hb
      · rcases List.mem_append.1 hb with hb | hb
        · exact Or.inl ⟨b, hb⟩
        · rw [List.mem_singleton] at hb
          rcases hx with ⟨b', _, rfl, _⟩ | ⟨_, rfl⟩
          · injection hb with hb; exact absurd hb hne
          · cases hb
      · rcases List.mem_append.1 hb with hb | hb
        · exact Or.inr hb
        · rw [List.mem_singleton] at hb
          rcases hx with ⟨b', _, rfl, _⟩ | ⟨_, rfl⟩
          · cases hb
          · injection hb with hb; exact absurd hb hne
  · intro c' j hj
    rw [hcalls]
    split
    · rcases hx with ⟨b, rfl, _⟩ | ⟨rfl, _⟩ <;> simp
    · exact h.idle c' j ((m1 _ _).1 hj)
  · intro c' j j' h1 h2; exact h.single c' j j' ((m1 _ _).1 h1) ((m1 _ _).1 h2)
  · intro c' hc
    simp only [m1, m2]
    rcases List.mem_append.1 hc with hc | hc
    · exact h.true_ c' hc
    · rw [List.mem_singleton] at hc
      rcases hx with ⟨b, _, rfl, hb⟩ | ⟨_, rfl⟩
      · injection hc with h1 h2
        subst h1
        exact hb h2.symm
      · cases hc
  · intro c' j hj
    rw [m1] at hj
    rw [hcalls]
    split
    · rename_i he
      subst he
      refine Or.inr ?_
      rcases hx with ⟨b, _, rfl, _⟩ | ⟨_, rfl⟩
      · exact Or.inl ⟨b, by simp⟩
      · exact Or.inr (by simp)
    · rcases h.open_ c' j hj with h1 | ⟨b, h1⟩ | h1
      · exact Or.inl h1
      · exact Or.inr (Or.inl ⟨b, List.mem_append_left _ h1⟩)
      · exact Or.inr (Or.inr (List.mem_append_left _ h1))

/-- A request of an idle call arrives. -/
theorem Inv.accept {l : List Obs} {s : State} (h : Inv l s) (c : Nat) (hc : s.calls c = .idle) :
    Inv (l ++ [.started c s.next]) (s.accept.setCall c (.polling s.next)) := by
  have hno : ∀ j, Obs.started c j ∉ l := fun j hj => h.idle c j hj hc
  have m1 : ∀ c' j, Obs.started c' j ∈ l ++ [.started c s.next] ↔ Obs.started c' j ∈ l ∨ (c' = c ∧ j = s.next) := by
    intro c' j; simp
  have m2 : ∀ j b, Obs.finished j b ∈ l ++ [.started c s.next] ↔ Obs.finished j b ∈ l := by
    intro j b; simp
  have m3 : ∀ c' b, Obs.returned c' b ∈ l ++ [.started c s.next] ↔ Obs.returned c' b ∈ l := by
    intro j b; simp
  have m4 : ∀ c', Obs.raised c' ∈ l ++ [.started c s.next] ↔ Obs.raised c' ∈ l := by
    intro j; simp
  have hcalls : ∀ c', (s.accept.setCall c (.polling s.next)).calls c' = if c' = c then .polling s.next else s.calls c' := fun _ => rfl
  have hnext : (s.accept.setCall c (.polling s.next)).next = s.next + 1 := rfl
  refine ⟨?_, ?_, ?_, ?_, ?_, ?_, ?_, ?_, ?_, ?_, ?_, ?_⟩
  · intro j b hj; rw [m2]; exact h.status j b hj
  · intro c' j hc'
    rw [hcalls] at hc'
    rw [m1]
    split at hc'
    · rename_i he; injection hc' with hc'; exact Or.inr ⟨he, hc'.symm⟩
    · exact Or.inl (h.polling c' j hc')
  · intro c' j hj
    rw [hnext]
    rcases (m1 _ _).1 hj with hj | ⟨_, rfl⟩
    · have := h.fresh c' j hj; omega
    · omega
  · intro j hj
    rw [hnext]
    rcases List.mem_append.1 (show j ∈ s.tasks ++ [s.next] from hj) with hj | hj
    · obtain ⟨a, b⟩ := h.tasks j hj
      exact ⟨by omega, fun b' hb => b b' ((m2 _ _).1 hb)⟩
    · rw [List.mem_singleton] at hj
      subst hj
      exact ⟨by omega, fun b hb => absurd (h.fin _ b ((m2 _ _).1 hb)) (by omega)⟩
  · intro j b hj; rw [hnext]; have := h.fin j b ((m2 _ _).1 hj); omega
  · intro c1 c2 j h1 h2
    rcases (m1 _ _).1 h1 with k1 | ⟨e1, f1⟩ <;> rcases (m1 _ _).1 h2 with k2 | ⟨e2, f2⟩
    · exact h.owner c1 c2 j k1 k2
    · have := h.fresh c1 j k1; omega
    · have := h.fresh c2 j k2; omega
    · rw [e1, e2]
  · intro j b b' h1 h2; exact h.once j b b' ((m2 _ _).1 h1) ((m2 _ _).1 h2)
  · intro c' hc'
    simp only [m3, m4] at hc'
    have h1 := h.ended c' hc'
    rw [hcalls]
    split
    · rename_i he
      subst he
      rw [hc] at h1
      rcases h1 with ⟨b, h1⟩ | h1 <;> cases h1
    · exact h1
  · intro c' j hj
    rw [hcalls]
    split
    · simp
    · rename_i hne
      rcases (m1 _ _).1 hj with hj | ⟨e, _⟩
      · exact h.idle c' j hj
      · exact absurd e hne
  · intro c' j j' h1 h2
    rcases (m1 _ _).1 h1 with k1 | ⟨e1, f1⟩ <;> rcases (m1 _ _).1 h2 with k2 | ⟨e2, f2⟩
    · exact h.single c' j j' k1 k2
    · rw [e2] at k1; exact absurd k1 (hno j)
    · rw [e1] at k2; exact absurd k2 (hno j')
    · rw [f1, f2]
  · intro c' hc'
    obtain ⟨j, h1, h2⟩ := h.true_ c' ((m3 _ _).1 hc')
    exact ⟨j, (m1 _ _).2 (Or.inl h1), (m2 _ _).2 h2⟩
  · intro c' j hj
    simp only [m3, m4]
    rw [hcalls]
    split
    · rename_i he
      subst he
      rcases (m1 _ _).1 hj with hj | ⟨_, rfl⟩
      · exact absurd hj (hno j)
      · exact Or.inl rfl
    · rename_i hne
      rcases (m1 _ _).1 hj with hj | ⟨e, _⟩
      · exact h.open_ c' j hj
      · exact absurd e hne

theorem setCall_setCall (s : State) (c : Nat) (x y : Call) : (s.setCall c x).setCall c y = s.setCall c y := by
  unfold State.setCall
  congr 1
  funext c'
  by_cases h : c' = c <;> simp [h]

theorem Inv.step {l : List Obs} {s : State} (h : Inv l s) (e : Ev) : Inv (l ++ (step s e).2) (step s e).1 := by
  have same : Inv (l ++ []) s := by rw [List.append_nil]; exact h
  cases e with
  | submit c n =>
    simp only [Reg.step]
    split
    · rename_i hc
      have hraise : Inv (l ++ [.started c s.next, .raised c]) (s.accept.setCall c .raised) := by
        have h1 := (h.accept c hc).endCall c .raised (.raised c) (Or.inr ⟨rfl, rfl⟩)
        rw [setCall_setCall, List.append_assoc] at h1
        exact h1
      have hraise' : Inv (l ++ [.raised c]) (s.setCall c .raised) := h.endCall c .raised (.raised c) (Or.inr ⟨rfl, rfl⟩)
      cases n with
      | ok => exact h.accept c hc
      | unreachable => exact h.endCall c (.returned false) (.returned c false) (Or.inl ⟨false, rfl, rfl, by simp⟩)
      | closed a => cases a <;> simp only [submit] <;> assumption
      | broken a => cases a <;> simp only [submit] <;> assumption
    · exact same
  | poll c n =>
    simp only [Reg.step]
    split
    · rename_i job hc
      cases n with
      | ok =>
        simp only [poll]
        split
        · exact same
        · rename_i b hb
          refine h.endCall c (.returned b) (.returned c b) (Or.inl ⟨b, rfl, rfl, ?_⟩)
          rintro rfl
          exact ⟨job, h.polling c job hc, h.status job true hb⟩
      | unreachable => exact h.endCall c .raised (.raised c) (Or.inr ⟨rfl, rfl⟩)
      | closed a => exact h.endCall c (.returned false) (.returned c false) (Or.inl ⟨false, rfl, rfl, by simp⟩)
      | broken a => exact h.endCall c .raised (.raised c) (Or.inr ⟨rfl, rfl⟩)
    · exact same
  | finish job b =>
    simp only [Reg.step]
    split
    · rename_i hj
      obtain ⟨hlt, hnf⟩ := h.tasks job hj
      have m1 : ∀ c' j, Obs.started c' j ∈ l ++ [.finished job b] ↔ Obs.started c' j ∈ l := by intro c' j; simp
      have m2 : ∀ j b', Obs.finished j b' ∈ l ++ [.finished job b] ↔ Obs.finished j b' ∈ l ∨ (j = job ∧ b' = b) := by
        intro j b'; simp
      have m3 : ∀ c' b', Obs.returned c' b' ∈ l ++ [.finished job b] ↔ Obs.returned c' b' ∈ l := by intro c' j; simp
      have m4 : ∀ c', Obs.raised c' ∈ l ++ [.finished job b] ↔ Obs.raised c' ∈ l := by intro c'; simp
      refine ⟨?_, ?_, ?_, ?_, ?_, ?_, ?_, ?_, ?_, ?_, ?_, ?_⟩
      · intro j b' hs
        rw [m2]
        simp only at hs
        split at hs
        · rename_i he; injection hs with hs; exact Or.inr ⟨he, hs.symm⟩
        · exact Or.inl (h.status j b' hs)
      · intro c j hc; rw [m1]; exact h.polling c j hc
      · intro c j hc; exact h.fresh c j ((m1 _ _).1 hc)
      · intro j hjm
        have hjm' := List.mem_filter.1 hjm
        obtain ⟨a, a'⟩ := h.tasks j hjm'.1
        refine ⟨a, fun b' hb => ?_⟩
        rcases (m2 _ _).1 hb with hb | ⟨rfl, _⟩
        · exact a' b' hb
        · simpa using hjm'.2
      · intro j b' hb
        rcases (m2 _ _).1 hb with hb | ⟨rfl, _⟩
        · exact h.fin j b' hb
        · exact hlt
      · intro c c' j h1 h2; exact h.owner c c' j ((m1 _ _).1 h1) ((m1 _ _).1 h2)
      · intro j b1 b2 h1 h2
        rcases (m2 _ _).1 h1 with k1 | ⟨e1, f1⟩ <;> rcases (m2 _ _).1 h2 with k2 | ⟨e2, f2⟩
        · exact h.once j b1 b2 k1 k2
        · rw [e2] at k1; exact absurd k1 (hnf b1)
        · rw [e1] at k2; exact absurd k2 (hnf b2)
        · rw [f1, f2]
      · intro c hc; simp only [m3, m4] at hc; exact h.ended c hc
      · intro c j hc; exact h.idle c j ((m1 _ _).1 hc)
      · intro c j j' h1 h2; exact h.single c j j' ((m1 _ _).1 h1) ((m1 _ _).1 h2)
      · intro c hc
        obtain ⟨j, h1, h2⟩ := h.true_ c ((m3 _ _).1 hc)
        exact ⟨j, (m1 _ _).2 h1, (m2 _ _).2 (Or.inl h2)⟩
      · intro c j hc
        simp only [m3, m4]
        exact h.open_ c j ((m1 _ _).1 hc)
    · exact same
  | restart =>
    simp only [Reg.step, List.append_nil]
    exact ⟨(fun j b hs => by cases hs), h.polling, h.fresh, (fun j hj => by cases hj), h.fin, h.owner, h.once, h.ended,
      h.idle, h.single, h.true_, h.open_⟩

theorem inv_run (es : List Ev) : Inv (log es) (run init es).1 := by
  induction es using List.reverseRecOn with
  | nil => exact inv_init
  | append_singleton es e ih => rw [log_snoc, run_snoc]; exact ih.step e

/-! ### Theorems -/

/-- **C67** (True is true). Whatever fails on the network, however many calls, tasks and restarts are interleaved: if a call
of `register_dataset` returns `True`, the server has started a registration for this very call, and it has succeeded. -/
theorem c67_true (es : List Ev) (c : Nat) (h : Obs.returned c true ∈ log es) :
    ∃ job, Obs.started c job ∈ log es ∧ Obs.finished job true ∈ log es := (inv_run es).true_ c h

/-- **C67** (tasks belong to one call and finish once). -/
theorem c67_own_task (es : List Ev) : (∀ c c' job, Obs.started c job ∈ log es → Obs.started c' job ∈ log es → c = c') ∧
    (∀ c job job', Obs.started c job ∈ log es → Obs.started c job' ∈ log es → job = job') ∧
    (∀ job b b', Obs.finished job b ∈ log es → Obs.finished job b' ∈ log es → b = b') :=
  ⟨(inv_run es).owner, (inv_run es).single, (inv_run es).once⟩

/-- **C67** (False, if the network works). If all exchanges of the call are delivered, `False` means that its registration
has failed, and the call never raises. Missing: with exchanges that are not delivered this is false, see
`c67_lost_answer`. -/
theorem c67_false_partial (es : List Ev) (c : Nat) (hd : Delivered c es) :
    (Obs.returned c false ∈ log es → ∃ job, Obs.started c job ∈ log es ∧ Obs.finished job false ∈ log es) ∧
    Obs.raised c ∉ log es := by
  induction es using List.reverseRecOn with
  | nil => exact ⟨(fun h => by cases h), (fun h => by cases h)⟩
  | append_singleton es e ih =>
    have hd' : Delivered c es := fun n => ⟨fun h => (hd n).1 (List.mem_append_left _ h), fun h => (hd n).2 (List.mem_append_left _ h)⟩
    obtain ⟨ih1, ih2⟩ := ih hd'
    have hi := inv_run es
    rw [log_snoc]
    have key : (Obs.returned c false ∈ (step (run init es).1 e).2 →
          ∃ job, Obs.started c job ∈ log es ∧ Obs.finished job false ∈ log es) ∧
        Obs.raised c ∉ (step (run init es).1 e).2 := by
      cases e with
      | submit c' n =>
        simp only [step]
        split
        · by_cases he : c' = c
          · subst he
            have hn := (hd n).1 (List.mem_append_right _ (List.mem_singleton.2 rfl))
            subst hn
            simp [submit]
          · have he' : c ≠ c' := Ne.symm he
            cases n with
            | ok => simp [submit]
            | unreachable => simp [submit, he']
            | closed a => cases a <;> simp [submit, he']
            | broken a => cases a <;> simp [submit, he']
        · simp
      | poll c' n =>
        simp only [step]
        split
        · rename_i job hc
          by_cases he : c' = c
          · subst he
            have hn := (hd n).2 (List.mem_append_right _ (List.mem_singleton.2 rfl))
            subst hn
            simp only [poll]
            split
            · simp
            · rename_i b hb
              constructor
              · intro hm
                rw [List.mem_singleton] at hm
                injection hm with _ hm
                subst hm
                exact ⟨job, hi.polling c' job hc, hi.status job false hb⟩
              · simp
          · have he' : c ≠ c' := Ne.symm he
            cases n with
            | ok =>
              simp only [poll]
              split
              · simp
              · simp [he']
            | unreachable => simp [poll, he']
            | closed a => simp [poll, he']
            | broken a => simp [poll, he']
        · simp
      | finish job b => simp only [step]; split <;> simp
      | restart => simp [step]
    constructor
    · intro hm
      rcases List.mem_append.1 hm with hm | hm
      · obtain ⟨j, h1, h2⟩ := ih1 hm
        exact ⟨j, List.mem_append_left _ h1, List.mem_append_left _ h2⟩
      · obtain ⟨j, h1, h2⟩ := key.1 hm
        exact ⟨j, List.mem_append_left _ h1, List.mem_append_left _ h2⟩
    · intro hm
      rcases List.mem_append.1 hm with hm | hm
      · exact ih2 hm
      · exact key.2 hm

/-- The status table between restarts. -/
theorem status_kept (es : List Ev) (hr : Ev.restart ∉ es) (j : Nat) (b : Bool) (h : Obs.finished j b ∈ log es) :
    (run init es).1.status j = some b := by
  induction es using List.reverseRecOn with
  | nil => cases h
  | append_singleton es e ih =>
    have hr' : Ev.restart ∉ es := fun h => hr (List.mem_append_left _ h)
    have ih := ih hr'
    have hi := inv_run es
    rw [log_snoc] at h
    rw [run_snoc]
    cases e with
    | submit c n =>
      have hs : (step (run init es).1 (.submit c n)).1.status = (run init es).1.status := by
        simp only [step]
        split
        · cases n with
          | ok => rfl
          | unreachable => rfl
          | closed a => cases a <;> rfl
          | broken a => cases a <;> rfl
        · rfl
      have hf : Obs.finished j b ∉ (step (run init es).1 (.submit c n)).2 := by
        simp only [step]
        split
        · cases n with
          | ok => simp [submit]
          | unreachable => simp [submit]
          | closed a => cases a <;> simp [submit]
          | broken a => cases a <;> simp [submit]
        · simp
      rw [hs]
      exact ih ((List.mem_append.1 h).resolve_right hf)
    | poll c n =>
      have hs : (step (run init es).1 (.poll c n)).1.status = (run init es).1.status := by
        simp only [step]
        split
        · cases n with
          | ok => simp only [poll]; split <;> rfl
          | unreachable => rfl
          | closed a => rfl
          | broken a => rfl
        · rfl
      have hf : Obs.finished j b ∉ (step (run init es).1 (.poll c n)).2 := by
        simp only [step]
        split
        · cases n with
          | ok => simp only [poll]; split <;> simp
          | unreachable => simp [poll]
          | closed a => simp [poll]
          | broken a => simp [poll]
        · simp
      rw [hs]
      exact ih ((List.mem_append.1 h).resolve_right hf)
    | finish job b' =>
      simp only [step] at h ⊢
      split
      · rename_i hj
        rw [if_pos hj] at h
        simp only
        rcases List.mem_append.1 h with hh | hh
        · have hne : j ≠ job := by
            intro he
            rw [he] at hh
            exact (hi.tasks job hj).2 b hh
          rw [if_neg hne]; exact ih hh
        · rw [List.mem_singleton] at hh
          injection hh with h1 h2
          rw [if_pos h1, h2]
      · rename_i hj
        rw [if_neg hj, List.append_nil] at h
        exact ih h
    | restart => exact absurd (List.mem_append_right _ (List.mem_singleton.2 rfl)) hr

/-- **C67** (the answer comes with the next poll). While the server is not restarted: for a call whose registration was
started and that has not ended, a delivered poll ends the call exactly if the registration has finished, with its result. -/
theorem c67_next_poll (es : List Ev) (hr : Ev.restart ∉ es) (c job : Nat) (hs : Obs.started c job ∈ log es)
    (ho : ¬ Ended c es) (b : Bool) :
    Obs.returned c b ∈ log (es ++ [.poll c .ok]) ↔ Obs.finished job b ∈ log es := by
  have hi := inv_run es
  have hp : (run init es).1.calls c = .polling job := by
    rcases hi.open_ c job hs with h | h
    · exact h
    · exact absurd h ho
  have hnot : Obs.returned c b ∉ log es := fun h => ho (Or.inl ⟨b, h⟩)
  rw [log_snoc]
  have e : step (run init es).1 (.poll c .ok) = poll (run init es).1 c job .ok := by simp only [step, hp]
  rw [e]
  simp only [poll]
  constructor
  · intro h
    have h := (List.mem_append.1 h).resolve_left hnot
    cases hst : (run init es).1.status job with
    | none => rw [hst] at h; simp at h
    | some b' =>
      rw [hst] at h
      simp at h
      subst h
      exact hi.status job b hst
  · intro h
    rw [status_kept es hr job b h]
    exact List.mem_append_right _ (by simp)

/-- **C67** (deviation: a restart of the server). If the server is restarted while a call is waiting, the call never ends
any more as long as its polls are delivered, whether its registration had finished or not. -/
theorem c67_restart_waits_forever (es : List Ev) (c job : Nat) (hs : Obs.started c job ∈ log es) (ho : ¬ Ended c es)
    (es' : List Ev) (hd : Delivered c es') : ¬ Ended c (es ++ .restart :: es') := by
  have hi := inv_run es
  have hp : (run init es).1.calls c = .polling job := by
    rcases hi.open_ c job hs with h | h
    · exact h
    · exact absurd h ho
  have hlt := hi.fresh c job hs
  suffices h : ¬ Ended c (es ++ .restart :: es') ∧ (run init (es ++ .restart :: es')).1.calls c = .polling job ∧
      (run init (es ++ .restart :: es')).1.status job = none ∧ job ∉ (run init (es ++ .restart :: es')).1.tasks ∧
      job < (run init (es ++ .restart :: es')).1.next from h.1
  induction es' using List.reverseRecOn with
  | nil =>
    rw [run_snoc]
    refine ⟨?_, hp, rfl, by simp [step], hlt⟩
    unfold Ended at ho ⊢
    rw [log_snoc]
    simpa [step] using ho
  | append_singleton es' e ih =>
    have hd' : Delivered c es' := fun n => ⟨fun h => (hd n).1 (List.mem_append_left _ h), fun h => (hd n).2 (List.mem_append_left _ h)⟩
    obtain ⟨i1, i2, i3, i4, i5⟩ := ih hd'
    have e' : es ++ .restart :: (es' ++ [e]) = (es ++ .restart :: es') ++ [e] := by simp
    rw [e', run_snoc]
    have fin : (∀ b, Obs.returned c b ∉ (step (run init (es ++ .restart :: es')).1 e).2) →
        Obs.raised c ∉ (step (run init (es ++ .restart :: es')).1 e).2 → ¬ Ended c ((es ++ .restart :: es') ++ [e]) := by
      intro h1 h2 h3
      unfold Ended at h3 i1
      rw [log_snoc] at h3
      refine i1 ?_
      rcases h3 with ⟨b, h3⟩ | h3
      · exact Or.inl ⟨b, (List.mem_append.1 h3).resolve_right (h1 b)⟩
      · exact Or.inr ((List.mem_append.1 h3).resolve_right h2)
    revert fin
    generalize (run init (es ++ .restart :: es')).1 = s at i2 i3 i4 i5
    intro fin
    cases e with
    | submit c' n =>
      by_cases he : c' = c
      · subst he
        have hst : step s (.submit c' n) = (s, []) := by simp only [step, i2]
        rw [hst] at fin ⊢
        exact ⟨fin (by simp) (by simp), i2, i3, i4, i5⟩
      · have he' : c ≠ c' := Ne.symm he
        simp only [step] at fin ⊢
        cases hc' : s.calls c' with
        | idle =>
          simp only [hc'] at fin ⊢
          have hcall : ∀ (s' : State) x, (s'.setCall c' x).calls c = s'.calls c := by
            intro s' x; simp [State.setCall, he']
          have hnt : job ∉ s.tasks ++ [s.next] := by
            intro h
            rcases List.mem_append.1 h with h | h
            · exact i4 h
            · rw [List.mem_singleton] at h; omega
          cases n with
          | ok => exact ⟨fin (by simp [submit]) (by simp [submit]), by simp only [submit, hcall]; exact i2, i3, hnt,
              by show job < s.next + 1; omega⟩
          | unreachable => exact ⟨fin (by simp [submit, he']) (by simp [submit]), by simp only [submit, hcall]; exact i2, i3, i4, i5⟩
          | closed a =>
            cases a
            · exact ⟨fin (by simp [submit]) (by simp [submit, he']), by simp only [submit]; simp [hcall, i2], i3, i4, i5⟩
            · exact ⟨fin (by simp [submit]) (by simp [submit, he']), by simp only [submit, if_true, hcall]; exact i2, i3, hnt,
                by show job < s.next + 1; omega⟩
          | broken a =>
            cases a
            · exact ⟨fin (by simp [submit]) (by simp [submit, he']), by simp only [submit]; simp [hcall, i2], i3, i4, i5⟩
            · exact ⟨fin (by simp [submit]) (by simp [submit, he']), by simp only [submit, if_true, hcall]; exact i2, i3, hnt,
                by show job < s.next + 1; omega⟩
        | polling j => simp only [hc'] at fin ⊢; exact ⟨fin (by simp) (by simp), i2, i3, i4, i5⟩
        | returned b => simp only [hc'] at fin ⊢; exact ⟨fin (by simp) (by simp), i2, i3, i4, i5⟩
        | raised => simp only [hc'] at fin ⊢; exact ⟨fin (by simp) (by simp), i2, i3, i4, i5⟩
    | poll c' n =>
      by_cases he : c' = c
      · subst he
        have hn := (hd n).2 (List.mem_append_right _ (List.mem_singleton.2 rfl))
        subst hn
        have hst : step s (.poll c' .ok) = (s, []) := by simp only [step, i2, poll, i3]
        rw [hst] at fin ⊢
        exact ⟨fin (by simp) (by simp), i2, i3, i4, i5⟩
      · have he' : c ≠ c' := Ne.symm he
        have hcall : ∀ (s' : State) x, (s'.setCall c' x).calls c = s'.calls c := by
          intro s' x; simp [State.setCall, he']
        simp only [step] at fin ⊢
        cases hc' : s.calls c' with
        | polling j =>
          simp only [hc'] at fin ⊢
          cases n with
          | ok =>
            simp only [poll] at fin ⊢
            cases hst : s.status j with
            | none => simp only [hst] at fin ⊢; exact ⟨fin (by simp) (by simp), i2, i3, i4, i5⟩
            | some b => simp only [hst] at fin ⊢; exact ⟨fin (by simp [he']) (by simp), by rw [hcall]; exact i2, i3, i4, i5⟩
          | unreachable => exact ⟨fin (by simp [poll]) (by simp [poll, he']), by simp only [poll, hcall]; exact i2, i3, i4, i5⟩
          | closed a => exact ⟨fin (by simp [poll, he']) (by simp [poll]), by simp only [poll, hcall]; exact i2, i3, i4, i5⟩
          | broken a => exact ⟨fin (by simp [poll]) (by simp [poll, he']), by simp only [poll, hcall]; exact i2, i3, i4, i5⟩
        | idle => simp only [hc'] at fin ⊢; exact ⟨fin (by simp) (by simp), i2, i3, i4, i5⟩
        | returned b => simp only [hc'] at fin ⊢; exact ⟨fin (by simp) (by simp), i2, i3, i4, i5⟩
        | raised => simp only [hc'] at fin ⊢; exact ⟨fin (by simp) (by simp), i2, i3, i4, i5⟩
    | finish j b =>
      simp only [step] at fin ⊢
      by_cases hj : j ∈ s.tasks
      · rw [if_pos hj] at fin ⊢
        have hne : job ≠ j := by rintro rfl; exact i4 hj
        refine ⟨fin (by simp) (by simp), i2, ?_, ?_, i5⟩
        · simp only; rw [if_neg hne]; exact i3
        · intro h; exact i4 (List.mem_filter.1 h).1
      · rw [if_neg hj] at fin ⊢
        exact ⟨fin (by simp) (by simp), i2, i3, i4, i5⟩
    | restart => exact ⟨fin (by simp [step]) (by simp [step]), i2, rfl, by simp [step], i5⟩

/-- **C67** (deviation: a poll without an answer). A call whose poll is not answered returns `False`, although its
registration succeeds later; and a call whose first exchange is not answered raises, although its registration succeeds. -/
theorem c67_lost_answer :
    log [.submit 0 .ok, .poll 0 (.closed true), .finish 0 true] = [.started 0 0, .returned 0 false, .finished 0 true] ∧
    log [.submit 0 (.closed true), .finish 0 true] = [.started 0 0, .raised 0, .finished 0 true] := by
  decide +kernel

theorem waitLoop_eq (ans : Nat → Ans) : ∀ fuel k, waitLoop ans fuel k = .code 1 ↔
    ∃ i, i ≤ fuel ∧ ans (k + i) = .code 1 ∧ ∀ i', i' < i → (ans (k + i')).pending = true := by
  intro fuel
  induction fuel with
  | zero =>
    intro k
    simp only [waitLoop]
    constructor
    · intro h; exact ⟨0, Nat.le_refl _, h, fun i' h' => absurd h' (Nat.not_lt_zero _)⟩
    · rintro ⟨i, hi, h, _⟩
      obtain rfl : i = 0 := by omega
      exact h
  | succ fuel ih =>
    intro k
    simp only [waitLoop]
    split
    · rename_i hp
      rw [ih]
      constructor
      · rintro ⟨i, hi, h, hb⟩
        refine ⟨i + 1, by omega, by rw [← h]; congr 1; omega, fun i' hi' => ?_⟩
        rcases i' with _ | i'
        · exact hp
        · have := hb i' (by omega)
          rw [show k + (i' + 1) = k + 1 + i' by omega]; exact this
      · rintro ⟨i, hi, h, hb⟩
        rcases i with _ | i
        · rw [show k + 0 = k from rfl] at h
          rw [h] at hp; cases hp
        · refine ⟨i, by omega, by rw [← h]; congr 1; omega, fun i' hi' => ?_⟩
          rw [show k + 1 + i' = k + (i' + 1) by omega]
          exact hb (i' + 1) (by omega)
    · rename_i hp
      constructor
      · intro h; exact ⟨0, by omega, h, fun i' h' => absurd h' (Nat.not_lt_zero _)⟩
      · rintro ⟨i, hi, h, hb⟩
        rcases i with _ | i
        · exact h
        · exact absurd (hb 0 (by omega)) hp

/-- **C67** (waiting for a query). `wait_for_execution` returns `True` exactly if one of the first 1802 status requests is
answered with "succeeded" and before it every request was answered with "pending" or could not be sent at all. -/
theorem c67_wait (ans : Nat → Ans) : waitForExecution ans = true ↔
    ∃ k, k ≤ 1801 ∧ ans k = .code 1 ∧ ∀ i, i < k → ans i = .code 0 ∨ ans i = .unreachable := by
  unfold waitForExecution
  rw [decide_eq_true_iff, waitLoop_eq]
  refine exists_congr fun k => and_congr Iff.rfl ?_
  rw [Nat.zero_add]
  refine and_congr Iff.rfl (forall_congr' fun i => imp_congr Iff.rfl ?_)
  rw [Nat.zero_add]
  cases ans i with
  | code z => simp [Ans.pending]
  | closed => simp [Ans.pending]
  | unreachable => simp [Ans.pending]

/-! ### Examples -/

/-- Two calls; the first one fails, the second one succeeds; the polls are interleaved. -/
example : log [.submit 0 .ok, .poll 0 .ok, .submit 1 .ok, .finish 1 true, .poll 0 .ok, .poll 1 .ok, .finish 0 false, .poll 0 .ok] =
    [.started 0 0, .started 1 1, .finished 1 true, .returned 1 true, .finished 0 false, .returned 0 false] := by decide +kernel

/-- `c67_restart_waits_forever` applies. -/
example : Obs.started 0 0 ∈ log [.submit 0 .ok, .finish 0 true] ∧ ¬ Ended 0 [.submit 0 .ok, .finish 0 true] ∧
    Delivered 0 [.poll 0 .ok, .poll 0 .ok] := by
  refine ⟨by decide +kernel, ?_, fun n => ⟨by simp, by simp⟩⟩
  unfold Ended
  rw [show log [.submit 0 .ok, .finish 0 true] = [.started 0 0, .finished 0 true] by decide +kernel]
  simp

example : waitForExecution (fun k => if k < 5 then .code 0 else .code 1) = true ∧
    waitForExecution (fun k => if k < 5 then .code 0 else .code 2) = false := by decide +kernel

end Mixtera.Reg
