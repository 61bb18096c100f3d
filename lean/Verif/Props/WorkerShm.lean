import Verif.Model.WorkerShm
import Mathlib.Data.List.Induction

/-! # C65: the shared memory of the data loader workers -/

namespace Mixtera.Shm

/-! ### Specification -/

/-- The position of worker `w` after a history: the index of its last sample since it was last started. -/
def position (w : Nat) : List (Ev × Bool) → Int := fun h => h.foldl (fun i e =>
  match e with
  | (.start v, true) => if v = w then 0 else i
  | (.give v j, true) => if v = w then j else i
  | _ => i) 0

/-- The history contains an event that took place. -/
def Happened (e : Ev) (h : List (Ev × Bool)) : Prop := (e, true) ∈ h

/-- The last thing that took place for worker `w`, besides yielding samples, is `e`. -/
def LastOf (w : Nat) (e : Ev) (h : List (Ev × Bool)) : Prop :=
  ∃ before after, h = before ++ (e, true) :: after ∧
    ∀ x ∈ [Ev.start w, .finish w, .abort w, .kill w], (x, true) ∉ after

/-! ### Lemmas -/

theorem run_append (m : Mode) (es es' : List Ev) : ∀ s, run m s (es ++ es') =
    ((run m (run m s es).1 es').1, (run m s es).2 ++ (run m (run m s es).1 es').2) := by
  induction es with
  | nil => intro s; rfl
  | cons e es ih => intro s; simp only [List.cons_append, run, ih]

theorem run_snoc (m : Mode) (es : List Ev) (e : Ev) (s : State) : run m s (es ++ [e]) =
    ((step m (run m s es).1 e).1, (run m s es).2 ++ [(e, (step m (run m s es).1 e).2)]) := by
  rw [run_append]; rfl

@[simp] theorem unlink_fields (s : State) : s.unlink.workers = s.workers ∧ s.unlink.linked = false ∧
    s.unlink.status = s.status ∧ s.unlink.comp = s.comp ∧ s.unlink.main = s.main ∧ s.unlink.running = s.running := by
  unfold State.unlink
  split
  · exact ⟨rfl, rfl, rfl, rfl, rfl, rfl⟩
  · rename_i h; exact ⟨rfl, by simpa using h, rfl, rfl, rfl, rfl⟩

@[simp] theorem close_fields (m : Mode) (s : State) : (s.close m).workers = s.workers ∧ (s.close m).linked = s.linked ∧
    (s.close m).status = s.status ∧ (s.close m).comp = s.comp ∧ (s.close m).running = s.running ∧
    (s.close m).unlinked = s.unlinked ∧ (s.close m).failed = s.failed := by
  unfold State.close
  split <;> exact ⟨rfl, rfl, rfl, rfl, rfl, rfl, rfl⟩

/-- What finishing does to the fields. -/
theorem finish_fields (m : Mode) (s : State) (w : Nat) : (finish m s w).workers = s.workers ∧
    (finish m s w).status = s.status ∧ (finish m s w).comp = put s.comp w true ∧
    (finish m s w).running = put s.running w false ∧
    (finish m s w).linked = (s.linked && !(List.range s.workers).all (put s.comp w true)) := by
  unfold finish
  simp only
  split
  · rename_i h
    split <;> simp [h]
  · rename_i h
    simp [h]

theorem close_main (m : Mode) (h : m ≠ .inMain) (s : State) : s.close m = s := by
  unfold State.close; rw [if_neg h]

theorem finish_main (m : Mode) (h : m ≠ .inMain) (s : State) (w : Nat) : (finish m s w).main = s.main := by
  unfold finish
  simp only [close_main m h]
  split
  · split <;> simp
  · rfl

theorem finish_counts {m : Mode} (hm : m ≠ .inMain) {s : State} (hl : s.linked = true) (w : Nat) :
    (finish m s w).failed = s.failed ∧
    (finish m s w).unlinked = if (List.range s.workers).all (put s.comp w true) = true then s.unlinked + 1 else s.unlinked := by
  unfold finish State.unlink
  simp only [close_main m hm, hl, if_true]
  split <;> exact ⟨rfl, rfl⟩

theorem step_workers (m : Mode) (s : State) (e : Ev) : (step m s e).1.workers = s.workers := by
  cases e with
  | start w => simp only [step, start]; split; · rfl
               split; · rfl
               split <;> simp
  | give w i => simp only [step]; split <;> rfl
  | finish w => simp only [step]; split; · exact (finish_fields m s w).1
                rfl
  | abort w => simp only [step]; split <;> simp
  | kill w => simp only [step]; split <;> rfl
  | exit => simp only [step]; split <;> simp

theorem run_workers (m : Mode) (es : List Ev) : ∀ s, (run m s es).1.workers = s.workers := by
  induction es with
  | nil => intro s; rfl
  | cons e es ih => intro s; simp only [run]; rw [ih, step_workers]

theorem step_main (m : Mode) (h : m ≠ .inMain) (s : State) (e : Ev) : (step m s e).1.main = s.main := by
  cases e with
  | start w => simp only [step, start, close_main m h]; split; · rfl
               split; · rfl
               split <;> simp
  | give w i => simp only [step]; split <;> rfl
  | finish w => simp only [step]; split; · exact finish_main m h s w
                rfl
  | abort w => simp only [step, close_main m h]; split <;> simp
  | kill w => simp only [step]; split <;> rfl
  | exit => simp only [step]; split <;> simp

theorem run_main (m : Mode) (h : m ≠ .inMain) (es : List Ev) : ∀ s, (run m s es).1.main = s.main := by
  induction es with
  | nil => intro s; rfl
  | cons e es ih => intro s; simp only [run]; rw [ih, step_main m h]

theorem put_apply {β : Type} (a : Nat → β) (w v : Nat) (x : β) : put a w x v = if v = w then x else a v := rfl

theorem position_snoc (w : Nat) (h : List (Ev × Bool)) (e : Ev × Bool) : position w (h ++ [e]) =
    (match e with
    | (.start v, true) => if v = w then 0 else position w h
    | (.give v j, true) => if v = w then j else position w h
    | _ => position w h) := by
  unfold position
  rw [List.foldl_append]
  rfl

theorem step_status (m : Mode) (s : State) (e : Ev) (w : Nat) : (step m s e).1.status w =
    (match (e, (step m s e).2) with
    | (.start v, true) => if v = w then 0 else s.status w
    | (.give v j, true) => if v = w then j else s.status w
    | _ => s.status w) := by
  have swap : ∀ v : Nat, ∀ a b : Int, (if w = v then a else b) = if v = w then a else b := by
    intro v a b
    by_cases h : v = w
    · rw [if_pos h, if_pos h.symm]
    · rw [if_neg h, if_neg (Ne.symm h)]
  cases e with
  | start v => simp only [step, start]; split; · rfl
               split; · rfl
               split
               · simp
               · simp only [put_apply]; exact swap v _ _
  | give v i => simp only [step]; split
                · simp only [put_apply]; exact swap v _ _
                · rfl
  | finish v => simp only [step]; split
                · simp only [(finish_fields m s v).2.1]
                · rfl
  | abort v => simp only [step]; split <;> simp
  | kill v => simp only [step]; split <;> rfl
  | exit => simp only [step]; split <;> simp

theorem run_status (m : Mode) (n : Nat) (es : List Ev) (w : Nat) :
    (run m (init n) es).1.status w = position w (run m (init n) es).2 := by
  induction es using List.reverseRecOn with
  | nil => rfl
  | append_singleton es e ih =>
    rw [run_snoc, position_snoc, step_status, ih]

/-! ### Theorems -/

/-- **C65** (positions). With worker processes, however they are started, interleaved, ended, interrupted or killed, and
whoever unlinks the segments: the main process always sees, for every worker, the index of its last sample since it was last
started. -/
theorem c65_status (m : Mode) (hm : m ≠ .inMain) (n : Nat) (es : List Ev) :
    (run m (init n) es).1.workerStatus =
      some ((List.range (max n 1)).map fun w => position w (run m (init n) es).2) := by
  unfold State.workerStatus
  rw [run_main m hm, run_workers]
  show (if true = true then _ else _) = _
  rw [if_pos rfl]
  congr 1
  exact List.map_congr_left fun w _ => run_status m n es w

/-- What ties the flags to the history. -/
structure Flags (h : List (Ev × Bool)) (s : State) : Prop where
  /-- the segments are unlinked when all flags are set -/
  all : s.linked = true → (List.range s.workers).all s.comp = false
  /-- a worker whose last event is its end has its flag set -/
  ended : ∀ w, LastOf w (.finish w) h → s.comp w = true
  /-- leaving early unlinks -/
  aborted : ∀ w, Happened (.abort w) h → s.linked = false
  exited : Happened .exit h → s.linked = false
  running : ∀ w, s.running w = true → w < s.workers

theorem not_mem_snoc_last {w : Nat} {e : Ev} {h : List (Ev × Bool)} {x : Ev × Bool} (hl : LastOf w e (h ++ [x]))
    (hx : x ≠ (e, true)) : LastOf w e h ∧ ∀ y ∈ [Ev.start w, .finish w, .abort w, .kill w], x ≠ (y, true) := by
  obtain ⟨b, a, he, hn⟩ := hl
  rcases List.eq_nil_or_concat a with rfl | ⟨a', y, rfl⟩
  · obtain ⟨_, h2⟩ := List.append_inj' he rfl
    exact absurd (by simpa using h2) hx
  · rw [List.concat_eq_append] at he hn
    have he' : h ++ [x] = (b ++ (e, true) :: a') ++ [y] := by rw [he]; simp
    obtain ⟨h1, h2⟩ := List.append_inj' he' rfl
    obtain rfl : x = y := by simpa using h2
    refine ⟨⟨b, a', h1, fun z hz hmem => hn z hz (List.mem_append_left _ hmem)⟩, fun z hz e => ?_⟩
    exact hn z hz (List.mem_append_right _ (by rw [e]; simp))

theorem happened_snoc {e : Ev} {h : List (Ev × Bool)} {x : Ev × Bool} (hh : Happened e (h ++ [x])) :
    Happened e h ∨ x = (e, true) := by
  rcases List.mem_append.1 hh with h | h
  · exact Or.inl h
  · exact Or.inr (List.mem_singleton.1 h).symm

theorem linked_mono (m : Mode) (s : State) (e : Ev) (h : s.linked = false) : (step m s e).1.linked = false := by
  cases e with
  | start w => simp only [step, start]; split; · exact h
               split; · exact h
               split <;> simp [h]
  | give w i => simp only [step]; split <;> exact h
  | finish w => simp only [step]; split
                · rw [(finish_fields m s w).2.2.2.2, h]; rfl
                · exact h
  | abort w => simp only [step]; split <;> simp [h]
  | kill w => simp only [step]; split <;> exact h
  | exit => simp only [step]; split <;> simp [h]

theorem flags_step (m : Mode) {h : List (Ev × Bool)} {s : State} (hf : Flags h s) (e : Ev) :
    Flags (h ++ [(e, (step m s e).2)]) (step m s e).1 := by
  have old : ∀ (w : Nat) (b : Bool), e ≠ .finish w → LastOf w (.finish w) (h ++ [(e, b)]) → s.comp w = true := by
    intro w b hne hl
    exact hf.ended w (not_mem_snoc_last hl (fun he => hne (Prod.mk.inj he).1)).1
  cases e with
  | start w =>
    have habort : ∀ v, Happened (.abort v) (h ++ [(.start w, (step m s (.start w)).2)]) → (step m s (.start w)).1.linked = false := by
      intro v hv
      rcases happened_snoc hv with hv | hv
      · exact linked_mono _ _ _ (hf.aborted v hv)
      · cases hv
    have hexit : Happened .exit (h ++ [(.start w, (step m s (.start w)).2)]) → (step m s (.start w)).1.linked = false := by
      intro hv
      rcases happened_snoc hv with hv | hv
      · exact linked_mono _ _ _ (hf.exited hv)
      · cases hv
    refine ⟨?_, ?_, habort, hexit, ?_⟩
    · simp only [step, start]
      split; · exact hf.all
      split; · exact hf.all
      split
      · simp
      · rename_i hw
        intro _
        rw [List.all_eq_false]
        exact ⟨w, List.mem_range.2 (by simpa using hw), by simp [put]⟩
    · intro v hl
      have hs := (not_mem_snoc_last hl (by simp)).2
      have h0 := old v _ (by simp) hl
      have hne : (step m s (.start w)).2 = true → v ≠ w := by
        rintro ht rfl
        exact hs (.start v) (by simp) (by rw [ht])
      revert hne
      simp only [step, start]
      split; · exact fun _ => h0
      split; · exact fun _ => h0
      split
      · intro _; simpa using h0
      · intro hne
        simp only [put_apply]
        rw [if_neg (hne rfl)]; exact h0
    · intro v
      simp only [step, start]
      split; · exact hf.running v
      split; · exact hf.running v
      split
      · simpa using hf.running v
      · rename_i hw
        simp only [put_apply]
        split
        · rename_i he; intro _; omega
        · exact hf.running v
  | give w i =>
    refine ⟨?_, ?_, ?_, ?_, ?_⟩
    · simp only [step]; split <;> exact hf.all
    · intro v hl
      have h0 := old v _ (by simp) hl
      simp only [step]; split <;> exact h0
    · intro v hv
      rcases happened_snoc hv with hv | hv
      · exact linked_mono _ _ _ (hf.aborted v hv)
      · cases hv
    · intro hv
      rcases happened_snoc hv with hv | hv
      · exact linked_mono _ _ _ (hf.exited hv)
      · cases hv
    · intro v; simp only [step]; split <;> exact hf.running v
  | finish w =>
    refine ⟨?_, ?_, ?_, ?_, ?_⟩
    · simp only [step]
      split
      · obtain ⟨f1, f2, f3, f4, f5⟩ := finish_fields m s w
        rw [f1, f3, f5]
        intro hl
        simpa using (Bool.and_eq_true_iff.1 hl).2
      · exact hf.all
    · intro v hl
      simp only [step]
      split
      · rw [(finish_fields m s w).2.2.1, put_apply]
        split
        · rfl
        · rename_i hv
          exact old v _ (fun he => hv (Ev.finish.inj he).symm) hl
      · rename_i hr
        refine hf.ended v (not_mem_snoc_last hl ?_).1
        simp [step, hr]
    · intro v hv
      rcases happened_snoc hv with hv | hv
      · exact linked_mono _ _ _ (hf.aborted v hv)
      · cases hv
    · intro hv
      rcases happened_snoc hv with hv | hv
      · exact linked_mono _ _ _ (hf.exited hv)
      · cases hv
    · intro v
      simp only [step]
      split
      · obtain ⟨f1, f2, f3, f4, f5⟩ := finish_fields m s w
        rw [f1, f4, put_apply]
        split
        · intro h; cases h
        · exact hf.running v
      · exact hf.running v
  | abort w =>
    refine ⟨?_, ?_, ?_, ?_, ?_⟩
    · simp only [step]; split
      · simp
      · exact hf.all
    · intro v hl
      have h0 := old v _ (by simp) hl
      simp only [step]; split
      · simpa using h0
      · exact h0
    · intro v hv
      rcases happened_snoc hv with hv | hv
      · exact linked_mono _ _ _ (hf.aborted v hv)
      · simp only [step] at hv ⊢
        split at hv
        · rename_i hr; rw [if_pos hr]; simp
        · cases hv
    · intro hv
      rcases happened_snoc hv with hv | hv
      · exact linked_mono _ _ _ (hf.exited hv)
      · cases hv
    · intro v; simp only [step]; split
      · simp only [close_fields, unlink_fields, put_apply]
        split
        · intro h; cases h
        · exact hf.running v
      · exact hf.running v
  | kill w =>
    refine ⟨?_, ?_, ?_, ?_, ?_⟩
    · simp only [step]; split <;> exact hf.all
    · intro v hl
      have h0 := old v _ (by simp) hl
      simp only [step]; split <;> exact h0
    · intro v hv
      rcases happened_snoc hv with hv | hv
      · exact linked_mono _ _ _ (hf.aborted v hv)
      · cases hv
    · intro hv
      rcases happened_snoc hv with hv | hv
      · exact linked_mono _ _ _ (hf.exited hv)
      · cases hv
    · intro v; simp only [step]; split
      · simp only [put_apply]
        split
        · intro h; cases h
        · exact hf.running v
      · exact hf.running v
  | exit =>
    refine ⟨?_, ?_, ?_, ?_, ?_⟩
    · simp only [step]; split
      · simp
      · exact hf.all
    · intro v hl
      have h0 := old v _ (by simp) hl
      simp only [step]; split
      · simpa using h0
      · exact h0
    · intro v hv
      rcases happened_snoc hv with hv | hv
      · exact linked_mono _ _ _ (hf.aborted v hv)
      · cases hv
    · intro hv
      simp only [step]; split
      · simp
      · rename_i hl; simpa using hl
    · intro v; simp only [step]; split
      · simpa using hf.running v
      · exact hf.running v

theorem flags_run (m : Mode) (n : Nat) (es : List Ev) : Flags (run m (init n) es).2 (run m (init n) es).1 := by
  induction es using List.reverseRecOn with
  | nil =>
    refine ⟨fun _ => ?_, fun w h => ?_, fun w h => ?_, fun h => ?_, fun w h => by cases h⟩
    · rw [List.all_eq_false]
      exact ⟨0, List.mem_range.2 (by show 0 < max n 1; omega), by simp [run, init]⟩
    · obtain ⟨b, a, e, _⟩ := h; simp [run] at e
    · cases h
    · cases h
  | append_singleton es e ih => rw [run_snoc]; exact flags_step m ih e

/-- **C65** (no leak). However the processes are started and interleaved, in any number of epochs: if every one of the
`num_workers` workers has come to the end of its stream, or one of them has left its iteration early, or the main process
has ended, then the segments' names are gone. -/
theorem c65_unlinked (m : Mode) (n : Nat) (es : List Ev)
    (h : (∀ w, w < max n 1 → LastOf w (.finish w) (run m (init n) es).2) ∨
      (∃ w, Happened (.abort w) (run m (init n) es).2) ∨ Happened .exit (run m (init n) es).2) :
    (run m (init n) es).1.linked = false := by
  have hf := flags_run m n es
  rcases h with h | ⟨w, h⟩ | h
  · cases hl : (run m (init n) es).1.linked
    · rfl
    · have ha := hf.all hl
      rw [List.all_eq_false] at ha
      obtain ⟨w, hw, hc⟩ := ha
      rw [List.mem_range, run_workers] at hw
      exact absurd (hf.ended w (h w hw)) hc
  · exact hf.aborted w h
  · exact hf.exited h

/-! ### One epoch -/

/-- An undisturbed epoch: every worker is started at most once, with an id below `num_workers`, and nobody is interrupted
or killed. -/
structure OneEpoch (n : Nat) (es : List Ev) : Prop where
  once : ∀ w, es.count (.start w) ≤ 1
  ids : ∀ w, Ev.start w ∈ es → w < max n 1
  calm : ∀ e ∈ es, e ≠ .exit ∧ ∀ w, e ≠ .abort w ∧ e ≠ .kill w

theorem OneEpoch.init {n : Nat} {es : List Ev} {e : Ev} (h : OneEpoch n (es ++ [e])) : OneEpoch n es :=
  ⟨fun w => le_trans (by rw [List.count_append]; exact Nat.le_add_right _ _) (h.once w),
    fun w hw => h.ids w (List.mem_append_left _ hw), fun x hx => h.calm x (List.mem_append_left _ hx)⟩

structure Epoch (n : Nat) (es : List Ev) (h : List (Ev × Bool)) (s : State) : Prop where
  workers : s.workers = max n 1
  comp : ∀ w, s.comp w = true ↔ Happened (.finish w) h
  linked : s.linked = false → ∀ w, w < max n 1 → Happened (.finish w) h
  failed : s.failed = 0
  unlinked : s.unlinked = if s.linked then 0 else 1
  started : ∀ w, (s.running w = true ∨ Happened (.finish w) h) → Ev.start w ∈ es
  running : ∀ w, s.running w = true → ¬ Happened (.finish w) h
  all : s.linked = true → (List.range s.workers).all s.comp = false
  main : s.main = true

theorem happened_other {e x : Ev} {h : List (Ev × Bool)} {b : Bool} (hne : x ≠ e) : Happened e (h ++ [(x, b)]) ↔ Happened e h := by
  constructor
  · intro hh
    rcases happened_snoc hh with h | h
    · exact h
    · exact absurd (Prod.mk.inj h).1 hne
  · exact fun hh => List.mem_append_left _ hh

theorem epoch_step {m : Mode} (hm : m ≠ .inMain) {n : Nat} {es : List Ev} {e : Ev} (ho : OneEpoch n (es ++ [e]))
    {h : List (Ev × Bool)} {s : State} (hs : Epoch n es h s) :
    Epoch n (es ++ [e]) (h ++ [(e, (step m s e).2)]) (step m s e).1 := by
  have hcalm := ho.calm e (List.mem_append_right _ (List.mem_singleton.2 rfl))
  have hst : ∀ w, Ev.start w ∈ es → Ev.start w ∈ es ++ [e] := fun w h => List.mem_append_left _ h
  cases e with
  | start w =>
    have hnew : Ev.start w ∉ es := by
      intro hmem
      have := ho.once w
      rw [List.count_append] at this
      have h1 : 0 < es.count (.start w) := List.count_pos_iff.2 hmem
      simp at this
      omega
    have hw : w < max n 1 := ho.ids w (List.mem_append_right _ (List.mem_singleton.2 rfl))
    have hnr : s.running w ≠ true := fun h => hnew (hs.started w (Or.inl h))
    have hnf : ¬ Happened (.finish w) h := fun h => hnew (hs.started w (Or.inr h))
    have hl : s.linked = true := by
      cases hl : s.linked
      · exact absurd (hs.linked hl w hw) hnf
      · rfl
    have e1 : step m s (.start w) =
        ({ s with status := put s.status w 0, comp := put s.comp w false, running := put s.running w true }, true) := by
      simp only [step, start]
      rw [if_neg hnr, if_neg (by rw [hl, hs.main]; simp), if_neg (by rw [hs.workers]; omega)]
    rw [e1]
    refine ⟨hs.workers, fun v => ?_, fun h => by simp [hl] at h, hs.failed, hs.unlinked, fun v hv => ?_, fun v hv => ?_, ?_,
      hs.main⟩
    · rw [happened_other (by simp)]
      simp only [put_apply]
      split
      · rename_i he; subst he; simp [hnf]
      · exact hs.comp v
    · rw [happened_other (by simp)] at hv
      simp only [put_apply] at hv
      by_cases he : v = w
      · subst he; simp
      · rw [if_neg he] at hv; exact hst v (hs.started v hv)
    · rw [happened_other (by simp)]
      simp only [put_apply] at hv
      by_cases he : v = w
      · subst he; exact hnf
      · rw [if_neg he] at hv; exact hs.running v hv
    · intro _
      rw [List.all_eq_false]
      exact ⟨w, List.mem_range.2 (by show w < s.workers; rw [hs.workers]; exact hw), by simp [put]⟩
  | give w i =>
    simp only [step]
    split
    · exact ⟨hs.workers, fun v => by rw [happened_other (by simp)]; exact hs.comp v,
        fun hl v hv => by rw [happened_other (by simp)]; exact hs.linked hl v hv, hs.failed, hs.unlinked,
        fun v hv => by rw [happened_other (by simp)] at hv; exact hst v (hs.started v hv),
        fun v hv => by rw [happened_other (by simp)]; exact hs.running v hv, hs.all, hs.main⟩
    · exact ⟨hs.workers, fun v => by rw [happened_other (by simp)]; exact hs.comp v,
        fun hl v hv => by rw [happened_other (by simp)]; exact hs.linked hl v hv, hs.failed, hs.unlinked,
        fun v hv => by rw [happened_other (by simp)] at hv; exact hst v (hs.started v hv),
        fun v hv => by rw [happened_other (by simp)]; exact hs.running v hv, hs.all, hs.main⟩
  | finish w =>
    by_cases hr : s.running w = true
    · have e1 : step m s (.finish w) = (finish m s w, true) := by simp only [step]; rw [if_pos hr]
      rw [e1]
      obtain ⟨f1, f2, f3, f4, f5⟩ := finish_fields m s w
      have hin : ∀ v, Happened (.finish v) (h ++ [(Ev.finish w, true)]) ↔ v = w ∨ Happened (.finish v) h := by
        intro v
        constructor
        · intro hh
          rcases happened_snoc hh with hh | hh
          · exact Or.inr hh
          · injection hh with hh; injection hh with hh; exact Or.inl hh.symm
        · rintro (rfl | hh)
          · exact List.mem_append_right _ (List.mem_singleton.2 rfl)
          · exact List.mem_append_left _ hh
      have hsw := hs.started w (Or.inl hr)
      have hww : w < max n 1 := ho.init.ids w hsw
      have hl : s.linked = true := by
        cases hl : s.linked
        · exact absurd (hs.linked hl w hww) (hs.running w hr)
        · rfl
      have hcomp : ∀ v, put s.comp w true v = true ↔ Happened (.finish v) (h ++ [(Ev.finish w, true)]) := by
        intro v
        rw [hin, put_apply]
        split
        · rename_i he; simp [he]
        · rename_i he; rw [hs.comp v]; simp [he]
      refine ⟨f1.trans hs.workers, fun v => by rw [f3]; exact hcomp v, fun hlf v hv => ?_, ?_, ?_, fun v hv => ?_,
        fun v hv => ?_, fun hlt => ?_, (finish_main m hm s w).trans hs.main⟩
      · rw [f5, hl] at hlf
        have ha : (List.range s.workers).all (put s.comp w true) = true := by simpa using hlf
        rw [← hcomp]
        exact List.all_eq_true.1 ha v (List.mem_range.2 (by rw [hs.workers]; exact hv))
      · rw [(finish_counts hm hl w).1]; exact hs.failed
      · have hu := hs.unlinked
        rw [hl] at hu
        simp only [if_true] at hu
        rw [(finish_counts hm hl w).2, f5, hl, hu]
        cases (List.range s.workers).all (put s.comp w true) <;> rfl
      · rw [hin, f4, put_apply] at hv
        by_cases he : v = w
        · subst he; exact hst v hsw
        · rw [if_neg he] at hv
          refine hst v (hs.started v ?_)
          rcases hv with hv | hv | hv
          · exact Or.inl hv
          · exact absurd hv he
          · exact Or.inr hv
      · rw [hin]
        rw [f4, put_apply] at hv
        by_cases he : v = w
        · rw [if_pos he] at hv; cases hv
        · rw [if_neg he] at hv
          rintro (h' | h')
          · exact he h'
          · exact hs.running v hv h'
      · rw [f1, f3]
        rw [f5] at hlt
        simpa using (Bool.and_eq_true_iff.1 hlt).2
    · have e1 : step m s (.finish w) = (s, false) := by simp only [step]; rw [if_neg hr]
      rw [e1]
      have hin : ∀ v, Happened (.finish v) (h ++ [(Ev.finish w, false)]) ↔ Happened (.finish v) h := by
        intro v
        constructor
        · intro hh
          rcases happened_snoc hh with hh | hh
          · exact hh
          · cases hh
        · exact fun hh => List.mem_append_left _ hh
      exact ⟨hs.workers, fun v => by rw [hin]; exact hs.comp v, fun hl v hv => by rw [hin]; exact hs.linked hl v hv,
        hs.failed, hs.unlinked, fun v hv => by rw [hin] at hv; exact hst v (hs.started v hv),
        fun v hv => by rw [hin]; exact hs.running v hv, hs.all, hs.main⟩
  | abort w => exact absurd rfl (hcalm.2 w).1
  | kill w => exact absurd rfl (hcalm.2 w).2
  | exit => exact absurd rfl hcalm.1

theorem epoch_run (m : Mode) (hm : m ≠ .inMain) (n : Nat) (es : List Ev) (ho : OneEpoch n es) :
    Epoch n es (run m (init n) es).2 (run m (init n) es).1 := by
  induction es using List.reverseRecOn with
  | nil =>
    refine ⟨rfl, fun w => ?_, (fun h => by cases h), rfl, rfl, fun w h => ?_, (fun w h => by cases h), fun _ => ?_, rfl⟩
    · simp [run, init, Happened]
    · rcases h with h | h
      · cases h
      · simp [run, Happened] at h
    · rw [List.all_eq_false]
      exact ⟨0, List.mem_range.2 (by show 0 < max n 1; omega), by simp [run, init]⟩
  | append_singleton es e ih => rw [run_snoc]; exact epoch_step hm ho (ih ho.init)

/-- **C65** (the last one out). In an undisturbed epoch with worker processes, at every moment: the segments exist exactly
as long as some worker has not come to its end; no attempt to unlink them fails, and there is one attempt, made when the last
worker ends. -/
theorem c65_last_unlinks (m : Mode) (hm : m ≠ .inMain) (n : Nat) (es : List Ev) (ho : OneEpoch n es) :
    ((run m (init n) es).1.linked = true ↔ ∃ w, w < max n 1 ∧ ¬ Happened (.finish w) (run m (init n) es).2) ∧
    (run m (init n) es).1.failed = 0 ∧
    (run m (init n) es).1.unlinked = if (run m (init n) es).1.linked = true then 0 else 1 := by
  have h := epoch_run m hm n es ho
  refine ⟨⟨fun hl => ?_, fun ⟨w, hw, hn⟩ => ?_⟩, h.failed, h.unlinked⟩
  · have ha := h.all hl
    rw [List.all_eq_false] at ha
    obtain ⟨w, hw, hc⟩ := ha
    rw [List.mem_range, h.workers] at hw
    exact ⟨w, hw, fun hh => hc ((h.comp w).2 hh)⟩
  · cases hl : (run m (init n) es).1.linked
    · exact absurd (h.linked hl w hw) hn
    · rfl

/-! ### Further epochs, and the wrong number of workers -/

/-- **C65** (forked workers). With forked processes a worker with an id below `num_workers` can always be started again,
also after the segments were unlinked. -/
theorem c65_fork_again (n : Nat) (es : List Ev) (w : Nat) (hw : w < max n 1)
    (hr : (run .fork (init n) es).1.running w = false) :
    Happened (.start w) (run .fork (init n) (es ++ [.start w])).2 := by
  rw [run_snoc]
  refine List.mem_append_right _ ?_
  simp only [step, start]
  rw [if_neg (by rw [hr]; simp), if_neg (by rw [run_main .fork (by simp)]; simp [init]),
    if_neg (by rw [run_workers]; simp only [init]; omega)]
  simp

theorem run_linked_mono (m : Mode) (es : List Ev) : ∀ s : State, s.linked = false → (run m s es).1.linked = false := by
  induction es with
  | nil => intro s h; exact h
  | cons e es ih => intro s h; exact ih _ (linked_mono m s e h)

/-- **C65** (spawned workers: one epoch only). After the segments were unlinked, be it because all workers came to their
ends or because one left early, no spawned worker can be started any more. -/
theorem c65_spawn_once (n : Nat) (es : List Ev) (h : (run .spawn (init n) es).1.linked = false) (es' : List Ev) (w : Nat) :
    ¬ Happened (.start w) (run .spawn (run .spawn (init n) es).1 es').2 := by
  generalize (run .spawn (init n) es).1 = s at h
  induction es' using List.reverseRecOn with
  | nil => simp [run, Happened]
  | append_singleton es' e ih =>
    rw [run_snoc]
    intro hh
    rcases happened_snoc hh with hh | hh
    · exact ih hh
    · injection hh with h1 h2
      subst h1
      have hl := run_linked_mono .spawn es' s h
      simp only [step, start] at h2
      split at h2
      · cases h2
      rw [if_pos (Or.inl ⟨by trivial, hl⟩)] at h2
      cases h2

theorem main_gone (es : List Ev) : ∀ s : State, s.main = false → (run .inMain s es).1.main = false := by
  induction es with
  | nil => intro s h; exact h
  | cons e es ih =>
    intro s h
    refine ih _ ?_
    cases e with
    | start w => simp only [step, start]; split; · exact h
                 rw [if_pos (Or.inr h)]; exact h
    | give w i => simp only [step]; split <;> exact h
    | finish w =>
      simp only [step]; split
      · unfold finish
        simp only
        split
        · split <;> simp [State.close]
        · simp [State.close]
      · exact h
    | abort w => simp only [step]; split
                 · simp [State.close]
                 · exact h
    | kill w => simp only [step]; split <;> exact h
    | exit => simp only [step]; split
              · simpa using h
              · exact h

/-- **C65** (loading in the main process: one epoch only). When the iteration in the main process has ended or was left, the
main process has no status any more, and no iteration can be started. -/
theorem c65_in_main_once (n : Nat) (es : List Ev) (w : Nat)
    (h : Happened (.finish w) (run .inMain (init n) es).2 ∨ Happened (.abort w) (run .inMain (init n) es).2) :
    (run .inMain (init n) es).1.workerStatus = none ∧
      ∀ v, ¬ Happened (.start v) (run .inMain (run .inMain (init n) es).1 [.start v]).2 := by
  have hm : (run .inMain (init n) es).1.main = false := by
    induction es using List.reverseRecOn with
    | nil => rcases h with h | h <;> simp [run, Happened] at h
    | append_singleton es e ih =>
      rw [run_snoc] at h ⊢
      have hprev : (Happened (.finish w) (run .inMain (init n) es).2 ∨ Happened (.abort w) (run .inMain (init n) es).2) →
          (step .inMain (run .inMain (init n) es).1 e).1.main = false := by
        intro hp
        exact main_gone [e] _ (ih hp)
      rcases h with h | h
      · rcases happened_snoc h with h | h
        · exact hprev (Or.inl h)
        · injection h with h1 h2
          subst h1
          simp only [step] at h2 ⊢
          split at h2
          · rename_i hr
            rw [if_pos hr]
            unfold finish
            simp only
            split
            · split <;> simp [State.close]
            · simp [State.close]
          · cases h2
      · rcases happened_snoc h with h | h
        · exact hprev (Or.inr h)
        · injection h with h1 h2
          subst h1
          simp only [step] at h2 ⊢
          split at h2
          · rename_i hr
            rw [if_pos hr]
            simp [State.close]
          · cases h2
  refine ⟨by unfold State.workerStatus; rw [hm]; rfl, fun v hv => ?_⟩
  simp only [run, Happened, List.mem_singleton, Prod.mk.injEq, true_and, step, start] at hv
  split at hv
  · cases hv
  · rw [if_pos (Or.inr hm)] at hv; cases hv

/-- **C65** (too few workers). If one of the `num_workers` ids is never used, and nobody leaves early, the segments exist
until the main process ends. -/
theorem c65_too_few (m : Mode) (n : Nat) (es : List Ev) (v : Nat) (hv : v < max n 1) (hstart : Ev.start v ∉ es)
    (hids : ∀ w, Ev.start w ∈ es → w < max n 1) (hcalm : ∀ e ∈ es, e ≠ .exit ∧ ∀ w, e ≠ .abort w) :
    (run m (init n) es).1.linked = true := by
  suffices h : (run m (init n) es).1.linked = true ∧ (run m (init n) es).1.comp v = false ∧
      (run m (init n) es).1.running v = false from h.1
  induction es using List.reverseRecOn with
  | nil => exact ⟨rfl, rfl, rfl⟩
  | append_singleton es e ih =>
    obtain ⟨h1, h2, h3⟩ := ih (fun h => hstart (List.mem_append_left _ h)) (fun w h => hids w (List.mem_append_left _ h))
      (fun x hx => hcalm x (List.mem_append_left _ hx))
    have hw := run_workers m es (init n)
    have hlast : e ∈ es ++ [e] := List.mem_append_right _ (List.mem_singleton.2 rfl)
    rw [run_snoc]
    cases e with
    | start w =>
      have hne : v ≠ w := by rintro rfl; exact hstart hlast
      have hwl := hids w hlast
      simp only [step, start]
      split; · exact ⟨h1, h2, h3⟩
      split; · exact ⟨h1, h2, h3⟩
      split
      · rename_i hle; rw [hw] at hle; simp only [init] at hle; omega
      · simp only [put_apply]
        rw [if_neg hne, if_neg hne]
        exact ⟨h1, h2, h3⟩
    | give w i => simp only [step]; split <;> exact ⟨h1, h2, h3⟩
    | finish w =>
      simp only [step]
      split
      · rename_i hr
        have hne : v ≠ w := by rintro rfl; rw [h3] at hr; cases hr
        obtain ⟨f1, f2, f3, f4, f5⟩ := finish_fields m (run m (init n) es).1 w
        rw [f3, f4, f5, put_apply, put_apply, if_neg hne, if_neg hne, h1]
        refine ⟨?_, h2, h3⟩
        simp only [Bool.true_and, Bool.not_eq_true']
        rw [List.all_eq_false]
        refine ⟨v, List.mem_range.2 (by rw [hw]; exact hv), ?_⟩
        rw [put_apply, if_neg hne, h2]; simp
      · exact ⟨h1, h2, h3⟩
    | abort w => exact absurd rfl ((hcalm _ hlast).2 w)
    | kill w =>
      simp only [step]; split
      · simp only [put_apply]
        refine ⟨h1, h2, ?_⟩
        split
        · rfl
        · exact h3
      · exact ⟨h1, h2, h3⟩
    | exit => exact absurd rfl (hcalm _ hlast).1

/-- **C65** (too many workers). A worker with an id beyond `num_workers` raises, and unlinks the segments of the others. -/
theorem c65_too_many (n : Nat) (es : List Ev) (w : Nat) (hw : max n 1 ≤ w) :
    ¬ Happened (.start w) (run .fork (init n) (es ++ [.start w])).2 ∧
      (run .fork (init n) (es ++ [.start w])).1.linked = false := by
  have hr : (run .fork (init n) es).1.running w = false := by
    cases hr : (run .fork (init n) es).1.running w
    · rfl
    · have := (flags_run .fork n es).running w hr
      rw [run_workers] at this
      simp only [init] at this
      omega
  have hstep : step .fork (run .fork (init n) es).1 (.start w) = (((run .fork (init n) es).1.unlink).close .fork, false) := by
    simp only [step, start]
    rw [if_neg (by rw [hr]; simp), if_neg (by rw [run_main .fork (by simp)]; simp [init]), if_pos (by rw [run_workers]; exact hw)]
  constructor
  · intro hh
    have : ∀ l : List Ev, ¬ Happened (.start w) (run .fork (init n) l).2 := by
      intro l
      induction l using List.reverseRecOn with
      | nil => simp [run, Happened]
      | append_singleton l e ih =>
        rw [run_snoc]
        intro hh
        rcases happened_snoc hh with hh | hh
        · exact ih hh
        · injection hh with h1 h2
          subst h1
          simp only [step, start] at h2
          split at h2; · cases h2
          split at h2; · cases h2
          rw [if_pos (by rw [run_workers]; exact hw)] at h2
          cases h2
    exact this _ hh
  · rw [run_snoc, hstep]; simp

/-- The segments are unlinked once they are gone, and not before (used by `c65_unlinked_once` only). -/
private def Once (s : State) : Prop := s.unlinked = if s.linked = true then 0 else 1

private theorem once_unlink {s : State} (h : Once s) : Once s.unlink := by
  unfold Once at h ⊢
  unfold State.unlink
  cases hl : s.linked <;> simp_all

private theorem once_close (m : Mode) {s : State} (h : Once s) : Once (s.close m) := by
  unfold State.close; split <;> exact h

private theorem once_start (m : Mode) {s : State} (h : Once s) (w : Nat) : Once (start m s w).1 := by
  unfold start
  split; · exact h
  split; · exact h
  split; · exact once_close m (once_unlink h)
  exact h

private theorem once_finish (m : Mode) {s : State} (h : Once s) (w : Nat) : Once (finish m s w) := by
  unfold finish
  have h' : Once { s with comp := put s.comp w true, running := put s.running w false } := h
  generalize ({ s with comp := put s.comp w true, running := put s.running w false } : State) = t at h'
  dsimp only
  split
  · split
    · exact once_close m (once_unlink h')
    · exact once_close m (once_unlink (once_unlink h'))
  · exact once_close m h'

private theorem once_step (m : Mode) {s : State} (h : Once s) (e : Ev) : Once (step m s e).1 := by
  cases e <;> simp only [step]
  · exact once_start m h _
  · split <;> exact h
  · split
    · exact once_finish m h _
    · exact h
  · rename_i w
    have h' : Once { s with running := put s.running w false } := h
    split
    · exact once_close m (once_unlink h')
    · exact h
  · split <;> exact h
  · split
    · exact once_unlink h
    · exact h

/-- **C65** (once). However the processes are started, interleaved, interrupted or killed, the segments are unlinked at most
once, and they are gone exactly when that has happened: no later attempt removes segments of another job with the same
names. -/
theorem c65_unlinked_once (m : Mode) (n : Nat) (es : List Ev) :
    (run m (init n) es).1.unlinked = if (run m (init n) es).1.linked = true then 0 else 1 := by
  have : Once (run m (init n) es).1 := by
    induction es using List.reverseRecOn with
    | nil => rfl
    | append_singleton es e ih =>
      rw [run_snoc]
      exact once_step m ih e
  exact this

/-! ### Examples -/

/-- Two workers, interleaved; the second one ends last. -/
def twoWorkers : List Ev :=
  [.start 0, .give 0 0, .start 1, .give 1 0, .give 0 1, .give 1 1, .finish 0, .give 1 2, .finish 1]

/-- `c65_last_unlinks` applies, before and after the end; and the main process sees the positions. -/
example : OneEpoch 2 twoWorkers := ⟨fun w => by
  unfold twoWorkers
  by_cases h0 : w = 0
  · subst h0; decide
  · by_cases h1 : w = 1
    · subst h1; decide
    · simp [Ne.symm h0, Ne.symm h1], fun w h => by simp [twoWorkers] at h; omega,
  fun e h => by simp [twoWorkers] at h; rcases h with rfl | rfl | rfl | rfl | rfl | rfl | rfl | rfl | rfl <;> simp⟩

example : (run .fork (init 2) twoWorkers).1.linked = false ∧ (run .fork (init 2) (twoWorkers.take 8)).1.linked = true ∧
    (run .fork (init 2) twoWorkers).1.workerStatus = some [1, 2] ∧ (run .fork (init 2) twoWorkers).1.unlinked = 1 := by
  decide +kernel

/-- One worker leaves early while the other is still streaming: the names are gone, but the positions are still seen; the
attempts of the other worker to unlink fail. -/
example : (run .fork (init 2) [.start 0, .start 1, .give 1 0, .abort 0]).1.linked = false ∧
    (run .fork (init 2) [.start 0, .start 1, .give 1 0, .abort 0, .give 1 1, .finish 1]).1.workerStatus = some [0, 1] := by
  decide +kernel

/-- The second epoch with forked workers: a worker that ends before the other one is started finds all flags set. -/
example : (run .fork (init 2) (twoWorkers ++ [.start 0, .finish 0])).1.failed = 2 := by decide +kernel

/-- One worker was declared, but loading takes place in the main process with `num_workers = 2` declared. -/
example : (run .inMain (init 2) [.start 0, .give 0 0, .finish 0]).1.linked = true := by decide +kernel

end Mixtera.Shm
