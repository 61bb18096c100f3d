import Verif.Spec.Database
import Verif.Lemmas.Dict

set_option linter.unusedSectionVars false

namespace Mixtera
namespace Prog

variable {σ α β : Type}

theorem bind_eq (x : Prog σ α) (g : α → Prog σ β) : x >>= g = x.bind g := rfl
theorem pure_eq (a : α) : (pure a : Prog σ α) = .ret (.ok a) := rfl

theorem run_bind (x : Prog σ α) (g : α → Prog σ β) (s : σ) :
    (x.bind g).run s = match (x.run s).2 with
      | .ok a => (g a).run (x.run s).1
      | .error e => ((x.run s).1, .error e) := by
  induction x generalizing s with
  | ret r => cases r <;> rfl
  | stmt f k ih => exact ih s (f s)

theorem run_bind_ok {x : Prog σ α} {g : α → Prog σ β} {s s' : σ} {a : α} (h : x.run s = (s', .ok a)) :
    (x.bind g).run s = (g a).run s' := by
  rw [run_bind, h]

theorem run_bind_error {x : Prog σ α} {g : α → Prog σ β} {s s' : σ} {e : Err} (h : x.run s = (s', .error e)) :
    (x.bind g).run s = (s', .error e) := by
  rw [run_bind, h]

@[simp] theorem run_exec (f : σ → σ) (g : σ → α) (s : σ) : (exec f g).run s = (f s, .ok (g s)) := rfl
@[simp] theorem run_ret (r : Except Err α) (s : σ) : (ret r).run s = (s, r) := rfl
@[simp] theorem run_raise (e : Err) (s : σ) : (raise e : Prog σ α).run s = (s, .error e) := rfl

theorem run_mem_states (x : Prog σ α) (s : σ) : (x.run s).1 ∈ x.states s := by
  induction x generalizing s with
  | ret r => simp [run, states]
  | stmt f k ih => simp only [run, states, List.mem_cons]; exact Or.inr (ih s (f s))

theorem mem_states_bind (x : Prog σ α) (g : α → Prog σ β) (s t : σ) :
    t ∈ (x.bind g).states s ↔ t ∈ x.states s ∨ ∃ a, (x.run s).2 = .ok a ∧ t ∈ (g a).states (x.run s).1 := by
  induction x generalizing s with
  | ret r =>
    cases r with
    | ok a =>
      simp only [Prog.bind, states, run, List.mem_singleton, Except.ok.injEq, exists_eq_left']
      constructor
      · exact Or.inr
      · rintro (rfl | h)
        · cases g a <;> simp [states]
        · exact h
    | error e => simp [Prog.bind, states, run]
  | stmt f k ih => simp only [Prog.bind, states, run, List.mem_cons, ih, or_assoc]

/-! ### Rely and guarantee -/

/-- `P` is not disturbed by `R`-steps. -/
def Stable (R : σ → σ → Prop) (P : σ → Prop) : Prop := ∀ s t, R s t → P s → P t

/-- Under the precondition `P`, with others doing `R`-steps, every statement of the program is an `R`-step. -/
def RG (R : σ → σ → Prop) : (σ → Prop) → Prog σ α → Prop
  | _, .ret _ => True
  | P, .stmt f k => ∀ s, P s → R s (f s) ∧ ∃ Q, Stable R Q ∧ Q (f s) ∧ RG R Q (k s)

theorem RG.weaken {R : σ → σ → Prop} {P P' : σ → Prop} {x : Prog σ α} (h : RG R P x) (hp : ∀ s, P' s → P s) :
    RG R P' x := by
  cases x with
  | ret r => trivial
  | stmt f k => exact fun s hs => h s (hp s hs)

/-- Sequencing: `post a s` holds when the first part has returned `a` — it is required to be stable. -/
def RGP (R : σ → σ → Prop) (post : α → σ → Prop) : (σ → Prop) → Prog σ α → Prop
  | P, .ret (.ok a) => ∀ s, P s → post a s
  | _, .ret (.error _) => True
  | P, .stmt f k => ∀ s, P s → R s (f s) ∧ ∃ Q, Stable R Q ∧ Q (f s) ∧ RGP R post Q (k s)

theorem RG.of_post {R : σ → σ → Prop} {post : α → σ → Prop} {P : σ → Prop} {x : Prog σ α} (h : RGP R post P x) :
    RG R P x := by
  induction x generalizing P with
  | ret r => trivial
  | stmt f k ih =>
    intro s hs
    obtain ⟨h1, Q, h2, h3, h4⟩ := h s hs
    exact ⟨h1, Q, h2, h3, ih s h4⟩

theorem RGP.weaken {R : σ → σ → Prop} {post : α → σ → Prop} {P P' : σ → Prop} {x : Prog σ α} (h : RGP R post P x)
    (hp : ∀ s, P' s → P s) : RGP R post P' x := by
  cases x with
  | ret r => cases r with
    | ok a => exact fun s hs => h s (hp s hs)
    | error e => trivial
  | stmt f k => exact fun s hs => h s (hp s hs)

theorem RGP.bind {R : σ → σ → Prop} {mid : α → σ → Prop} {post : β → σ → Prop} {P : σ → Prop} {x : Prog σ α}
    {g : α → Prog σ β} (hx : RGP R mid P x) (hg : ∀ a, RGP R post (mid a) (g a)) : RGP R post P (x.bind g) := by
  induction x generalizing P with
  | ret r =>
    cases r with
    | ok a => exact (hg a).weaken hx
    | error e => trivial
  | stmt f k ih =>
    intro s hs
    obtain ⟨h1, Q, h2, h3, h4⟩ := hx s hs
    exact ⟨h1, Q, h2, h3, ih s h4⟩

theorem RGP.exec {R : σ → σ → Prop} {post : α → σ → Prop} {P : σ → Prop} {f : σ → σ} {g : σ → α}
    (hR : ∀ s, P s → R s (f s)) (hst : ∀ a, Stable R (post a)) (hp : ∀ s, P s → post (g s) (f s)) :
    RGP R post P (exec f g) :=
  fun s hs => ⟨hR s hs, post (g s), hst _, hp s hs, fun _ h => h⟩

theorem RGP.forEach {R : σ → σ → Prop} {P : σ → Prop} {g : β → Prog σ Unit} (l : List β)
    (hg : ∀ b ∈ l, RGP R (fun _ => P) P (g b)) : RGP R (fun _ => P) P (forEach g l) := by
  induction l with
  | nil => exact fun s h => h
  | cons b l ih =>
    exact RGP.bind (hg b (by simp)) fun _ => ih fun b' hb => hg b' (by simp [hb])

/-- Every interleaving of programs that guarantee `R`-steps only makes `R`-steps. -/
theorem schedule_steps {R : σ → σ → Prop} {I : σ → σ → Prop}
    (hstep : ∀ s0 s t, I s0 s → R s t → I s0 t) (sched : List Nat) (ps : List (Prog σ α))
    (s : σ) (hps : ∀ p ∈ ps, ∃ P, Stable R P ∧ P s ∧ RG R P p) (s0 : σ) (h0 : I s0 s) :
    I s0 (interleave sched ps s).2 := by
  induction sched generalizing ps s with
  | nil => exact h0
  | cons t sched ih =>
    rw [interleave]
    split
    · rename_i f k hk
      have hmem : Prog.stmt f k ∈ ps := List.mem_of_getElem? hk
      obtain ⟨P, hst, hPs, hrg⟩ := hps _ hmem
      obtain ⟨hR, Q, hQst, hQ, hrgk⟩ := hrg s hPs
      refine ih _ _ ?_ (hstep _ _ _ h0 hR)
      intro p hp
      rcases List.mem_or_eq_of_mem_set hp with h | h
      · obtain ⟨P', h1, h2, h3⟩ := hps p h
        exact ⟨P', h1, h1 _ _ hR h2, h3⟩
      · subst h
        exact ⟨Q, hQst, hQ, hrgk⟩
    · exact ih _ _ hps h0

/-- A program run alone is a schedule. -/
theorem states_schedule (x : Prog σ α) (s t : σ) (h : t ∈ x.states s) :
    ∃ n, (interleave (List.replicate n 0) [x] s).2 = t := by
  induction x generalizing s with
  | ret r =>
    simp only [states, List.mem_singleton] at h
    exact ⟨0, by simp [interleave, h]⟩
  | stmt f k ih =>
    simp only [states, List.mem_cons] at h
    rcases h with h | h
    · exact ⟨0, by simp [interleave, h]⟩
    · obtain ⟨n, hn⟩ := ih s (f s) h
      refine ⟨n + 1, ?_⟩
      rw [List.replicate_succ, interleave]
      simpa using hn

end Prog
end Mixtera
