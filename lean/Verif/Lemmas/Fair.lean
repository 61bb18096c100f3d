import Mathlib.Tactic.Linarith

/-!
# Fair schedules terminate
-/

namespace Mixtera

/-- If every action either does nothing or makes a measure smaller, and in every state that is not final some action
that comes up again and again does something, then a final state is reached. -/
theorem fair_terminates {S A : Type} (step : S → A → S) (Inv : S → Prop) (μ : S → Nat) (fin : S → Prop)
    (σ : Nat → A) (run : Nat → S) (hrun : ∀ t, run (t + 1) = step (run t) (σ t))
    (hinv : ∀ s a, Inv s → Inv (step s a)) (hdec : ∀ s a, Inv s → step s a = s ∨ μ (step s a) < μ s)
    (hprog : ∀ s, Inv s → ¬ fin s → ∃ a, step s a ≠ s ∧ ∀ t, ∃ t', t ≤ t' ∧ σ t' = a) (h0 : Inv (run 0)) :
    ∃ t, fin (run t) := by
  have hI : ∀ t, Inv (run t) := by
    intro t
    induction t with
    | zero => exact h0
    | succ t ih => rw [hrun]; exact hinv _ _ ih
  have key : ∀ n t, μ (run t) ≤ n → ∃ t', fin (run t') := by
    intro n
    induction n with
    | zero =>
      intro t hn
      by_contra hcon
      push Not at hcon
      obtain ⟨a, hne, -⟩ := hprog _ (hI t) (hcon t)
      rcases hdec _ a (hI t) with h | h
      · exact hne h
      · omega
    | succ n ih =>
      intro t hn
      by_cases hf : fin (run t)
      · exact ⟨t, hf⟩
      obtain ⟨a, hne, hfair⟩ := hprog _ (hI t) hf
      obtain ⟨t', htt', ha⟩ := hfair t
      have hwalk : ∀ d, run (t + d) = run t ∨ ∃ t', fin (run t') := by
        intro d
        induction d with
        | zero => exact Or.inl rfl
        | succ d ihd =>
          rcases ihd with hd | hd
          · have hstep : run (t + (d + 1)) = step (run t) (σ (t + d)) := by rw [← Nat.add_assoc, hrun, hd]
            rcases hdec _ (σ (t + d)) (hI t) with h | h
            · exact Or.inl (hstep.trans h)
            · exact Or.inr (ih (t + (d + 1)) (by rw [hstep]; omega))
          · exact Or.inr hd
      obtain ⟨d, rfl⟩ := Nat.exists_eq_add_of_le htt'
      rcases hwalk (d + 1) with h1 | h1
      · rcases hwalk d with h2 | h2
        · rw [← Nat.add_assoc, hrun, h2, ha] at h1
          exact absurd h1 hne
        · exact h2
      · exact h1
  exact key _ 0 le_rfl

end Mixtera
