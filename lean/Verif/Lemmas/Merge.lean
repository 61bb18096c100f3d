import Verif.Lemmas.Rounding

namespace Mixtera

abbrev SortedByStart (l : List Rng) : Prop := l.Pairwise fun a b => a.1 ≤ b.1

theorem mergeSortedLists_sorted (l1 l2 : List Rng) (h1 : SortedByStart l1) (h2 : SortedByStart l2) :
    SortedByStart (mergeSortedLists l1 l2) := by
  fun_induction mergeSortedLists l1 l2 with
  | case1 l2 => exact h2
  | case2 l1 h => exact h1
  | case3 a l1 b l2 h ih =>
    have h1' := List.pairwise_cons.mp h1
    have h2' := List.pairwise_cons.mp h2
    refine List.pairwise_cons.mpr ⟨?_, ih h1'.2 h2⟩
    intro x hx
    have hx := (mergeSortedLists_perm _ _).mem_iff.mp hx
    simp only [List.mem_append, List.mem_cons] at hx
    rcases hx with hx | rfl | hx
    · exact h1'.1 x hx
    · exact h
    · exact le_trans h (h2'.1 x hx)
  | case4 a l1 b l2 h ih =>
    have h1' := List.pairwise_cons.mp h1
    have h2' := List.pairwise_cons.mp h2
    refine List.pairwise_cons.mpr ⟨?_, ih h1 h2'.2⟩
    intro x hx
    have hx := (mergeSortedLists_perm _ _).mem_iff.mp hx
    simp only [List.mem_append, List.mem_cons] at hx
    rcases hx with (rfl | hx) | hx
    · omega
    · have := h1'.1 x hx; omega
    · exact h2'.1 x hx

theorem mergeSortedLists_stable (l1 l2 : List Rng) (h1 : SortedByStart l1) (h2 : SortedByStart l2)
    (v : Nat) :
    (mergeSortedLists l1 l2).filter (·.1 = v) = l1.filter (·.1 = v) ++ l2.filter (·.1 = v) := by
  fun_induction mergeSortedLists l1 l2 with
  | case1 l2 => simp
  | case2 l1 h => simp
  | case3 a l1 b l2 h ih =>
    have := ih (List.pairwise_cons.mp h1).2 h2
    by_cases ha : a.1 = v <;> simp [List.filter_cons, ha, this]
  | case4 a l1 b l2 h ih =>
    have := ih h1 (List.pairwise_cons.mp h2).2
    by_cases hb : b.1 = v
    · have ha : (a :: l1).filter (·.1 = v) = [] := by
        rw [List.filter_eq_nil_iff]
        intro x hx
        simp only [List.mem_cons] at hx
        have : a.1 ≤ x.1 := by
          rcases hx with rfl | hx
          · exact le_refl _
          · exact (List.pairwise_cons.mp h1).1 x hx
        simp; omega
      rw [List.filter_cons_of_pos (by simpa using hb), this, ha, List.filter_cons_of_pos (by simpa using hb)]
      simp
    · rw [List.filter_cons_of_neg (by simpa using hb), this,
        List.filter_cons_of_neg (a := b) (by simpa using hb)]

end Mixtera
