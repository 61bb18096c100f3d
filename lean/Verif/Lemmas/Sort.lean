import Verif.Model.Sort
import Mathlib.Data.List.Basic

namespace Mixtera

variable {α : Type u}

theorem insertBy_perm (le : α → α → Bool) (a : α) (l : List α) : (insertBy le a l).Perm (a :: l) := by
  induction l with
  | nil => exact List.Perm.refl _
  | cons b l ih =>
    rw [insertBy]; split
    · exact List.Perm.refl _
    · exact (ih.cons b).trans (List.Perm.swap a b l)

theorem sortBy_perm (le : α → α → Bool) (l : List α) : (sortBy le l).Perm l := by
  induction l with
  | nil => exact List.Perm.refl _
  | cons a l ih => exact (insertBy_perm le a _).trans (ih.cons a)

theorem insertBy_sorted (le : α → α → Bool) (htot : ∀ a b, le a b = true ∨ le b a = true)
    (htr : ∀ a b c, le a b = true → le b c = true → le a c = true) (a : α) (l : List α)
    (h : l.Pairwise (fun a b => le a b = true)) : (insertBy le a l).Pairwise (fun a b => le a b = true) := by
  induction l with
  | nil => simp [insertBy]
  | cons b l ih =>
    have hc := List.pairwise_cons.mp h
    rw [insertBy]; split
    · rename_i hab
      rw [List.pairwise_cons]
      refine ⟨?_, h⟩
      intro c hcm
      rcases List.mem_cons.mp hcm with rfl | hcm
      · exact hab
      · exact htr _ _ _ hab (hc.1 c hcm)
    · rename_i hab
      rw [List.pairwise_cons]
      refine ⟨?_, ih hc.2⟩
      intro c hcm
      rcases List.mem_cons.mp ((insertBy_perm le a l).mem_iff.mp hcm) with rfl | hcm
      · exact (htot c b).resolve_left hab
      · exact hc.1 c hcm

theorem sortBy_sorted (le : α → α → Bool) (htot : ∀ a b, le a b = true ∨ le b a = true)
    (htr : ∀ a b c, le a b = true → le b c = true → le a c = true) (l : List α) :
    (sortBy le l).Pairwise (fun a b => le a b = true) := by
  induction l with
  | nil => simp [sortBy]
  | cons a l ih => exact insertBy_sorted le htot htr a _ ih

/-- Sorting forgets the order of the input when the order is total and antisymmetric. -/
theorem sortBy_eq_of_perm (le : α → α → Bool) (htot : ∀ a b, le a b = true ∨ le b a = true)
    (htr : ∀ a b c, le a b = true → le b c = true → le a c = true)
    (hanti : ∀ a b, le a b = true → le b a = true → a = b) {l l' : List α} (h : l.Perm l') :
    sortBy le l = sortBy le l' :=
  List.Perm.eq_of_pairwise (fun a b _ _ => hanti a b) (sortBy_sorted le htot htr l) (sortBy_sorted le htot htr l')
    ((sortBy_perm le l).trans (h.trans (sortBy_perm le l').symm))

theorem insertBy_filter (le : α → α → Bool) (p : α → Bool) (a : α) (l : List α)
    (hs : ∀ b ∈ l, p a = true → p b = true → le a b = true) :
    (insertBy le a l).filter p = (a :: l).filter p := by
  induction l with
  | nil => rfl
  | cons b l ih =>
    rw [insertBy]; split
    · rfl
    · rename_i hab
      rw [List.filter_cons, ih (fun c hc => hs c (by simp [hc]))]
      by_cases hb : p b = true
      · by_cases ha : p a = true
        · exact absurd (hs b (by simp) ha hb) hab
        · simp [ha, hb]
      · by_cases ha : p a = true <;> simp [ha, hb]

/-- Stability: elements of one equivalence class keep their order. -/
theorem sortBy_filter (le : α → α → Bool) (p : α → Bool) (l : List α)
    (hs : ∀ a ∈ l, ∀ b ∈ l, p a = true → p b = true → le a b = true) :
    (sortBy le l).filter p = l.filter p := by
  induction l with
  | nil => rfl
  | cons a l ih =>
    rw [sortBy, insertBy_filter]
    · rw [List.filter_cons, ih (fun a ha b hb => hs a (by simp [ha]) b (by simp [hb])), ← List.filter_cons]
    · intro b hb
      exact hs a (by simp) b (by simp [(sortBy_perm le l).mem_iff.mp hb])

end Mixtera
