import Verif.Model.Dict
import Mathlib.Tactic.Linarith
import Mathlib.Data.List.Basic
import Mathlib.Data.List.Nodup

set_option linter.unusedSectionVars false

namespace Mixtera
namespace Dict

variable {α : Type u} {β : Type v} [DecidableEq α]

@[simp] theorem get?_nil (k : α) : get? ([] : Dict α β) k = none := rfl

theorem get?_cons (a : α) (b : β) (d : Dict α β) (k : α) :
    get? ((a, b) :: d) k = if a = k then some b else get? d k := rfl

theorem get?_upsert (d : Dict α β) (k k' : α) (f : Option β → β) :
    (d.upsert k f).get? k' = if k = k' then some (f (d.get? k)) else d.get? k' := by
  induction d with
  | nil => simp only [upsert, get?_cons, get?_nil]
  | cons ab d ih =>
    obtain ⟨a, b⟩ := ab
    simp only [upsert]
    split
    · rename_i h
      subst h
      simp only [get?_cons]; simp
      split <;> rfl
    · rename_i h
      simp only [get?_cons, ih]
      split
      · rename_i h2; subst h2
        simp [Ne.symm h]
      · simp

@[simp] theorem get?_upsert_self (d : Dict α β) (k : α) (f : Option β → β) :
    (d.upsert k f).get? k = some (f (d.get? k)) := by simp [get?_upsert]

theorem get?_upsert_ne (d : Dict α β) {k k' : α} (h : k ≠ k') (f : Option β → β) :
    (d.upsert k f).get? k' = d.get? k' := by simp [get?_upsert, h]

theorem get?_set (d : Dict α β) (k k' : α) (v : β) :
    (d.set k v).get? k' = if k = k' then some v else d.get? k' := get?_upsert ..

theorem mem_keys_iff (d : Dict α β) (k : α) : k ∈ d.keys ↔ ∃ v, d.get? k = some v := by
  induction d with
  | nil => simp [keys]
  | cons ab d ih =>
    obtain ⟨a, b⟩ := ab
    simp only [keys, List.map_cons, List.mem_cons, get?_cons] at ih ⊢
    by_cases h : a = k
    · simp [h]
    · simp [h, Ne.symm h, ih]

theorem get?_eq_none_iff (d : Dict α β) (k : α) : d.get? k = none ↔ k ∉ d.keys := by
  rw [mem_keys_iff]
  cases d.get? k <;> simp

theorem mem_of_get? {d : Dict α β} {k : α} {v : β} (h : d.get? k = some v) : (k, v) ∈ d := by
  induction d with
  | nil => simp at h
  | cons ab d ih =>
    obtain ⟨a, b⟩ := ab
    rw [get?_cons] at h
    split at h
    · rename_i h2; simp at h; simp [h, h2]
    · simp [ih h]

theorem get?_of_mem {d : Dict α β} (hn : d.keys.Nodup) {k : α} {v : β} (h : (k, v) ∈ d) :
    d.get? k = some v := by
  induction d with
  | nil => simp at h
  | cons ab d ih =>
    obtain ⟨a, b⟩ := ab
    simp only [keys, List.map_cons, List.nodup_cons] at hn
    rw [get?_cons]
    simp only [List.mem_cons, Prod.mk.injEq] at h
    rcases h with ⟨rfl, rfl⟩ | h
    · simp
    · have : a ≠ k := by
        rintro rfl
        exact hn.1 (List.mem_map_of_mem (f := Prod.fst) h)
      rw [if_neg this]
      exact ih hn.2 h

theorem keys_upsert_of_mem {d : Dict α β} {k : α} (h : k ∈ d.keys) (f : Option β → β) :
    (d.upsert k f).keys = d.keys := by
  induction d with
  | nil => simp [keys] at h
  | cons ab d ih =>
    obtain ⟨a, b⟩ := ab
    simp only [upsert]
    split
    · simp [keys]
    · rename_i h2
      have : k ∈ Dict.keys d := by
        simp only [keys, List.map_cons, List.mem_cons] at h
        rcases h with h | h
        · exact absurd h.symm h2
        · exact h
      have := ih this
      simp only [keys, List.map_cons] at this ⊢
      rw [this]

theorem keys_upsert_of_not_mem {d : Dict α β} {k : α} (h : k ∉ d.keys) (f : Option β → β) :
    (d.upsert k f).keys = d.keys ++ [k] := by
  induction d with
  | nil => simp [keys, upsert]
  | cons ab d ih =>
    obtain ⟨a, b⟩ := ab
    simp only [keys, List.map_cons, List.mem_cons, not_or] at h
    simp only [upsert, if_neg (Ne.symm h.1)]
    have := ih h.2
    simp only [keys, List.map_cons] at this ⊢
    rw [this]; rfl

theorem nodup_keys_upsert {d : Dict α β} (hn : d.keys.Nodup) (k : α) (f : Option β → β) :
    (d.upsert k f).keys.Nodup := by
  by_cases h : k ∈ d.keys
  · rw [keys_upsert_of_mem h]; exact hn
  · rw [keys_upsert_of_not_mem h]
    rw [List.nodup_append]
    refine ⟨hn, by simp, ?_⟩
    intro a ha b hb
    simp at hb; subst hb
    rintro rfl; exact h ha

theorem mem_keys_upsert {d : Dict α β} (k k' : α) (f : Option β → β) :
    k' ∈ (d.upsert k f).keys ↔ k' = k ∨ k' ∈ d.keys := by
  by_cases h : k ∈ d.keys
  · rw [keys_upsert_of_mem h]; constructor
    · exact Or.inr
    · rintro (rfl | h'); exacts [h, h']
  · rw [keys_upsert_of_not_mem h]; simp [or_comm]

theorem keys_set_of_mem {d : Dict α β} {k : α} (h : k ∈ d.keys) (v : β) :
    (d.set k v).keys = d.keys := keys_upsert_of_mem h _

theorem pop_of_not_mem {d : Dict α β} {k : α} (h : k ∉ d.keys) : d.pop k = d := by
  induction d with
  | nil => rfl
  | cons ab d ih =>
    obtain ⟨a, b⟩ := ab
    simp only [keys, List.map_cons, List.mem_cons, not_or] at h
    simp only [pop, if_neg (Ne.symm h.1)]
    rw [ih h.2]

theorem keys_pop_sublist (d : Dict α β) (k : α) : (d.pop k).keys.Sublist d.keys := by
  induction d with
  | nil => simp [pop, keys]
  | cons ab d ih =>
    obtain ⟨a, b⟩ := ab
    simp only [pop]
    split
    · simp [keys]
    · simp only [keys, List.map_cons] at ih ⊢; exact ih.cons_cons _

theorem nodup_keys_pop {d : Dict α β} (hn : d.keys.Nodup) (k : α) : (d.pop k).keys.Nodup :=
  (keys_pop_sublist d k).nodup hn

theorem get?_pop {d : Dict α β} (hn : d.keys.Nodup) (k k' : α) :
    (d.pop k).get? k' = if k = k' then none else d.get? k' := by
  induction d with
  | nil => simp [pop]
  | cons ab d ih =>
    obtain ⟨a, b⟩ := ab
    have hn' := hn
    simp only [keys, List.map_cons, List.nodup_cons] at hn'
    simp only [pop]
    split
    · rename_i h; subst h
      split
      · rename_i h2; subst h2
        exact (get?_eq_none_iff d a).mpr hn'.1
      · rename_i h2; simp [get?_cons, h2]
    · rename_i h
      simp only [get?_cons, ih hn'.2]
      split
      · rename_i h2; subst h2; simp [Ne.symm h]
      · rfl

theorem mem_keys_pop {d : Dict α β} (hn : d.keys.Nodup) (k k' : α) :
    k' ∈ (d.pop k).keys ↔ k' ≠ k ∧ k' ∈ d.keys := by
  rw [mem_keys_iff, mem_keys_iff, get?_pop hn]
  by_cases h : k = k'
  · simp [h]
  · simp [h, Ne.symm h]

theorem length_pop_of_mem {d : Dict α β} {k : α} (h : k ∈ d.keys) :
    (d.pop k).length + 1 = d.length := by
  induction d with
  | nil => simp [keys] at h
  | cons ab d ih =>
    obtain ⟨a, b⟩ := ab
    simp only [pop]
    split
    · simp
    · rename_i h2
      have : k ∈ Dict.keys d := by
        simp only [keys, List.map_cons, List.mem_cons] at h
        rcases h with h | h
        · exact absurd h.symm h2
        · exact h
      simp [← ih this]

theorem length_keys (d : Dict α β) : d.keys.length = d.length := by simp [keys]

/-- Sum of a weight over all items. -/
def sumBy (g : α → β → Nat) (d : Dict α β) : Nat := (d.map fun ab => g ab.1 ab.2).sum

@[simp] theorem sumBy_nil (g : α → β → Nat) : sumBy g ([] : Dict α β) = 0 := rfl
@[simp] theorem sumBy_cons (g : α → β → Nat) (a : α) (b : β) (d : Dict α β) :
    sumBy g ((a, b) :: d) = g a b + sumBy g d := by simp [sumBy]

theorem sumBy_upsert (g : α → β → Nat) (d : Dict α β) (k : α) (f : Option β → β) (m : Nat)
    (h : ∀ o, d.get? k = o → g k (f o) = (o.map (g k)).getD 0 + m) :
    sumBy g (d.upsert k f) = sumBy g d + m := by
  induction d with
  | nil => simp only [upsert, sumBy_cons, sumBy_nil, h none rfl]; simp
  | cons ab d ih =>
    obtain ⟨a, b⟩ := ab
    simp only [upsert]
    split
    · rename_i h2; subst h2
      have := h (some b) (by simp [get?_cons])
      simp at this
      simp only [sumBy_cons, this]; omega
    · rename_i h2
      simp only [sumBy_cons]
      rw [ih]
      · omega
      · intro o ho; apply h; rw [get?_cons, if_neg h2]; exact ho

theorem sumBy_set_add (g : α → β → Nat) (d : Dict α β) (k : α) (v old : β)
    (h : d.get? k = some old) : sumBy g (d.set k v) + g k old = sumBy g d + g k v := by
  induction d with
  | nil => simp at h
  | cons ab d ih =>
    obtain ⟨a, b⟩ := ab
    rw [get?_cons] at h
    simp only [set, upsert] at ih ⊢
    split
    · rename_i h2; subst h2
      simp at h; subst h
      simp; omega
    · rename_i h2; simp only [if_neg h2] at h
      have := ih h
      simp only [sumBy_cons]; omega

theorem sumBy_pop_add (g : α → β → Nat) (d : Dict α β) (k : α) (old : β)
    (h : d.get? k = some old) : sumBy g (d.pop k) + g k old = sumBy g d := by
  induction d with
  | nil => simp at h
  | cons ab d ih =>
    obtain ⟨a, b⟩ := ab
    rw [get?_cons] at h
    simp only [pop]
    split
    · rename_i h2; subst h2
      simp at h; subst h
      simp; omega
    · rename_i h2; simp only [if_neg h2] at h
      have := ih h
      simp only [sumBy_cons]; omega

theorem values_sum (d : Dict α Nat) : d.values.sum = sumBy (fun _ n => n) d := rfl

theorem le_sumBy {g : α → β → Nat} {d : Dict α β} {k : α} {v : β} (h : d.get? k = some v) :
    g k v ≤ sumBy g d := by
  induction d with
  | nil => simp at h
  | cons ab d ih =>
    obtain ⟨a, b⟩ := ab
    rw [get?_cons] at h
    split at h
    · rename_i h2; subst h2; simp at h; subst h; simp
    · have := ih h; simp; omega

/-- Two dictionaries with the same unique keys: sums of pointwise equal weights agree. -/
theorem sumBy_congr {g : α → β → Nat} {d : Dict α β} {γ : Type w} {g' : α → γ → Nat} {d' : Dict α γ}
    (hk : d.keys = d'.keys) (hn : d.keys.Nodup)
    (h : ∀ k v v', d.get? k = some v → d'.get? k = some v' → g k v = g' k v') :
    sumBy g d = sumBy g' d' := by
  induction d generalizing d' with
  | nil =>
    cases d' with
    | nil => rfl
    | cons _ _ => simp [keys] at hk
  | cons ab d ih =>
    obtain ⟨a, b⟩ := ab
    cases d' with
    | nil => simp [keys] at hk
    | cons ab' d' =>
      obtain ⟨a', b'⟩ := ab'
      simp only [keys, List.map_cons, List.cons.injEq] at hk
      obtain ⟨rfl, hk⟩ := hk
      simp only [keys, List.map_cons, List.nodup_cons] at hn
      have h0 := h a b b' (by simp [get?_cons]) (by simp [get?_cons])
      have := ih (d' := d') hk hn.2 (by
        intro k v v' hv hv'
        have hka : a ≠ k := by
          rintro rfl
          exact hn.1 ((mem_keys_iff d a).mpr ⟨v, hv⟩)
        exact h k v v' (by rw [get?_cons, if_neg hka]; exact hv) (by rw [get?_cons, if_neg hka]; exact hv'))
      simp [h0, this]

end Dict
end Mixtera
