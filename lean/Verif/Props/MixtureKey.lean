import Verif.Model.MixtureKey
import Verif.Lemmas.Dict
import Verif.Lemmas.Sort
import Mathlib.Data.Prod.Lex
import Verif.Props.Reorder

/-!
# C26, C27, C28: mixture keys
-/

set_option linter.unusedSectionVars false

namespace Mixtera

/-! ### Specification -/

/-- Two keys have the same contents: the same properties, each with the same values, in any order. -/
def SameContents (a b : RawKey) : Prop :=
  ∀ k, match a.get? k, b.get? k with
    | none, none => True
    | some v, some w => v.Perm w
    | _, _ => False

/-! ### Sorting strings -/

theorem le_total' (a b : PyStr) : decide (a ≤ b) = true ∨ decide (b ≤ a) = true := by
  simp only [decide_eq_true_eq]; exact le_total a b

theorem le_trans' (a b c : PyStr) : decide (a ≤ b) = true → decide (b ≤ c) = true → decide (a ≤ c) = true := by
  simp only [decide_eq_true_eq]; exact le_trans

theorem le_antisymm' (a b : PyStr) : decide (a ≤ b) = true → decide (b ≤ a) = true → a = b := by
  simp only [decide_eq_true_eq]; exact le_antisymm

theorem sortStr_perm (l : List PyStr) : (sortStr l).Perm l := sortBy_perm _ l

theorem sortStr_congr {l l' : List PyStr} (h : l.Perm l') : sortStr l = sortStr l' :=
  sortBy_eq_of_perm _ le_total' le_trans' le_antisymm' h

theorem perm_of_sortStr {l l' : List PyStr} (h : sortStr l = sortStr l') : l.Perm l' :=
  (sortStr_perm l).symm.trans (h ▸ sortStr_perm l')

namespace RawKey

/-! ### Canonical contents -/

/-- Sorted names with sorted values. -/
def canon (a : RawKey) : List (PyStr × List PyStr) := a.names.map fun k => (k, sortStr (a.vals k))

theorem mem_names (a : RawKey) (k : PyStr) : k ∈ a.names ↔ k ∈ a.keys := (sortStr_perm _).mem_iff

theorem vals_eq {a : RawKey} {k : PyStr} {v : List PyStr} (h : a.get? k = some v) : a.vals k = v := by simp [RawKey.vals, h]

theorem names_congr {a b : RawKey} (ha : a.keys.Nodup) (hb : b.keys.Nodup) (h : SameContents a b) : a.names = b.names := by
  unfold names
  apply sortStr_congr
  rw [List.perm_ext_iff_of_nodup ha hb]
  intro k
  have := h k
  rw [Dict.mem_keys_iff, Dict.mem_keys_iff]
  cases h1 : a.get? k <;> cases h2 : b.get? k <;> simp [h1, h2] at this ⊢

theorem canon_eq_iff {a b : RawKey} (ha : a.keys.Nodup) (hb : b.keys.Nodup) : a.canon = b.canon ↔ SameContents a b := by
  constructor
  · intro h k
    have hn : a.names = b.names := by
      have := congrArg (List.map Prod.fst) h
      simpa [canon, List.map_map, Function.comp_def] using this
    have hv : ∀ k ∈ a.names, sortStr (a.vals k) = sortStr (b.vals k) := by
      unfold canon at h
      rw [← hn, List.map_inj_left] at h
      intro k hk
      have := h k hk
      simpa using this
    have hk : k ∈ a.keys ↔ k ∈ b.keys := by rw [← mem_names, ← mem_names, hn]
    rw [Dict.mem_keys_iff, Dict.mem_keys_iff] at hk
    cases h1 : a.get? k with
    | none =>
      cases h2 : b.get? k with
      | none => trivial
      | some w => rw [h1, h2] at hk; simp at hk
    | some v =>
      cases h2 : b.get? k with
      | none => rw [h1, h2] at hk; simp at hk
      | some w =>
        have := hv k ((mem_names a k).mpr ((Dict.mem_keys_iff a k).mpr ⟨v, h1⟩))
        rw [vals_eq h1, vals_eq h2] at this
        exact perm_of_sortStr this
  · intro h
    have hn := names_congr ha hb h
    unfold canon
    rw [← hn, List.map_inj_left]
    intro k hk
    have hk' := (Dict.mem_keys_iff a k).mp ((mem_names a k).mp hk)
    obtain ⟨v, hv⟩ := hk'
    have := h k
    rw [hv] at this
    cases h2 : b.get? k with
    | none => rw [h2] at this; exact this.elim
    | some w =>
      rw [h2] at this
      rw [vals_eq hv, vals_eq h2, sortStr_congr this]

/-! ### The two loops compare lexicographically -/

theorem cmpNames_spec (l l' : List (PyStr × Nat)) (h : l.length = l'.length) :
    (cmpNames l l' = none ∧ l = l') ∨
    (cmpNames l l' = some true ∧ l.map toLex < l'.map toLex) ∨
    (cmpNames l l' = some false ∧ l'.map toLex < l.map toLex) := by
  induction l generalizing l' with
  | nil => cases l' with
    | nil => simp [cmpNames]
    | cons b l' => simp at h
  | cons x l ih =>
    obtain ⟨k, m⟩ := x
    cases l' with
    | nil => simp at h
    | cons y l' =>
      obtain ⟨k', m'⟩ := y
      simp only [List.length_cons, Nat.add_right_cancel_iff] at h
      rw [cmpNames]
      have hhead : ∀ {x y : PyStr × Nat} {l l' : List (PyStr × Nat)}, toLex x < toLex y →
          (x :: l).map toLex < (y :: l').map toLex := by
        intro x y l l' hxy
        rw [List.map_cons, List.map_cons, List.cons_lt_cons_iff]
        exact Or.inl hxy
      by_cases hk : k = k'
      · subst hk
        rw [if_neg (by simp)]
        by_cases hm : m = m'
        · subst hm
          rw [if_neg (by simp)]
          rcases ih l' h with ⟨h1, h2⟩ | ⟨h1, h2⟩ | ⟨h1, h2⟩
          · left; exact ⟨h1, by rw [h2]⟩
          · right; left
            refine ⟨h1, ?_⟩
            rw [List.map_cons, List.map_cons, List.cons_lt_cons_iff]
            exact Or.inr ⟨rfl, h2⟩
          · right; right
            refine ⟨h1, ?_⟩
            rw [List.map_cons, List.map_cons, List.cons_lt_cons_iff]
            exact Or.inr ⟨rfl, h2⟩
        · rw [if_pos hm]
          rcases Nat.lt_or_gt_of_ne hm with hlt | hgt
          · right; left
            exact ⟨by simp [hlt], hhead (by rw [Prod.Lex.toLex_lt_toLex]; exact Or.inr ⟨rfl, hlt⟩)⟩
          · right; right
            exact ⟨by simp; omega, hhead (by rw [Prod.Lex.toLex_lt_toLex]; exact Or.inr ⟨rfl, hgt⟩)⟩
      · rw [if_pos hk]
        rcases lt_or_gt_of_ne hk with hlt | hgt
        · right; left
          exact ⟨by simp [hlt], hhead (by rw [Prod.Lex.toLex_lt_toLex]; exact Or.inl hlt)⟩
        · right; right
          exact ⟨by simp [not_lt.mpr (le_of_lt hgt)], hhead (by rw [Prod.Lex.toLex_lt_toLex]; exact Or.inl hgt)⟩

theorem cmpValues_spec (l l' : List (List PyStr)) (h : l.length = l'.length) :
    (cmpValues l l' = none ∧ l = l') ∨ (cmpValues l l' = some true ∧ l < l') ∨ (cmpValues l l' = some false ∧ l' < l) := by
  induction l generalizing l' with
  | nil => cases l' with
    | nil => simp [cmpValues]
    | cons b l' => simp at h
  | cons x l ih =>
    cases l' with
    | nil => simp at h
    | cons y l' =>
      simp only [List.length_cons, Nat.add_right_cancel_iff] at h
      rw [cmpValues]
      by_cases hk : x = y
      · subst hk
        rw [if_neg (by simp)]
        rcases ih l' h with ⟨h1, h2⟩ | ⟨h1, h2⟩ | ⟨h1, h2⟩
        · left; exact ⟨h1, by rw [h2]⟩
        · right; left; exact ⟨h1, by rw [List.cons_lt_cons_iff]; exact Or.inr ⟨rfl, h2⟩⟩
        · right; right; exact ⟨h1, by rw [List.cons_lt_cons_iff]; exact Or.inr ⟨rfl, h2⟩⟩
      · rw [if_pos hk]
        rcases lt_or_gt_of_ne hk with hlt | hgt
        · right; left; exact ⟨by simp [hlt], by rw [List.cons_lt_cons_iff]; exact Or.inl hlt⟩
        · right; right
          exact ⟨by simp [not_lt.mpr (le_of_lt hgt)], by rw [List.cons_lt_cons_iff]; exact Or.inl hgt⟩

/-- What `__lt__` compares, in order of precedence. -/
def code (a : RawKey) : Nat ×ₗ (List (PyStr ×ₗ Nat) ×ₗ List (List PyStr)) :=
  toLex (a.length, toLex ((a.names.map fun k => (k, (a.vals k).length)).map toLex, a.names.map fun k => sortStr (a.vals k)))

theorem length_names (a : RawKey) : a.names.length = a.length := by
  rw [← Dict.length_keys]; exact (sortStr_perm _).length_eq

theorem code_eq_iff {a b : RawKey} : a.code = b.code ↔ a.canon = b.canon := by
  constructor
  · intro h
    unfold code at h
    rw [toLex_inj, Prod.mk.injEq, toLex_inj, Prod.mk.injEq] at h
    obtain ⟨_, h1, h2⟩ := h
    have h1' := List.map_injective_iff.mpr toLex.injective h1
    have hn : a.names = b.names := by
      have := congrArg (List.map Prod.fst) h1'
      simpa [List.map_map, Function.comp_def] using this
    unfold canon
    rw [← hn] at h2 ⊢
    rw [List.map_inj_left] at h2 ⊢
    intro k hk
    rw [h2 k hk]
  · intro h
    have hn : a.names = b.names := by
      have := congrArg (List.map Prod.fst) h
      simpa [canon, List.map_map, Function.comp_def] using this
    have hv : ∀ k ∈ a.names, sortStr (a.vals k) = sortStr (b.vals k) := by
      unfold canon at h
      rw [← hn, List.map_inj_left] at h
      intro k hk
      have := h k hk
      simpa using this
    unfold code
    rw [← length_names a, ← length_names b, ← hn]
    have h1 : (a.names.map fun k => (k, (a.vals k).length)) = a.names.map fun k => (k, (b.vals k).length) := by
      rw [List.map_inj_left]
      intro k hk
      have := perm_of_sortStr (hv k hk)
      rw [this.length_eq]
    have h2 : (a.names.map fun k => sortStr (a.vals k)) = a.names.map fun k => sortStr (b.vals k) := by
      rw [List.map_inj_left]; exact hv
    rw [h1, h2]

theorem str_of_canon {a b : RawKey} (h : a.canon = b.canon) : a.str = b.str := by
  have : ∀ a : RawKey, a.str = joinStr [';'] (a.canon.map fun x => x.1 ++ [':'] ++ joinStr [':'] x.2) := by
    intro a; simp [str, canon, List.map_map, Function.comp_def]
  rw [this, this, h]

theorem lt_iff (a b : RawKey) : a.lt b = true ↔ a.code < b.code := by
  unfold lt code
  rw [Prod.Lex.toLex_lt_toLex]
  by_cases hl : a.length = b.length
  · rw [if_neg (by simpa using hl)]
    simp only [hl, lt_irrefl, true_and, false_or]
    rw [Prod.Lex.toLex_lt_toLex]
    dsimp only
    have hlen : (a.names.map fun k => (k, (a.vals k).length)).length = (b.names.map fun k => (k, (b.vals k).length)).length := by
      simp [length_names, hl]
    rcases cmpNames_spec _ _ hlen with ⟨h1, h2⟩ | ⟨h1, h2⟩ | ⟨h1, h2⟩
    · rw [h1, h2]
      simp only [lt_irrefl, true_and, false_or]
      have hn : a.names = b.names := by
        have := congrArg (List.map Prod.fst) h2
        simpa [List.map_map, Function.comp_def] using this
      rw [← hn]
      have hlen2 : (a.names.map fun k => sortStr (a.vals k)).length = (a.names.map fun k => sortStr (b.vals k)).length := by simp
      rcases cmpValues_spec _ _ hlen2 with ⟨h3, h4⟩ | ⟨h3, h4⟩ | ⟨h3, h4⟩
      · rw [h3, h4]
        have hc : a.canon = b.canon := by
          unfold canon
          rw [← hn]
          rw [List.map_inj_left] at h4 ⊢
          intro k hk
          rw [h4 k hk]
        rw [str_of_canon hc]
        simp
      · rw [h3]; simp [h4]
      · rw [h3]; simp [le_of_lt h4]
    · rw [h1]; simp only [true_iff]; exact Or.inl h2
    · rw [h1]
      simp only [Bool.false_eq_true, false_iff, not_or, not_and]
      exact ⟨not_lt.mpr (le_of_lt h2), fun e => absurd e.symm (ne_of_lt h2)⟩
  · rw [if_pos hl]
    simp [hl]

end RawKey

open RawKey

/-! ### C26 -/

/-- C26. `<` on mixture keys is irreflexive, transitive, decides any two keys with different contents, holds for at
most one direction, and does not change when properties or values are listed in another order. (`Nodup`: a Python
dictionary has each property once.) -/
theorem c26_strict_total_order (a b c a' b' : RawKey) (ha : a.keys.Nodup) (hb : b.keys.Nodup) (ha' : a'.keys.Nodup)
    (hb' : b'.keys.Nodup) :
    a.lt a = false ∧
    (a.lt b = true → b.lt c = true → a.lt c = true) ∧
    (a.lt b = true → b.lt a = false) ∧
    (a.lt b = true ∨ b.lt a = true ∨ SameContents a b) ∧
    (SameContents a b → a.lt b = false) ∧
    (SameContents a a' → SameContents b b' → a.lt b = a'.lt b') := by
  have hf : ∀ x y : RawKey, x.lt y = false ↔ ¬ x.code < y.code := by
    intro x y; rw [← lt_iff]; simp
  refine ⟨?_, ?_, ?_, ?_, ?_, ?_⟩
  · rw [hf]; exact lt_irrefl _
  · rw [lt_iff, lt_iff, lt_iff]; exact lt_trans
  · rw [lt_iff, hf]; exact fun h => not_lt.mpr (le_of_lt h)
  · rw [lt_iff, lt_iff, ← canon_eq_iff ha hb, ← code_eq_iff]
    rcases lt_trichotomy a.code b.code with h | h | h
    · exact Or.inl h
    · exact Or.inr (Or.inr h)
    · exact Or.inr (Or.inl h)
  · intro h
    rw [hf, code_eq_iff.mpr ((canon_eq_iff ha hb).mpr h)]
    exact lt_irrefl _
  · intro h1 h2
    have e1 := code_eq_iff.mpr ((canon_eq_iff ha ha').mpr h1)
    have e2 := code_eq_iff.mpr ((canon_eq_iff hb hb').mpr h2)
    rw [Bool.eq_iff_iff, lt_iff, lt_iff, e1, e2]

example : let a : RawKey := [(['t'], [['x'], ['y']]), (['l'], [['e']])]
    let b : RawKey := [(['l'], [['e']]), (['t'], [['z'], ['x']])]
    a.keys.Nodup ∧ b.keys.Nodup ∧ a.lt b = true ∧ b.lt a = false := by decide

/-! ### C28 -/

/-- C28. `a == b` holds iff every property of `a` occurs in `b` and the two value lists have a common value or are
both empty. -/
theorem c28_match_iff (a b : RawKey) (ha : a.keys.Nodup) :
    a.isMatch b = true ↔ ∀ k v, a.get? k = some v →
      ∃ w, b.get? k = some w ∧ ((∃ x, x ∈ v ∧ x ∈ w) ∨ (v = [] ∧ w = [])) := by
  unfold isMatch
  rw [List.all_eq_true]
  constructor
  · intro h k v hv
    have := h (k, v) (Dict.mem_of_get? hv)
    dsimp only at this
    cases hb : b.get? k with
    | none => rw [hb] at this; simp at this
    | some w =>
      rw [hb] at this
      refine ⟨w, rfl, ?_⟩
      simpa [List.any_eq_true] using this
  · rintro h ⟨k, v⟩ hm
    obtain ⟨w, hw, hc⟩ := h k v (Dict.get?_of_mem ha hm)
    dsimp only
    rw [hw]
    simpa [List.any_eq_true] using hc

/-- C28 (equal contents match). -/
theorem c28_same_contents_match (a b : RawKey) (ha : a.keys.Nodup) (h : SameContents a b) : a.isMatch b = true := by
  rw [c28_match_iff a b ha]
  intro k v hv
  have := h k
  rw [hv] at this
  cases hb : b.get? k with
  | none => rw [hb] at this; exact this.elim
  | some w =>
    rw [hb] at this
    refine ⟨w, rfl, ?_⟩
    cases v with
    | nil => right; exact ⟨rfl, List.nil_perm.mp this⟩
    | cons x v => left; exact ⟨x, by simp, this.mem_iff.mp (by simp)⟩

/-- C28 (monotone). If no property of `a` has an empty value list, then a match survives adding properties or values
to `b`. -/
theorem c28_monotone (a b b' : RawKey) (ha : a.keys.Nodup) (hne : ∀ k v, a.get? k = some v → v ≠ [])
    (hsub : ∀ k w, b.get? k = some w → ∃ w', b'.get? k = some w' ∧ w ⊆ w') (h : a.isMatch b = true) : a.isMatch b' = true := by
  rw [c28_match_iff a _ ha] at h ⊢
  intro k v hv
  obtain ⟨w, hw, hc⟩ := h k v hv
  obtain ⟨w', hw', hs⟩ := hsub k w hw
  refine ⟨w', hw', ?_⟩
  rcases hc with ⟨x, h1, h2⟩ | ⟨h1, _⟩
  · exact Or.inl ⟨x, h1, hs h2⟩
  · exact absurd h1 (hne k v hv)

/-- C28 (order of listing). Matching depends only on the contents. -/
theorem c28_order_independent (a b a' b' : RawKey) (ha : a.keys.Nodup) (ha' : a'.keys.Nodup)
    (h1 : SameContents a a') (h2 : SameContents b b') : a.isMatch b = a'.isMatch b' := by
  suffices H : ∀ a b a' b' : RawKey, a.keys.Nodup → a'.keys.Nodup → SameContents a a' → SameContents b b' →
      a.isMatch b = true → a'.isMatch b' = true by
    rw [Bool.eq_iff_iff]
    have hs : ∀ x y : RawKey, SameContents x y → SameContents y x := by
      intro x y h k
      have := h k
      cases hx : x.get? k <;> cases hy : y.get? k <;> simp [hx, hy] at this ⊢
      exact this.symm
    exact ⟨H a b a' b' ha ha' h1 h2, H a' b' a b ha' ha (hs _ _ h1) (hs _ _ h2)⟩
  intro a b a' b' ha ha' h1 h2 h
  rw [c28_match_iff _ _ ha] at h
  rw [c28_match_iff _ _ ha']
  intro k v' hv'
  have e1 := h1 k
  have e2 := h2 k
  rw [hv'] at e1
  cases hv : a.get? k with
  | none => rw [hv] at e1; exact e1.elim
  | some v =>
    rw [hv] at e1
    obtain ⟨w, hw, hc⟩ := h k v hv
    rw [hw] at e2
    cases hw' : b'.get? k with
    | none => rw [hw'] at e2; exact e2.elim
    | some w' =>
      rw [hw'] at e2
      refine ⟨w', rfl, ?_⟩
      rcases hc with ⟨x, hx1, hx2⟩ | ⟨rfl, rfl⟩
      · exact Or.inl ⟨x, e1.mem_iff.mp hx1, e2.mem_iff.mp hx2⟩
      · exact Or.inr ⟨List.nil_perm.mp e1, List.nil_perm.mp e2⟩

/-- C28: `==` is neither symmetric nor transitive, and an empty value list matches only an empty value list. -/
theorem c28_not_an_equivalence :
    (let a : RawKey := [(['l'], [['e']])]; let b : RawKey := [(['l'], [['e']]), (['t'], [['x']])];
      a.isMatch b = true ∧ b.isMatch a = false) ∧
    (let a : RawKey := [(['l'], [['e']])]; let b : RawKey := [(['l'], [['e'], ['f']])]; let c : RawKey := [(['l'], [['f']])];
      a.isMatch b = true ∧ b.isMatch c = true ∧ a.isMatch c = false) ∧
    (let a : RawKey := [(['l'], [])]; a.isMatch [(['l'], [])] = true ∧ a.isMatch [(['l'], [['e']])] = false) := by
  decide

/-! ### C27 -/

theorem hashText_of_canon {a b : RawKey} (h : a.canon = b.canon) : a.hashText = b.hashText := by
  have : ∀ a : RawKey, a.hashText = joinStr ['\x00'] (a.canon.map fun x => x.1 ++ [':'] ++ joinStr ['\x00'] x.2) := by
    intro a; simp [hashText, canon, List.map_map, Function.comp_def]
  rw [this, this, h]

/-- C27 (one direction, for all keys). Keys with the same contents have the same hash text, and a dictionary treats
them as the same key. -/
theorem c27_same_contents_same_text (hash : PyStr → Nat) (a b : RawKey) (ha : a.keys.Nodup) (hb : b.keys.Nodup)
    (h : SameContents a b) : a.hashText = b.hashText ∧ a.sameSlot hash b = true := by
  have := hashText_of_canon ((canon_eq_iff ha hb).mpr h)
  refine ⟨this, ?_⟩
  simp [sameSlot, this, c28_same_contents_match a b ha h]


/-! Decoding the hash text -/

theorem joinStr_append (sep : PyStr) (l l' : List PyStr) (h : l ≠ []) (h' : l' ≠ []) :
    joinStr sep (l ++ l') = joinStr sep l ++ sep ++ joinStr sep l' := by
  induction l with
  | nil => exact absurd rfl h
  | cons a l ih =>
    cases l with
    | nil =>
      cases l' with
      | nil => exact absurd rfl h'
      | cons b l' => rfl
    | cons b l =>
      have := ih (by simp)
      have e1 : joinStr sep (a :: b :: l ++ l') = a ++ sep ++ joinStr sep (b :: l ++ l') := rfl
      have e2 : joinStr sep (a :: b :: l) = a ++ sep ++ joinStr sep (b :: l) := rfl
      rw [e1, e2, this]
      simp

theorem joinStr_flatten (sep : PyStr) (ll : List (List PyStr)) (h : ∀ l ∈ ll, l ≠ []) :
    joinStr sep ll.flatten = joinStr sep (ll.map (joinStr sep)) := by
  induction ll with
  | nil => rfl
  | cons l ll ih =>
    have h1 := ih (fun l hl => h l (by simp [hl]))
    cases ll with
    | nil => simp [joinStr]
    | cons l' ll =>
      rw [List.flatten_cons, joinStr_append]
      · rw [h1]; rfl
      · exact h l (by simp)
      · simp only [List.flatten_cons, ne_eq, List.append_eq_nil_iff, not_and]
        intro e; exact absurd e (h l' (by simp))

theorem cut_char (c : Char) : ∀ (x y : PyStr) (s t : PyStr), c ∉ x → c ∉ y → x ++ c :: s = y ++ c :: t → x = y ∧ s = t := by
  intro x
  induction x with
  | nil =>
    intro y s t _ hy e
    cases y with
    | nil => simpa using e
    | cons b y => simp at e; exact absurd e.1 (fun h => hy (by simp [h]))
  | cons a x ih =>
    intro y s t hx hy e
    cases y with
    | nil => simp at e; exact absurd e.1 (fun h => hx (by simp [h]))
    | cons b y =>
      simp only [List.cons_append, List.cons.injEq] at e
      obtain ⟨h1, h2⟩ := ih y s t (fun h => hx (by simp [h])) (fun h => hy (by simp [h])) e.2
      exact ⟨by rw [e.1, h1], h2⟩

theorem joinStr_inj (c : Char) (l l' : List PyStr) (h : ∀ x ∈ l, c ∉ x) (h' : ∀ x ∈ l', c ∉ x) (hl : l ≠ []) (hl' : l' ≠ [])
    (e : joinStr [c] l = joinStr [c] l') : l = l' := by
  induction l generalizing l' with
  | nil => exact absurd rfl hl
  | cons a l ih =>
    cases l' with
    | nil => exact absurd rfl hl'
    | cons a' l' =>
      cases l with
      | nil =>
        cases l' with
        | nil => simpa [joinStr] using e
        | cons b' l' =>
          simp only [joinStr] at e
          exact absurd (e ▸ (by simp : c ∈ a' ++ [c] ++ joinStr [c] (b' :: l'))) (h a (by simp))
      | cons b l =>
        cases l' with
        | nil =>
          simp only [joinStr] at e
          exact absurd (e ▸ (by simp : c ∈ a ++ [c] ++ joinStr [c] (b :: l))) (h' a' (by simp))
        | cons b' l' =>
          simp only [joinStr, List.append_assoc, List.singleton_append] at e
          obtain ⟨h1, h2⟩ := cut_char c _ _ _ _ (h a (by simp)) (h' a' (by simp)) e
          rw [h1, ih (b' :: l') (fun x hx => h x (by simp [hx])) (fun x hx => h' x (by simp [hx])) (by simp) (by simp) h2]

/-- The pieces between the NUL characters. -/
def hashPieces (l : List (PyStr × List PyStr)) : List (List PyStr) :=
  l.map fun x => match x.2 with
    | [] => []
    | v :: vs => (x.1 ++ [':'] ++ v) :: vs

/-- Names without `:` and NUL, values without NUL, values with `:` only where they are the only value of their property (a URL,
for example), and at least one value per property. -/
structure Plain (a : RawKey) : Prop where
  name : ∀ k v, a.get? k = some v → ':' ∉ k ∧ '\x00' ∉ k
  value : ∀ k v, a.get? k = some v → ∀ x ∈ v, '\x00' ∉ x
  colon : ∀ k v, a.get? k = some v → ∀ x ∈ v, ':' ∈ x → v = [x]
  nonempty : ∀ k v, a.get? k = some v → v ≠ []

theorem hashText_pieces {l : List (PyStr × List PyStr)} (h : ∀ x ∈ l, x.2 ≠ []) :
    joinStr ['\x00'] (l.map fun x => x.1 ++ [':'] ++ joinStr ['\x00'] x.2) = joinStr ['\x00'] (hashPieces l).flatten := by
  rw [joinStr_flatten]
  · congr 1
    rw [hashPieces, List.map_map, List.map_inj_left]
    rintro ⟨k, v⟩ hx
    have := h _ hx
    cases v with
    | nil => exact absurd rfl this
    | cons v vs =>
      cases vs with
      | nil => simp [joinStr]
      | cons w vs => simp [joinStr]
  · intro p hp
    simp only [hashPieces, List.mem_map] at hp
    obtain ⟨⟨k, v⟩, hx, rfl⟩ := hp
    have := h _ hx
    cases v with
    | nil => exact absurd rfl this
    | cons v vs => simp

theorem cut_prefix (p : PyStr → Prop) : ∀ (vs ws l l' : List PyStr), (∀ x ∈ vs, ¬ p x) → (∀ x ∈ ws, ¬ p x) →
    (∀ x ∈ l.head?, p x) → (∀ x ∈ l'.head?, p x) → vs ++ l = ws ++ l' → vs = ws ∧ l = l' := by
  intro vs
  induction vs with
  | nil =>
    intro ws l l' _ hw hl _ e
    cases ws with
    | nil => exact ⟨rfl, e⟩
    | cons w ws =>
      simp only [List.nil_append] at e
      subst e
      exact absurd (hl w (by simp)) (hw w (by simp))
  | cons v vs ih =>
    intro ws l l' hv hw hl hl' e
    cases ws with
    | nil =>
      simp only [List.nil_append] at e
      subst e
      exact absurd (hl' v (by simp)) (hv v (by simp))
    | cons w ws =>
      simp only [List.cons_append, List.cons.injEq] at e
      obtain ⟨h1, h2⟩ := ih ws l l' (fun x hx => hv x (by simp [hx])) (fun x hx => hw x (by simp [hx])) hl hl' e.2
      exact ⟨by rw [e.1, h1], h2⟩

theorem hashPieces_head (l : List (PyStr × List PyStr)) (h : ∀ x ∈ l, x.2 ≠ []) :
    ∀ x ∈ (hashPieces l).flatten.head?, ':' ∈ x := by
  cases l with
  | nil => simp [hashPieces]
  | cons x l =>
    obtain ⟨k, v⟩ := x
    cases v with
    | nil => exact absurd rfl (h (k, []) (by simp))
    | cons v vs => simp [hashPieces]

theorem hashPieces_inj (l l' : List (PyStr × List PyStr))
    (h : ∀ x ∈ l, ':' ∉ x.1 ∧ (∀ v ∈ x.2.tail, ':' ∉ v) ∧ x.2 ≠ []) (h' : ∀ x ∈ l', ':' ∉ x.1 ∧ (∀ v ∈ x.2.tail, ':' ∉ v) ∧ x.2 ≠ [])
    (e : (hashPieces l).flatten = (hashPieces l').flatten) : l = l' := by
  induction l generalizing l' with
  | nil =>
    cases l' with
    | nil => rfl
    | cons y l' =>
      obtain ⟨k', v'⟩ := y
      cases v' with
      | nil => exact absurd rfl (h' (k', []) (by simp)).2.2
      | cons v' vs' => simp [hashPieces] at e
  | cons x l ih =>
    obtain ⟨k, v⟩ := x
    cases v with
    | nil => exact absurd rfl (h (k, []) (by simp)).2.2
    | cons v vs =>
      cases l' with
      | nil => simp [hashPieces] at e
      | cons y l' =>
        obtain ⟨k', v'⟩ := y
        cases v' with
        | nil => exact absurd rfl (h' (k', []) (by simp)).2.2
        | cons v' vs' =>
          obtain ⟨a1, a2, _⟩ := h (k, v :: vs) (by simp)
          obtain ⟨b1, b2, _⟩ := h' (k', v' :: vs') (by simp)
          have hl : ∀ x ∈ l, ':' ∉ x.1 ∧ (∀ v ∈ x.2.tail, ':' ∉ v) ∧ x.2 ≠ [] := fun x hx => h x (by simp [hx])
          have hl' : ∀ x ∈ l', ':' ∉ x.1 ∧ (∀ v ∈ x.2.tail, ':' ∉ v) ∧ x.2 ≠ [] := fun x hx => h' x (by simp [hx])
          simp only [hashPieces, List.map_cons, List.flatten_cons, List.cons_append, List.cons.injEq] at e
          obtain ⟨e1, e2⟩ := e
          have e1' : k = k' ∧ v = v' := by
            exact cut_char ':' k k' v v' a1 b1 (by simpa using e1)
          obtain ⟨e3, e4⟩ := cut_prefix (fun x => ':' ∈ x) vs vs' _ _ (fun x hx => a2 x (by simp [hx]))
            (fun x hx => b2 x (by simp [hx])) (hashPieces_head l fun x hx => (hl x hx).2.2)
            (hashPieces_head l' fun x hx => (hl' x hx).2.2) e2
          rw [e1'.1, e1'.2, e3, ih l' hl hl' e4]

theorem mem_canon {a : RawKey} {x : PyStr × List PyStr} (h : x ∈ a.canon) : ∃ v, a.get? x.1 = some v ∧ x.2.Perm v := by
  unfold canon at h
  rw [List.mem_map] at h
  obtain ⟨k, hk, rfl⟩ := h
  obtain ⟨v, hv⟩ := (Dict.mem_keys_iff a k).mp ((mem_names a k).mp hk)
  refine ⟨v, hv, ?_⟩
  rw [vals_eq hv]
  exact sortStr_perm v

/-- C27. For keys whose names contain neither `:` nor NUL, whose values contain no NUL, and `:` only if they are the only value of
their property, and whose value lists are not empty: the hashed
texts are equal iff the contents are; so, if the hash function separates the two texts, a dictionary treats the keys
as the same iff their contents are the same. Missing: other keys, for which it is false, see
`c27_colon_collision` and `c27_empty_collision`. -/
theorem c27_text_iff_contents_partial (hash : PyStr → Nat) (a b : RawKey) (ha : a.keys.Nodup) (hb : b.keys.Nodup)
    (pa : Plain a) (pb : Plain b) :
    (a.hashText = b.hashText ↔ SameContents a b) ∧
    ((hash a.hashText = hash b.hashText → a.hashText = b.hashText) → (a.sameSlot hash b = true ↔ SameContents a b)) := by
  have htext : ∀ a : RawKey, a.hashText = joinStr ['\x00'] (a.canon.map fun x => x.1 ++ [':'] ++ joinStr ['\x00'] x.2) := by
    intro a; simp [hashText, canon, List.map_map, Function.comp_def]
  have hp : ∀ a : RawKey, Plain a → ∀ x ∈ a.canon, (':' ∉ x.1 ∧ '\x00' ∉ x.1) ∧ ((∀ v ∈ x.2.tail, ':' ∉ v) ∧ ∀ v ∈ x.2, '\x00' ∉ v) ∧ x.2 ≠ [] := by
    intro a pa x hx
    obtain ⟨v, hv, hperm⟩ := mem_canon hx
    refine ⟨pa.name _ _ hv, ⟨fun y hy hc => ?_, fun y hy => pa.value _ _ hv y (hperm.mem_iff.mp hy)⟩, ?_⟩
    · have hone := pa.colon _ _ hv y (hperm.mem_iff.mp (List.mem_of_mem_tail hy)) hc
      rw [hone, List.perm_singleton] at hperm
      rw [hperm] at hy
      simp at hy
    intro e
    rw [e] at hperm
    exact pa.nonempty _ _ hv (List.nil_perm.mp hperm)
  have hmain : a.hashText = b.hashText ↔ SameContents a b := by
    rw [← canon_eq_iff ha hb]
    constructor
    · intro e
      rw [htext, htext, hashText_pieces (fun x hx => (hp a pa x hx).2.2), hashText_pieces (fun x hx => (hp b pb x hx).2.2)] at e
      apply hashPieces_inj
      · intro x hx; obtain ⟨h1, h2, h3⟩ := hp a pa x hx; exact ⟨h1.1, h2.1, h3⟩
      · intro x hx; obtain ⟨h1, h2, h3⟩ := hp b pb x hx; exact ⟨h1.1, h2.1, h3⟩
      have hfree : ∀ a : RawKey, Plain a → ∀ x ∈ (hashPieces a.canon).flatten, '\x00' ∉ x := by
        intro a pa x hx
        simp only [hashPieces, List.mem_flatten, List.mem_map] at hx
        obtain ⟨p, ⟨⟨k, v⟩, hk, rfl⟩, hx⟩ := hx
        obtain ⟨h1, h2, h3⟩ := hp a pa _ hk
        cases v with
        | nil => simp at hx
        | cons v vs =>
          simp only [List.mem_cons] at hx
          rcases hx with rfl | hx
          · have := h1.2
            have := h2.2 v (by simp)
            simp_all
          · exact h2.2 x (by simp [hx])
      have hnil : ∀ a : RawKey, Plain a → (hashPieces a.canon).flatten ≠ [] → joinStr ['\x00'] (hashPieces a.canon).flatten ≠ [] := by
        intro a pa hne e
        have hh := hashPieces_head a.canon fun x hx => (hp a pa x hx).2.2
        cases hf : (hashPieces a.canon).flatten with
        | nil => exact hne hf
        | cons x l =>
          rw [hf] at e hh
          have := hh x (by simp)
          cases l with
          | nil => simp only [joinStr] at e; rw [e] at this; simp at this
          | cons y l => simp [joinStr] at e
      by_cases h1 : (hashPieces a.canon).flatten = []
      · by_cases h2 : (hashPieces b.canon).flatten = []
        · rw [h1, h2]
        · exact absurd (e ▸ (by rw [h1]; rfl)) (hnil b pb h2)
      · by_cases h2 : (hashPieces b.canon).flatten = []
        · exact absurd (e.trans (by rw [h2]; rfl)) (hnil a pa h1)
        · exact joinStr_inj _ _ _ (hfree a pa) (hfree b pb) h1 h2 e
    · exact hashText_of_canon
  refine ⟨hmain, fun hh => ?_⟩
  constructor
  · intro hs
    simp only [sameSlot, Bool.and_eq_true, beq_iff_eq] at hs
    exact hmain.mp (hh hs.1)
  · intro h
    exact (c27_same_contents_same_text hash a b ha hb h).2

example : let a : RawKey := [(['t'], [['x'], ['y']]), (['l'], [['e']])]
    a.keys.Nodup ∧ Plain a ∧ a.hashText = ['l', ':', 'e', '\x00', 't', ':', 'x', '\x00', 'y'] := by
  refine ⟨by decide, ⟨?_, ?_, ?_, ?_⟩, by decide⟩ <;>
  · intro k v h
    have := Dict.mem_of_get? h
    simp at this
    rcases this with ⟨rfl, rfl⟩ | ⟨rfl, rfl⟩ <;> simp

/-- C27 is violated by a value that contains `:`: these two keys have different contents but the same hash text, and a
dictionary treats the second as the first. -/
theorem c27_colon_collision (hash : PyStr → Nat) :
    let a : RawKey := [(['a'], [['a'], ['b', ':', 'y']])]
    let b : RawKey := [(['a'], [['a']]), (['b'], [['y']])]
    ¬ SameContents a b ∧ a.hashText = b.hashText ∧ a.sameSlot hash b = true := by
  refine ⟨?_, by decide, ?_⟩
  · intro h
    have := h ['b']
    simp [Dict.get?] at this
  · have : RawKey.hashText [(['a'], [['a'], ['b', ':', 'y']])] = RawKey.hashText [(['a'], [['a']]), (['b'], [['y']])] := by decide
    simp only [sameSlot, this, beq_self_eq_true, Bool.true_and]
    decide

/-- C27 is violated by empty value lists: no value and one empty value have the same hash text (here `==` tells them
apart, so a dictionary does too). -/
theorem c27_empty_collision :
    let a : RawKey := [(['a'], [])]
    let b : RawKey := [(['a'], [[]])]
    ¬ SameContents a b ∧ a.hashText = b.hashText ∧ a.isMatch b = false := by
  refine ⟨?_, by decide, by decide⟩
  intro h
  have := h ['a']
  simp [Dict.get?] at this

/-! ### The keys of the chunk generator -/

/-- Mixture keys up to contents: sorted properties with sorted values. The generator model is generic in the key type
and compares keys in dictionaries by `=`; this is the type it is used at. -/
def CKey := { a : RawKey // a.keys.Nodup ∧ a.canon = a }

instance : DecidableEq CKey := inferInstanceAs (DecidableEq { a : RawKey // a.keys.Nodup ∧ a.canon = a })

/-- `sorted` and `==` on mixture keys (mixture_key.py:21-77). -/
def ckeyOps : KeyOps CKey where
  le a b := !(b.1.lt a.1)
  isMatch a b := a.1.isMatch b.1

/-- C26. What the theorems about chunk generation assume of the key order (`KeyOps.Total`) holds for mixture keys. -/
theorem c26_generator_order : ckeyOps.Total := by
  refine ⟨?_, ?_, ?_⟩
  · intro a b
    have := (c26_strict_total_order a.1 b.1 a.1 a.1 b.1 a.2.1 b.2.1 a.2.1 b.2.1).2.2.1
    simp only [ckeyOps, Bool.not_eq_true']
    cases h : a.1.lt b.1
    · exact Or.inr rfl
    · exact Or.inl (this h)
  · intro a b c
    simp only [ckeyOps, Bool.not_eq_true', ← Bool.not_eq_true, lt_iff, not_lt]
    exact le_trans
  · intro a b h1 h2
    simp only [ckeyOps, Bool.not_eq_true', ← Bool.not_eq_true, lt_iff, not_lt] at h1 h2
    have := code_eq_iff.mp (le_antisymm h1 h2)
    rw [a.2.2, b.2.2] at this
    exact Subtype.ext this

theorem keys_canon (a : RawKey) : Dict.keys (a.canon : RawKey) = a.names := by
  simp [Dict.keys, canon, List.map_map, Function.comp_def]

/-- C26. Every key has a canonical form: the same contents, and the same form for all keys with these contents. -/
theorem c26_canonical_form (a : RawKey) (ha : a.keys.Nodup) :
    ∃ c : CKey, SameContents a c.1 ∧ ∀ d : CKey, SameContents a d.1 → d = c := by
  have hk : Dict.keys (a.canon : RawKey) = a.names := keys_canon a
  have hnd : (Dict.keys (a.canon : RawKey)).Nodup := by
    rw [hk]; exact (sortStr_perm _).nodup_iff.mpr ha
  have hsame : SameContents a a.canon := by
    intro k
    cases h1 : a.get? k with
    | none =>
      have : Dict.get? (a.canon : RawKey) k = none := by
        cases h2 : Dict.get? (a.canon : RawKey) k with
        | none => rfl
        | some w =>
          have : k ∈ Dict.keys (a.canon : RawKey) := (Dict.mem_keys_iff _ k).mpr ⟨w, h2⟩
          rw [hk, mem_names, Dict.mem_keys_iff, h1] at this
          simp at this
      rw [this]; trivial
    | some v =>
      have hm : (k, sortStr v) ∈ a.canon := by
        unfold canon
        rw [List.mem_map]
        exact ⟨k, (mem_names a k).mpr ((Dict.mem_keys_iff a k).mpr ⟨v, h1⟩), by rw [vals_eq h1]⟩
      have : Dict.get? (a.canon : RawKey) k = some (sortStr v) := Dict.get?_of_mem hnd hm
      rw [this]
      exact (sortStr_perm v).symm
  refine ⟨⟨a.canon, hnd, ((canon_eq_iff ha hnd).mpr hsame).symm⟩, hsame, ?_⟩
  intro d hd
  apply Subtype.ext
  show d.1 = a.canon
  rw [(canon_eq_iff ha d.2.1).mpr hd, d.2.2]

end Mixtera
