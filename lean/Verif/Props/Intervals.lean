import Verif.Model.Intervals
import Verif.Lemmas.Sort
import Mathlib.Tactic.Linarith
import Mathlib.Data.List.Pairwise

/-!
# C32: query intervals cover exactly the selected samples
-/

set_option linter.unusedSectionVars false

namespace Mixtera

variable {G : Type} [DecidableEq G]

/-! ## Facts about the difference column -/

theorem mem_lagAfter_id {prev : Nat} {l : List Nat} {z : Nat} {d : Int} (h : (z, d) ∈ lagAfter prev l) : z ∈ l := by
  induction l generalizing prev with
  | nil => simp [lagAfter] at h
  | cons x l ih =>
    rw [lagAfter, List.mem_cons] at h
    rcases h with h | h
    · cases h; simp
    · exact List.mem_cons_of_mem _ (ih h)

theorem exists_lagAfter {prev : Nat} {l : List Nat} {z : Nat} (h : z ∈ l) : ∃ d, (z, d) ∈ lagAfter prev l := by
  induction l generalizing prev with
  | nil => simp at h
  | cons x l ih =>
    rcases List.mem_cons.mp h with rfl | h
    · exact ⟨_, by rw [lagAfter]; exact List.mem_cons_self⟩
    · obtain ⟨d, hd⟩ := ih (prev := x) h
      exact ⟨d, by rw [lagAfter]; exact List.mem_cons_of_mem _ hd⟩

theorem mem_lagDiffs_id {l : List Nat} {z : Nat} {d : Int} (h : (z, d) ∈ lagDiffs l) : z ∈ l := by
  cases l with
  | nil => simp [lagDiffs] at h
  | cons x l =>
    rw [lagDiffs, List.mem_cons] at h
    rcases h with h | h
    · cases h; simp
    · exact List.mem_cons_of_mem _ (mem_lagAfter_id h)

theorem exists_lagDiffs {l : List Nat} {z : Nat} (h : z ∈ l) : ∃ d, (z, d) ∈ lagDiffs l := by
  cases l with
  | nil => simp at h
  | cons x l =>
    rcases List.mem_cons.mp h with rfl | h
    · exact ⟨0, by simp [lagDiffs]⟩
    · obtain ⟨d, hd⟩ := exists_lagAfter (prev := x) h
      exact ⟨d, by rw [lagDiffs]; exact List.mem_cons_of_mem _ hd⟩

/-- A difference of one means that the previous id is selected. -/
theorem lagAfter_one {prev : Nat} {l : List Nat} {z : Nat} (h : (z, (1 : Int)) ∈ lagAfter prev l) :
    ∃ p, p ∈ prev :: l ∧ p + 1 = z := by
  induction l generalizing prev with
  | nil => simp [lagAfter] at h
  | cons x l ih =>
    rw [lagAfter, List.mem_cons] at h
    rcases h with h | h
    · simp only [Prod.mk.injEq] at h
      exact ⟨prev, by simp, by omega⟩
    · obtain ⟨p, hp, e⟩ := ih h
      exact ⟨p, List.mem_cons_of_mem _ hp, e⟩

theorem lagDiffs_one {l : List Nat} {z : Nat} (h : (z, (1 : Int)) ∈ lagDiffs l) : ∃ p, p ∈ l ∧ p + 1 = z := by
  cases l with
  | nil => simp [lagDiffs] at h
  | cons x l =>
    rw [lagDiffs, List.mem_cons] at h
    rcases h with h | h
    · simp at h
    · exact lagAfter_one h

/-- In a strictly sorted partition a row whose predecessor is selected has difference one. -/
theorem lagAfter_pred {prev : Nat} {l : List Nat} (hs : (prev :: l).Pairwise (· < ·)) {p : Nat} {d : Int}
    (hp : p ∈ prev :: l) (h : (p + 1, d) ∈ lagAfter prev l) : d = 1 := by
  induction l generalizing prev with
  | nil => simp [lagAfter] at h
  | cons x l ih =>
    have hs1 := List.pairwise_cons.mp hs
    have hs2 := List.pairwise_cons.mp hs1.2
    rw [lagAfter, List.mem_cons] at h
    rcases h with h | h
    · simp only [Prod.mk.injEq] at h
      have hxp : prev < x := hs1.1 x (by simp)
      rcases List.mem_cons.mp hp with rfl | hp
      · omega
      · rcases List.mem_cons.mp hp with rfl | hp
        · omega
        · have := hs2.1 p hp; omega
    · refine ih hs1.2 ?_ h
      rcases List.mem_cons.mp hp with rfl | hp
      · exfalso
        have h1 : p < x := hs1.1 x (by simp)
        have h2 := hs2.1 _ (mem_lagAfter_id h)
        omega
      · exact hp

theorem lagDiffs_pred {l : List Nat} (hs : l.Pairwise (· < ·)) {p : Nat} {d : Int}
    (hp : p ∈ l) (h : (p + 1, d) ∈ lagDiffs l) : d = 1 := by
  cases l with
  | nil => simp at hp
  | cons x l =>
    rw [lagDiffs, List.mem_cons] at h
    rcases h with h | h
    · simp only [Prod.mk.injEq] at h
      rcases List.mem_cons.mp hp with rfl | hp
      · omega
      · have := (List.pairwise_cons.mp hs).1 p hp; omega
    · exact lagAfter_pred hs hp h

/-! ## Partitions -/

theorem mem_partitionIds {base : List (G × Nat)} {g : G} {x : Nat} : x ∈ partitionIds base g ↔ (g, x) ∈ base := by
  rw [partitionIds, (sortBy_perm _ _).mem_iff]
  simp only [List.mem_map, List.mem_filter, decide_eq_true_eq, Prod.exists]
  constructor
  · rintro ⟨a, b, ⟨h, rfl⟩, rfl⟩; exact h
  · intro h; exact ⟨g, x, ⟨h, rfl⟩, rfl⟩

theorem partitionIds_sorted (base : List (G × Nat)) (hn : base.Nodup) (g : G) :
    (partitionIds base g).Pairwise (· < ·) := by
  have h1 : (partitionIds base g).Pairwise (fun a b => decide (a ≤ b) = true) :=
    sortBy_sorted _ (by intro a b; simp; omega) (by intro a b c; simp; omega) _
  have h2 : (partitionIds base g).Nodup := by
    rw [partitionIds, (sortBy_perm _ _).nodup_iff]
    refine List.Nodup.map_on ?_ (hn.filter _)
    rintro ⟨a, b⟩ ha ⟨c, d⟩ hc e
    simp only [List.mem_filter, decide_eq_true_eq] at ha hc
    obtain ⟨_, rfl⟩ := ha
    obtain ⟨_, rfl⟩ := hc
    simpa using e
  refine (h1.and h2).imp ?_
  rintro a b ⟨h, hne⟩
  have := of_decide_eq_true h
  omega

theorem mem_groupedSamples {base : List (G × Nat)} {g : G} {x : Nat} {d : Int} :
    (g, x, d) ∈ groupedSamples base ↔ (x, d) ∈ lagDiffs (partitionIds base g) := by
  simp only [groupedSamples, List.mem_flatMap, List.mem_dedup, List.mem_map, Prod.mk.injEq]
  constructor
  · rintro ⟨g', _, r, hr, rfl, rfl⟩; exact hr
  · intro h
    exact ⟨g, ⟨(g, x), mem_partitionIds.mp (mem_lagDiffs_id h), rfl⟩, (x, d), h, rfl, rfl⟩

/-! ## The running number -/

theorem runningBreaks_mono (rows : List (G × Nat × Int)) (g : G) {a b : Nat} (h : a ≤ b) :
    runningBreaks rows g a ≤ runningBreaks rows g b := by
  apply List.countP_mono_left
  intro r _
  simp only [decide_eq_true_eq]
  rintro ⟨h1, h2, h3⟩
  exact ⟨h1, by omega, h3⟩

theorem countP_lt_of_mem {α : Type} (p q : α → Bool) (l : List α) (himp : ∀ x ∈ l, p x = true → q x = true)
    {y : α} (hy : y ∈ l) (hq : q y = true) (hp : ¬ p y = true) : l.countP p < l.countP q := by
  induction l with
  | nil => simp at hy
  | cons x l ih =>
    have hle : l.countP p ≤ l.countP q := List.countP_mono_left fun z hz => himp z (List.mem_cons_of_mem _ hz)
    rcases List.mem_cons.mp hy with rfl | hy
    · rw [List.countP_cons_of_neg (by simpa using hp), List.countP_cons_of_pos hq]; omega
    · have := ih (fun z hz => himp z (List.mem_cons_of_mem _ hz)) hy
      by_cases hx : p x = true
      · rw [List.countP_cons_of_pos hx, List.countP_cons_of_pos (himp x (by simp) hx)]; omega
      · rw [List.countP_cons_of_neg (by simpa using hx)]
        have := List.countP_le_length (p := q) (l := l)
        by_cases hqx : q x = true
        · rw [List.countP_cons_of_pos hqx]; omega
        · rw [List.countP_cons_of_neg (by simpa using hqx)]; omega

/-- Between two ids with the same running number there is no gap. -/
theorem no_gap (base : List (G × Nat)) (g : G) (a b : Nat)
    (hb : (g, b) ∈ base)
    (he : runningBreaks (groupedSamples base).dedup g a = runningBreaks (groupedSamples base).dedup g b) :
    ∀ z, a ≤ z → z ≤ b → a < b → (g, z) ∈ base ∨ z = a := by
  generalize hn : b - a = n
  induction n generalizing b with
  | zero => intro z _ _ _; omega
  | succ n ih =>
    intro z hz1 hz2 hab
    by_cases hzb : z = b
    · exact Or.inl (hzb ▸ hb)
    · obtain ⟨d, hd⟩ := exists_lagDiffs (mem_partitionIds.mpr hb)
      have hmem : (g, b, d) ∈ (groupedSamples base).dedup := List.mem_dedup.mpr (mem_groupedSamples.mpr hd)
      have hd1 : d = 1 := by
        by_contra hd1
        have := countP_lt_of_mem (fun r : G × Nat × Int => decide (r.1 = g ∧ r.2.1 ≤ a ∧ r.2.2 ≠ 1))
          (fun r => decide (r.1 = g ∧ r.2.1 ≤ b ∧ r.2.2 ≠ 1)) (groupedSamples base).dedup
          (by intro r _; simp only [decide_eq_true_eq]; rintro ⟨h1, h2, h3⟩; exact ⟨h1, by omega, h3⟩) hmem
          (by simp [hd1]) (by simp; omega)
        unfold runningBreaks at he
        omega
      subst hd1
      obtain ⟨p, hp, hpe⟩ := lagDiffs_one hd
      have hpb : (g, p) ∈ base := mem_partitionIds.mp hp
      have h1 := runningBreaks_mono (groupedSamples base).dedup g (show a ≤ p by omega)
      have h2 := runningBreaks_mono (groupedSamples base).dedup g (show p ≤ b by omega)
      by_cases hap : a = p
      · right; omega
      · exact ih p hpb (by omega) (by omega) z hz1 (by omega) (by omega)

/-- With unique ids, consecutive selected ids have the same running number. -/
theorem same_number (base : List (G × Nat)) (hn : base.Nodup) (g : G) (a : Nat) (ha : (g, a) ∈ base) :
    runningBreaks (groupedSamples base).dedup g a = runningBreaks (groupedSamples base).dedup g (a + 1) := by
  apply List.countP_congr
  rintro ⟨g', x, d⟩ hr
  rw [List.mem_dedup] at hr
  simp only [decide_eq_true_eq]
  constructor
  · rintro ⟨h1, h2, h3⟩; exact ⟨h1, by omega, h3⟩
  · rintro ⟨rfl, h2, h3⟩
    refine ⟨rfl, ?_, h3⟩
    by_contra hlt
    have hx : x = a + 1 := by omega
    subst hx
    exact h3 (lagDiffs_pred (partitionIds_sorted base hn g') (mem_partitionIds.mpr ha) (mem_groupedSamples.mp hr))

/-! ## Minimum and maximum -/

theorem ivMin_mem : ∀ {l : List Nat}, l ≠ [] → ivMin l ∈ l
  | [a], _ => by simp [ivMin]
  | a :: b :: l, _ => by
    have e : ivMin (a :: b :: l) = min a (ivMin (b :: l)) := rfl
    rw [e]
    rcases Nat.le_total a (ivMin (b :: l)) with h | h
    · rw [Nat.min_eq_left h]; simp
    · rw [Nat.min_eq_right h]; exact List.mem_cons_of_mem _ (ivMin_mem (by simp))

theorem ivMin_le : ∀ {l : List Nat} {x : Nat}, x ∈ l → ivMin l ≤ x
  | [a], x, h => by simp at h; simp [ivMin, h]
  | a :: b :: l, x, h => by
    have e : ivMin (a :: b :: l) = min a (ivMin (b :: l)) := rfl
    rw [e]
    rcases List.mem_cons.mp h with rfl | h
    · exact Nat.min_le_left _ _
    · exact (Nat.min_le_right _ _).trans (ivMin_le h)

theorem ivMax_mem : ∀ {l : List Nat}, l ≠ [] → ivMax l ∈ l
  | [a], _ => by simp [ivMax]
  | a :: b :: l, _ => by
    have e : ivMax (a :: b :: l) = max a (ivMax (b :: l)) := rfl
    rw [e]
    rcases Nat.le_total a (ivMax (b :: l)) with h | h
    · rw [Nat.max_eq_right h]; exact List.mem_cons_of_mem _ (ivMax_mem (by simp))
    · rw [Nat.max_eq_left h]; simp

theorem le_maxOf : ∀ {l : List Nat} {x : Nat}, x ∈ l → x ≤ ivMax l
  | [a], x, h => by simp at h; simp [ivMax, h]
  | a :: b :: l, x, h => by
    have e : ivMax (a :: b :: l) = max a (ivMax (b :: l)) := rfl
    rw [e]
    rcases List.mem_cons.mp h with rfl | h
    · exact Nat.le_max_left _ _
    · exact (le_maxOf h).trans (Nat.le_max_right _ _)

/-! ## The rows of the result -/

/-- The running number of a sample. -/
def numberOf (base : List (G × Nat)) (g : G) (x : Nat) : Nat := runningBreaks (groupedSamples base).dedup g x

theorem mem_intervalRows {base : List (G × Nat)} {r : IvRow G} :
    r ∈ intervalRows (groupedSamples base) ↔
      (r.g, r.start) ∈ base ∧ r.stop = r.start + 1 ∧ r.gid = numberOf base r.g r.start := by
  simp only [intervalRows, List.mem_map, List.mem_dedup]
  constructor
  · rintro ⟨⟨g, x, d⟩, h, rfl⟩
    exact ⟨mem_partitionIds.mp (mem_lagDiffs_id (mem_groupedSamples.mp h)), rfl, rfl⟩
  · rintro ⟨h1, h2, h3⟩
    obtain ⟨d, hd⟩ := exists_lagDiffs (mem_partitionIds.mpr h1)
    refine ⟨(r.g, r.start, d), mem_groupedSamples.mpr hd, ?_⟩
    obtain ⟨g, gid, s, e⟩ := r
    simp only at h2 h3 ⊢
    rw [h2, h3]; rfl

/-- A result row: its ends are selected samples with its number, and all such samples lie within. -/
theorem mem_result {leG : G → G → Bool} {base : List (G × Nat)} {r : IvRow G} (h : r ∈ queryIntervals leG base) :
    r.start < r.stop ∧ (r.g, r.start) ∈ base ∧ numberOf base r.g r.start = r.gid ∧
      (r.g, r.stop - 1) ∈ base ∧ numberOf base r.g (r.stop - 1) = r.gid ∧
      ∀ x, (r.g, x) ∈ base → numberOf base r.g x = r.gid → r.start ≤ x ∧ x < r.stop := by
  rw [queryIntervals, orderRows, (sortBy_perm _ _).mem_iff, mergeGroups] at h
  simp only [List.mem_map, List.mem_dedup] at h
  obtain ⟨⟨g, k⟩, ⟨r0, hr0, hk⟩, rfl⟩ := h
  simp only [Prod.mk.injEq] at hk
  obtain ⟨rfl, rfl⟩ := hk
  set grp := (intervalRows (groupedSamples base)).filter fun r => decide (r.g = r0.g ∧ r.gid = r0.gid) with hgrp
  have hm : ∀ r, r ∈ grp ↔ (r0.g, r.start) ∈ base ∧ r.stop = r.start + 1 ∧ numberOf base r0.g r.start = r0.gid ∧
      r.g = r0.g ∧ r.gid = r0.gid := by
    intro r
    rw [hgrp, List.mem_filter, mem_intervalRows]
    simp only [decide_eq_true_eq]
    constructor
    · rintro ⟨⟨h1, h2, h3⟩, h4, h5⟩
      rw [h4] at h1 h3; rw [h5] at h3
      exact ⟨h1, h2, h3.symm, h4, h5⟩
    · rintro ⟨h1, h2, h3, h4, h5⟩
      rw [h4, h5]
      exact ⟨⟨h1, h2, h3.symm⟩, rfl, rfl⟩
  have h0 : r0 ∈ grp := by
    rw [hgrp, List.mem_filter]; exact ⟨hr0, by simp⟩
  have hne1 : grp.map IvRow.start ≠ [] := by
    intro e; rw [List.map_eq_nil_iff] at e; rw [e] at h0; simp at h0
  have hne2 : grp.map IvRow.stop ≠ [] := by
    intro e; rw [List.map_eq_nil_iff] at e; rw [e] at h0; simp at h0
  obtain ⟨ra, hra, hae⟩ := List.mem_map.mp (ivMin_mem hne1)
  obtain ⟨rb, hrb, hbe⟩ := List.mem_map.mp (ivMax_mem hne2)
  have ha := (hm ra).mp hra
  have hb := (hm rb).mp hrb
  have hb1 : ivMax (grp.map IvRow.stop) - 1 = rb.start := by rw [← hbe, hb.2.1]; omega
  have hin : ∀ x, (r0.g, x) ∈ base → numberOf base r0.g x = r0.gid →
      ivMin (grp.map IvRow.start) ≤ x ∧ x < ivMax (grp.map IvRow.stop) := by
    intro x hx hxn
    have hmx : (⟨r0.g, r0.gid, x, x + 1⟩ : IvRow G) ∈ grp := (hm _).mpr ⟨hx, rfl, hxn, rfl, rfl⟩
    have h1 : x ∈ grp.map IvRow.start := List.mem_map.mpr ⟨_, hmx, rfl⟩
    have h2 : x + 1 ∈ grp.map IvRow.stop := List.mem_map.mpr ⟨_, hmx, rfl⟩
    exact ⟨ivMin_le h1, by have := le_maxOf h2; omega⟩
  simp only
  refine ⟨?_, ?_, ?_, ?_, ?_, hin⟩
  · have := hin ra.start ha.1 ha.2.2.1; omega
  · rw [← hae]; exact ha.1
  · rw [← hae]; exact ha.2.2.1
  · rw [hb1]; exact hb.1
  · rw [hb1]; exact hb.2.2.1

theorem exists_result (leG : G → G → Bool) {base : List (G × Nat)} {g : G} {x : Nat} (h : (g, x) ∈ base) :
    ∃ r ∈ queryIntervals leG base, r.g = g ∧ r.gid = numberOf base g x := by
  have hm : (⟨g, numberOf base g x, x, x + 1⟩ : IvRow G) ∈ intervalRows (groupedSamples base) :=
    mem_intervalRows.mpr ⟨h, rfl, rfl⟩
  have h1 : ∀ f : G × Nat → IvRow G, f (g, numberOf base g x) ∈
      ((intervalRows (groupedSamples base)).map fun r => (r.g, r.gid)).dedup.map f := fun f =>
    List.mem_map.mpr ⟨_, List.mem_dedup.mpr (List.mem_map.mpr ⟨_, hm, rfl⟩), rfl⟩
  have h2 := h1 fun k =>
    let grp := (intervalRows (groupedSamples base)).filter fun r => decide (r.g = k.1 ∧ r.gid = k.2)
    ⟨k.1, k.2, ivMin (grp.map IvRow.start), ivMax (grp.map IvRow.stop)⟩
  refine ⟨_, (sortBy_perm _ _).mem_iff.mpr h2, rfl, rfl⟩

/-- **C32 (a)**: the intervals cover exactly the selected samples: sample `x` of group `g` (a file and a combination of
property values) is selected iff one of the intervals of `g` contains it. -/
theorem c32_coverage (leG : G → G → Bool) (base : List (G × Nat)) (g : G) (x : Nat) :
    (g, x) ∈ base ↔ ∃ r ∈ queryIntervals leG base, r.g = g ∧ r.start ≤ x ∧ x < r.stop := by
  constructor
  · intro h
    obtain ⟨r, hr, hg, hk⟩ := exists_result leG h
    subst hg
    exact ⟨r, hr, rfl, (mem_result hr).2.2.2.2.2 x h hk.symm⟩
  · rintro ⟨r, hr, rfl, h1, h2⟩
    obtain ⟨hlt, ha, han, hb, hbn, _⟩ := mem_result hr
    by_cases hab : r.start < r.stop - 1
    · rcases no_gap base r.g r.start (r.stop - 1) hb (by unfold numberOf at han hbn; rw [han, hbn]) x h1 (by omega) hab
        with h | h
      · exact h
      · exact h ▸ ha
    · have : x = r.start := by omega
      exact this ▸ ha

theorem nodup_result_keys (base : List (G × Nat)) :
    (mergeGroups (intervalRows (groupedSamples base))).Pairwise fun a b => a.g = b.g → a.gid ≠ b.gid := by
  rw [mergeGroups, List.pairwise_map]
  have h : ((intervalRows (groupedSamples base)).map fun r => (r.g, r.gid)).dedup.Nodup := List.nodup_dedup _
  refine h.imp ?_
  rintro ⟨a, b⟩ ⟨c, d⟩ hne e1 e2
  exact hne (by simp only at e1 e2; rw [e1, e2])

theorem result_pairwise (leG : G → G → Bool) (htot : ∀ a b, leG a b = true ∨ leG b a = true)
    (htr : ∀ a b c, leG a b = true → leG b c = true → leG a c = true)
    (hanti : ∀ a b, leG a b = true → leG b a = true → a = b) (base : List (G × Nat)) :
    (queryIntervals leG base).Pairwise fun a b =>
      if a.g = b.g then a.start ≤ b.start ∧ a.gid ≠ b.gid else leG a.g b.g = true := by
  have h1 : (queryIntervals leG base).Pairwise fun a b =>
      (if a.g = b.g then decide (a.start ≤ b.start) else leG a.g b.g) = true := by
    apply sortBy_sorted
    · intro a b
      by_cases e : a.g = b.g
      · rw [if_pos e, if_pos e.symm]; simp; omega
      · rw [if_neg e, if_neg (Ne.symm e)]; exact htot _ _
    · intro a b c hab hbc
      by_cases e : a.g = b.g
      · rw [if_pos e] at hab
        by_cases e' : b.g = c.g
        · rw [if_pos e'] at hbc
          rw [if_pos (e.trans e')]
          simp at hab hbc ⊢; omega
        · rw [if_neg e'] at hbc
          rw [if_neg (by rw [e]; exact e'), e]; exact hbc
      · rw [if_neg e] at hab
        by_cases e' : b.g = c.g
        · rw [if_neg (by rw [← e']; exact e), ← e']; exact hab
        · rw [if_neg e'] at hbc
          by_cases e'' : a.g = c.g
          · exfalso; apply e; rw [← e''] at hbc; exact hanti _ _ hab hbc
          · rw [if_neg e'']; exact htr _ _ _ hab hbc
  have h2 : (queryIntervals leG base).Pairwise fun a b => a.g = b.g → a.gid ≠ b.gid := by
    refine List.Pairwise.perm (nodup_result_keys base) (sortBy_perm _ _).symm ?_
    intro a b h e e'
    exact h e.symm e'.symm
  refine (h1.and h2).imp ?_
  rintro a b ⟨ha, hb⟩
  by_cases e : a.g = b.g
  · rw [if_pos e] at ha ⊢
    exact ⟨of_decide_eq_true ha, hb e⟩
  · rw [if_neg e] at ha ⊢; exact ha

/-- **C32 (b)**: every interval is non-empty and the result is sorted by group; within a group (a file and a
combination of property values) intervals are in increasing order and, as the table's primary key makes sample ids
unique, two successive intervals are separated by at least one sample that was not selected: the intervals are
disjoint and maximal. -/
theorem c32_sorted_disjoint_maximal (leG : G → G → Bool) (htot : ∀ a b, leG a b = true ∨ leG b a = true)
    (htr : ∀ a b c, leG a b = true → leG b c = true → leG a c = true)
    (hanti : ∀ a b, leG a b = true → leG b a = true → a = b) (base : List (G × Nat)) (hn : base.Nodup) :
    (∀ r ∈ queryIntervals leG base, r.start < r.stop) ∧
      (queryIntervals leG base).Pairwise fun a b =>
        if a.g = b.g then a.stop < b.start else leG a.g b.g = true := by
  refine ⟨fun r hr => (mem_result hr).1, ?_⟩
  refine (result_pairwise leG htot htr hanti base).imp_of_mem ?_
  intro a b ha hb h
  by_cases e : a.g = b.g
  · rw [if_pos e] at h ⊢
    obtain ⟨halt, has, hasn, hae, haen, hain⟩ := mem_result ha
    obtain ⟨hblt, hbs, hbsn, hbe, hben, hbin⟩ := mem_result hb
    rw [← e] at hbs hbsn hbe hben hbin
    by_contra hcon
    have hmono := fun x y (hxy : x ≤ y) => runningBreaks_mono (groupedSamples base).dedup a.g hxy
    by_cases hlt : b.start < a.stop
    · have m1 := hmono a.start b.start h.1
      have m2 := hmono b.start (a.stop - 1) (by omega)
      unfold numberOf at hasn hbsn haen
      exact h.2 (by omega)
    · have hadj : b.start = a.stop - 1 + 1 := by omega
      have := same_number base hn a.g (a.stop - 1) hae
      unfold numberOf at hbsn haen
      rw [hadj] at hbsn
      exact h.2 (by omega)
  · rw [if_neg e] at h ⊢; exact h

/-- **C32 (c)** (exactly the maximal runs). An interval of a group is in the result if and only if all its samples were selected and
neither the sample before it nor the one after it was. -/
theorem c32_maximal_runs (leG : G → G → Bool) (htot : ∀ a b, leG a b = true ∨ leG b a = true)
    (htr : ∀ a b c, leG a b = true → leG b c = true → leG a c = true)
    (hanti : ∀ a b, leG a b = true → leG b a = true → a = b) (base : List (G × Nat)) (hn : base.Nodup) (g : G) (a b : Nat) :
    (∃ r ∈ queryIntervals leG base, r.g = g ∧ r.start = a ∧ r.stop = b) ↔
      a < b ∧ (∀ x, a ≤ x → x < b → (g, x) ∈ base) ∧ (g, b) ∉ base ∧ (0 < a → (g, a - 1) ∉ base) := by
  obtain ⟨hne, hpw⟩ := c32_sorted_disjoint_maximal leG htot htr hanti base hn
  have hsep : ∀ r ∈ queryIntervals leG base, ∀ r' ∈ queryIntervals leG base, r ≠ r' → r.g = r'.g →
      r.stop < r'.start ∨ r'.stop < r.start := by
    have hsym : (queryIntervals leG base).Pairwise fun r r' => r.g = r'.g → r.stop < r'.start ∨ r'.stop < r.start := by
      refine hpw.imp ?_
      intro r r' h e
      rw [if_pos e] at h
      exact Or.inl h
    have : Std.Symm fun r r' : IvRow G => r.g = r'.g → r.stop < r'.start ∨ r'.stop < r.start :=
      ⟨fun x y h e => (h e.symm).symm⟩
    intro r hr r' hr' hd
    exact hsym.forall hr hr' hd
  have hmax : ∀ r ∈ queryIntervals leG base, (r.g, r.stop) ∉ base ∧ (0 < r.start → (r.g, r.start - 1) ∉ base) := by
    intro r hr
    have hlt := hne r hr
    refine ⟨fun h => ?_, fun h0 h => ?_⟩ <;> obtain ⟨r', hr', hg, h1, h2⟩ := (c32_coverage leG base _ _).mp h <;>
      by_cases he : r = r'
    · subst he; omega
    · have := hne r' hr'
      rcases hsep r hr r' hr' he hg.symm with h | h <;> omega
    · subst he; omega
    · have := hne r' hr'
      rcases hsep r hr r' hr' he hg.symm with h | h <;> omega
  constructor
  · rintro ⟨r, hr, rfl, rfl, rfl⟩
    exact ⟨hne r hr, fun x h1 h2 => (c32_coverage leG base _ _).mpr ⟨r, hr, rfl, h1, h2⟩, hmax r hr⟩
  · rintro ⟨hab, hall, hb, ha⟩
    obtain ⟨r, hr, rfl, h1, h2⟩ := (c32_coverage leG base g a).mp (hall a (le_refl _) hab)
    have hin : ∀ x, r.start ≤ x → x < r.stop → (r.g, x) ∈ base := fun x h1 h2 =>
      (c32_coverage leG base _ _).mpr ⟨r, hr, rfl, h1, h2⟩
    have e1 : r.start = a := by
      by_contra hc
      exact ha (by omega) (hin (a - 1) (by omega) (by omega))
    refine ⟨r, hr, rfl, e1, ?_⟩
    by_contra hc
    rcases Nat.lt_or_gt_of_ne hc with h | h
    · exact (hmax r hr).1 (hall _ (by omega) h)
    · exact hb (hin b (by omega) h)

/-- **C32 (d)** (the order of the rows does not matter). If the selected rows are scanned in another order - DuckDB does not promise
one - the result is the same table. -/
theorem c32_scan_order (leG : G → G → Bool) (htot : ∀ a b, leG a b = true ∨ leG b a = true)
    (htr : ∀ a b c, leG a b = true → leG b c = true → leG a c = true)
    (hanti : ∀ a b, leG a b = true → leG b a = true → a = b) (base base' : List (G × Nat)) (hn : base.Nodup)
    (hp : base.Perm base') :
    (queryIntervals leG base).map (fun r => (r.g, r.start, r.stop)) =
      (queryIntervals leG base').map fun r => (r.g, r.start, r.stop) := by
  have hn' := hp.nodup_iff.mp hn
  let R : G × Nat × Nat → G × Nat × Nat → Prop := fun a b =>
    (a.2.1 < a.2.2 ∧ b.2.1 < b.2.2) ∧ if a.1 = b.1 then a.2.2 < b.2.1 else leG a.1 b.1 = true
  have hR : ∀ base : List (G × Nat), base.Nodup →
      ((queryIntervals leG base).map fun r => (r.g, r.start, r.stop)).Pairwise R := by
    intro base hn
    obtain ⟨hne, hpw⟩ := c32_sorted_disjoint_maximal leG htot htr hanti base hn
    rw [List.pairwise_map]
    exact hpw.imp_of_mem fun ha hb h => ⟨⟨hne _ ha, hne _ hb⟩, h⟩
  have hirr : ∀ a, ¬ R a a := by
    rintro a ⟨⟨h, -⟩, h'⟩
    rw [if_pos rfl] at h'
    omega
  have hnd : ∀ base : List (G × Nat), base.Nodup → ((queryIntervals leG base).map fun r => (r.g, r.start, r.stop)).Nodup := by
    intro base hn
    refine (hR base hn).imp ?_
    rintro a b h rfl
    exact hirr a h
  have hmem : ∀ x, x ∈ (queryIntervals leG base).map (fun r => (r.g, r.start, r.stop)) ↔
      x ∈ (queryIntervals leG base').map fun r => (r.g, r.start, r.stop) := by
    rintro ⟨g, a, b⟩
    have key : ∀ base : List (G × Nat), (g, a, b) ∈ (queryIntervals leG base).map (fun r => (r.g, r.start, r.stop)) ↔
        ∃ r ∈ queryIntervals leG base, r.g = g ∧ r.start = a ∧ r.stop = b := by
      intro base
      simp only [List.mem_map, Prod.mk.injEq]
    rw [key, key, c32_maximal_runs leG htot htr hanti base hn, c32_maximal_runs leG htot htr hanti base' hn']
    simp only [hp.mem_iff]
  have hperm := (List.perm_ext_iff_of_nodup (hnd base hn) (hnd base' hn')).mpr hmem
  refine hperm.eq_of_pairwise ?_ (hR base hn) (hR base' hn')
  rintro a b - - ⟨⟨h1, h2⟩, h3⟩ ⟨-, h4⟩
  by_cases e : a.1 = b.1
  · rw [if_pos e] at h3
    rw [if_pos e.symm] at h4
    omega
  · rw [if_neg e] at h3
    rw [if_neg (fun x => e x.symm)] at h4
    exact absurd (hanti _ _ h3 h4) e

/-- Non-vacuity: two groups, two gaps. -/
example : queryIntervals (fun a b => decide (a ≤ b)) [((1 : Nat), 7), (0, 2), (1, 3), (0, 3), (1, 4), (0, 5), (1, 8)] =
    [⟨0, 1, 2, 4⟩, ⟨0, 2, 5, 6⟩, ⟨1, 1, 3, 5⟩, ⟨1, 2, 7, 9⟩] := by decide +kernel

/-- Without unique sample ids the intervals would not be maximal. -/
example : (queryIntervals (fun a b => decide (a ≤ b)) [((0 : Nat), 5), (0, 6), (0, 6), (0, 7)]).map
    (fun r => (r.start, r.stop)) = [(5, 6), (6, 8)] := by decide +kernel

end Mixtera
