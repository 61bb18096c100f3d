import Verif.Model.ChunkRead
import Mathlib.Tactic.Linarith
import Mathlib.Data.List.Basic
import Mathlib.Data.List.Nodup
import Mathlib.Data.List.Perm.Subperm

/-!
# C38, C39, C40: the order in which the samples of a chunk are read
-/

set_option linter.unusedSectionVars false

namespace Mixtera

variable {K α : Type} [DecidableEq K]

/-! ## C38 -/

/-- Specification: the `i`-th round of reading every stream in turn: the `i`-th sample of each stream that has one. -/
def roundOf (names : List K) (it : K → List α) (i : Nat) : List (K × α) :=
  names.filterMap fun n => ((it n)[i]?).map fun x => (n, x)

/-- The samples of one key in what a reader yields. -/
def samplesOf (k : K) (out : List (K × α)) : List α :=
  (out.filter fun p => p.1 = k).map Prod.snd

theorem samplesOf_append (k : K) (a b : List (K × α)) : samplesOf k (a ++ b) = samplesOf k a ++ samplesOf k b := by
  simp [samplesOf]

theorem samplesOf_flatMap {ι : Type} (k : K) (l : List ι) (f : ι → List (K × α)) :
    samplesOf k (l.flatMap f) = l.flatMap fun i => samplesOf k (f i) := by
  induction l with
  | nil => rfl
  | cons a l ih => rw [List.flatMap_cons, List.flatMap_cons, samplesOf_append, ih]

theorem samplesOf_filterMap_notMem (k : K) (f : K → Option α) :
    ∀ names : List K, k ∉ names → samplesOf k (names.filterMap fun n => (f n).map fun x => (n, x)) = []
  | [], _ => rfl
  | n :: names, h => by
    have h1 : n ≠ k := fun e => h (by simp [e])
    have h2 : k ∉ names := fun e => h (by simp [e])
    have ih := samplesOf_filterMap_notMem k f names h2
    cases hf : f n with
    | none => simpa [hf] using ih
    | some x => simp only [List.filterMap_cons, hf, Option.map_some]
                simpa [samplesOf, h1] using ih

theorem samplesOf_filterMap (k : K) (f : K → Option α) :
    ∀ names : List K, names.Nodup → k ∈ names →
      samplesOf k (names.filterMap fun n => (f n).map fun x => (n, x)) = (f k).toList
  | [], _, h => by simp at h
  | n :: names, hnd, h => by
    obtain ⟨hn, hnd⟩ := List.nodup_cons.mp hnd
    by_cases e : n = k
    · subst e
      have h0 := samplesOf_filterMap_notMem n f names hn
      cases hf : f n with
      | none => simpa [hf] using h0
      | some x => simp only [List.filterMap_cons, hf, Option.map_some]
                  simpa [samplesOf] using h0
    · have hk : k ∈ names := by
        rcases List.mem_cons.mp h with h | h
        · exact absurd h.symm e
        · exact h
      have ih := samplesOf_filterMap k f names hnd hk
      cases hf : f n with
      | none => simpa [hf] using ih
      | some x => simp only [List.filterMap_cons, hf, Option.map_some]
                  simpa [samplesOf, e] using ih

theorem flatMap_getElem? (l : List α) : ∀ m, l.length ≤ m → ((List.range m).flatMap fun i => (l[i]?).toList) = l := by
  have key : ∀ m, ((List.range m).flatMap fun i => (l[i]?).toList) = l.take m := by
    intro m
    induction m with
    | zero => simp
    | succ m ih =>
      rw [List.range_succ, List.flatMap_append, ih]
      simp [List.take_add_one]
  intro m h
  rw [key, List.take_of_length_le h]

/-- What one pass of the loop does. -/
theorem foldl_overallStep : ∀ (names : List K) (s : ReadState K α), names.Nodup →
    (names.foldl overallStep s).out
        = s.out ++ names.filterMap (fun n => (if n ∈ s.deleted then none else (s.it n)[0]?).map fun x => (n, x))
    ∧ (names.foldl overallStep s).deleted
        = s.deleted ++ names.filter (fun n => n ∉ s.deleted ∧ s.it n = [])
    ∧ (∀ n, (names.foldl overallStep s).it n
        = if n ∈ names ∧ n ∉ s.deleted then (s.it n).tail else s.it n)
  | [], s, _ => by simp
  | n :: names, s, hnd => by
    obtain ⟨hn, hnd⟩ := List.nodup_cons.mp hnd
    obtain ⟨h1, h2, h3⟩ := foldl_overallStep names (overallStep s n) hnd
    have hdel : ∀ m ∈ names, m ∈ (overallStep s n).deleted ↔ m ∈ s.deleted := by
      intro m hm
      have : m ≠ n := fun e => hn (e ▸ hm)
      unfold overallStep
      split
      · rfl
      · split <;> simp [this]
    have hit : ∀ m, m ≠ n → (overallStep s n).it m = s.it m := by
      intro m hm
      unfold overallStep
      split
      · rfl
      · split <;> simp [advance, hm]
    have hne : ∀ m ∈ names, m ≠ n := fun m hm e => hn (e ▸ hm)
    have e1 : names.filterMap (fun m => (if m ∈ (overallStep s n).deleted then none
          else ((overallStep s n).it m)[0]?).map fun x => (m, x))
        = names.filterMap (fun m => (if m ∈ s.deleted then none else (s.it m)[0]?).map fun x => (m, x)) := by
      apply List.filterMap_congr
      intro m hm
      rw [hit m (hne m hm)]
      simp only [hdel m hm]
    have e2 : names.filter (fun m => m ∉ (overallStep s n).deleted ∧ (overallStep s n).it m = [])
        = names.filter (fun m => m ∉ s.deleted ∧ s.it m = []) := by
      apply List.filter_congr
      intro m hm
      rw [hit m (hne m hm)]
      simp only [hdel m hm]
    rw [List.foldl_cons, h1, h2, e1, e2]
    refine ⟨?_, ?_, ?_⟩
    · unfold overallStep
      by_cases hd : n ∈ s.deleted
      · simp [hd]
      · cases hl : s.it n <;> simp [hd, hl]
    · unfold overallStep
      by_cases hd : n ∈ s.deleted
      · simp [hd]
      · cases hl : s.it n <;> simp [hd, hl]
    · intro m
      rw [h3]
      by_cases e : m = n
      · subst e
        simp only [hn, false_and, if_false, List.mem_cons, true_or, true_and]
        unfold overallStep
        by_cases hd : m ∈ s.deleted
        · simp [hd]
        · cases hl : s.it m <;> simp [hd, hl, advance]
      · rw [hit m e]
        by_cases hm : m ∈ names
        · simp [hm, hdel m hm]
        · simp [hm, e]

/-- The state before the `i`-th pass. -/
structure Pass (names : List K) (it : K → List α) (i : Nat) (s : ReadState K α) : Prop where
  it_eq : ∀ n ∈ names, s.it n = (it n).drop i
  mem_del : ∀ n, n ∈ s.deleted ↔ n ∈ names ∧ (it n).length < i
  nodup : s.deleted.Nodup
  out_eq : s.out = (List.range i).flatMap (roundOf names it)

theorem Pass.next {names : List K} {it : K → List α} {i : Nat} {s : ReadState K α} (hnd : names.Nodup)
    (h : Pass names it i s) : Pass names it (i + 1) (names.foldl overallStep s) := by
  obtain ⟨h1, h2, h3⟩ := foldl_overallStep names s hnd
  refine ⟨?_, ?_, ?_, ?_⟩
  · intro n hn
    rw [h3, h.it_eq n hn]
    by_cases hd : n ∈ s.deleted
    · have := ((h.mem_del n).mp hd).2
      simp only [hd, not_true_eq_false, and_false, if_false]
      rw [List.drop_eq_nil_of_le (by omega), List.drop_eq_nil_of_le (by omega)]
    · simp [hn, hd, List.tail_drop]
  · intro n
    rw [h2]
    simp only [List.mem_append, List.mem_filter, decide_eq_true_eq]
    constructor
    · rintro (hd | ⟨hn, _, hnil⟩)
      · have := (h.mem_del n).mp hd
        exact ⟨this.1, by omega⟩
      · rw [h.it_eq n hn] at hnil
        have := List.drop_eq_nil_iff.mp hnil
        exact ⟨hn, by omega⟩
    · rintro ⟨hn, hl⟩
      by_cases hd : n ∈ s.deleted
      · exact Or.inl hd
      · refine Or.inr ⟨hn, hd, ?_⟩
        rw [h.it_eq n hn]
        exact List.drop_eq_nil_of_le (by omega)
  · rw [h2]
    apply List.Nodup.append h.nodup (hnd.filter _)
    intro n hn hf
    have := (List.mem_filter.mp hf).2
    simp only [decide_eq_true_eq] at this
    exact this.1 hn
  · rw [h1, h.out_eq, List.range_succ, List.flatMap_append]
    congr 1
    simp only [List.flatMap_cons, List.flatMap_nil, List.append_nil, roundOf]
    apply List.filterMap_congr
    intro n hn
    rw [h.it_eq n hn]
    by_cases hd : n ∈ s.deleted
    · have := ((h.mem_del n).mp hd).2
      rw [List.getElem?_eq_none (show (it n).length ≤ i by omega)]
      simp [hd]
    · simp [hd]

theorem Pass.done_iff {names : List K} {it : K → List α} {i : Nat} {s : ReadState K α} (hnd : names.Nodup)
    (h : Pass names it i s) : ¬ s.deleted.length < names.length ↔ ∀ n ∈ names, (it n).length < i := by
  have hsub : s.deleted ⊆ names := fun n hn => ((h.mem_del n).mp hn).1
  have hle : s.deleted.length ≤ names.length := (List.subperm_of_subset h.nodup hsub).length_le
  constructor
  · intro hlen n hn
    have hp : s.deleted.Perm names := (List.subperm_of_subset h.nodup hsub).perm_of_length_le (by omega)
    exact ((h.mem_del n).mp (hp.mem_iff.mpr hn)).2
  · intro hall hlt
    have : names ⊆ s.deleted := fun n hn => (h.mem_del n).mpr ⟨hn, hall n hn⟩
    have := (List.subperm_of_subset hnd this).length_le
    omega

theorem roundOf_eq_nil {names : List K} {it : K → List α} {i : Nat} (h : ∀ n ∈ names, (it n).length ≤ i) :
    roundOf names it i = [] := by
  unfold roundOf
  rw [List.filterMap_eq_nil_iff]
  intro n hn
  rw [List.getElem?_eq_none (h n hn)]
  rfl

theorem flatMap_range_roundOf {names : List K} {it : K → List α} {m : Nat}
    (h : ∀ n ∈ names, (it n).length ≤ m) : ∀ d,
    (List.range (m + d)).flatMap (roundOf names it) = (List.range m).flatMap (roundOf names it)
  | 0 => rfl
  | d + 1 => by
    rw [← Nat.add_assoc, List.range_succ, List.flatMap_append, flatMap_range_roundOf h d]
    simp [roundOf_eq_nil (names := names) (it := it) (i := m + d) fun n hn => le_trans (h n hn) (by omega)]

theorem overallLoop_eq {names : List K} {it : K → List α} {m : Nat} (hnd : names.Nodup)
    (h : ∀ n ∈ names, (it n).length ≤ m) : ∀ (fuel i : Nat) (s : ReadState K α), Pass names it i s →
      m + 1 ≤ i + fuel →
      (overallLoop names fuel s).map ReadState.out = some ((List.range m).flatMap (roundOf names it))
  | fuel, i, s, hp, hf => by
    have hend : ¬ s.deleted.length < names.length →
        some s.out = some ((List.range m).flatMap (roundOf names it)) := by
      intro hlt
      have hd := (hp.done_iff hnd).mp hlt
      rw [hp.out_eq]
      congr 1
      by_cases hmi : m ≤ i
      · obtain ⟨d, rfl⟩ := Nat.exists_eq_add_of_le hmi
        exact flatMap_range_roundOf h d
      · obtain ⟨d, rfl⟩ := Nat.exists_eq_add_of_le (Nat.le_of_not_le hmi)
        exact (flatMap_range_roundOf (fun n hn => by have := hd n hn; omega) d).symm
    cases fuel with
    | zero =>
      have hlt := (hp.done_iff hnd).mpr fun n hn => by have := h n hn; omega
      rw [overallLoop, if_neg hlt]
      exact hend hlt
    | succ fuel =>
      rw [overallLoop]
      by_cases hlt : s.deleted.length < names.length
      · rw [if_pos hlt]
        exact overallLoop_eq hnd h fuel (i + 1) _ (hp.next hnd) (by omega)
      · rw [if_neg hlt]
        exact hend hlt

/-- **C38**: reading a chunk without windows ends, and yields the streams round robin: first the first sample of every
key (in the shuffled order of the keys), then the second sample of every key that has one, and so on. -/
theorem c38_round_robin (names : List K) (it : K → List α) (m : Nat) (hnd : names.Nodup)
    (h : ∀ n ∈ names, (it n).length ≤ m) (fuel : Nat) (hf : m + 1 ≤ fuel) :
    iterateOverall names it fuel = some ((List.range m).flatMap (roundOf names it)) :=
  overallLoop_eq hnd h fuel 0 _ ⟨fun n _ => rfl, fun n => by simp, List.nodup_nil, rfl⟩ (by omega)

/-- The longest stream. -/
theorem exists_bound (names : List K) (it : K → List α) : ∃ m, ∀ n ∈ names, (it n).length ≤ m := by
  induction names with
  | nil => exact ⟨0, by simp⟩
  | cons a l ih =>
    obtain ⟨m, hm⟩ := ih
    refine ⟨max m (it a).length, ?_⟩
    intro n hn
    rcases List.mem_cons.mp hn with rfl | hn
    · omega
    · have := hm n hn; omega

/-- **C38**: reading a chunk without windows ends; of each key it yields every sample exactly once, in the order of the
key's stream, and nothing of other keys. -/
theorem c38_every_sample_once (names : List K) (it : K → List α) (hnd : names.Nodup) :
    ∃ out m, (∀ fuel, m ≤ fuel → iterateOverall names it fuel = some out) ∧
      (∀ k ∈ names, samplesOf k out = it k) ∧ ∀ p ∈ out, p.1 ∈ names := by
  obtain ⟨m, hm⟩ := exists_bound names it
  refine ⟨_, m + 1, fun fuel hf => c38_round_robin names it m hnd hm fuel hf, ?_, ?_⟩
  · intro k hk
    rw [samplesOf_flatMap]
    unfold roundOf
    simp only [samplesOf_filterMap k _ names hnd hk]
    exact flatMap_getElem? _ _ (hm k hk)
  · intro p hp
    obtain ⟨i, -, hi⟩ := List.mem_flatMap.mp hp
    obtain ⟨n, hn, he⟩ := List.mem_filterMap.mp hi
    obtain ⟨x, -, rfl⟩ := Option.map_eq_some_iff.mp he
    exact hn

example : iterateOverall [1, 0, 2] (fun n => [[10], [20, 21, 22], []].getD n []) 4
    = some [(1, 20), (0, 10), (1, 21), (1, 22)] := by decide +kernel

end Mixtera
