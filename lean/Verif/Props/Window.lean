import Verif.Lemmas.Window
import Mathlib.Tactic.Ring
import Mathlib.Algebra.BigOperators.Group.List.Basic

/-!
# C39, C40: windows of the mixture, and skipping samples
-/

set_option linter.unusedSectionVars false

namespace Mixtera

variable {K α : Type} [DecidableEq K]

/-! ## Specification -/

/-- Window number `w` if each window takes `c` samples of each key `(k, c)`: in round `j` the `j`-th of these samples of
each key that has more than `j`. -/
def windowAt (W : Nat) (cs : List (K × Int)) (it : K → List α) (w : Nat) : List (K × α) :=
  (List.range W).flatMap fun (j : Nat) => cs.filterMap fun (kc : K × Int) =>
    (if (j : Int) < kc.2 then (it kc.1)[w * kc.2.toNat + j]? else none).map fun x => (kc.1, x)

/-! ## From lists of counts to functions -/

/-- The count of a key. -/
def cntOf (cs : List (K × Int)) (k : K) : Nat := (((cs.find? fun p => p.1 = k).map Prod.snd).getD 0).toNat

theorem cntOf_eq {cs : List (K × Int)} (hnd : (cs.map Prod.fst).Nodup) {k : K} {c : Int} (h : (k, c) ∈ cs) :
    cntOf cs k = c.toNat := by
  have hf : (cs.find? fun p => p.1 = k) = some (k, c) := by
    induction cs with
    | nil => simp at h
    | cons a l ih =>
      obtain ⟨ha, hnd⟩ := List.nodup_cons.mp hnd
      rcases List.mem_cons.mp h with rfl | h
      · simp
      · have : a.1 ≠ k := fun e => ha (e ▸ List.mem_map_of_mem (f := Prod.fst) h)
        rw [List.find?_cons]
        simp only [this, decide_false]
        exact ih hnd h
  simp [cntOf, hf]

theorem counts_cntOf {cs : List (K × Int)} (hnd : (cs.map Prod.fst).Nodup) (hnn : ∀ p ∈ cs, 0 ≤ p.2) :
    Win.counts (cs.map Prod.fst) (cntOf cs) = cs := by
  unfold Win.counts
  rw [List.map_map]
  conv_rhs => rw [← List.map_id cs]
  apply List.map_congr_left
  rintro ⟨k, c⟩ h
  simp only [Function.comp_apply, id_eq, Prod.mk.injEq, true_and]
  rw [cntOf_eq hnd h]
  exact Int.toNat_of_nonneg (hnn _ h)

theorem sum_cntOf {cs : List (K × Int)} {W : Nat} (hnd : (cs.map Prod.fst).Nodup) (hnn : ∀ p ∈ cs, 0 ≤ p.2)
    (hsum : (cs.map Prod.snd).sum = (W : Int)) : ((cs.map Prod.fst).map (cntOf cs)).sum = W := by
  have h : (cs.map Prod.snd) = ((cs.map Prod.fst).map (cntOf cs)).map (fun n : Nat => (n : Int)) := by
    conv_lhs => rw [← counts_cntOf hnd hnn]
    simp [Win.counts]
  rw [h] at hsum
  have : ∀ l : List Nat, (l.map (fun n : Nat => (n : Int))).sum = ((l.sum : Nat) : Int) := by
    intro l
    induction l with
    | nil => rfl
    | cons a l ih => simp only [List.map_cons, List.sum_cons, ih]; omega
  rw [this] at hsum
  exact_mod_cast hsum

theorem windowAt_eq {cs : List (K × Int)} (hnd : (cs.map Prod.fst).Nodup) (W : Nat)
    (it : K → List α) (w : Nat) : windowAt W cs it w = Win.windowOf (cs.map Prod.fst) (cntOf cs) W it w := by
  unfold windowAt Win.windowOf
  apply List.flatMap_congr
  intro j _
  rw [List.filterMap_map]
  apply List.filterMap_congr
  rintro ⟨k, c⟩ h
  simp only [Function.comp_apply, cntOf_eq hnd h]
  by_cases hj : (j : Int) < c
  · rw [if_pos hj, if_pos (by omega)]
  · rw [if_neg hj, if_neg (by omega)]

/-! ## The samples of a key in a window -/

theorem flatMap_take_drop (l : List α) (a c : Nat) : ∀ W,
    ((List.range W).flatMap fun j => (if j < c then l[a + j]? else none).toList) = (l.drop a).take (min W c) := by
  intro W
  induction W with
  | zero => simp
  | succ W ih =>
    rw [List.range_succ, List.flatMap_append, ih]
    simp only [List.flatMap_cons, List.flatMap_nil, List.append_nil]
    by_cases h : W < c
    · rw [if_pos h, Nat.min_eq_left (by omega), Nat.min_eq_left (by omega), List.take_add_one, List.getElem?_drop]
    · rw [if_neg h, Nat.min_eq_right (by omega), Nat.min_eq_right (by omega)]
      simp

theorem le_sum_of_mem {cs : List (K × Int)} (hnn : ∀ p ∈ cs, 0 ≤ p.2) {k : K} {c : Int} (h : (k, c) ∈ cs) :
    c ≤ (cs.map Prod.snd).sum := by
  induction cs with
  | nil => simp at h
  | cons a l ih =>
    have h0 : ∀ m : List (K × Int), (∀ p ∈ m, 0 ≤ p.2) → 0 ≤ (m.map Prod.snd).sum := by
      intro m hm
      induction m with
      | nil => simp
      | cons b m ihm =>
        have := hm b (by simp)
        have := ihm fun p hp => hm p (by simp [hp])
        simp only [List.map_cons, List.sum_cons]; omega
    have ha := hnn a (by simp)
    have hl := h0 l fun p hp => hnn p (by simp [hp])
    simp only [List.map_cons, List.sum_cons]
    rcases List.mem_cons.mp h with rfl | h
    · simp; omega
    · have := ih (fun p hp => hnn p (by simp [hp])) h; omega

/-- **C39**: the samples of a key in window `w` are the `c` samples of its stream that come after those of the earlier
windows (or as many as there are). -/
theorem c39_window_samples {W : Nat} {cs : List (K × Int)} (hnd : (cs.map Prod.fst).Nodup) (hnn : ∀ p ∈ cs, 0 ≤ p.2)
    (hsum : (cs.map Prod.snd).sum = (W : Int)) (it : K → List α) (w : Nat) {k : K} {c : Int} (h : (k, c) ∈ cs) :
    samplesOf k (windowAt W cs it w) = ((it k).drop (w * c.toNat)).take c.toNat := by
  rw [windowAt_eq hnd]
  unfold Win.windowOf
  rw [samplesOf_flatMap]
  simp only [samplesOf_filterMap k _ _ hnd (List.mem_map_of_mem (f := Prod.fst) h)]
  rw [flatMap_take_drop, cntOf_eq hnd h]
  congr 1
  have := le_sum_of_mem hnn h
  omega

theorem length_eq_sum_samplesOf (names : List K) (hnd : names.Nodup) : ∀ out : List (K × α),
    (∀ p ∈ out, p.1 ∈ names) → out.length = (names.map fun k => (samplesOf k out).length).sum
  | [], _ => by
    have : (names.map fun _ => 0).sum = 0 := by clear * -; induction names <;> simp_all
    simpa [samplesOf] using this.symm
  | p :: out, h => by
    have ih := length_eq_sum_samplesOf names hnd out fun q hq => h q (by simp [hq])
    have hp := h p (by simp)
    have := Win.sum_update (fun k => (samplesOf k out).length) p.1 names hnd hp
    rw [List.length_cons, ih, ← this]
    congr 1
    apply List.map_congr_left
    intro k _
    by_cases e : k = p.1
    · subst e; simp [samplesOf]
    · have : ¬ p.1 = k := fun h => e h.symm
      simp [samplesOf, e, this]

theorem mem_windowAt {W : Nat} {cs : List (K × Int)} {it : K → List α} {w : Nat} {p : K × α}
    (h : p ∈ windowAt W cs it w) : p.1 ∈ cs.map Prod.fst := by
  obtain ⟨j, -, hj⟩ := List.mem_flatMap.mp h
  obtain ⟨kc, hkc, he⟩ := List.mem_filterMap.mp hj
  obtain ⟨x, -, rfl⟩ := Option.map_eq_some_iff.mp he
  exact List.mem_map_of_mem (f := Prod.fst) hkc

/-- **C39**: a window for which every key has enough samples is full: it has exactly `c` samples of each key `(k, c)` and
`W` samples in total. -/
theorem c39_full_window {W : Nat} {cs : List (K × Int)} (hnd : (cs.map Prod.fst).Nodup) (hnn : ∀ p ∈ cs, 0 ≤ p.2)
    (hsum : (cs.map Prod.snd).sum = (W : Int)) (it : K → List α) (w : Nat)
    (hfull : ∀ p ∈ cs, (w + 1) * p.2.toNat ≤ (it p.1).length) :
    (windowAt W cs it w).length = W ∧ ∀ p ∈ cs, ((samplesOf p.1 (windowAt W cs it w)).length : Int) = p.2 := by
  have hk : ∀ p ∈ cs, (samplesOf p.1 (windowAt W cs it w)).length = p.2.toNat := by
    rintro ⟨k, c⟩ h
    rw [c39_window_samples hnd hnn hsum it w h]
    have := hfull _ h
    rw [Nat.succ_mul] at this
    simp only [List.length_take, List.length_drop]
    simp only at this
    omega
  refine ⟨?_, fun p hp => by rw [hk p hp]; exact Int.toNat_of_nonneg (hnn p hp)⟩
  rw [length_eq_sum_samplesOf (cs.map Prod.fst) hnd _ (fun p hp => mem_windowAt hp)]
  rw [← sum_cntOf hnd hnn hsum]
  congr 1
  apply List.map_congr_left
  intro k hk'
  obtain ⟨⟨k, c⟩, hmem, rfl⟩ := List.mem_map.mp hk'
  rw [sum_cntOf hnd hnn hsum]
  rw [hk _ hmem, cntOf_eq hnd hmem]

theorem take_windows (l : List α) (c : Nat) : ∀ N,
    ((List.range N).flatMap fun w => (l.drop (w * c)).take c) = l.take (N * c)
  | 0 => by simp
  | N + 1 => by
    rw [List.range_succ, List.flatMap_append, take_windows l c N, Nat.succ_mul, List.take_add]
    simp

/-- **C39**: the samples of a key in the first `N` windows are the first `N * c` samples of its stream: none is repeated
and none is left out. -/
theorem c39_no_repeats {W : Nat} {cs : List (K × Int)} (hnd : (cs.map Prod.fst).Nodup) (hnn : ∀ p ∈ cs, 0 ≤ p.2)
    (hsum : (cs.map Prod.snd).sum = (W : Int)) (it : K → List α) (N : Nat) {k : K} {c : Int} (h : (k, c) ∈ cs) :
    samplesOf k ((List.range N).flatMap (windowAt W cs it)) = (it k).take (N * c.toNat) := by
  rw [samplesOf_flatMap]
  simp only [c39_window_samples hnd hnn hsum it _ h]
  exact take_windows _ _ _

/-! ## The whole iteration -/

theorem ends_iff {cs : List (K × Int)} (hnd : (cs.map Prod.fst).Nodup) (it : K → List α) (be : Bool) (w : Nat) :
    Win.Ends (cs.map Prod.fst) (cntOf cs) it be w ↔
      (∀ p ∈ cs, (it p.1).length < w * p.2.toNat) ∨ (be = false ∧ ∃ p ∈ cs, (it p.1).length < w * p.2.toNat) := by
  unfold Win.Ends
  constructor
  · rintro (h | ⟨hb, k, hk, h⟩)
    · refine Or.inl ?_
      rintro ⟨k, c⟩ hm
      have := h k (List.mem_map_of_mem (f := Prod.fst) hm)
      rwa [cntOf_eq hnd hm] at this
    · obtain ⟨⟨k, c⟩, hm, rfl⟩ := List.mem_map.mp hk
      refine Or.inr ⟨hb, _, hm, ?_⟩
      rwa [cntOf_eq hnd hm] at h
  · rintro (h | ⟨hb, ⟨k, c⟩, hm, h⟩)
    · refine Or.inl ?_
      intro k hk
      obtain ⟨⟨k, c⟩, hm, rfl⟩ := List.mem_map.mp hk
      rw [cntOf_eq hnd hm]
      exact h _ hm
    · refine Or.inr ⟨hb, k, List.mem_map_of_mem (f := Prod.fst) hm, ?_⟩
      rw [cntOf_eq hnd hm]
      exact h

theorem iterateWindows_eq {W : Nat} {cs : List (K × Int)} (hnd : (cs.map Prod.fst).Nodup) (hnn : ∀ p ∈ cs, 0 ≤ p.2)
    (hsum : (cs.map Prod.snd).sum = (W : Int)) (it : K → List α) (be : Bool) (N : Nat)
    (hN : Win.Ends (cs.map Prod.fst) (cntOf cs) it be N)
    (hlt : ∀ w < N, ¬ Win.Ends (cs.map Prod.fst) (cntOf cs) it be w) (fuel : Nat) (hf : N ≤ fuel) :
    iterateWindows W be cs it fuel = some ((List.range N).flatMap (windowAt W cs it)) := by
  have h := Win.windowsLoop_out hnd (sum_cntOf hnd hnn hsum) hN hlt fuel 0 _ (Win.WStart.start _ _ W it) (by omega)
    (by omega)
  rw [counts_cntOf hnd hnn] at h
  unfold iterateWindows
  rw [h]
  congr 1
  exact List.flatMap_congr fun w _ => (windowAt_eq hnd W it w).symm

open Classical in
/-- **C39**, without best effort: reading ends; there is a number `n` of complete windows, and after these at most one
more window is begun. Every complete window has exactly the counted number of samples of each key, `n` is as large as
the data allows, and every key's samples are a prefix of its stream. -/
theorem c39_strict {W : Nat} {cs : List (K × Int)} (hW : 0 < W) (hnd : (cs.map Prod.fst).Nodup)
    (hnn : ∀ p ∈ cs, 0 ≤ p.2) (hsum : (cs.map Prod.snd).sum = (W : Int)) (it : K → List α) :
    ∃ n, (∀ fuel, n + 1 ≤ fuel →
        iterateWindows W false cs it fuel = some ((List.range (n + 1)).flatMap (windowAt W cs it))) ∧
      (∀ w < n, (windowAt W cs it w).length = W ∧
        ∀ p ∈ cs, ((samplesOf p.1 (windowAt W cs it w)).length : Int) = p.2) ∧
      (∃ p ∈ cs, (it p.1).length < (n + 1) * p.2.toNat) := by
  have hpos : ∃ p ∈ cs, 0 < p.2 := by
    by_contra hno
    push Not at hno
    have : ∀ l : List (K × Int), (∀ p ∈ l, p.2 ≤ 0) → (l.map Prod.snd).sum ≤ 0 := by
      intro l hl
      induction l with
      | nil => simp
      | cons a l ih =>
        have := hl a (by simp)
        have := ih fun p hp => hl p (by simp [hp])
        simp only [List.map_cons, List.sum_cons]; omega
    have := this cs hno
    omega
  obtain ⟨p, hp, hp0⟩ := hpos
  have hex : ∃ N, Win.Ends (cs.map Prod.fst) (cntOf cs) it false N := by
    refine ⟨(it p.1).length + 1, ?_⟩
    rw [ends_iff hnd]
    refine Or.inr ⟨rfl, p, hp, ?_⟩
    have : 1 ≤ p.2.toNat := by omega
    calc (it p.1).length < ((it p.1).length + 1) * 1 := by omega
      _ ≤ _ := Nat.mul_le_mul_left _ this
  have hN := Nat.find_spec hex
  have hlt := fun w hw => Nat.find_min hex (m := w) hw
  have hN0 : Nat.find hex ≠ 0 := by
    intro h0
    rw [h0, ends_iff hnd] at hN
    rcases hN with h | ⟨-, q, -, h⟩
    · have := h p hp; omega
    · omega
  obtain ⟨n, hn⟩ := Nat.exists_eq_succ_of_ne_zero hN0
  rw [hn] at hN
  refine ⟨n, fun fuel hf => iterateWindows_eq hnd hnn hsum it false (n + 1) hN (fun w hw => hlt w (by omega)) fuel hf,
    ?_, ?_⟩
  · intro w hw
    apply c39_full_window hnd hnn hsum
    intro q hq
    by_contra hcon
    exact hlt (w + 1) (by omega) ((ends_iff hnd it false (w + 1)).mpr (Or.inr ⟨rfl, q, hq, by omega⟩))
  · rcases (ends_iff hnd it false (n + 1)).mp hN with h | ⟨-, h⟩
    · exact ⟨p, hp, h p hp⟩
    · exact h

open Classical in
/-- **C39**, best effort: if every key has at least one sample per window then reading ends, its output consists of
windows (each of which has the counted number of samples of every key that still has so many, see `c39_full_window`),
and every sample of every key is delivered exactly once and in order.

Partial: without the hypothesis that every key has at least one sample per window, reading never ends; see
`c39_best_effort_stuck`. -/
theorem c39_best_effort_partial {W : Nat} {cs : List (K × Int)} (hnd : (cs.map Prod.fst).Nodup)
    (hpos : ∀ p ∈ cs, 1 ≤ p.2) (hsum : (cs.map Prod.snd).sum = (W : Int)) (it : K → List α) :
    ∃ N out, (∀ fuel, N ≤ fuel → iterateWindows W true cs it fuel = some out) ∧
      out = (List.range N).flatMap (windowAt W cs it) ∧
      (∀ p ∈ cs, samplesOf p.1 out = it p.1) ∧ ∀ q ∈ out, q.1 ∈ cs.map Prod.fst := by
  have hnn : ∀ p ∈ cs, 0 ≤ p.2 := fun p hp => by have := hpos p hp; omega
  have hex : ∃ N, Win.Ends (cs.map Prod.fst) (cntOf cs) it true N := by
    obtain ⟨m, hm⟩ := exists_bound (cs.map Prod.fst) it
    refine ⟨m + 1, ?_⟩
    rw [ends_iff hnd]
    refine Or.inl fun p hp => ?_
    have h1 := hm p.1 (List.mem_map_of_mem (f := Prod.fst) hp)
    have : 1 ≤ p.2.toNat := by have := hpos p hp; omega
    calc (it p.1).length < (m + 1) * 1 := by omega
      _ ≤ _ := Nat.mul_le_mul_left _ this
  have hN := Nat.find_spec hex
  have hlt := fun w hw => Nat.find_min hex (m := w) hw
  refine ⟨Nat.find hex, _, fun fuel hf => iterateWindows_eq hnd hnn hsum it true _ hN hlt fuel hf, rfl, ?_, ?_⟩
  · rintro ⟨k, c⟩ hp
    rw [c39_no_repeats hnd hnn hsum it _ hp]
    apply List.take_of_length_le
    rcases (ends_iff hnd it true _).mp hN with h | ⟨h, -⟩
    · have := h _ hp; simp only at this ⊢; omega
    · cases h
  · intro q hq
    obtain ⟨w, -, hw⟩ := List.mem_flatMap.mp hq
    exact mem_windowAt hw

/-- The full statement of C39 for best effort is false of the code: if some key's share of a window is rounded down to
no sample at all, reading never ends. (The key is never marked as finished, because it is never asked for a sample.) -/
theorem c39_best_effort_stuck {W : Nat} {cs : List (K × Int)} (hnd : (cs.map Prod.fst).Nodup)
    (hnn : ∀ p ∈ cs, 0 ≤ p.2) (hsum : (cs.map Prod.snd).sum = (W : Int)) (it : K → List α) (k : K)
    (hk : (k, 0) ∈ cs) (fuel : Nat) : iterateWindows W true cs it fuel = none := by
  have h := Win.windowsLoop_stuck (be := true) hnd (sum_cntOf hnd hnn hsum) (it := it) (by
    intro w hw
    rcases (ends_iff hnd it true w).mp hw with h | ⟨h, -⟩
    · have := h _ hk; simp at this
    · cases h) fuel 0 _ (Win.WStart.start _ _ W it)
  rw [counts_cntOf hnd hnn] at h
  unfold iterateWindows
  rw [h]
  rfl

/-! ## The counts -/

theorem sum_map_div_le (W chunk : Nat) (hc : 0 < chunk) : ∀ mixture : List (K × Nat),
    ((mixture.map fun kv => (kv.1, ((W * kv.2 / chunk : Nat) : Int))).map Prod.snd).sum * chunk
      ≤ (W : Int) * ((mixture.map Prod.snd).sum : Nat)
  | [] => by simp
  | kv :: l => by
    have ih := sum_map_div_le W chunk hc l
    have h : ((W * kv.2 / chunk : Nat) : Int) * chunk ≤ (W : Int) * kv.2 := by
      have := Nat.div_mul_le_self (W * kv.2) chunk
      exact_mod_cast this
    simp only [List.map_cons, List.sum_cons, Nat.cast_add]
    rw [add_mul, mul_add]
    exact add_le_add h ih

/-- **C39**: the counts of a window (in whatever order they are shuffled) have the keys of the mixture, add up to the
window size, and are not negative; a key's count is its share of the window rounded down, except that the first key also
gets what rounding leaves over. -/
theorem c39_counts (W chunk : Nat) (hc : 0 < chunk) (k : K) (v : Nat) (mixture : List (K × Nat))
    (hsum : (((k, v) :: mixture).map Prod.snd).sum ≤ chunk) :
    let cs := elementCounts W chunk ((k, v) :: mixture)
    cs.map Prod.fst = ((k, v) :: mixture).map Prod.fst ∧ (cs.map Prod.snd).sum = (W : Int) ∧ (∀ p ∈ cs, 0 ≤ p.2) ∧
      cs.tail = mixture.map (fun kv => (kv.1, ((W * kv.2 / chunk : Nat) : Int))) ∧
      ∃ n, cs.head? = some (k, n) ∧ ((W * v / chunk : Nat) : Int) ≤ n := by
  intro cs
  have hle := sum_map_div_le W chunk hc ((k, v) :: mixture)
  have hrem : (((((k, v) :: mixture).map fun kv => (kv.1, ((W * kv.2 / chunk : Nat) : Int))).map Prod.snd).sum : Int)
      ≤ W := by
    have h1 : (W : Int) * ((((k, v) :: mixture).map Prod.snd).sum : Nat) ≤ (W : Int) * chunk :=
      mul_le_mul_of_nonneg_left (by exact_mod_cast hsum) (by omega)
    have h2 := le_trans hle h1
    exact le_of_mul_le_mul_right h2 (by omega)
  have hcs : cs = (k, ((W * v / chunk : Nat) : Int) + ((W : Int)
      - ((((k, v) :: mixture).map fun kv => (kv.1, ((W * kv.2 / chunk : Nat) : Int))).map Prod.snd).sum))
      :: mixture.map fun kv => (kv.1, ((W * kv.2 / chunk : Nat) : Int)) := rfl
  refine ⟨?_, ?_, ?_, ?_, ?_⟩
  · rw [hcs]; simp
  · rw [hcs]; simp only [List.map_cons, List.sum_cons]; ring
  · rw [hcs]
    intro p hp
    rcases List.mem_cons.mp hp with rfl | hp
    · have : (0 : Int) ≤ ((W * v / chunk : Nat) : Int) := Int.natCast_nonneg _
      simp only
      linarith
    · obtain ⟨q, -, rfl⟩ := List.mem_map.mp hp
      exact Int.natCast_nonneg _
  · rw [hcs]; rfl
  · rw [hcs]
    exact ⟨_, rfl, by linarith⟩

/-- The window of a mixture never ends in best effort mode as soon as some key that is not the first of the mixture has
a share of less than one sample per window: for example one per cent in the default window of 128 samples is enough, but
half a per cent is not. -/
theorem c39_small_share_stuck (W chunk : Nat) (hc : 0 < chunk) (k : K) (v : Nat) (mixture : List (K × Nat))
    (hnd : (((k, v) :: mixture).map Prod.fst).Nodup)
    (hsum : (((k, v) :: mixture).map Prod.snd).sum ≤ chunk) (k' : K) (v' : Nat) (hk' : (k', v') ∈ mixture)
    (hsmall : W * v' < chunk) (cs : List (K × Int)) (hcs : cs.Perm (elementCounts W chunk ((k, v) :: mixture)))
    (it : K → List α) (fuel : Nat) : iterateWindows W true cs it fuel = none := by
  obtain ⟨h1, h2, h3, h4, -⟩ := c39_counts W chunk hc k v mixture hsum
  have hmem : (k', (0 : Int)) ∈ elementCounts W chunk ((k, v) :: mixture) := by
    apply List.mem_of_mem_tail
    rw [h4]
    refine List.mem_map.mpr ⟨_, hk', ?_⟩
    simp [Nat.div_eq_of_lt hsmall]
  refine c39_best_effort_stuck (k := k') ?_ ?_ ?_ it (hcs.mem_iff.mpr hmem) fuel
  · rw [(hcs.map Prod.fst).nodup_iff, h1]; exact hnd
  · exact fun p hp => h3 p (hcs.mem_iff.mp hp)
  · rw [(hcs.map Prod.snd).sum_eq, h2]

/-! ## Examples -/

/-- Window of 4: three samples of key 0 and one of key 1. -/
example : elementCounts 4 100 [(0, 70), (1, 30)] = [(0, 3), (1, 1)] := by decide +kernel

example : iterateWindows 4 false [(1, 1), (0, 3)] (fun k => if k = 0 then [1, 2, 3, 4, 5, 6, 7] else [10, 11, 12]) 9
    = some [(1, 10), (0, 1), (0, 2), (0, 3), (1, 11), (0, 4), (0, 5), (0, 6), (1, 12), (0, 7)] := by decide +kernel

example : iterateWindows 4 true [(1, 1), (0, 3)] (fun k => if k = 0 then [1, 2, 3, 4] else [10, 11, 12, 13]) 9
    = some [(1, 10), (0, 1), (0, 2), (0, 3), (1, 11), (0, 4), (1, 12), (1, 13)] := by decide +kernel

/-- 0.5 % of a window of 128. -/
example (it : Nat → List Nat) (fuel : Nat) :
    iterateWindows 128 true [(0, 128), (1, 0)] it fuel = none :=
  c39_small_share_stuck 128 1000 (by decide) 0 995 [(1, 5)] (by decide) (by decide) 1 5 (by decide) (by decide) _
    (by decide +kernel) it fuel

/-! ## C40 -/

/-- **C40**: skipping the first `skip` samples is exactly dropping the first `skip` triples of an iteration that skips
nothing. -/
theorem c40_skip (keyId : K → Nat) (source : List (K × α)) (skip : Nat) :
    iterateSamples keyId source skip = (iterateSamples keyId source 0).drop skip := by
  unfold iterateSamples
  apply List.ext_getElem?
  intro i
  simp only [List.getElem?_map, List.getElem?_drop, List.drop_zero, List.getElem?_zipIdx]
  rcases h : source[skip + i]? with _ | x
  · simp
  · simp; omega

/-- **C40**: the index of a triple is the position of its sample. -/
theorem c40_index (keyId : K → Nat) (source : List (K × α)) (skip i : Nat) :
    (iterateSamples keyId source skip)[i]? = (source[skip + i]?).map fun p => (skip + i, keyId p.1, p.2) := by
  unfold iterateSamples
  simp only [List.getElem?_map, List.getElem?_drop, List.getElem?_zipIdx]
  rcases h : source[skip + i]? with _ | x
  · simp
  · simp; omega

/-- **C40**: reading up to some point and resuming there is reading on. -/
theorem c40_resume (keyId : K → Nat) (source : List (K × α)) (n : Nat) :
    (iterateSamples keyId source 0).take n ++ iterateSamples keyId source n = iterateSamples keyId source 0 := by
  rw [c40_skip keyId source n, List.take_append_drop]

example : iterateSamples (fun k => 7 + k) [(0, 10), (1, 20), (0, 11)] 1 = [(1, 8, 20), (2, 7, 11)] := by
  decide +kernel

end Mixtera
