import Verif.Lemmas.Float32
import Verif.Props.Feedback
import Verif.Props.FloatDynamic

/-!
# C92: average losses in single precision
-/

set_option linter.unusedSectionVars false

namespace Mixtera.F32

open F64 (fl pow_pos' rep_int fl_rep)
open Mixing (entry sum_range_entry entry_beyond)

/-! ## Specification -/

/-- As many losses as counts, and no loss so small (below `2 ^ -126`) that single precision loses digits. -/
def Good (r : Report) : Prop := r.counts.length = r.losses.length ∧ ∀ x ∈ r.losses, x = 0 ∨ 2 ^ (-126 : Int) ≤ x

/-- What has been reported about domain `i` altogether, exactly. -/
def total (rs : List Report) (i : Nat) : ℚ := (rs.map fun r => entry r.losses i).sum

/-- The samples reported of domain `i` altogether. -/
def samples (rs : List Report) (i : Nat) : Int := (rs.map fun r => entry r.counts i).sum

/-- The average loss of domain `i`, exactly. -/
def avg (rs : List Report) (i : Nat) : ℚ := if samples rs i ≤ 0 then 0 else total rs i / samples rs i

/-- At most a million reports and domains, counts that `float64` holds exactly, and averages of ordinary size. -/
structure Moderate (rs : List Report) (m : Nat) : Prop where
  good : ∀ r ∈ rs, Good r
  len : ∀ r ∈ rs, r.losses.length ≤ m
  domains : m ≤ 2 ^ 20
  reports : rs.length ≤ 2 ^ 20
  exact : ∀ i, samples rs i ≤ 2 ^ 53
  size : ∀ i, avg rs i = 0 ∨ (1 / 2 ^ 40 ≤ avg rs i ∧ avg rs i ≤ 2 ^ 40)

/-- `np.sum` of up to `m` numbers errs by a factor of at most `(1 + v) ^ s` (in numpy's pairwise order, `s` is about the logarithm of
`m`; in any order, `m` will do). -/
def Sums (npSum : List ℚ → ℚ) (m s : Nat) : Prop :=
  ∀ l : List ℚ, l.length ≤ m → (∀ x ∈ l, x = 0 ∨ 2 ^ (-126 : Int) ≤ x) → l.sum ≤ npSum l * (1 + v) ^ s ∧ npSum l ≤ l.sum * (1 + v) ^ s ∧ 0 ≤ npSum l

/-! ## The accumulators -/

theorem entry_nil {α : Type} [Zero α] (i : Nat) : entry ([] : List α) i = 0 := by simp [entry]

theorem entry_addAll {α : Type} [Zero α] (f : α → α → α) (xs : List α) : ∀ (as : List α) (i : Nat),
    entry (addAll f 0 as xs) i = if i < xs.length then f (entry as i) (entry xs i) else entry as i := by
  induction xs with
  | nil => intro as i; cases as <;> simp [addAll]
  | cons x xs ih =>
    intro as i
    cases as with
    | nil =>
      cases i with
      | zero => simp [addAll, entry]
      | succ i =>
        have := ih [] i
        simp only [addAll]
        have e : entry (f 0 x :: addAll f 0 [] xs) (i + 1) = entry (addAll f 0 [] xs) i := by simp [entry]
        rw [e, this, entry_nil, entry_nil]
        simp [entry]
    | cons a as =>
      cases i with
      | zero => simp [addAll, entry]
      | succ i =>
        have := ih as i
        simp only [addAll]
        have e : entry (f a x :: addAll f 0 as xs) (i + 1) = entry (addAll f 0 as xs) i := by simp [entry]
        rw [e, this]
        simp [entry]

theorem length_addAll {α : Type} (f : α → α → α) (z : α) (xs : List α) : ∀ as : List α, (addAll f z as xs).length = max as.length xs.length := by
  induction xs with
  | nil => intro as; cases as <;> simp [addAll]
  | cons x xs ih =>
    intro as
    cases as with
    | nil => simp [addAll, ih]
    | cons a as => simp [addAll, ih, Nat.succ_max_succ]

theorem entry_normal {l : List ℚ} (h : ∀ x ∈ l, x = 0 ∨ 2 ^ (-126 : Int) ≤ x) (i : Nat) : Normal (entry l i) := by
  unfold entry
  cases hl : l[i]? with
  | none => exact Or.inl rfl
  | some x => exact h x (List.mem_of_getElem? hl)

theorem after_snoc (rs : List Report) (r : Report) : State.after (rs ++ [r]) = (State.after rs).update r := by
  simp [State.after, List.foldl_append]

theorem total_snoc (rs : List Report) (r : Report) (i : Nat) : total (rs ++ [r]) i = total rs i + entry r.losses i := by
  simp [total]

theorem samples_snoc (rs : List Report) (r : Report) (i : Nat) : samples (rs ++ [r]) i = samples rs i + entry r.counts i := by
  simp [samples]

theorem after_inv (rs : List Report) : (∀ r ∈ rs, Good r) →
    (State.after rs).counts.length = (State.after rs).losses.length ∧
    (∀ m, (∀ r ∈ rs, r.losses.length ≤ m) → (State.after rs).losses.length ≤ m) ∧
    ∀ i, Normal (entry (State.after rs).losses i) ∧ Rel rs.length (entry (State.after rs).losses i) (total rs i) ∧
      entry (State.after rs).counts i = samples rs i := by
  induction rs using List.reverseRecOn with
  | nil =>
    intro _
    refine ⟨rfl, fun m _ => Nat.zero_le m, fun i => ⟨Or.inl (entry_nil i), ?_, by simp [samples, State.after, entry_nil]⟩⟩
    simp only [State.after, List.foldl_nil, entry_nil, total, List.map_nil, List.sum_nil]
    exact Rel.refl le_rfl _
  | append_singleton rs r ih =>
    intro h
    obtain ⟨i1, i2, i3⟩ := ih fun x hx => h x (List.mem_append_left _ hx)
    obtain ⟨g1, g2⟩ := h r (by simp)
    rw [after_snoc]
    generalize hs : State.after rs = s at i1 i2 i3
    refine ⟨?_, ?_, ?_⟩
    · simp only [State.update, length_addAll]; rw [i1, g1]
    · intro m hm
      have a := i2 m fun x hx => hm x (List.mem_append_left _ hx)
      have b := hm r (by simp)
      simp only [State.update, length_addAll]
      exact max_le a b
    · intro i
      obtain ⟨j1, j2, j3⟩ := i3 i
      have hx := entry_normal g2 i
      rw [total_snoc, samples_snoc]
      refine ⟨?_, ?_, ?_⟩
      · simp only [State.update]
        rw [entry_addAll]
        split
        · exact (add_rel r.double j1 hx).2
        · exact j1
      · simp only [State.update, List.length_append, List.length_cons, List.length_nil]
        rw [entry_addAll]
        split
        · have a := (add_rel r.double j1 hx).1
          have b := j2.add (Rel.refl hx.nonneg rs.length)
          exact (a.trans b).mono (by omega)
        · rename_i hlt
          rw [entry_beyond (not_lt.1 hlt), add_zero]
          exact j2.mono (by omega)
      · simp only [State.update]
        rw [entry_addAll]
        split
        · rw [j3]
        · rename_i hlt
          rw [j3, entry_beyond (l := r.counts) (not_lt.1 hlt), add_zero]

/-- **C92** (totals). After any reports, in single or double precision, the samples recorded of every domain are exact, and the loss
recorded agrees with the exact total up to a factor `(1 + v) ^ n`, where `n` is the number of reports and `v` is about `2 ^ -24`. -/
theorem c92_totals (rs : List Report) (h : ∀ r ∈ rs, Good r) (i : Nat) :
    entry (State.after rs).counts i = samples rs i ∧
    total rs i ≤ entry (State.after rs).losses i * (1 + v) ^ rs.length ∧
    entry (State.after rs).losses i ≤ total rs i * (1 + v) ^ rs.length := by
  obtain ⟨_, a, b⟩ := (after_inv rs h).2.2 i
  exact ⟨b, a.2.2.1, a.2.2.2⟩

/-! ## The mixture -/

theorem entry_zip_map {l : List ℚ} {c : List Int} (h : c.length = l.length) (f : ℚ × Int → ℚ) (h0 : f (0, 0) = 0) (i : Nat) :
    entry ((l.zip c).map f) i = f (entry l i, entry c i) := by
  rcases lt_or_ge i l.length with hi | hi
  · have hc : i < c.length := by omega
    unfold entry
    rw [List.getElem?_eq_getElem (by simp; omega), List.getElem?_eq_getElem hi, List.getElem?_eq_getElem hc]
    simp
  · rw [entry_beyond (by simp; omega), entry_beyond hi, entry_beyond (l := c) (by omega), h0]

theorem entry_map {l : List ℚ} (f : ℚ → ℚ) (h0 : f 0 = 0) (i : Nat) : entry (l.map f) i = f (entry l i) := by
  unfold entry
  rw [List.getElem?_map]
  cases l[i]? <;> simp [h0]

theorem entry_mem {l : List ℚ} {x : ℚ} (h : x ∈ l) : ∃ i, entry l i = x := by
  obtain ⟨i, hi, rfl⟩ := List.getElem_of_mem h
  exact ⟨i, by unfold entry; rw [List.getElem?_eq_getElem hi]; rfl⟩

theorem Rel.range {k : Nat} (m : Nat) {f g : Nat → ℚ} (h : ∀ i, Rel k (f i) (g i)) :
    Rel k (∑ j ∈ Finset.range m, f j) (∑ j ∈ Finset.range m, g j) := by
  induction m with
  | zero => simp only [Finset.range_zero, Finset.sum_empty]; exact Rel.refl le_rfl k
  | succ m ih => rw [Finset.sum_range_succ, Finset.sum_range_succ]; exact ih.add (h m)

/-- `avg_losses` (loss_avg.py:29-30). -/
def avgList (s : State) : List ℚ := (s.losses.zip s.counts).map fun lc => if lc.2 > 0 then average lc.1 lc.2 else 0

theorem masked_sum (l : List (ℚ × Int)) :
    (l.filterMap fun lc => if lc.2 > 0 then some (average lc.1 lc.2) else none).sum =
      (l.map fun lc => if lc.2 > 0 then average lc.1 lc.2 else 0).sum := by
  induction l with
  | nil => rfl
  | cons a l ih =>
    rw [List.filterMap_cons, List.map_cons, List.sum_cons]
    by_cases h : a.2 > 0
    · simp only [if_pos h, List.sum_cons]; rw [ih]
    · simp only [if_neg h]; rw [ih, zero_add]

theorem half_le {x y : ℚ} {k : Nat} (hk : k ≤ 2 ^ 22) (h : y ≤ x * (1 + v) ^ k) (hx : 0 ≤ x) : y / 2 ≤ x := by
  have := mul_le_mul_of_nonneg_left (pow_v_le k hk) hx
  linarith

theorem le_double {x y : ℚ} {k : Nat} (hk : k ≤ 2 ^ 22) (h : x ≤ y * (1 + v) ^ k) (hy : 0 ≤ y) : x ≤ 2 * y := by
  have := mul_le_mul_of_nonneg_left (pow_v_le k hk) hy
  linarith

theorem normal_of {x : ℚ} (h : 1 / 2 ^ 110 ≤ x) : Normal x := Or.inr (by
  refine le_trans ?_ h
  rw [zpow_neg, one_div]
  norm_num)

theorem avg_computed {rs : List Report} {m : Nat} (h : Moderate rs m) (i : Nat) :
    Rel (rs.length + 1) (entry (avgList (State.after rs)) i) (avg rs i) ∧
    (entry (avgList (State.after rs)) i = 0 ∨
      (1 / 2 ^ 41 ≤ entry (avgList (State.after rs)) i ∧ entry (avgList (State.after rs)) i ≤ 2 ^ 41)) := by
  obtain ⟨a1, a2, a3⟩ := after_inv rs h.good
  obtain ⟨_, b2, b3⟩ := a3 i
  have hn : rs.length + 1 ≤ 2 ^ 22 := by have := h.reports; omega
  unfold avgList
  rw [entry_zip_map a1 _ (by simp)]
  simp only [b3]
  by_cases hc : samples rs i ≤ 0
  · rw [if_neg (by omega), avg, if_pos hc]
    exact ⟨Rel.refl le_rfl _, Or.inl rfl⟩
  · rw [if_pos (by omega)]
    have hc0 : 0 < samples rs i := by omega
    have hcq : (0 : ℚ) < samples rs i := by exact_mod_cast hc0
    have hfl : fl (samples rs i : ℚ) = samples rs i := by
      refine fl_rep (rep_int ?_)
      rw [abs_of_pos hc0]; exact h.exact i
    have hA : avg rs i = total rs i / samples rs i := by rw [avg, if_neg hc]
    have hq : Rel rs.length (entry (State.after rs).losses i / samples rs i) (avg rs i) := by
      rw [hA]
      exact b2.div (Rel.refl hcq.le 0) hcq
    have hnorm : Normal (entry (State.after rs).losses i / samples rs i) := by
      rcases h.size i with h0 | ⟨h0, _⟩
      · exact Or.inl (hq.zero_iff.2 h0)
      · refine normal_of ?_
        have := half_le (by omega) hq.2.2.1 hq.1
        refine le_trans ?_ this
        norm_num at h0 ⊢
        linarith
    unfold average
    rw [hfl]
    have hr := ((fl32_fl_rel hnorm).1.trans hq).mono (show 1 + rs.length ≤ rs.length + 1 by omega)
    refine ⟨hr, ?_⟩
    rcases h.size i with h0 | ⟨h0, h1⟩
    · exact Or.inl (hr.zero_iff.2 h0)
    · refine Or.inr ⟨?_, ?_⟩
      · have := half_le hn hr.2.2.1 hr.1
        norm_num at h0 this ⊢
        linarith
      · have := le_double hn hr.2.2.2 hr.2.1
        norm_num at h1 this ⊢
        linarith

/-- **C92** (weights). After at most a million reports of ordinary averages, some of them positive, the algorithm returns weights that
agree with the exact shares - the domain's average loss divided by the sum of all averages - up to a factor `(1 + v) ^ (2 n + s + 5)`,
where `n` is the number of reports and `s` belongs to `np.sum`; and their sum, as numpy computes it, is one up to `(1 + v) ^ (2 s + 1)`. -/
theorem c92_weights {npSum : List ℚ → ℚ} {m s : Nat} (hs : Sums npSum m s) (hs20 : s ≤ 2 ^ 20) {rs : List Report} (h : Moderate rs m)
    (hpos : ∃ i, 0 < avg rs i) :
    ∃ w, (State.after rs).mixture npSum = some w ∧ (∀ i,
      avg rs i / ∑ j ∈ Finset.range m, avg rs j ≤ entry w i * (1 + v) ^ (2 * rs.length + s + 5) ∧
      entry w i ≤ avg rs i / (∑ j ∈ Finset.range m, avg rs j) * (1 + v) ^ (2 * rs.length + s + 5)) ∧
      1 ≤ npSum w * (1 + v) ^ (2 * s + 1) ∧ npSum w ≤ (1 + v) ^ (2 * s + 1) := by
  obtain ⟨a1, a2, a3⟩ := after_inv rs h.good
  have hlen := a2 m h.len
  generalize hst : State.after rs = st at a1 a2 a3 hlen
  have havg : ∀ i, Rel (rs.length + 1) (entry (avgList st) i) (avg rs i) ∧
      (entry (avgList st) i = 0 ∨ (1 / 2 ^ 41 ≤ entry (avgList st) i ∧ entry (avgList st) i ≤ 2 ^ 41)) := by
    intro i; rw [← hst]; exact avg_computed h i
  have hsums : ∀ l : List ℚ, l.length ≤ m → (∀ x ∈ l, Normal x) → Rel s (npSum l) l.sum := by
    intro l h1 h2
    obtain ⟨x, y, z⟩ := hs l h1 h2
    exact ⟨z, List.sum_nonneg fun x hx => (h2 x hx).nonneg, x, y⟩
  have hanorm : ∀ i, Normal (entry (avgList st) i) := by
    intro i
    rcases (havg i).2 with h0 | ⟨h0, _⟩
    · exact Or.inl h0
    · exact normal_of (le_trans (by norm_num) h0)
  -- the sum of the averages
  have hal : (avgList st).length ≤ m := by simp [avgList]; omega
  have hS : (avgList st).sum = ∑ j ∈ Finset.range m, entry (avgList st) j := (sum_range_entry _ _ hal).symm
  have hSrel : Rel (rs.length + 1) (avgList st).sum (∑ j ∈ Finset.range m, avg rs j) := by
    rw [hS]; exact Rel.range m fun i => (havg i).1
  have hSx : 0 < ∑ j ∈ Finset.range m, avg rs j := by
    obtain ⟨i, hi⟩ := hpos
    have him : i < m := by
      by_contra hge
      have : entry (avgList st) i = 0 := entry_beyond (by omega)
      have := (havg i).1.zero_iff.1 this
      linarith
    exact lt_of_lt_of_le hi (Finset.single_le_sum (f := fun j => avg rs j) (fun j _ => (havg j).1.2.1) (Finset.mem_range.2 him))
  have hS0 : 0 < (avgList st).sum := lt_of_le_of_ne hSrel.1 fun e => hSx.ne' (hSrel.zero_iff.1 e.symm)
  have hSle : (avgList st).sum ≤ 2 ^ 61 := by
    rw [hS]
    have h1 : ∑ j ∈ Finset.range m, entry (avgList st) j ≤ ∑ _j ∈ Finset.range m, (2 : ℚ) ^ 41 := by
      refine Finset.sum_le_sum fun j _ => ?_
      rcases (havg j).2 with h0 | ⟨_, h0⟩
      · rw [h0]; positivity
      · exact h0
    rw [Finset.sum_const, Finset.card_range, nsmul_eq_mul] at h1
    have h2 : (m : ℚ) ≤ 2 ^ 20 := by exact_mod_cast h.domains
    have h3 := mul_le_mul_of_nonneg_right h2 (by norm_num : (0 : ℚ) ≤ 2 ^ 41)
    exact (h1.trans h3).trans (by norm_num)
  -- the total of the averages
  have hmsum : st.masked.sum = (avgList st).sum := masked_sum _
  have hmnorm : ∀ x ∈ st.masked, Normal x := by
    intro x hx
    unfold State.masked at hx
    rw [List.mem_filterMap] at hx
    obtain ⟨lc, h1, h2⟩ := hx
    have : x ∈ avgList st := by
      unfold avgList
      rw [List.mem_map]
      refine ⟨lc, h1, ?_⟩
      split at h2
      · rename_i hc; rw [if_pos hc]; exact Option.some.inj h2
      · cases h2
    obtain ⟨i, rfl⟩ := entry_mem this
    exact hanorm i
  have hmlen : st.masked.length ≤ m := by
    refine le_trans (List.length_filterMap_le _ _) ?_
    simp; omega
  have htrel : Rel s (npSum st.masked) (avgList st).sum := by rw [← hmsum]; exact hsums _ hmlen hmnorm
  generalize ht : npSum st.masked = t at htrel
  have ht0 : 0 < t := lt_of_le_of_ne htrel.1 fun e => hS0.ne' (htrel.zero_iff.1 e.symm)
  have htle : t ≤ 2 ^ 62 := by
    have := le_double (by omega) htrel.2.2.2 htrel.2.1
    norm_num at this hSle ⊢
    linarith
  -- the raw mixture
  have hraw : st.raw npSum = (avgList st).map fun x => fl32 (x / t) := by
    unfold State.raw avgList
    rw [ht, if_neg ht0.ne', List.map_map]
    refine List.map_congr_left fun lc _ => ?_
    simp only [Function.comp]
    split
    · rfl
    · rw [zero_div]; exact (flp_zero _ _).symm
  have hz : fl32 (0 / t) = 0 := by rw [zero_div]; exact flp_zero _ _
  have hw1 : ∀ i, entry (st.raw npSum) i = fl32 (entry (avgList st) i / t) := by
    intro i; rw [hraw]; exact entry_map _ hz i
  have hatn : ∀ i, entry (avgList st) i = 0 ∨ 1 / 2 ^ 103 ≤ entry (avgList st) i / t := by
    intro i
    rcases (havg i).2 with h0 | ⟨h0, _⟩
    · exact Or.inl h0
    · refine Or.inr ?_
      rw [le_div_iff₀ ht0]
      refine le_trans ?_ h0
      have : 1 / 2 ^ 103 * t ≤ 1 / 2 ^ 103 * 2 ^ 62 := mul_le_mul_of_nonneg_left htle (by norm_num)
      refine this.trans ?_
      norm_num
  have hatnorm : ∀ i, Normal (entry (avgList st) i / t) := by
    intro i
    rcases hatn i with h0 | h0
    · exact Or.inl (by rw [h0, zero_div])
    · exact normal_of (le_trans (by norm_num) h0)
  have hw1rel : ∀ i, Rel 1 (entry (st.raw npSum) i) (entry (avgList st) i / t) := by
    intro i; rw [hw1]; exact fl32_rel (hatnorm i)
  have hw1n : ∀ i, entry (st.raw npSum) i = 0 ∨ 1 / 2 ^ 104 ≤ entry (st.raw npSum) i := by
    intro i
    rcases hatn i with h0 | h0
    · exact Or.inl ((hw1rel i).zero_iff.2 (by rw [h0, zero_div]))
    · refine Or.inr ?_
      have := half_le (by omega) (hw1rel i).2.2.1 (hw1rel i).1
      norm_num at this h0 ⊢
      linarith
  have hrlen : (st.raw npSum).length ≤ m := by rw [hraw, List.length_map]; exact hal
  have hRrel : Rel 1 (st.raw npSum).sum ((avgList st).sum / t) := by
    have e : (avgList st).sum / t = ∑ j ∈ Finset.range m, entry (avgList st) j / t := by rw [hS]; simp only [div_eq_mul_inv, Finset.sum_mul]
    rw [← sum_range_entry _ _ hrlen, e]
    exact Rel.range m hw1rel
  have hrnorm : ∀ x ∈ st.raw npSum, Normal x := by
    intro x hx
    obtain ⟨i, rfl⟩ := entry_mem hx
    rcases hw1n i with h0 | h0
    · exact Or.inl h0
    · exact normal_of (le_trans (by norm_num) h0)
  have hqrel : Rel s (npSum (st.raw npSum)) (st.raw npSum).sum := hsums _ hrlen hrnorm
  generalize hq : npSum (st.raw npSum) = q at hqrel
  have hSt : 0 < (avgList st).sum / t := div_pos hS0 ht0
  have hR0 : 0 < (st.raw npSum).sum := lt_of_le_of_ne hRrel.1 fun e => hSt.ne' (hRrel.zero_iff.1 e.symm)
  have hq0 : 0 < q := lt_of_le_of_ne hqrel.1 fun e => hR0.ne' (hqrel.zero_iff.1 e.symm)
  have hqle : q ≤ 8 := by
    have h1 := le_double (by omega) hqrel.2.2.2 hqrel.2.1
    have h2 := le_double (by omega) hRrel.2.2.2 hRrel.2.1
    have h3 : (avgList st).sum / t ≤ 2 := by
      rw [div_le_iff₀ ht0]
      have := le_double (by omega) htrel.2.2.1 htrel.1
      linarith
    linarith
  have hwnorm : ∀ i, Normal (entry (st.raw npSum) i / q) := by
    intro i
    rcases hw1n i with h0 | h0
    · exact Or.inl (by rw [h0, zero_div])
    · refine normal_of ?_
      rw [le_div_iff₀ hq0]
      have : 1 / 2 ^ 110 * q ≤ 1 / 2 ^ 110 * 8 := mul_le_mul_of_nonneg_left hqle (by norm_num)
      refine this.trans (le_trans ?_ h0)
      norm_num
  -- the result
  have hany : st.counts.any (fun c => decide (c > 0)) = true := by
    obtain ⟨i, hi⟩ := hpos
    have hc : 0 < samples rs i := by
      by_contra hc
      rw [avg, if_pos (not_lt.1 hc)] at hi
      exact lt_irrefl _ hi
    rw [List.any_eq_true]
    rw [← (a3 i).2.2] at hc
    refine ⟨entry st.counts i, ?_, by simpa using hc⟩
    have hlt : i < st.counts.length := by
      by_contra hge
      rw [entry_beyond (not_lt.1 hge)] at hc
      exact lt_irrefl _ hc
    unfold entry
    rw [List.getElem?_eq_getElem hlt]
    exact List.getElem_mem hlt
  refine ⟨(st.raw npSum).map fun x => fl32 (x / q), ?_, ?_⟩
  · unfold State.mixture
    rw [if_pos hany, hq, if_pos hq0.ne']
  have hzq : fl32 (0 / q) = 0 := by rw [zero_div]; exact flp_zero _ _
  refine ⟨?_, ?_⟩
  · intro i
    rw [entry_map _ hzq]
    have r1 := fl32_rel (hwnorm i)
    have r2 : Rel (0 + s) (entry (st.raw npSum) i / q) (entry (st.raw npSum) i / (st.raw npSum).sum) :=
      (Rel.refl (hw1rel i).1 0).div hqrel hq0
    have r3 : Rel (1 + 1) (entry (st.raw npSum) i / (st.raw npSum).sum) (entry (avgList st) i / t / ((avgList st).sum / t)) :=
      (hw1rel i).div hRrel hR0
    rw [div_div_div_cancel_right₀ ht0.ne'] at r3
    have r4 := (havg i).1.div hSrel hS0
    have r := (((r1.trans r2).trans r3).trans r4).mono (show 1 + (0 + s) + (1 + 1) + (rs.length + 1 + (rs.length + 1)) ≤ 2 * rs.length + s + 5 by omega)
    exact ⟨r.2.2.1, r.2.2.2⟩
  · have hwl : ((st.raw npSum).map fun x => fl32 (x / q)).length ≤ m := by rw [List.length_map]; exact hrlen
    have hws : Rel 1 ((st.raw npSum).map fun x => fl32 (x / q)).sum ((st.raw npSum).sum / q) := by
      have e : (st.raw npSum).sum / q = ∑ j ∈ Finset.range m, entry (st.raw npSum) j / q := by
        rw [← sum_range_entry _ _ hrlen]; simp only [div_eq_mul_inv, Finset.sum_mul]
      rw [← sum_range_entry _ _ hwl, e]
      refine Rel.range m fun i => ?_
      rw [entry_map _ hzq]
      exact fl32_rel (hwnorm i)
    have hone : Rel (0 + s) ((st.raw npSum).sum / q) 1 := by
      have := (Rel.refl hR0.le 0).div hqrel hq0
      rwa [div_self hR0.ne'] at this
    have hwn : ∀ x ∈ (st.raw npSum).map fun x => fl32 (x / q), Normal x := by
      intro x hx
      obtain ⟨i, rfl⟩ := entry_mem hx
      rw [entry_map _ hzq]
      exact (fl32_err (hwnorm i)).2
    have r := (((hsums _ hwl hwn).trans hws).trans hone).mono (show s + 1 + (0 + s) ≤ 2 * s + 1 by omega)
    have h1 := r.2.2.1
    have h2 := r.2.2.2
    rw [one_mul] at h2
    exact ⟨h1, h2⟩

/-- **C92** (accepted). With numpy's summation (`s` is less than 40 for up to a million numbers) the dynamic mixture's check that the
weights sum to one, `np.isclose`, never fails. -/
theorem c92_accepted {npSum : List ℚ → ℚ} {m s : Nat} (hs : Sums npSum m s) (hs40 : s ≤ 40) {rs : List Report} (h : Moderate rs m)
    (hpos : ∃ i, 0 < avg rs i) : ∃ w, (State.after rs).mixture npSum = some w ∧ F64.npCloseToOne (npSum w) := by
  obtain ⟨w, h1, _, h2, h3⟩ := c92_weights hs (by omega) h hpos
  refine ⟨w, h1, F64.npClose ?_⟩
  have hb : (1 + v) ^ (2 * s + 1) ≤ (1 + v) ^ 81 := pow_le_pow_right₀ (by have := v_pos; linarith) (by omega)
  have hn : (1 + v) ^ 81 ≤ 1 + 8 / 1000000 := by norm_num [v]
  have h4 : (1 + v) ^ (2 * s + 1) ≤ 1 + 8 / 1000000 := hb.trans hn
  have h0 : 0 ≤ npSum w := by
    by_contra hneg
    have := mul_neg_of_neg_of_pos (not_le.1 hneg) (pow_v_pos (2 * s + 1))
    linarith
  have h5 := mul_le_mul_of_nonneg_left h4 h0
  rw [abs_le]
  constructor <;> linarith

/-- **C92** (no losses). If samples, but no losses were reported, all domains with samples get the same weight up to rounding. -/
theorem c92_no_losses {npSum : List ℚ → ℚ} {m s : Nat} (hs : Sums npSum m s) (hs20 : s ≤ 2 ^ 20) {rs : List Report} (h : Moderate rs m)
    (hsome : ∃ i, 0 < samples rs i) (hzero : ∀ i, avg rs i = 0) :
    ∃ w, (State.after rs).mixture npSum = some w ∧ ∀ i,
      let p : ℚ := if 0 < samples rs i then 1 / ((Finset.range m).filter fun j => 0 < samples rs j).card else 0
      p ≤ entry w i * (1 + v) ^ (s + 1) ∧ entry w i ≤ p * (1 + v) ^ (s + 1) := by
  obtain ⟨a1, a2, a3⟩ := after_inv rs h.good
  have hlen := a2 m h.len
  have havg : ∀ i, entry (avgList (State.after rs)) i = 0 := fun i => (avg_computed h i).1.zero_iff.2 (hzero i)
  generalize hst : State.after rs = st at a1 a2 a3 hlen havg
  have hsums : ∀ l : List ℚ, l.length ≤ m → (∀ x ∈ l, Normal x) → Rel s (npSum l) l.sum := by
    intro l h1 h2
    obtain ⟨x, y, z⟩ := hs l h1 h2
    exact ⟨z, List.sum_nonneg fun x hx => (h2 x hx).nonneg, x, y⟩
  have hidx : ∀ i, 0 < samples rs i → i < st.losses.length ∧ i < m := by
    intro i hi
    rw [← (a3 i).2.2] at hi
    have : i < st.counts.length := by
      by_contra hge
      rw [entry_beyond (not_lt.1 hge)] at hi
      exact lt_irrefl _ hi
    omega
  have hmasked : ∀ x ∈ st.masked, x = 0 := by
    intro x hx
    unfold State.masked at hx
    rw [List.mem_filterMap] at hx
    obtain ⟨lc, h1, h2⟩ := hx
    have : x ∈ avgList st := by
      unfold avgList
      rw [List.mem_map]
      refine ⟨lc, h1, ?_⟩
      split at h2
      · rename_i hc; rw [if_pos hc]; exact Option.some.inj h2
      · cases h2
    obtain ⟨i, rfl⟩ := entry_mem this
    exact havg i
  have hmlen : st.masked.length ≤ m := by
    refine le_trans (List.length_filterMap_le _ _) ?_
    simp; omega
  have hmpos : 0 < st.masked.length := by
    obtain ⟨i, hi⟩ := hsome
    obtain ⟨h1, _⟩ := hidx i hi
    rw [← (a3 i).2.2] at hi
    rw [List.length_pos_iff_exists_mem]
    refine ⟨average st.losses[i] (st.counts[i]'(by omega)), ?_⟩
    unfold State.masked
    rw [List.mem_filterMap]
    refine ⟨(st.losses[i], st.counts[i]'(by omega)), ?_, ?_⟩
    · rw [List.mem_iff_getElem]
      exact ⟨i, by simp; omega, by simp⟩
    · unfold entry at hi
      rw [List.getElem?_eq_getElem (by omega : i < st.counts.length)] at hi
      simp only [Option.getD_some] at hi
      simp only
      rw [if_pos hi]
  have ht : npSum st.masked = 0 := by
    have := hsums st.masked hmlen fun x hx => Or.inl (hmasked x hx)
    exact this.zero_iff.2 (List.sum_eq_zero hmasked)
  -- the common weight
  obtain ⟨g, hg⟩ : ∃ g, g = fl32 (fl (1 / fl st.masked.length)) := ⟨_, rfl⟩
  have hml : (st.masked.length : ℚ) ≤ 2 ^ 20 := by exact_mod_cast hmlen.trans h.domains
  have hml1 : (1 : ℚ) ≤ st.masked.length := by exact_mod_cast hmpos
  have hfl : fl (st.masked.length : ℚ) = st.masked.length := F64.fl_nat (by have := h.domains; omega)
  have hgrel : Rel 1 g (1 / st.masked.length) := by
    rw [hg, hfl]
    refine (fl32_fl_rel (normal_of ?_)).1
    refine le_trans (b := 1 / 2 ^ 20) (by norm_num) ?_
    exact one_div_le_one_div_of_le (by linarith) hml
  have hg40 : 1 / 2 ^ 21 ≤ g := by
    have h1 := half_le (by omega) hgrel.2.2.1 hgrel.1
    have h2 : (1 : ℚ) / 2 ^ 20 ≤ 1 / st.masked.length := one_div_le_one_div_of_le (by linarith) hml
    norm_num at h1 h2 ⊢
    linarith
  have hg2 : g ≤ 2 := by
    have h1 := le_double (by omega) hgrel.2.2.2 hgrel.2.1
    have h2 : (1 : ℚ) / st.masked.length ≤ 1 := by rw [div_le_one (by linarith)]; exact hml1
    linarith
  have hg0 : 0 < g := lt_of_lt_of_le (by norm_num) hg40
  have hraw : ∀ i, entry (st.raw npSum) i = if 0 < samples rs i then g else 0 := by
    intro i
    unfold State.raw
    rw [if_pos ht, entry_zip_map a1 _ (by simp)]
    simp only [(a3 i).2.2]
    rw [hg]
  have hrlen : (st.raw npSum).length ≤ m := by
    unfold State.raw
    rw [if_pos ht, List.length_map]
    simp; omega
  have hrsum : (st.raw npSum).sum = ((Finset.range m).filter fun j => 0 < samples rs j).card * g := by
    rw [← sum_range_entry _ _ hrlen]
    simp only [hraw]
    rw [← Finset.sum_filter, Finset.sum_const, nsmul_eq_mul]
  have hcard : 1 ≤ ((Finset.range m).filter fun j => 0 < samples rs j).card := by
    obtain ⟨i, hi⟩ := hsome
    exact Finset.card_pos.2 ⟨i, by rw [Finset.mem_filter, Finset.mem_range]; exact ⟨(hidx i hi).2, hi⟩⟩
  have hcardm : ((Finset.range m).filter fun j => 0 < samples rs j).card ≤ 2 ^ 20 :=
    (Finset.card_filter_le _ _).trans (by rw [Finset.card_range]; exact h.domains)
  generalize hN : ((Finset.range m).filter fun j => 0 < samples rs j).card = N at hrsum hcard hcardm
  have hNq : (1 : ℚ) ≤ N := by exact_mod_cast hcard
  have hNle : (N : ℚ) ≤ 2 ^ 20 := by exact_mod_cast hcardm
  have hrnorm : ∀ x ∈ st.raw npSum, Normal x := by
    intro x hx
    obtain ⟨i, rfl⟩ := entry_mem hx
    rw [hraw]
    split
    · exact normal_of (le_trans (by norm_num) hg40)
    · exact Or.inl rfl
  have hqrel := hsums _ hrlen hrnorm
  generalize hq : npSum (st.raw npSum) = q at hqrel
  rw [hrsum] at hqrel
  have hR0 : 0 < N * g := mul_pos (by linarith) hg0
  have hq0 : 0 < q := lt_of_le_of_ne hqrel.1 fun e => hR0.ne' (hqrel.zero_iff.1 e.symm)
  have hqle : q ≤ 2 ^ 22 := by
    have h1 := le_double (by omega) hqrel.2.2.2 hqrel.2.1
    have h2 : (N : ℚ) * g ≤ 2 ^ 20 * 2 := mul_le_mul hNle hg2 hg0.le (by norm_num)
    norm_num at h1 h2 ⊢
    linarith
  have hany : st.counts.any (fun c => decide (c > 0)) = true := by
    obtain ⟨i, hi⟩ := hsome
    obtain ⟨h1, _⟩ := hidx i hi
    rw [← (a3 i).2.2] at hi
    rw [List.any_eq_true]
    refine ⟨entry st.counts i, ?_, by simpa using hi⟩
    unfold entry
    rw [List.getElem?_eq_getElem (by omega : i < st.counts.length)]
    exact List.getElem_mem _
  refine ⟨(st.raw npSum).map fun x => fl32 (x / q), ?_, ?_⟩
  · unfold State.mixture
    rw [if_pos hany, hq, if_pos hq0.ne']
  · intro i
    dsimp only
    have hzq : fl32 (0 / q) = 0 := by rw [zero_div]; exact flp_zero _ _
    rw [entry_map _ hzq, hraw]
    by_cases hi : 0 < samples rs i
    · rw [if_pos hi, if_pos hi]
      have hnorm : Normal (g / q) := by
        refine normal_of ?_
        rw [le_div_iff₀ hq0]
        have : 1 / 2 ^ 110 * q ≤ 1 / 2 ^ 110 * 2 ^ 22 := mul_le_mul_of_nonneg_left hqle (by norm_num)
        refine this.trans (le_trans ?_ hg40)
        norm_num
      have r2 : Rel (0 + s) (g / q) (g / (N * g)) := (Rel.refl hg0.le 0).div hqrel hq0
      have e : g / (N * g) = 1 / N := by
        rw [div_eq_div_iff hR0.ne' (by linarith : (N : ℚ) ≠ 0)]; ring
      rw [e] at r2
      have r := ((fl32_rel hnorm).trans r2).mono (show 1 + (0 + s) ≤ s + 1 by omega)
      exact ⟨r.2.2.1, r.2.2.2⟩
    · rw [if_neg hi, if_neg hi, hzq]
      simp

/-! ## Reports that do not count -/

/-- **C92** (ignored). A loss of less than half the last place of the total recorded so far does not change it - however often it is
reported. -/
theorem c92_ignored {a x : ℚ} (ha : fl32 a = a) (hn : 2 ^ (-126 : Int) ≤ a) (hx0 : 0 ≤ x) (hx : x < 2 ^ (Int.log 2 a - 24)) :
    add false a x = a := by
  have ha0 : 0 < a := lt_of_lt_of_le (pow_pos' _) hn
  have hlog : -126 ≤ Int.log 2 a := (Int.zpow_le_iff_le_log (b := 2) (by norm_num) ha0).1 (by exact_mod_cast hn)
  generalize hL : Int.log 2 a = L at hx hlog
  have hp := pow_pos' (L - 23)
  have he : max (L - (23 : Nat)) (-149) = L - 23 := max_eq_left (by push_cast; omega)
  have hrep : a = F64.roundEven (a / 2 ^ (L - 23)) * 2 ^ (L - 23) := by
    have := ha
    unfold fl32 flp at this
    rw [if_neg ha0.ne', abs_of_pos ha0, hL, he] at this
    exact this.symm
  generalize F64.roundEven (a / 2 ^ (L - 23)) = n at hrep
  have hup : a < 2 ^ (L + 1) := by
    have := F64.lt_log a
    rwa [abs_of_pos ha0, hL] at this
  have hlo : (2 : ℚ) ^ L ≤ a := by
    have := F64.log_le a ha0.ne'
    rwa [abs_of_pos ha0, hL] at this
  have h24 : (2 : ℚ) ^ (L + 1) = 2 ^ 24 * 2 ^ (L - 23) := by
    rw [show (2 : ℚ) ^ 24 = 2 ^ (24 : Int) by norm_num, ← zpow_add₀ (by norm_num)]; congr 1; omega
  have hhalf : (2 : ℚ) ^ (L - 24) = 1 / 2 * 2 ^ (L - 23) := by
    rw [show L - 23 = L - 24 + 1 by omega, zpow_add_one₀ (by norm_num)]; ring
  rw [hhalf] at hx
  have hnlt : n < 2 ^ 24 := by
    rw [h24, hrep] at hup
    have := lt_of_mul_lt_mul_right hup hp.le
    exact_mod_cast this
  have hnle : (n : ℚ) ≤ 2 ^ 24 - 1 := by
    have : n ≤ 2 ^ 24 - 1 := by omega
    exact_mod_cast this
  have hax0 : 0 < a + x := by linarith
  have hlog2 : Int.log 2 (a + x) = L := by
    apply le_antisymm
    · have h1 : a + x < 2 ^ (L + 1) := by
        rw [h24]
        have := mul_le_mul_of_nonneg_right hnle hp.le
        rw [← hrep] at this
        linarith
      have := (Int.lt_zpow_iff_log_lt (b := 2) (by norm_num) hax0).1 (by exact_mod_cast h1)
      omega
    · exact (Int.zpow_le_iff_le_log (b := 2) (by norm_num) hax0).1 (by push_cast; linarith)
  unfold add
  simp only [Bool.false_eq_true, if_false]
  unfold fl32 flp
  rw [if_neg hax0.ne', abs_of_pos hax0, hlog2, he]
  have hdiv : (a + x) / 2 ^ (L - 23) = n + x / 2 ^ (L - 23) := by
    conv_lhs => rw [hrep]
    rw [add_div, mul_div_cancel_right₀ _ hp.ne']
  have hd0 : 0 ≤ x / 2 ^ (L - 23) := div_nonneg hx0 hp.le
  have hd1 : x / 2 ^ (L - 23) < 1 / 2 := by rw [div_lt_iff₀ hp]; exact hx
  have hfloor : ⌊(n : ℚ) + x / 2 ^ (L - 23)⌋ = n := by
    rw [Int.floor_eq_iff]
    constructor <;> linarith
  rw [hdiv]
  unfold F64.roundEven
  rw [hfloor, if_pos (by linarith)]
  exact hrep.symm

/-- A first report about two domains, and further ones about the first; every sample has loss one. -/
def stuckReports (k : Nat) : List Report := ⟨false, [2 ^ 24, 1], [2 ^ 24, 1]⟩ :: List.replicate k ⟨false, [1], [1]⟩

theorem stuck_after (k : Nat) : State.after (stuckReports k) = ⟨[2 ^ 24, 1], [2 ^ 24 + k, 1]⟩ := by
  induction k with
  | zero => decide +kernel
  | succ k ih =>
    have hs : stuckReports (k + 1) = stuckReports k ++ [⟨false, [1], [1]⟩] := by
      unfold stuckReports; rw [List.replicate_succ']; rfl
    rw [hs, after_snoc, ih]
    have hadd : add false (2 ^ 24) 1 = 2 ^ 24 := by decide +kernel
    simp only [State.update, addAll, hadd, State.mk.injEq, List.cons.injEq, and_true, true_and]
    push_cast
    ring

/-- **C92**, refuted for long histories: the total recorded of the first domain never grows, however many samples of loss one are
reported. Both domains have average loss one, but after `3 * 2 ^ 24` more samples the first gets a fifth of the chunk. -/
theorem c92_stuck (k : Nat) :
    (∀ r ∈ stuckReports k, Good r) ∧ avg (stuckReports k) 0 = 1 ∧ avg (stuckReports k) 1 = 1 ∧
    total (stuckReports k) 0 = 2 ^ 24 + k ∧ entry (State.after (stuckReports k)).losses 0 = 2 ^ 24 ∧
    (k = 3 * 2 ^ 24 → ∃ w, (State.after (stuckReports k)).mixture loopSum = some w ∧ entry w 0 < 21 / 100 ∧ 79 / 100 < entry w 1) := by
  have ht : ∀ i, total (stuckReports k) i = entry [(2 : ℚ) ^ 24, 1] i + k * entry [(1 : ℚ)] i := by
    intro i; simp [total, stuckReports]
  have hc : ∀ i, samples (stuckReports k) i = entry [(2 : Int) ^ 24, 1] i + k * entry [(1 : Int)] i := by
    intro i; simp [samples, stuckReports]
  have t0 : total (stuckReports k) 0 = 2 ^ 24 + k := by rw [ht]; simp [entry]
  have c0 : samples (stuckReports k) 0 = 2 ^ 24 + k := by rw [hc]; simp [entry]
  have t1 : total (stuckReports k) 1 = 1 := by rw [ht]; simp [entry]
  have c1 : samples (stuckReports k) 1 = 1 := by rw [hc]; simp [entry]
  refine ⟨?_, ?_, ?_, t0, by rw [stuck_after]; rfl, ?_⟩
  · intro r hr
    rw [stuckReports, List.mem_cons, List.mem_replicate] at hr
    rcases hr with rfl | ⟨_, rfl⟩
    · refine ⟨rfl, ?_⟩
      intro x hx
      simp only [List.mem_cons, List.not_mem_nil, or_false] at hx
      right
      rcases hx with rfl | rfl
      · exact le_trans (zpow_le_zpow_right₀ (by norm_num) (by norm_num : (-126 : Int) ≤ 24)) (by norm_num)
      · exact le_trans (zpow_le_zpow_right₀ (by norm_num) (by norm_num : (-126 : Int) ≤ 0)) (by norm_num)
    · refine ⟨rfl, ?_⟩
      intro x hx
      simp only [List.mem_cons, List.not_mem_nil, or_false] at hx
      subst hx
      exact Or.inr (le_trans (zpow_le_zpow_right₀ (by norm_num) (by norm_num : (-126 : Int) ≤ 0)) (by norm_num))
  · unfold avg
    rw [if_neg (by rw [c0]; omega), t0, c0]
    push_cast
    exact div_self (by positivity)
  · unfold avg
    rw [if_neg (by rw [c1]; omega), t1, c1]
    norm_num
  · intro hk
    rw [stuck_after, hk]
    obtain ⟨w, hw⟩ : ∃ w, (⟨[2 ^ 24, 1], [2 ^ 24 + ((3 * 2 ^ 24 : Nat) : Int), 1]⟩ : State).mixture loopSum = some w := by
      rw [← Option.isSome_iff_exists]; decide +kernel
    refine ⟨w, hw, ?_⟩
    have : ((⟨[2 ^ 24, 1], [2 ^ 24 + ((3 * 2 ^ 24 : Nat) : Int), 1]⟩ : State).mixture loopSum).all
        (fun w => decide (entry w 0 < 21 / 100 ∧ 79 / 100 < entry w 1)) = true := by decide +kernel
    rw [hw] at this
    simpa using this

/-! ## Concrete cases -/

/-- Additions from the left meet the condition on `np.sum`. -/
theorem sums_loop (m : Nat) : Sums loopSum m m := by
  have key : ∀ (l : List ℚ) (acc y : ℚ) (k : Nat), (∀ x ∈ l, Normal x) → Normal acc → Rel k acc y →
      Rel (k + l.length) (l.foldl (fun a x => fl32 (a + x)) acc) (y + l.sum) := by
    intro l
    induction l with
    | nil => intro acc y k _ _ h; simpa using h
    | cons x l ih =>
      intro acc y k hl ha h
      have hx := hl x (by simp)
      rw [List.foldl_cons, List.sum_cons, ← add_assoc]
      have h1 := ih (fl32 (acc + x)) (y + x) (1 + k) (fun z hz => hl z (List.mem_cons_of_mem _ hz)) (fl32_err (ha.add hx)).2
        ((fl32_rel (ha.add hx)).trans (h.add (Rel.refl hx.nonneg k)))
      exact h1.mono (by simp; omega)
  intro l hl hn
  have := key l 0 0 0 hn (Or.inl rfl) (Rel.refl le_rfl 0)
  rw [zero_add, zero_add] at this
  have := this.mono hl
  exact ⟨this.2.2.1, this.2.2.2, this.1⟩

/-- Two reports, one in double precision and about one more domain. -/
def exReports : List Report := [⟨false, [1 / 2, 3], [2, 1]⟩, ⟨true, [1 / 3, 0, 5], [1, 2, 1]⟩]

theorem exReports_values : ∀ i, samples exReports i ≤ 3 ∧ (avg exReports i = 5 / 18 ∨ avg exReports i = 1 ∨ avg exReports i = 5 ∨ avg exReports i = 0) := by
  intro i
  match i with
  | 0 => exact ⟨by decide +kernel, Or.inl (by decide +kernel)⟩
  | 1 => exact ⟨by decide +kernel, Or.inr (Or.inl (by decide +kernel))⟩
  | 2 => exact ⟨by decide +kernel, Or.inr (Or.inr (Or.inl (by decide +kernel)))⟩
  | i + 3 =>
    have : samples exReports (i + 3) = 0 := by simp [samples, exReports, entry]
    exact ⟨by rw [this]; omega, Or.inr (Or.inr (Or.inr (by unfold avg; rw [if_pos this.le])))⟩

theorem exReports_moderate : Moderate exReports 3 := by
  refine ⟨?_, ?_, by norm_num, by decide, ?_, ?_⟩
  · intro r hr
    simp only [exReports, List.mem_cons, List.not_mem_nil, or_false] at hr
    have hsmall : ∀ x : ℚ, 1 / 3 ≤ x → (2 : ℚ) ^ (-126 : Int) ≤ x := by
      intro x hx
      refine le_trans (zpow_le_zpow_right₀ (by norm_num) (by norm_num : (-126 : Int) ≤ -2)) ?_
      norm_num at hx ⊢
      linarith
    rcases hr with rfl | rfl
    · refine ⟨rfl, fun x hx => ?_⟩
      simp only [List.mem_cons, List.not_mem_nil, or_false] at hx
      rcases hx with rfl | rfl <;> exact Or.inr (hsmall _ (by norm_num))
    · refine ⟨rfl, fun x hx => ?_⟩
      simp only [List.mem_cons, List.not_mem_nil, or_false] at hx
      rcases hx with rfl | rfl | rfl
      · exact Or.inr (hsmall _ (by norm_num))
      · exact Or.inl rfl
      · exact Or.inr (hsmall _ (by norm_num))
  · intro r hr
    simp only [exReports, List.mem_cons, List.not_mem_nil, or_false] at hr
    rcases hr with rfl | rfl <;> decide
  · intro i
    have := (exReports_values i).1
    omega
  · intro i
    rcases (exReports_values i).2 with h | h | h | h <;> rw [h] <;> norm_num

/-- The theorems about the weights apply to it. -/
example : ∃ w, (State.after exReports).mixture loopSum = some w ∧ F64.npCloseToOne (loopSum w) :=
  c92_accepted (sums_loop 3) (by norm_num) exReports_moderate ⟨1, by decide +kernel⟩

/-- A case for `c92_ignored`. -/
example : add false (2 ^ 24) (3 / 4) = 2 ^ 24 :=
  c92_ignored (by decide +kernel) (le_trans (zpow_le_zpow_right₀ (by norm_num) (by norm_num : (-126 : Int) ≤ 24)) (by norm_num)) (by norm_num) (by
    rw [show Int.log 2 ((2 : ℚ) ^ 24) = 24 by decide +kernel]; norm_num)

end Mixtera.F32
