import Verif.Lemmas.Mixture
import Verif.Spec.Samples
import Verif.Lemmas.Entries
import Mathlib.Tactic.NormNum

/-!
# C21, C23, C24: static and inferring mixtures, schedules
-/

set_option linter.unusedSectionVars false

namespace Mixtera

variable {K : Type} [DecidableEq K]

/-! ### C21 -/

theorem closeToOne_pos {t : ℚ} (h : closeToOne t) : 0 < t := by
  unfold closeToOne at h
  by_contra hc
  have h1 : |t - 1| = 1 - t := by rw [abs_of_nonpos (by linarith)]; ring
  have h2 : |t| = -t := abs_of_nonpos (by linarith)
  rw [h1, h2] at h
  have : max (-t) 1 ≤ 1 - t := max_le (by linarith) (by linarith)
  nlinarith

theorem normalise_sum (m : Dict K ℚ) (h : m.values.sum ≠ 0) :
    (Dict.values (m.map fun kv => (kv.1, kv.2 / m.values.sum))).sum = 1 := by
  rw [Dict.values_mapVal (fun v => v / m.values.sum), sum_map_div_const]
  exact div_self h

theorem parse_of_sum_one (chunk : Nat) (m : Dict K ℚ) (hnd : m.keys.Nodup) (hnn : ∀ kv ∈ m, 0 ≤ kv.2)
    (hsum : m.values.sum = 1) : ∃ rows, parseUserMixture chunk m = .ok rows ∧ Rounded chunk m rows ∧
      ∀ k q r (n : Nat), m.get? k = some q → rows.get? k = some r → (chunk : ℚ) * q = n → r = n := by
  have hne : m ≠ [] := by rintro rfl; simp [Dict.values] at hsum
  obtain ⟨rows, h1, h2⟩ := parseUserMixture_spec chunk m hnd hne hnn (by rw [hsum]; linarith) (by rw [hsum]; linarith)
  exact ⟨rows, h1, h2, fun k q r n hq hr hn => h2.exact hnd hsum k q r n hq hr hn⟩

/-- C21. For distinct keys with non-negative weights that sum to 1, the rows of a static mixture have the same keys, sum
to exactly the chunk size, give every key the floor of `chunk * weight` or one more, prefer larger fractional parts, and
are exact where `chunk * weight` is a whole number. -/
theorem c21_static (chunk : Nat) (m : Dict K ℚ) (hnd : m.keys.Nodup) (hnn : ∀ kv ∈ m, 0 ≤ kv.2)
    (hsum : m.values.sum = 1) : ∃ rows, staticMixture chunk m = .ok rows ∧ Rounded chunk m rows ∧
      ∀ k q r (n : Nat), m.get? k = some q → rows.get? k = some r → (chunk : ℚ) * q = n → r = n := by
  obtain ⟨rows, h1, h2, h3⟩ := parse_of_sum_one chunk m hnd hnn hsum
  refine ⟨rows, ?_, h2, h3⟩
  unfold staticMixture
  rw [if_neg (by rw [hsum]; unfold closeToOne; norm_num), hsum]
  simpa using h1

/-- C21, weights that sum to 1 up to the accepted tolerance: the same for the weights divided by their sum. -/
theorem c21_static_renormalised (chunk : Nat) (m : Dict K ℚ) (hnd : m.keys.Nodup) (hnn : ∀ kv ∈ m, 0 ≤ kv.2)
    (hsum : closeToOne m.values.sum) : ∃ rows, staticMixture chunk m = .ok rows ∧
      Rounded chunk (m.map fun kv => (kv.1, kv.2 / m.values.sum)) rows ∧
      ∀ k q r (n : Nat), Dict.get? (m.map fun kv => (kv.1, kv.2 / m.values.sum)) k = some q → rows.get? k = some r →
        (chunk : ℚ) * q = n → r = n := by
  have hpos := closeToOne_pos hsum
  obtain ⟨rows, h1, h2, h3⟩ := parse_of_sum_one chunk (m.map fun kv => (kv.1, kv.2 / m.values.sum))
    (by rw [Dict.keys_mapVal (fun v => v / m.values.sum)]; exact hnd)
    (by
      intro kv hkv
      obtain ⟨x, hx, rfl⟩ := List.mem_map.mp hkv
      exact div_nonneg (hnn x hx) hpos.le)
    (normalise_sum m hpos.ne')
  exact ⟨rows, by unfold staticMixture; rw [if_neg (by simpa using hsum)]; exact h1, h2, h3⟩

/-- C21, rejected weights: a sum outside the tolerance raises `ValueError`; a negative weight fails an assertion. So
every accepted mixture is covered by the theorems above. -/
theorem c21_static_rejects (chunk : Nat) (m : Dict K ℚ) :
    (¬ closeToOne m.values.sum → staticMixture chunk m = .error .valueError) ∧
    (closeToOne m.values.sum → (∃ kv ∈ m, kv.2 < 0) → staticMixture chunk m = .error .assertion) := by
  constructor
  · intro h; unfold staticMixture; rw [if_pos h]
  · rintro h ⟨kv, hkv, hneg⟩
    have hpos := closeToOne_pos h
    unfold staticMixture
    rw [if_neg (by simpa using h)]
    unfold parseUserMixture
    rw [if_pos]
    rw [List.any_eq_true]
    exact ⟨(kv.1, kv.2 / m.values.sum), List.mem_map.mpr ⟨kv, hkv, rfl⟩, by simpa using div_neg_of_neg_of_pos hneg hpos⟩

/-- C21 for weights that were normalised inexactly (as with floats): a deviation of less than one row does no harm. -/
theorem c21_rounding_slack (chunk : Nat) (m : Dict K ℚ) (hnd : m.keys.Nodup) (hne : m ≠ []) (hnn : ∀ kv ∈ m, 0 ≤ kv.2)
    (hdev : chunk * |m.values.sum - 1| < 1) : ∃ rows, parseUserMixture chunk m = .ok rows ∧ Rounded chunk m rows := by
  have hc : (0 : ℚ) ≤ chunk := by positivity
  have h1 := le_abs_self (m.values.sum - 1)
  have h2 := neg_abs_le (m.values.sum - 1)
  exact parseUserMixture_spec chunk m hnd hne hnn (by nlinarith) (by nlinarith)

/-- The tolerance is relative to the larger of the sum and 1: sums from 0.999 to 1000/999 are accepted. -/
theorem c21_tolerance (t : ℚ) : closeToOne t ↔ 999 / 1000 ≤ t ∧ t ≤ 1000 / 999 := by
  constructor
  · intro h
    have hpos := closeToOne_pos h
    unfold closeToOne at h
    rw [abs_of_pos hpos] at h
    have h1 := neg_abs_le (t - 1)
    have h2 := le_abs_self (t - 1)
    rcases le_total t 1 with ht | ht
    · rw [max_eq_right ht] at h; constructor <;> linarith
    · rw [max_eq_left ht] at h; constructor <;> linarith
  · rintro ⟨h1, h2⟩
    unfold closeToOne
    rw [abs_of_pos (show 0 < t by linarith)]
    rcases le_total t 1 with ht | ht
    · rw [max_eq_right ht, abs_of_nonpos (by linarith)]; linarith
    · rw [max_eq_left ht, abs_of_nonneg (by linarith)]; linarith

example : staticMixture 10 [(1, 1 / 3), (2, 1 / 4), (3, 5 / 12), (4, 0)] = .ok [(1, 3), (2, 3), (3, 4), (4, 0)] := by
  decide +kernel

/-! ### C23 -/

theorem entriesSize_eq_samples (e : Entries) : entriesSize e = (entriesSamples e).length := by
  unfold entriesSize entriesSamples
  simp [List.length_flatMap, Seg.samples]

/-- The share of a key in a chunker index: its samples among all samples. -/
def shareOf (index : Dict K Entries) : Dict K ℚ :=
  index.map fun kv => (kv.1, ((entriesSamples kv.2).length : ℚ) / (contentSamples index).length)

theorem masses_sum (index : Dict K Entries) :
    (Dict.values (index.map fun kv => (kv.1, entriesSize kv.2))).sum = (contentSamples index).length := by
  rw [Dict.values_mapVal entriesSize]
  unfold contentSamples Dict.values
  rw [List.length_flatMap, List.map_map]
  congr 1
  apply List.map_congr_left
  intro x _
  simp [entriesSize_eq_samples]

theorem inferMixture_eq (index : Dict K Entries) (h : 0 < (contentSamples index).length) :
    inferMixture index = .ok ((contentSamples index).length, shareOf index) := by
  unfold inferMixture
  dsimp only
  rw [masses_sum]
  rw [if_neg (by omega)]
  simp [shareOf, List.map_map, Function.comp_def, entriesSize_eq_samples]

/-- The shares of a non-empty index sum to one. -/
theorem shareOf_sum (index : Dict K Entries) (hpos : 0 < (contentSamples index).length) : (shareOf index).values.sum = 1 := by
  have hposq : (0 : ℚ) < (contentSamples index).length := by exact_mod_cast hpos
  unfold shareOf
  rw [Dict.values_mapVal (fun e => ((entriesSamples e).length : ℚ) / (contentSamples index).length)]
  have h1 := masses_sum index
  rw [Dict.values_mapVal entriesSize] at h1
  have h2 : (index.values.map fun e => ((entriesSamples e).length : ℚ) / (contentSamples index).length) =
      ((index.values.map entriesSize).map fun n : Nat => (n : ℚ)).map (· / ((contentSamples index).length : ℚ)) := by
    simp [List.map_map, Function.comp_def, entriesSize_eq_samples]
  rw [h2, sum_map_div_const]
  have h3 : ∀ l : List Nat, (l.map fun n : Nat => (n : ℚ)).sum = (l.sum : ℚ) := by
    intro l; induction l with
    | nil => simp
    | cons a l ih => simp [ih]
  rw [h3, h1]
  exact div_self hposq.ne'

/-- C23. For every chunker index with at least one sample the rows of an inferring mixture have the keys of the index,
sum to the chunk size, and each key's rows differ by less than one from `chunk * share`. -/
theorem c23_inferring (chunk : Nat) (index : Dict K Entries) (hnd : index.keys.Nodup)
    (hne : contentSamples index ≠ []) : ∃ rows, inferRows chunk index = .ok rows ∧
      rows.keys = index.keys ∧ rows.values.sum = chunk ∧ Rounded chunk (shareOf index) rows ∧
      ∀ k e r, index.get? k = some e → rows.get? k = some r →
        |(r : ℚ) - chunk * ((entriesSamples e).length / (contentSamples index).length)| < 1 := by
  have hpos : 0 < (contentSamples index).length := List.length_pos_of_ne_nil hne
  have hposq : (0 : ℚ) < (contentSamples index).length := by exact_mod_cast hpos
  have hkeys : (shareOf index).keys = index.keys :=
    Dict.keys_mapVal (fun e => ((entriesSamples e).length : ℚ) / (contentSamples index).length) index
  have hsum : (shareOf index).values.sum = 1 := shareOf_sum index hpos
  obtain ⟨rows, h1, h2, h3⟩ := parse_of_sum_one chunk (shareOf index) (by rw [hkeys]; exact hnd)
    (by
      intro kv hkv
      obtain ⟨x, _, rfl⟩ := List.mem_map.mp hkv
      positivity) hsum
  refine ⟨rows, ?_, by rw [h2.keys, hkeys], h2.total, h2, ?_⟩
  · unfold inferRows
    rw [inferMixture_eq index hpos]
    dsimp only
    rw [if_neg (by omega)]
    exact h1
  · intro k e r he hr
    have hs : (shareOf index).get? k = some (((entriesSamples e).length : ℚ) / (contentSamples index).length) := by
      unfold shareOf
      rw [Dict.get?_mapVal (fun e => ((entriesSamples e).length : ℚ) / (contentSamples index).length), he]
      rfl
    generalize ((entriesSamples e).length : ℚ) / (contentSamples index).length = q at hs
    have hfl := Int.floor_le ((chunk : ℚ) * q)
    have hlt := Int.lt_floor_add_one ((chunk : ℚ) * q)
    rcases h2.near k q r hs hr with h | h
    · have h' : (r : ℚ) = ((⌊(chunk : ℚ) * q⌋ : Int) : ℚ) := by rw [← h]; simp
      rw [h', abs_lt]
      constructor <;> linarith
    · have h' : (r : ℚ) = ((⌊(chunk : ℚ) * q⌋ : Int) : ℚ) + 1 := by
        have : ((r : Int) : ℚ) = ((⌊(chunk : ℚ) * q⌋ + 1 : Int) : ℚ) := by rw [h]
        push_cast at this
        exact this
      rw [h', abs_lt]
      refine ⟨by linarith, ?_⟩
      rcases hfl.lt_or_eq with hh | hh
      · linarith
      · exfalso
        have hq0 : (0 : ℚ) ≤ (chunk : ℚ) * q :=
          mul_nonneg (by positivity) (by
            have := Dict.mem_of_get? hs
            obtain ⟨x, _, hx⟩ := List.mem_map.mp this
            simp only [Prod.mk.injEq] at hx
            rw [← hx.2]; positivity)
        have h0 : 0 ≤ ⌊(chunk : ℚ) * q⌋ := Int.floor_nonneg.mpr hq0
        have := h3 k q r ⌊(chunk : ℚ) * q⌋.toNat hs hr (by
          rw [← hh]
          have : ((⌊(chunk : ℚ) * q⌋.toNat : Int) : ℚ) = ((⌊(chunk : ℚ) * q⌋ : Int) : ℚ) := by rw [Int.toNat_of_nonneg h0]
          rw [← this]; exact Int.cast_natCast _)
        omega

/-- C23, the remaining indices: an empty one gives no rows (like no mixture at all); one with keys but without a single
sample makes `process_index` divide by zero. -/
theorem c23_without_samples (chunk : Nat) (index : Dict K Entries) (h : contentSamples index = []) :
    inferRows chunk index = if index = [] then .ok [] else .error .zeroDivision := by
  have hm := masses_sum index
  rw [h] at hm
  by_cases hi : index = []
  · subst hi; simp [inferRows, inferMixture, Dict.values]
  · rw [if_neg hi]
    unfold inferRows inferMixture
    dsimp only
    rw [hm]
    simp [hi]

example : inferRows 10 [(1, [(0, [(0, [(0, 7)]), (1, [(3, 5)])])]), (2, [(0, [(0, [(7, 11)])])])] =
    .ok [(1, 7), (2, 3)] := by decide +kernel

/-! ### C24 -/

/-- The training step a schedule goes by: the largest reported one, 0 before any report. -/
def IsTop (reports : List Int) (top : Int) : Prop :=
  (top = 0 ∨ top ∈ reports) ∧ 0 ≤ top ∧ ∀ r ∈ reports, r ≤ top

theorem report_step (s : Schedule K) (reports : List Int) :
    (reports.foldl Schedule.report s).entries = s.entries ∧
    (reports.foldl Schedule.report s).step = reports.foldl max s.step := by
  induction reports generalizing s with
  | nil => exact ⟨rfl, rfl⟩
  | cons r rs ih => exact ih (s.report r)

theorem foldl_max (l : List Int) (a : Int) : (l.foldl max a = a ∨ l.foldl max a ∈ l) ∧ a ≤ l.foldl max a ∧ ∀ r ∈ l, r ≤ l.foldl max a := by
  induction l generalizing a with
  | nil => simp
  | cons r l ih =>
    obtain ⟨h1, h2, h3⟩ := ih (max a r)
    rw [List.foldl_cons]
    refine ⟨?_, le_trans (le_max_left _ _) h2, ?_⟩
    · rcases h1 with h1 | h1
      · rcases max_choice a r with hm | hm
        · left; rw [h1, hm]
        · right; rw [h1, hm]; simp
      · right; simp [h1]
    · intro x hx
      rcases List.mem_cons.mp hx with rfl | hx
      · exact le_trans (le_max_right _ _) h2
      · exact h3 x hx

theorem isTop_unique {reports : List Int} {top : Int} (h : IsTop reports top) : reports.foldl max 0 = top := by
  obtain ⟨h1, h2, h3⟩ := foldl_max reports 0
  obtain ⟨g1, g2, g3⟩ := h
  apply le_antisymm
  · rcases h1 with h1 | h1
    · rw [h1]; exact g2
    · exact g3 _ h1
  · rcases g1 with g1 | g1
    · rw [g1]; exact h2
    · exact h3 _ g1

theorem getLast?_filter_append {α : Type} (l r : List α) (e : α) (p : α → Bool) (he : p e = true) (hr : ∀ x ∈ r, p x = false) :
    ((l ++ e :: r).filter p).getLast? = some e := by
  rw [List.filter_append, List.filter_cons_of_pos he]
  have : r.filter p = [] := by rw [List.filter_eq_nil_iff]; intro x hx; simp [hr x hx]
  rw [this]
  simp

/-- C24. After any sequence of reported training steps, the entry in use is one of the schedule's entries (with the
schedule's chunk size); if some entry has started, it has started and no started entry starts later, and among entries
with the same start it is the last listed one; if none has started, it is one with the smallest start. -/
theorem c24_current (chunk : Nat) (entries : List (Int × BaseMix K)) (s : Schedule K)
    (hs : Schedule.mk? chunk entries = .ok s) (reports : List Int) (top : Int) (htop : IsTop reports top) :
    ∃ e, (reports.foldl Schedule.report s).current = some (e.1, { e.2 with chunk := chunk }) ∧ e ∈ entries ∧
      ((∃ f ∈ entries, f.1 ≤ top) → e.1 ≤ top ∧ (∀ f ∈ entries, f.1 ≤ top → f.1 ≤ e.1) ∧
        (((entries.map fun e => (e.1, ({ e.2 with chunk := chunk } : BaseMix K))).filter fun f => decide (f.1 = e.1)).getLast? =
          some (e.1, { e.2 with chunk := chunk }))) ∧
      ((∀ f ∈ entries, top < f.1) → ∀ f ∈ entries, e.1 ≤ f.1) := by
  unfold Schedule.mk? at hs
  split at hs
  · cases hs
  rename_i hne
  simp only [Except.ok.injEq] at hs
  obtain ⟨h1, h2⟩ := report_step s reports
  have hstep : s.step = 0 := by rw [← hs]
  rw [hstep, isTop_unique htop] at h2
  have hent : s.entries = sortBy (fun a b => decide (a.1 ≤ b.1)) (entries.map fun e => (e.1, { e.2 with chunk := chunk })) := by
    rw [← hs]
  unfold Schedule.current
  rw [h1, h2, hent]
  generalize hS : entries.map (fun e => (e.1, ({ e.2 with chunk := chunk } : BaseMix K))) = S
  have hmem : ∀ f : Int × BaseMix K, f ∈ S ↔ ∃ e ∈ entries, f = (e.1, { e.2 with chunk := chunk }) := by
    intro f; rw [← hS, List.mem_map]; constructor
    · rintro ⟨e, he, rfl⟩; exact ⟨e, he, rfl⟩
    · rintro ⟨e, he, rfl⟩; exact ⟨e, he, rfl⟩
  have hperm := sortBy_perm (fun a b : Int × BaseMix K => decide (a.1 ≤ b.1)) S
  have hsorted := sortBy_sorted (fun a b : Int × BaseMix K => decide (a.1 ≤ b.1))
    (by intro a b; simp; exact le_total _ _) (by intro a b c; simp; exact le_trans) S
  have hstable : ∀ v : Int, (sortBy (fun a b : Int × BaseMix K => decide (a.1 ≤ b.1)) S).filter (fun f => decide (f.1 = v)) =
      S.filter (fun f => decide (f.1 = v)) := by
    intro v
    apply sortBy_filter
    intro a _ b _ ha hb
    simp only [decide_eq_true_eq] at ha hb ⊢
    omega
  generalize sortBy (fun a b : Int × BaseMix K => decide (a.1 ≤ b.1)) S = T at hperm hsorted hstable
  cases hf : T.reverse.find? (fun e => decide (e.1 ≤ top)) with
  | some x =>
    rw [List.find?_eq_some_iff_append] at hf
    obtain ⟨hx, as, bs, hT, has⟩ := hf
    have hT' : T = bs.reverse ++ x :: as.reverse := by
      have := congrArg List.reverse hT
      simpa using this
    have hxm : x ∈ S := hperm.mem_iff.mp (by rw [hT']; simp)
    obtain ⟨e, he, hxe⟩ := (hmem x).mp hxm
    have hx1 : x.1 = e.1 := by rw [hxe]
    simp only [decide_eq_true_eq] at hx
    refine ⟨e, by rw [hxe], he, ?_, ?_⟩
    · intro _
      refine ⟨by omega, ?_, ?_⟩
      · intro f hf hft
        have hfT : (f.1, ({ f.2 with chunk := chunk } : BaseMix K)) ∈ T := hperm.mem_iff.mpr ((hmem _).mpr ⟨f, hf, rfl⟩)
        rw [hT', List.mem_append, List.mem_cons] at hfT
        rw [hT'] at hsorted
        have hs2 := List.pairwise_append.mp hsorted
        rcases hfT with h | h | h
        · have := hs2.2.2 _ h x (by simp)
          simp only [decide_eq_true_eq] at this
          omega
        · rw [← h] at hx1; simp at hx1; omega
        · have := has _ (List.mem_reverse.mp h)
          simp at this
          omega
      · rw [← hstable, hT']
        rw [getLast?_filter_append]
        · rw [hxe]
        · simp [hx1]
        · intro y hy
          have := has _ (List.mem_reverse.mp hy)
          simp at this ⊢
          omega
    · intro hall
      have := hall e he
      omega
  | none =>
    rw [List.find?_eq_none] at hf
    cases hh : T with
    | nil =>
      rw [hh] at hperm
      have := List.nil_perm.mp hperm
      rw [← hS] at this
      simp at this
      exact absurd this hne
    | cons x T' =>
      have hxm : x ∈ S := hperm.mem_iff.mp (by rw [hh]; simp)
      obtain ⟨e, he, hxe⟩ := (hmem x).mp hxm
      have hx1 : x.1 = e.1 := by rw [hxe]
      refine ⟨e, by simp [hxe], he, ?_, ?_⟩
      · rintro ⟨f, hf1, hf2⟩
        have hfT : (f.1, ({ f.2 with chunk := chunk } : BaseMix K)) ∈ T := hperm.mem_iff.mpr ((hmem _).mpr ⟨f, hf1, rfl⟩)
        have := hf _ (List.mem_reverse.mpr hfT)
        simp at this
        omega
      · intro _ f hf1
        have hfT : (f.1, ({ f.2 with chunk := chunk } : BaseMix K)) ∈ T := hperm.mem_iff.mpr ((hmem _).mpr ⟨f, hf1, rfl⟩)
        rw [hh] at hfT hsorted
        rcases List.mem_cons.mp hfT with h | h
        · rw [← h] at hx1; simp at hx1; omega
        · have := (List.pairwise_cons.mp hsorted).1 _ h
          simp at this
          omega

/-- C24. Further reports, in any order and however late, never select an entry with a smaller start. -/
theorem c24_never_back (chunk : Nat) (entries : List (Int × BaseMix K)) (s : Schedule K)
    (hs : Schedule.mk? chunk entries = .ok s) (reports more : List Int) :
    ∃ e e', (reports.foldl Schedule.report s).current = some e ∧
      ((reports ++ more).foldl Schedule.report s).current = some e' ∧ e.1 ≤ e'.1 := by
  have top : ∀ l : List Int, IsTop l (l.foldl max 0) := fun l => foldl_max l 0
  obtain ⟨e, h1, h2, h3, h4⟩ := c24_current chunk entries s hs reports _ (top reports)
  obtain ⟨e', g1, g2, g3, g4⟩ := c24_current chunk entries s hs (reports ++ more) _ (top _)
  refine ⟨_, _, h1, g1, ?_⟩
  show e.1 ≤ e'.1
  have hle : reports.foldl max 0 ≤ (reports ++ more).foldl max 0 := by
    rw [List.foldl_append]; exact (foldl_max more _).2.1
  by_cases h : ∃ f ∈ entries, f.1 ≤ reports.foldl max 0
  · obtain ⟨k1, k2, _⟩ := h3 h
    exact (g3 ⟨e, h2, k1.trans hle⟩).2.1 e h2 (k1.trans hle)
  · push Not at h
    exact h4 h e' g2

/-- C24. Telling the schedule about the index changes no start step and no entry but the one in use. -/
theorem c24_process_index (index : Dict K Entries) (s s' : Schedule K) (h : s.processIndex index = .ok s') :
    s'.step = s.step ∧ s'.entries.map Prod.fst = s.entries.map Prod.fst ∧
    ∀ i, i ≠ s.currentIdx → s'.entries[i]? = s.entries[i]? := by
  unfold Schedule.processIndex at h
  split at h
  · simp only [Except.ok.injEq] at h; subst h; exact ⟨rfl, rfl, fun _ _ => rfl⟩
  · rename_i e he
    split at h
    · cases h
    · rename_i b hb
      simp only [Except.ok.injEq] at h
      subst h
      refine ⟨rfl, ?_, ?_⟩
      · rw [List.map_set]
        apply List.ext_getElem?
        intro i
        rw [List.getElem?_set]
        split
        · rename_i hi
          subst hi
          rw [List.getElem?_map, he]
          simp
          by_contra hc
          rw [List.getElem?_eq_none (by omega)] at he
          cases he
        · rfl
      · intro i hi
        rw [List.getElem?_set_ne (Ne.symm hi)]

theorem currentIdx_spec (s : Schedule K) : s.entries[s.currentIdx]? = s.current := by
  unfold Schedule.currentIdx Schedule.current
  cases hf : s.entries.reverse.findIdx? (fun e => decide (e.1 ≤ s.step)) with
  | none =>
    have : s.entries.reverse.find? (fun e => decide (e.1 ≤ s.step)) = none := by
      rw [List.find?_eq_none]
      rw [List.findIdx?_eq_none_iff] at hf
      intro x hx; simpa using hf x hx
    rw [this]
    exact List.head?_eq_getElem?.symm
  | some i =>
    obtain ⟨hi, hp, hb⟩ := List.findIdx?_eq_some_iff_getElem.mp hf
    have : s.entries.reverse.find? (fun e => decide (e.1 ≤ s.step)) = some s.entries.reverse[i] := by
      rw [List.find?_eq_some_iff_getElem]
      exact ⟨hp, i, hi, rfl, fun j hj => by simpa using hb j hj⟩
    rw [this]
    dsimp only
    rw [List.getElem_reverse]
    rw [List.length_reverse] at hi
    exact List.getElem?_eq_getElem (by omega)

/-- The rows the entry in use gets from the index: an inferring mixture infers them, others keep theirs. -/
theorem c24_current_informed (index : Dict K Entries) (s s' : Schedule K) (h : s.processIndex index = .ok s') (e : Int × BaseMix K)
    (he : s.current = some e) : ∃ b, e.2.processIndex index = .ok b ∧ s'.current = some (e.1, b) := by
  have hidx := currentIdx_spec s
  rw [he] at hidx
  unfold Schedule.processIndex at h
  rw [hidx] at h
  dsimp only at h
  cases hb : e.2.processIndex index with
  | error err => rw [hb] at h; cases h
  | ok b =>
    rw [hb] at h
    simp only [Except.ok.injEq] at h
    refine ⟨b, rfl, ?_⟩
    have hlt : s.currentIdx < s.entries.length := by
      by_contra hc
      rw [List.getElem?_eq_none (by omega)] at hidx
      cases hidx
    rw [← currentIdx_spec, ← h]
    have : Schedule.currentIdx { s with entries := s.entries.set s.currentIdx (e.1, b) } = s.currentIdx := by
      have hmap : (s.entries.set s.currentIdx (e.1, b)).map Prod.fst = s.entries.map Prod.fst := by
        rw [List.map_set]
        apply List.ext_getElem?
        intro i
        rw [List.getElem?_set]
        split
        · rename_i hi
          subst hi
          rw [List.getElem?_map, hidx]
          simp [hlt]
        · rfl
      have hfi : ∀ l : List (Int × BaseMix K), l.reverse.findIdx? (fun e => decide (e.1 ≤ s.step)) =
          (l.map Prod.fst).reverse.findIdx? (fun n => decide (n ≤ s.step)) := by
        intro l
        rw [← List.map_reverse, List.findIdx?_map]
        rfl
      generalize hE : s.entries.set s.currentIdx (e.1, b) = E at hmap
      have hEl : E.length = s.entries.length := by simpa using congrArg List.length hmap
      unfold Schedule.currentIdx
      dsimp only
      rw [hfi E, hmap, ← hfi, hEl]
    rw [this]
    simp [hlt]

/-- Finding: an inferring mixture that is not in use when the index is announced never gets rows: here the second
entry's rows stay empty after its start has come, so chunks are then formed without any mixture. -/
theorem c24_later_inferring_uninformed :
    let first : BaseMix Nat := ⟨false, 4, [(1, 4)], true⟩
    let later : BaseMix Nat := ⟨true, 4, [], true⟩
    let index : Dict Nat Entries := [(1, [(0, [(0, [(0, 8)])])])]
    ∃ s s', Schedule.mk? 4 [(0, first), (10, later)] = .ok s ∧ s.processIndex index = .ok s' ∧
      (s'.report 10).current = some (10, ⟨true, 4, [], true⟩) ∧ inferRows 4 index = .ok [(1, 4)] := by
  refine ⟨_, _, rfl, rfl, ?_, ?_⟩
  · rfl
  · decide +kernel

/-- Finding: an entry with another chunk size than the schedule's gets the schedule's `chunk_size`, but keeps rows that
sum to its old one. -/
theorem c24_rows_not_adjusted :
    let m : BaseMix Nat := ⟨false, 4, [(1, 3), (2, 1)], true⟩
    ∃ s, Schedule.mk? 8 [(0, m)] = .ok s ∧ s.current = some (0, ⟨false, 8, [(1, 3), (2, 1)], true⟩) ∧ s.chunk = 8 := by
  exact ⟨_, rfl, rfl, rfl⟩

/-- C24 is used with several entries, unsorted, with equal starts. -/
example : let mix (n : Nat) : BaseMix Nat := ⟨false, 4, [(n, 4)], true⟩
    ∃ s, Schedule.mk? 4 [(10, mix 1), (0, mix 2), (10, mix 3)] = .ok s ∧
      ([3, 12, 5].foldl Schedule.report s).current = some (10, mix 3) ∧ IsTop [3, 12, 5] 12 := by
  refine ⟨_, rfl, rfl, ?_⟩
  unfold IsTop; decide

end Mixtera
