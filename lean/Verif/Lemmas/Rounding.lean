import Verif.Model.Utils
import Verif.Lemmas.Sort
import Mathlib.Tactic.Linarith
import Mathlib.Tactic.Ring
import Mathlib.Algebra.BigOperators.Group.List.Basic
import Mathlib.Algebra.Order.BigOperators.Group.List

namespace Mixtera

theorem pyInt_nonneg_eq {q : ℚ} (h : 0 ≤ q) : pyInt q = ⌊q⌋ := by simp [pyInt, h]

theorem sum_map_mul_const (l : List ℚ) (c : ℚ) : (l.map (· * c)).sum = l.sum * c := by
  induction l with
  | nil => simp
  | cons a l ih => simp [ih]; ring

theorem sum_map_const_mul (l : List ℚ) (c : ℚ) : (l.map (c * ·)).sum = c * l.sum := by
  induction l with
  | nil => simp
  | cons a l ih => simp [ih]; ring

theorem sum_map_div_const (l : List ℚ) (c : ℚ) : (l.map (· / c)).sum = l.sum / c := by
  induction l with
  | nil => simp
  | cons a l ih => simp [ih]; ring

/-! ### merge_sorted_lists -/

theorem mergeSortedLists_perm (l1 l2 : List Rng) : (mergeSortedLists l1 l2).Perm (l1 ++ l2) := by
  fun_induction mergeSortedLists l1 l2 with
  | case1 l2 => simp
  | case2 l1 h => simp
  | case3 a l1 b l2 h ih => simpa using ih
  | case4 a l1 b l2 h ih =>
    calc (b :: mergeSortedLists (a :: l1) l2).Perm (b :: ((a :: l1) ++ l2)) := ih.cons _
    _ |>.Perm _ := List.perm_middle.symm

/-! ### bumpLoop -/

theorem bumpLoop_length (r : Int) (is : List Nat) (l : List Int) : (bumpLoop r is l).length = l.length := by
  induction is generalizing r l with
  | nil => rfl
  | cons i is ih => rw [bumpLoop]; split <;> simp [ih]

theorem sum_modify_succ (l : List Int) (i : Nat) (h : i < l.length) :
    (l.modify i (· + 1)).sum = l.sum + 1 := by
  induction l generalizing i with
  | nil => simp at h
  | cons a l ih =>
    cases i with
    | zero => simp; omega
    | succ i => simp at h; simp [ih i h]; omega

theorem bumpLoop_sum (r : Int) (is : List Nat) (l : List Int) (hr0 : 0 ≤ r) (hr : r ≤ is.length)
    (hi : ∀ i ∈ is, i < l.length) : (bumpLoop r is l).sum = l.sum + r := by
  induction is generalizing r l with
  | nil => simp at hr; simp [bumpLoop]; omega
  | cons i is ih =>
    rw [bumpLoop]
    split
    · rw [ih]
      · rw [sum_modify_succ _ _ (hi i (by simp))]; omega
      · omega
      · simp at hr; omega
      · intro j hj; simp; exact hi j (by simp [hj])
    · omega

/-- Exactly the first `r` listed positions are increased by one. -/
theorem bumpLoop_getElem (r : Int) (is : List Nat) (l : List Int) (hn : is.Nodup) (j : Nat)
    (hj : j < l.length) :
    (bumpLoop r is l)[j]? = some (l[j] + if j ∈ is.take r.toNat then 1 else 0) := by
  induction is generalizing r l with
  | nil => simp [bumpLoop, hj]
  | cons i is ih =>
    rw [bumpLoop]
    split
    · rename_i hr
      obtain ⟨m, rfl⟩ : ∃ m : Nat, r = m + 1 := ⟨(r - 1).toNat, by omega⟩
      have hn' := List.nodup_cons.mp hn
      rw [show ((m : Int) + 1 - 1) = m by omega, show ((m : Int) + 1).toNat = m + 1 by omega]
      rw [ih m (l.modify i (· + 1)) hn'.2 (by simpa using hj)]
      simp only [Int.toNat_natCast, List.take_succ_cons, List.mem_cons, Option.some.injEq]
      by_cases hij : i = j
      · subst hij
        have : i ∉ is.take m := fun h => hn'.1 (List.mem_of_mem_take h)
        simp [this]
      · have hij' : ¬ j = i := fun h => hij h.symm
        simp [hij, hij']
    · have : r.toNat = 0 := by omega
      simp [hj, this]

/-- The (fraction, index) pairs that `fracOrder` sorts. -/
def fracPairs (exact : List ℚ) : List (ℚ × Nat) := exact.mapIdx fun i x => (x - pyInt x, i)

theorem fracOrder_perm (exact : List ℚ) : (fracOrder exact).Perm (List.range exact.length) := by
  unfold fracOrder
  refine ((sortBy_perm _ _).map _).trans (List.Perm.of_eq ?_)
  apply List.ext_getElem <;> simp

theorem fracOrder_sorted (exact : List ℚ) :
    (fracOrder exact).Pairwise fun i j => ∀ (hi : i < exact.length) (hj : j < exact.length),
      exact[j] - pyInt exact[j] ≤ exact[i] - pyInt exact[i] := by
  unfold fracOrder
  rw [List.pairwise_map]
  have hs := sortBy_sorted (fun (a b : ℚ × Nat) => decide (b.1 ≤ a.1))
    (by intro a b; simp; exact le_total _ _)
    (by intro a b c; simp; intro h1 h2; exact le_trans h2 h1) (fracPairs exact)
  refine List.Pairwise.imp_of_mem ?_ hs
  intro a b ha hb hab hi hj
  have key : ∀ p ∈ sortBy (fun (a b : ℚ × Nat) => decide (b.1 ≤ a.1)) (fracPairs exact),
      ∀ h : p.2 < exact.length, p.1 = exact[p.2] - pyInt exact[p.2] := by
    intro p hp h
    have hp := (sortBy_perm _ _).mem_iff.mp hp
    simp only [fracPairs, List.mem_mapIdx] at hp
    obtain ⟨i, hi, rfl⟩ := hp
    rfl
  rw [← key a ha hi, ← key b hb hj]
  simpa using hab

theorem sum_floor_bounds (l : List ℚ) (h : ∀ x ∈ l, 0 ≤ x) :
    ((l.map pyInt).sum : ℚ) ≤ l.sum ∧ l.sum ≤ ((l.map pyInt).sum : ℚ) + l.length ∧
      (l ≠ [] → l.sum < ((l.map pyInt).sum : ℚ) + l.length) := by
  induction l with
  | nil => simp
  | cons a l ih =>
    obtain ⟨h1, h2, _⟩ := ih (fun x hx => h x (by simp [hx]))
    have ha := pyInt_nonneg_eq (h a (by simp))
    have hf := Int.floor_le a
    have hf2 := Int.lt_floor_add_one a
    simp only [List.map_cons, List.sum_cons, List.length_cons, ha]
    push_cast
    refine ⟨by linarith, by linarith, fun _ => by linarith⟩

theorem pyInt_nonneg {q : ℚ} (h : 0 ≤ q) : 0 ≤ pyInt q := by
  rw [pyInt_nonneg_eq h]; exact Int.floor_nonneg.mpr h

/-- Largest remainder rounding of non-negative numbers whose sum is close to `n`. -/
theorem largestRemainder_spec (n : Nat) (exact : List ℚ) (hne : exact ≠ [])
    (hnn : ∀ x ∈ exact, 0 ≤ x) (hlo : (n : ℚ) - 1 < exact.sum) (hhi : exact.sum < n + 1) :
    let out := bumpLoop (n - (exact.map pyInt).sum) (fracOrder exact) (exact.map pyInt)
    out.length = exact.length ∧ out.sum = n ∧
      (∀ i (hi : i < exact.length), out[i]? = some ⌊exact[i]⌋ ∨ out[i]? = some (⌊exact[i]⌋ + 1)) ∧
      (∀ i j (hi : i < exact.length) (hj : j < exact.length),
        out[i]? = some (⌊exact[i]⌋ + 1) → out[j]? = some ⌊exact[j]⌋ →
        Int.fract exact[j] ≤ Int.fract exact[i]) := by
  intro out
  obtain ⟨h1, h2, h3⟩ := sum_floor_bounds exact hnn
  have h3 := h3 hne
  have hr0 : (0 : Int) ≤ n - (exact.map pyInt).sum := by
    have : ((exact.map pyInt).sum : ℚ) < ((n + 1 : Int) : ℚ) := by push_cast; linarith
    have := Int.cast_lt.mp this; omega
  have hr : (n : Int) - (exact.map pyInt).sum ≤ (fracOrder exact).length := by
    rw [(fracOrder_perm exact).length_eq, List.length_range]
    have : ((n - 1 : Int) : ℚ) < (((exact.map pyInt).sum + exact.length : Int) : ℚ) := by
      push_cast; linarith
    have := Int.cast_lt.mp this; omega
  have hnd : (fracOrder exact).Nodup := (fracOrder_perm exact).nodup_iff.mpr List.nodup_range
  have hget : ∀ i (hi : i < exact.length), out[i]? =
      some (⌊exact[i]⌋ + if i ∈ (fracOrder exact).take (n - (exact.map pyInt).sum : Int).toNat then 1 else 0) := by
    intro i hi
    have hfl := pyInt_nonneg_eq (hnn _ (List.getElem_mem hi))
    have := bumpLoop_getElem (n - (exact.map pyInt).sum) _ (exact.map pyInt) hnd i (by simpa using hi)
    simpa [hfl] using this
  refine ⟨by simp [out, bumpLoop_length], ?_, ?_, ?_⟩
  · rw [bumpLoop_sum _ _ _ hr0 hr]
    · omega
    · intro i hi; simpa using (fracOrder_perm exact).mem_iff.mp hi
  · intro i hi
    rw [hget i hi]
    split <;> simp
  · intro i j hi hj h1 h2
    rw [hget i hi] at h1
    rw [hget j hj] at h2
    have hi' : i ∈ (fracOrder exact).take (n - (exact.map pyInt).sum : Int).toNat := by
      by_contra hc; simp [hc] at h1
    have hj' : j ∉ (fracOrder exact).take (n - (exact.map pyInt).sum : Int).toNat := by
      intro hc; simp [hc] at h2
    have hjm : j ∈ fracOrder exact := (fracOrder_perm exact).mem_iff.mpr (by simpa using hj)
    have hjd : j ∈ (fracOrder exact).drop (n - (exact.map pyInt).sum : Int).toNat := by
      rw [← List.take_append_drop (n - (exact.map pyInt).sum : Int).toNat (fracOrder exact)] at hjm
      rcases List.mem_append.mp hjm with h | h
      · exact absurd h hj'
      · exact h
    have hs := fracOrder_sorted exact
    rw [← List.take_append_drop (n - (exact.map pyInt).sum : Int).toNat (fracOrder exact)] at hs
    have := (List.pairwise_append.mp hs).2.2 i hi' j hjd hi hj
    rw [pyInt_nonneg_eq (hnn _ (List.getElem_mem hi)), pyInt_nonneg_eq (hnn _ (List.getElem_mem hj))] at this
    unfold Int.fract
    exact this

theorem distributeByRatio_spec (n : Nat) (ratios : List ℚ) (hne : ratios ≠ [])
    (hnn : ∀ r ∈ ratios, 0 ≤ r) (hsum : |ratios.sum - 1| ≤ 1 / 1000000000)
    (hn : |ratios.sum - 1| * n < 1) :
    ∃ out, distributeByRatio n ratios = .ok out ∧ out.length = ratios.length ∧ out.sum = n ∧
      (∀ i (hi : i < ratios.length),
        out[i]? = some ⌊ratios[i] * n⌋ ∨ out[i]? = some (⌊ratios[i] * n⌋ + 1)) ∧
      (∀ i j (hi : i < ratios.length) (hj : j < ratios.length),
        out[i]? = some (⌊ratios[i] * n⌋ + 1) → out[j]? = some ⌊ratios[j] * n⌋ →
        Int.fract (ratios[j] * n) ≤ Int.fract (ratios[i] * n)) := by
  have hexsum : (ratios.map (· * (n : ℚ))).sum = ratios.sum * n := sum_map_mul_const _ _
  have hn0 : (0 : ℚ) ≤ n := by positivity
  have key : |ratios.sum * n - n| < 1 := by
    have : ratios.sum * n - n = (ratios.sum - 1) * n := by ring
    rw [this, abs_mul, abs_of_nonneg hn0]
    exact hn
  rw [abs_lt] at key
  obtain ⟨s1, s2, s3, s4⟩ := largestRemainder_spec n (ratios.map (· * (n : ℚ))) (by simpa using hne)
    (by intro x hx; simp only [List.mem_map] at hx; obtain ⟨r, hr, rfl⟩ := hx
        exact mul_nonneg (hnn r hr) hn0)
    (by rw [hexsum]; linarith) (by rw [hexsum]; linarith)
  refine ⟨_, ?_, by simpa using s1, s2, by simpa using s3, by simpa using s4⟩
  unfold distributeByRatio
  rw [if_neg hne, if_neg (by rw [gt_iff_lt, not_lt]; exact hsum)]

end Mixtera
