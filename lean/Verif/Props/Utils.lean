import Verif.Lemmas.Merge
import Mathlib.Tactic.NormNum

/-!
# C29 and C30: `merge_sorted_lists` and `distribute_by_ratio`
-/

namespace Mixtera

/-- C29. Merging two lists sorted by start gives exactly the elements of both (with multiplicity),
sorted by start, and among equal starts the elements of the first list come first, in order. -/
theorem c29_merge_sorted_lists (l1 l2 : List Rng)
    (h1 : l1.Pairwise fun a b => a.1 ≤ b.1) (h2 : l2.Pairwise fun a b => a.1 ≤ b.1) :
    (mergeSortedLists l1 l2).Perm (l1 ++ l2) ∧
    (mergeSortedLists l1 l2).Pairwise (fun a b => a.1 ≤ b.1) ∧
    ∀ v, (mergeSortedLists l1 l2).filter (·.1 = v) = l1.filter (·.1 = v) ++ l2.filter (·.1 = v) :=
  ⟨mergeSortedLists_perm l1 l2, mergeSortedLists_sorted l1 l2 h1 h2,
   mergeSortedLists_stable l1 l2 h1 h2⟩

example : mergeSortedLists [(0, 3), (5, 6), (9, 10)] [(3, 5), (5, 7)] =
    [(0, 3), (3, 5), (5, 6), (5, 7), (9, 10)] := by
  simp [mergeSortedLists]

/-- C30. For non-negative ratios that sum to 1 up to the accepted tolerance, where the tolerance
amounts to less than one unit of `n` (always the case if the sum is exactly 1, or if `n < 10^9`), the
result has one entry per ratio, sums to `n`, every entry is the floor of `n * ratio` or one more, and
the additional units go to the largest fractional parts. -/
theorem c30_distribute_by_ratio (n : Nat) (ratios : List ℚ) (hne : ratios ≠ [])
    (hnn : ∀ r ∈ ratios, 0 ≤ r) (hsum : |ratios.sum - 1| ≤ 1 / 1000000000)
    (hn : |ratios.sum - 1| * n < 1) :
    ∃ out, distributeByRatio n ratios = .ok out ∧ out.length = ratios.length ∧ out.sum = n ∧
      (∀ i (hi : i < ratios.length),
        out[i]? = some ⌊ratios[i] * n⌋ ∨ out[i]? = some (⌊ratios[i] * n⌋ + 1)) ∧
      (∀ i j (hi : i < ratios.length) (hj : j < ratios.length),
        out[i]? = some (⌊ratios[i] * n⌋ + 1) → out[j]? = some ⌊ratios[j] * n⌋ →
        Int.fract (ratios[j] * n) ≤ Int.fract (ratios[i] * n)) :=
  distributeByRatio_spec n ratios hne hnn hsum hn

/-- C30 for every `n` below `10^9`, whatever the deviation within the tolerance. -/
theorem c30_distribute_by_ratio_small (n : Nat) (ratios : List ℚ) (hne : ratios ≠ [])
    (hnn : ∀ r ∈ ratios, 0 ≤ r) (hsum : |ratios.sum - 1| ≤ 1 / 1000000000) (hn : n < 1000000000) :
    ∃ out, distributeByRatio n ratios = .ok out ∧ out.length = ratios.length ∧ out.sum = n := by
  have hn' : (n : ℚ) < 1000000000 := by exact_mod_cast hn
  have hn0 : (0 : ℚ) ≤ n := by positivity
  have h0 := abs_nonneg (ratios.sum - 1)
  obtain ⟨out, h1, h2, h3, _⟩ := c30_distribute_by_ratio n ratios hne hnn hsum (by nlinarith)
  exact ⟨out, h1, h2, h3⟩

/-- C30, rejected and trivial inputs: no ratios give an empty list; ratios whose sum is off by more
than the tolerance raise `ValueError`. -/
theorem c30_distribute_rejects (n : Nat) (ratios : List ℚ) :
    distributeByRatio n [] = .ok [] ∧
    (ratios ≠ [] → |ratios.sum - 1| > 1 / 1000000000 →
      distributeByRatio n ratios = .error .valueError) := by
  constructor
  · simp [distributeByRatio]
  · intro h1 h2; unfold distributeByRatio; rw [if_neg h1, if_pos h2]

/-- The hypotheses of C30 are met by a non-trivial case. -/
example : (∀ r ∈ [(1 / 3 : ℚ), 1 / 3, 1 / 3], 0 ≤ r) ∧ |[(1 / 3 : ℚ), 1 / 3, 1 / 3].sum - 1| ≤ 1 / 1000000000 := by
  constructor
  · intro r hr; simp at hr; subst hr; norm_num
  · norm_num

end Mixtera
