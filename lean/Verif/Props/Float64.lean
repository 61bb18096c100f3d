import Verif.Lemmas.Float64
import Verif.Lemmas.Mixture
import Verif.Props.Mixture
import Verif.Props.Tree
import Verif.Spec.Apportion

/-!
# C86: row counts computed in floating point

The other theorems about mixtures treat floats as exact numbers; here every operation rounds to binary64.
-/

set_option linter.unusedSectionVars false

namespace Mixtera.F64

variable {K : Type} [DecidableEq K]

theorem u_nonneg : 0 ≤ u := by norm_num [u]
theorem u_le : u ≤ 1 / 1000 := by norm_num [u]

/-! ## The same as exact rounding of the computed products -/

theorem ideal_nonneg {chunk : Nat} {v : ℚ} (h : 0 ≤ v) : 0 ≤ ideal chunk v :=
  fl_nonneg (mul_nonneg (fl_nonneg (by positivity)) h)

theorem fraction_eq {chunk : Nat} {v : ℚ} (h : 0 ≤ v) : fraction chunk v = ideal chunk v - ⌊ideal chunk v⌋ := by
  obtain ⟨h1, h2⟩ := rep_fract (rep_fl (fl chunk * v)) (ideal_nonneg h)
  unfold fraction
  rw [pyInt_nonneg_eq (ideal_nonneg h)]
  rw [show fl (⌊ideal chunk v⌋ : ℚ) = ⌊ideal chunk v⌋ from fl_rep h1]
  exact fl_rep h2

/-- The shares that, multiplied exactly, give the products the code computes. -/
def shares (chunk : Nat) (m : Dict K ℚ) : Dict K ℚ := m.map fun kv => (kv.1, ideal chunk kv.2 / chunk)

theorem sortBy_congr {α : Type} (le le' : α → α → Bool) (l : List α) (h : ∀ a ∈ l, ∀ b ∈ l, le a b = le' a b) :
    sortBy le l = sortBy le' l := by
  have hins : ∀ (a : α) (l : List α), (∀ b ∈ l, le a b = le' a b) → insertBy le a l = insertBy le' a l := by
    intro a l
    induction l with
    | nil => intro _; rfl
    | cons b l ih =>
      intro hb
      rw [insertBy, insertBy, hb b (by simp), ih fun c hc => hb c (by simp [hc])]
  induction l with
  | nil => rfl
  | cons a l ih =>
    have ih := ih fun x hx y hy => h x (by simp [hx]) y (by simp [hy])
    rw [sortBy, sortBy, ih]
    exact hins a _ fun b hb => h a (by simp) b (by simp [(sortBy_perm le' l).mem_iff.mp hb])

theorem sortBy_map {α β : Type} (f : α → β) (le : β → β → Bool) (l : List α) :
    sortBy le (l.map f) = (sortBy (fun a b => le (f a) (f b)) l).map f := by
  have hins : ∀ (a : α) (l : List α), insertBy le (f a) (l.map f) = (insertBy (fun a b => le (f a) (f b)) a l).map f := by
    intro a l
    induction l with
    | nil => rfl
    | cons b l ih =>
      rw [List.map_cons, insertBy, insertBy, ih]
      split <;> simp
  induction l with
  | nil => rfl
  | cons a l ih => rw [List.map_cons, sortBy, sortBy, ih, hins]

theorem mul_share {chunk : Nat} (hc : 0 < chunk) (x : ℚ) : (chunk : ℚ) * (x / chunk) = x := by
  have : (chunk : ℚ) ≠ 0 := by exact_mod_cast hc.ne'
  field_simp

theorem parse_eq {chunk : Nat} (hc : 0 < chunk) (m : Dict K ℚ) (hnn : ∀ kv ∈ m, 0 ≤ kv.2) :
    parseUserMixture chunk m = Mixtera.parseUserMixture chunk (shares chunk m) := by
  have hfc : floorCounts chunk m = Mixtera.floorCounts chunk (shares chunk m) := by
    unfold floorCounts Mixtera.floorCounts shares
    rw [List.map_map, List.map_inj_left]
    intro kv _
    simp only [Function.comp, mul_share hc]
  have hsk : sortedKeys chunk m = Mixtera.sortedKeys chunk (shares chunk m) := by
    unfold sortedKeys Mixtera.sortedKeys shares
    rw [sortBy_map, List.map_map]
    have : (Prod.fst ∘ fun kv : K × ℚ => (kv.1, ideal chunk kv.2 / chunk)) = Prod.fst := rfl
    rw [this]
    congr 1
    apply sortBy_congr
    intro a ha b hb
    simp only [Mixtera.fraction, mul_share hc]
    rw [fraction_eq (hnn a ha), fraction_eq (hnn b hb), pyInt_nonneg_eq (ideal_nonneg (hnn a ha)),
      pyInt_nonneg_eq (ideal_nonneg (hnn b hb))]
  have hany : (m.any fun kv => decide (kv.2 < 0)) = ((shares chunk m).any fun kv => decide (kv.2 < 0)) := by
    rw [any_neg_false hnn, any_neg_false]
    intro kv hkv
    obtain ⟨x, hx, rfl⟩ := List.mem_map.mp hkv
    exact div_nonneg (ideal_nonneg (hnn x hx)) (by positivity)
  unfold parseUserMixture Mixtera.parseUserMixture
  rw [hfc, hsk, hany]
  cases addRemainder (Mixtera.sortedKeys chunk (shares chunk m))
    (chunk - (Mixtera.floorCounts chunk (shares chunk m)).values.sum) 0 (Mixtera.floorCounts chunk (shares chunk m)) <;> rfl

/-! ## What follows from a small total error -/

theorem values_sum (rows : Dict K Nat) (hnd : rows.keys.Nodup) :
    rows.values.sum = (rows.keys.map fun k => (rows.get? k).getD 0).sum := by
  congr 1
  simp only [Dict.values, Dict.keys, List.map_map]
  rw [List.map_inj_left]
  intro kv hkv
  simp only [Function.comp]
  rw [Dict.get?_of_mem hnd (k := kv.1) (v := kv.2) hkv]
  rfl

theorem two_le_sum {α : Type} (f : α → ℚ) (hf : ∀ a, 0 ≤ f a) : ∀ (l : List α) (a b : α), a ∈ l → b ∈ l → a ≠ b →
    f a + f b ≤ (l.map f).sum
  | c :: l, a, b, ha, hb, hab => by
    have one : ∀ x ∈ l, f x ≤ (l.map f).sum := fun x hx =>
      List.single_le_sum (by intro y hy; obtain ⟨z, _, rfl⟩ := List.mem_map.mp hy; exact hf z) _ (List.mem_map_of_mem hx)
    simp only [List.map_cons, List.sum_cons]
    rcases List.mem_cons.mp ha with ea | ha
    · rcases List.mem_cons.mp hb with eb | hb
      · exact absurd (ea.trans eb.symm) hab
      · rw [ea]
        linarith [one b hb]
    · rcases List.mem_cons.mp hb with eb | hb
      · rw [eb]
        linarith [one a ha]
      · have := two_le_sum f hf l a b ha hb hab
        linarith [hf c]

/-- The counts `row` are the amounts `x` rounded by the method of largest remainders, and the amounts deviate from the
intended ones `y`, which add up to `n`, by less than one row in total. -/
theorem rounded_close {ι : Type} (l : List ι) (n : Nat) (x y : ι → ℚ) (row : ι → Int) (hnn : ∀ i ∈ l, 0 ≤ x i)
    (hy : (l.map y).sum = n) (herr : (l.map fun i => |x i - y i|).sum < 1) (htot : (l.map row).sum = n)
    (hnear : ∀ i ∈ l, row i = ⌊x i⌋ ∨ row i = ⌊x i⌋ + 1)
    (hlarge : ∀ i ∈ l, ∀ j ∈ l, row i = ⌊x i⌋ + 1 → row j = ⌊x j⌋ → Int.fract (x j) ≤ Int.fract (x i)) :
    (∀ i ∈ l, |(row i : ℚ) - y i| ≤ 1 + |x i - y i|) ∧ (∀ i ∈ l, x i = 0 → row i = 0) ∧
    ((∀ i ∈ l, ∃ k : Int, y i = k) → ∀ i ∈ l, (row i : ℚ) = y i) := by
  have hsum : (l.map fun i => (row i : ℚ)).sum = n := by
    have : ((l.map row).sum : ℚ) = (n : ℚ) := by exact_mod_cast congrArg (Int.cast (R := ℚ)) htot
    rw [← this]
    clear * -
    induction l with
    | nil => simp
    | cons a l ih => simp only [List.map_cons, List.sum_cons, ih]; push_cast; rfl
  have hone : ∀ i ∈ l, |x i - y i| < 1 := fun i hi => by
    refine lt_of_le_of_lt (List.single_le_sum ?_ _ (List.mem_map_of_mem (f := fun i => |x i - y i|) hi)) herr
    intro z hz
    obtain ⟨j, _, rfl⟩ := List.mem_map.mp hz
    exact abs_nonneg _
  refine ⟨?_, ?_, ?_⟩
  · intro i hi
    have h1 := Int.floor_le (x i)
    have h2 := Int.lt_floor_add_one (x i)
    have h3 := abs_sub_abs_le_abs_sub ((row i : ℚ) - y i) (x i - y i)
    have h4 : |((row i : ℚ) - y i) - (x i - y i)| ≤ 1 := by
      rw [abs_le]
      rcases hnear i hi with e | e <;> rw [e] <;> push_cast <;> constructor <;> linarith
    linarith
  · intro i hi h0
    have hfl : ⌊x i⌋ = 0 := by rw [h0]; simp
    rcases hnear i hi with e | e
    · rw [e, hfl]
    · exfalso
      have hge : ∀ j ∈ l, 0 ≤ (row j : ℚ) - x j := by
        intro j hj
        rcases hnear j hj with e' | e'
        · have := hlarge i hi j hj e e'
          rw [h0, Int.fract_zero] at this
          unfold Int.fract at this
          rw [e']
          have := Int.floor_le (x j)
          linarith
        · rw [e']
          have := Int.lt_floor_add_one (x j)
          push_cast
          linarith
      have h1 : (1 : ℚ) ≤ (l.map fun j => (row j : ℚ) - x j).sum := by
        have := List.single_le_sum (l := l.map fun j => (row j : ℚ) - x j)
          (by intro z hz; obtain ⟨j, hj, rfl⟩ := List.mem_map.mp hz; exact hge j hj) _
          (List.mem_map_of_mem (f := fun j => (row j : ℚ) - x j) hi)
        have e2 : row i = 1 := by rw [e, hfl]; rfl
        rw [e2, h0] at this
        push_cast at this
        linarith
      have h2 : (l.map fun j => (row j : ℚ) - x j).sum ≤
          (l.map fun j => (row j : ℚ)).sum - (l.map y).sum + (l.map fun i => |x i - y i|).sum := by
        clear * -
        induction l with
        | nil => simp
        | cons a l ih =>
          simp only [List.map_cons, List.sum_cons]
          have := neg_abs_le (x a - y a)
          linarith
      rw [hsum, hy] at h2
      linarith
  · intro hint
    choose! k hk using hint
    -- every count is at most the intended one
    have hle : ∀ i ∈ l, row i ≤ k i := by
      intro i hi
      by_contra hc
      have hgt : k i < row i := not_le.mp hc
      have hi1 := abs_lt.mp (hone i hi)
      rw [hk i hi] at hi1
      have hfi : ⌊x i⌋ ≤ k i := by
        have : x i < ((k i + 1 : Int) : ℚ) := by push_cast; linarith
        have := Int.floor_lt.mpr this
        omega
      have ei : row i = ⌊x i⌋ + 1 := by
        rcases hnear i hi with e | e
        · omega
        · exact e
      have hfi' : ⌊x i⌋ = k i := by omega
      have hall : ∀ j ∈ l, k j ≤ row j := by
        intro j hj
        by_contra hcj
        have hj1 := abs_lt.mp (hone j hj)
        rw [hk j hj] at hj1
        have hfj : k j - 1 ≤ ⌊x j⌋ := by
          refine Int.le_floor.mpr ?_
          push_cast
          linarith
        have ej : row j = ⌊x j⌋ := by
          rcases hnear j hj with e | e
          · exact e
          · omega
        have hfj' : ⌊x j⌋ = k j - 1 := by omega
        have hfr := hlarge i hi j hj ei ej
        unfold Int.fract at hfr
        rw [hfi', hfj'] at hfr
        push_cast at hfr
        have hij : i ≠ j := by
          rintro rfl
          omega
        have h2 := two_le_sum (fun i => |x i - y i|) (fun _ => abs_nonneg _) l i j hi hj hij
        have h3 := le_abs_self (x i - y i)
        have h4 := neg_abs_le (x j - y j)
        rw [hk i hi] at h3
        rw [hk j hj] at h4
        simp only [hk i hi, hk j hj] at h2
        linarith
      have hlt : (l.map y).sum < (l.map fun i => (row i : ℚ)).sum := by
        refine List.sum_lt_sum _ _ (fun j hj => ?_) ⟨i, hi, ?_⟩
        · rw [hk j hj]; exact_mod_cast hall j hj
        · rw [hk i hi]; exact_mod_cast hgt
      rw [hy, hsum] at hlt
      exact lt_irrefl _ hlt
    intro i hi
    by_contra hne
    have hlt' : row i < k i := by
      refine lt_of_le_of_ne (hle i hi) fun e => hne ?_
      rw [hk i hi, e]
    have hlt : (l.map fun i => (row i : ℚ)).sum < (l.map y).sum := by
      refine List.sum_lt_sum _ _ (fun j hj => ?_) ⟨i, hi, ?_⟩
      · rw [hk j hj]; exact_mod_cast hle j hj
      · rw [hk i hi]; exact_mod_cast hlt'
    rw [hy, hsum] at hlt
    exact lt_irrefl _ hlt

/-! ## The rounding errors of one share -/

theorem η_le : 3 * 2 ^ 53 * η ≤ u := by
  have h : η ≤ (2 : ℚ) ^ (-200 : Int) := zpow_le_zpow_right₀ (by norm_num) (by norm_num)
  have h2 : 3 * 2 ^ 53 * (2 : ℚ) ^ (-200 : Int) ≤ u := by norm_num [u]
  linarith [mul_le_mul_of_nonneg_left h (show (0 : ℚ) ≤ 3 * 2 ^ 53 by norm_num)]

theorem share_err {C w S t δ : ℚ} (hC : 1 ≤ C) (hw : 0 ≤ w) (hS : 0 < S) (hδ0 : 0 ≤ δ) (hδ : δ ≤ 1 / 4) (ht : |t - S| ≤ δ * S) :
    |fl (C * fl (w / t)) - C * (w / S)| ≤ C * (w / S) * (2 * δ + 4 * u) + 3 * C * η := by
  obtain ⟨t1, t2⟩ := abs_le.mp ht
  have hu0 := u_nonneg
  have hu1 := u_le
  have hη := η_pos
  have htS : 3 / 4 * S ≤ t := by nlinarith
  have ht0 : 0 < t := by linarith
  have hr0 : 0 ≤ w / S := div_nonneg hw hS.le
  have hq0 : 0 ≤ w / t := div_nonneg hw ht0.le
  have hwr : w = (w / S) * S := by field_simp
  have hq : w / t ≤ 4 / 3 * (w / S) := by
    rw [div_le_iff₀ ht0]
    calc w = w / S * S := hwr
      _ ≤ 4 / 3 * (w / S) * t := by nlinarith
  have hd : |w / t - w / S| ≤ 4 / 3 * δ * (w / S) := by
    have e : w / t - w / S = w / t * ((S - t) / S) := by field_simp
    rw [e, abs_mul, abs_of_nonneg hq0, abs_div, abs_of_pos hS, abs_sub_comm]
    have h1 : |t - S| / S ≤ δ := by rw [div_le_iff₀ hS]; exact ht
    calc w / t * (|t - S| / S) ≤ 4 / 3 * (w / S) * δ := mul_le_mul hq h1 (by positivity) (by positivity)
      _ = _ := by ring
  have hv := fl_err (w / t)
  rw [abs_of_nonneg hq0] at hv
  have hv0 : 0 ≤ fl (w / t) := fl_nonneg hq0
  have hvle : fl (w / t) ≤ 4 / 3 * (w / S) * (1 + u) + η := by
    have := (abs_le.mp hv).2
    nlinarith
  have hx := fl_err (C * fl (w / t))
  rw [abs_of_nonneg (show 0 ≤ C * fl (w / t) from mul_nonneg (by linarith) hv0)] at hx
  have hd1 : |fl (w / t) - w / S| ≤ u * (4 / 3 * (w / S)) + η + 4 / 3 * δ * (w / S) := by
    have := abs_sub_le (fl (w / t)) (w / t) (w / S)
    have h3 : u * (w / t) ≤ u * (4 / 3 * (w / S)) := mul_le_mul_of_nonneg_left hq hu0
    linarith
  have hd2 : |C * fl (w / t) - C * (w / S)| ≤ C * (u * (4 / 3 * (w / S)) + η + 4 / 3 * δ * (w / S)) := by
    rw [← mul_sub, abs_mul, abs_of_nonneg (by linarith : (0 : ℚ) ≤ C)]
    exact mul_le_mul_of_nonneg_left hd1 (by linarith)
  have hd3 : u * (C * fl (w / t)) ≤ u * (C * (4 / 3 * (w / S) * (1 + u) + η)) :=
    mul_le_mul_of_nonneg_left (mul_le_mul_of_nonneg_left hvle (by linarith)) hu0
  have h0 := abs_sub_le (fl (C * fl (w / t))) (C * fl (w / t)) (C * (w / S))
  have hCr : 0 ≤ C * (w / S) := by positivity
  have e1 : u * (C * (4 / 3 * (w / S) * (1 + u) + η)) = C * (w / S) * (4 / 3 * u) * (1 + u) + C * η * u := by ring
  have e2 : C * (u * (4 / 3 * (w / S)) + η + 4 / 3 * δ * (w / S)) = C * (w / S) * (4 / 3 * u) + C * η + C * (w / S) * (4 / 3 * δ) := by
    ring
  have h4 : C * (w / S) * (4 / 3 * u) * (1 + u) ≤ C * (w / S) * (2 * u) := by
    have : 4 / 3 * u * (1 + u) ≤ 2 * u := by nlinarith
    calc C * (w / S) * (4 / 3 * u) * (1 + u) = C * (w / S) * (4 / 3 * u * (1 + u)) := by ring
      _ ≤ _ := mul_le_mul_of_nonneg_left this hCr
  have h5 : C * η * u ≤ C * η / 2 := by nlinarith [mul_pos (lt_of_lt_of_le one_pos hC) hη]
  have h6 : η ≤ C * η := by nlinarith
  have h7 : C * (w / S) * (4 / 3 * u) ≤ C * (w / S) * (2 * u) := mul_le_mul_of_nonneg_left (by linarith) hCr
  have h8 : C * (w / S) * (4 / 3 * δ) ≤ C * (w / S) * (2 * δ) := mul_le_mul_of_nonneg_left (by linarith) hCr
  have e3 : C * (w / S) * (2 * δ + 4 * u) = C * (w / S) * (2 * δ) + C * (w / S) * (2 * u) + C * (w / S) * (2 * u) := by ring
  rw [e3]
  linarith

theorem sum_div (l : List ℚ) (S : ℚ) : (l.map (· / S)).sum = l.sum / S := by
  induction l with
  | nil => simp
  | cons a l ih => simp only [List.map_cons, List.sum_cons, ih]; ring

/-- All the errors together. -/
theorem total_err {C S t δ : ℚ} (l : List ℚ) (hC : 1 ≤ C) (hw : ∀ w ∈ l, 0 ≤ w) (hS : 0 < S) (hsum : l.sum ≤ S)
    (hlen : l.length ≤ 2 ^ 53) (hδ0 : 0 ≤ δ) (hδ : δ ≤ 1 / 4) (ht : |t - S| ≤ δ * S) :
    (l.map fun w => |fl (C * fl (w / t)) - C * (w / S)|).sum ≤ C * (2 * δ + 2 ^ (-50 : Int)) := by
  have h1 : (l.map fun w => |fl (C * fl (w / t)) - C * (w / S)|).sum ≤
      C * (l.sum / S) * (2 * δ + 4 * u) + l.length * (3 * C * η) := by
    clear hsum hlen
    induction l with
    | nil => simp
    | cons a l ih =>
      simp only [List.map_cons, List.sum_cons, List.length_cons]
      have h2 := share_err hC (hw a (by simp)) hS hδ0 hδ ht
      have h3 := ih fun w hw' => hw w (by simp [hw'])
      push_cast
      have e : C * ((a + l.sum) / S) * (2 * δ + 4 * u) = C * (a / S) * (2 * δ + 4 * u) + C * (l.sum / S) * (2 * δ + 4 * u) := by ring
      rw [e]
      linarith
  have h2 : C * (l.sum / S) * (2 * δ + 4 * u) ≤ C * (2 * δ + 4 * u) := by
    have : l.sum / S ≤ 1 := by rw [div_le_one hS]; exact hsum
    have h3 : C * (l.sum / S) ≤ C * 1 := mul_le_mul_of_nonneg_left this (by linarith)
    rw [mul_one] at h3
    exact mul_le_mul_of_nonneg_right h3 (by have := u_nonneg; linarith)
  have h3 : (l.length : ℚ) * (3 * C * η) ≤ C * u := by
    have h4 : (l.length : ℚ) ≤ 2 ^ 53 := by exact_mod_cast hlen
    have h5 := η_le
    have h6 : (l.length : ℚ) * (3 * C * η) ≤ 2 ^ 53 * (3 * C * η) :=
      mul_le_mul_of_nonneg_right h4 (by have := η_pos; positivity)
    have h7 : 2 ^ 53 * (3 * C * η) = C * (3 * 2 ^ 53 * η) := by ring
    rw [h7] at h6
    exact h6.trans (mul_le_mul_of_nonneg_left h5 (by linarith))
  have h8 : (5 : ℚ) * u ≤ 2 ^ (-50 : Int) := by norm_num [u]
  have h9 : C * (2 * δ + 4 * u) + C * u = C * (2 * δ + 5 * u) := by ring
  have h10 : C * (2 * δ + 5 * u) ≤ C * (2 * δ + 2 ^ (-50 : Int)) := mul_le_mul_of_nonneg_left (by linarith) (by linarith)
  exact h1.trans ((add_le_add h2 h3).trans (h9.le.trans h10))

theorem abs_sum_sub {α : Type} (x y : α → ℚ) (l : List α) :
    |(l.map x).sum - (l.map y).sum| ≤ (l.map fun i => |x i - y i|).sum := by
  induction l with
  | nil => simp
  | cons a l ih =>
    simp only [List.map_cons, List.sum_cons]
    have := abs_add_le (x a - y a) ((l.map x).sum - (l.map y).sum)
    have e : x a + (l.map x).sum - (y a + (l.map y).sum) = x a - y a + ((l.map x).sum - (l.map y).sum) := by ring
    rw [e]
    linarith

theorem abs_le_sum {α : Type} (f : α → ℚ) (l : List α) (a : α) (ha : a ∈ l) : |f a| ≤ (l.map fun i => |f i|).sum := by
  refine List.single_le_sum ?_ _ (List.mem_map_of_mem (f := fun i => |f i|) ha)
  intro z hz
  obtain ⟨j, _, rfl⟩ := List.mem_map.mp hz
  exact abs_nonneg _

/-! ## The rows -/

theorem values_map {f : ℚ → ℚ} (m : Dict K ℚ) : (Dict.values (m.map fun kv => (kv.1, f kv.2))) = m.values.map f := by
  simp [Dict.values, List.map_map, Function.comp_def]

theorem keys_map {f : ℚ → ℚ} (m : Dict K ℚ) : (Dict.keys (m.map fun kv => (kv.1, f kv.2))) = m.keys := by
  simp [Dict.keys, List.map_map, Function.comp_def]

theorem get?_map {f : ℚ → ℚ} (m : Dict K ℚ) (hnd : m.keys.Nodup) {kv : K × ℚ} (h : kv ∈ m) :
    Dict.get? (m.map fun kv => (kv.1, f kv.2)) kv.1 = some (f kv.2) := by
  refine Dict.get?_of_mem (by rw [keys_map]; exact hnd) ?_
  exact List.mem_map_of_mem (f := fun kv : K × ℚ => (kv.1, f kv.2)) h

/-- The rows computed from the weights `g w` if `y w` are the intended amounts and the total error is less than one row. -/
theorem parse_close (chunk : Nat) (m : Dict K ℚ) (g y : ℚ → ℚ) (hc : 0 < chunk) (hchunk : chunk ≤ 2 ^ 53) (hnd : m.keys.Nodup)
    (hg : ∀ kv ∈ m, 0 ≤ g kv.2) (hysum : (m.map fun kv => y kv.2).sum = chunk)
    (herr : (m.map fun kv => |fl (chunk * g kv.2) - y kv.2|).sum < 1) :
    ∃ rows, parseUserMixture chunk (m.map fun kv => (kv.1, g kv.2)) = .ok rows ∧ rows.keys = m.keys ∧ rows.values.sum = chunk ∧
      (∀ k w r, m.get? k = some w → rows.get? k = some r → |(r : ℚ) - y w| ≤ 1 + |fl (chunk * g w) - y w|) ∧
      (∀ k w r, m.get? k = some w → g w = 0 → rows.get? k = some r → r = 0) ∧
      ((∀ k w, m.get? k = some w → ∃ n : Nat, y w = n) → ∀ k w r, m.get? k = some w → rows.get? k = some r → (r : ℚ) = y w) := by
  set x : K × ℚ → ℚ := fun kv => fl (chunk * g kv.2) with hx
  set z : K × ℚ → ℚ := fun kv => y kv.2 with hz
  have hx0 : ∀ kv ∈ m, 0 ≤ x kv := fun kv hkv => fl_nonneg (mul_nonneg (by positivity) (hg kv hkv))
  have hm' : ∀ kv ∈ (m.map fun kv => (kv.1, g kv.2)), 0 ≤ kv.2 := by
    intro kv hkv
    obtain ⟨q, hq, rfl⟩ := List.mem_map.mp hkv
    exact hg q hq
  have hsh : shares chunk (m.map fun kv => (kv.1, g kv.2)) = m.map fun kv => (kv.1, x kv / chunk) := by
    unfold shares
    rw [List.map_map, List.map_inj_left]
    intro kv _
    simp only [Function.comp, ideal, fl_nat hchunk, hx]
  have hshk : (shares chunk (m.map fun kv => (kv.1, g kv.2))).keys = m.keys := by
    rw [hsh]; simp [Dict.keys, List.map_map, Function.comp_def]
  have hxsum : chunk * (shares chunk (m.map fun kv => (kv.1, g kv.2))).values.sum = (m.map x).sum := by
    rw [hsh, ← sum_map_const_mul]
    simp only [Dict.values, List.map_map, Function.comp_def, mul_share hc]
  have hdiff : |(m.map x).sum - chunk| ≤ (m.map fun kv => |x kv - z kv|).sum := by
    rw [← hysum]
    exact abs_sum_sub x z m
  have hd := abs_lt.mp (lt_of_le_of_lt hdiff herr)
  have hne : m ≠ [] := by
    intro h
    rw [h] at hysum
    have h0 : (0 : ℚ) = chunk := hysum
    have : chunk = 0 := by exact_mod_cast h0.symm
    omega
  obtain ⟨rows, hok, hR⟩ := parseUserMixture_spec chunk (shares chunk (m.map fun kv => (kv.1, g kv.2)))
    (by rw [hshk]; exact hnd) (by rw [hsh]; simpa using hne)
    (by
      rw [hsh]
      intro kv hkv
      obtain ⟨q, hq, rfl⟩ := List.mem_map.mp hkv
      exact div_nonneg (hx0 q hq) (by positivity))
    (by rw [hxsum]; linarith) (by rw [hxsum]; linarith)
  rw [← parse_eq hc _ hm'] at hok
  have hkeys : rows.keys = m.keys := hR.keys.trans hshk
  refine ⟨rows, hok, hkeys, hR.total, ?_⟩
  set row : K × ℚ → Int := fun kv => ((rows.get? kv.1).getD 0 : Nat) with hrow
  have hget : ∀ kv ∈ m, ∃ r, rows.get? kv.1 = some r := by
    intro kv hkv
    have : kv.1 ∈ rows.keys := by rw [hkeys]; exact List.mem_map_of_mem hkv
    rcases h : rows.get? kv.1 with _ | r
    · rw [Dict.mem_keys_iff] at this
      obtain ⟨v, hv⟩ := this
      rw [h] at hv
      cases hv
    · exact ⟨r, rfl⟩
  have hshget : ∀ kv ∈ m, (shares chunk (m.map fun kv => (kv.1, g kv.2))).get? kv.1 = some (x kv / chunk) := by
    intro kv hkv
    refine Dict.get?_of_mem (by rw [hshk]; exact hnd) ?_
    rw [hsh]
    exact List.mem_map_of_mem (f := fun kv : K × ℚ => (kv.1, x kv / chunk)) hkv
  have htot : (m.map row).sum = chunk := by
    have h1 := values_sum rows (by rw [hkeys]; exact hnd)
    rw [hR.total, hkeys] at h1
    have h2 : (m.map row).sum = ((m.keys.map fun k => (rows.get? k).getD 0).sum : Nat) := by
      simp only [Dict.keys, List.map_map, hrow]
      clear * -
      induction m with
      | nil => simp
      | cons a l ih => simp only [List.map_cons, List.sum_cons, ih]; push_cast; rfl
    rw [h2, ← h1]
  have hnear : ∀ kv ∈ m, row kv = ⌊x kv⌋ ∨ row kv = ⌊x kv⌋ + 1 := by
    intro kv hkv
    obtain ⟨r, hr⟩ := hget kv hkv
    have := hR.near kv.1 _ r (hshget kv hkv) hr
    rw [mul_share hc] at this
    simpa [hrow, hr] using this
  have hlarge : ∀ i ∈ m, ∀ j ∈ m, row i = ⌊x i⌋ + 1 → row j = ⌊x j⌋ → Int.fract (x j) ≤ Int.fract (x i) := by
    intro i hi j hj e1 e2
    obtain ⟨r, hr⟩ := hget i hi
    obtain ⟨r', hr'⟩ := hget j hj
    have := hR.largest i.1 _ r j.1 _ r' (hshget i hi) hr (hshget j hj) hr'
    rw [mul_share hc, mul_share hc] at this
    exact this (by simpa [hrow, hr] using e1) (by simpa [hrow, hr'] using e2)
  obtain ⟨c1, c2, c3⟩ := rounded_close m chunk x z row hx0 hysum herr htot hnear hlarge
  have hmem : ∀ k w, m.get? k = some w → (k, w) ∈ m := fun k w h => Dict.mem_of_get? h
  refine ⟨?_, ?_, ?_⟩
  · intro k w r hw hr
    have h1 := c1 (k, w) (hmem k w hw)
    simpa only [hrow, hr, Option.getD_some, Int.cast_natCast, hx, hz] using h1
  · intro k w r hw h0 hr
    have := c2 (k, w) (hmem k w hw) (by simp [hx, h0, fl_zero])
    simpa [hrow, hr] using this
  · intro hint k w r hw hr
    have := c3 (fun kv hkv => by
      obtain ⟨n, hn⟩ := hint kv.1 kv.2 (Dict.get?_of_mem hnd hkv)
      exact ⟨n, by rw [hz]; simpa using hn⟩) (k, w) (hmem k w hw)
    simpa [hrow, hr, hz] using this

theorem apportion (chunk : Nat) (m : Dict K ℚ) (t δ : ℚ) (hc : 0 < chunk) (hnd : m.keys.Nodup) (hnn : ∀ kv ∈ m, 0 ≤ kv.2)
    (hS : 0 < m.values.sum) (hlen : m.length ≤ 2 ^ 53) (hδ0 : 0 ≤ δ) (hδ : δ ≤ 1 / 4)
    (ht : |t - m.values.sum| ≤ δ * m.values.sum) (hsmall : chunk * (2 * δ + 2 ^ (-50 : Int)) < 1) :
    ∃ rows, parseUserMixture chunk (m.map fun kv => (kv.1, fl (kv.2 / t))) = .ok rows ∧
      Apportioned chunk m (chunk * (2 * δ + 2 ^ (-50 : Int))) rows := by
  have hC1 : (1 : ℚ) ≤ chunk := by exact_mod_cast hc
  have hchunk : chunk ≤ 2 ^ 53 := by
    have h1 : (chunk : ℚ) * 2 ^ (-50 : Int) < 1 := by nlinarith
    have h2 : (chunk : ℚ) < 2 ^ 50 := by
      have h3 : (2 : ℚ) ^ (-50 : Int) = 1 / 2 ^ 50 := by norm_num
      rw [h3, mul_one_div, div_lt_one (by positivity)] at h1
      exact h1
    have h4 : chunk < 2 ^ 50 := by exact_mod_cast h2
    have : (2 : Nat) ^ 50 ≤ 2 ^ 53 := Nat.pow_le_pow_right (by norm_num) (by norm_num)
    omega
  have ht0 : 0 < t := by
    have := (abs_le.mp ht).1
    nlinarith
  have herr : (m.map fun kv => |fl (chunk * fl (kv.2 / t)) - chunk * (kv.2 / m.values.sum)|).sum ≤
      chunk * (2 * δ + 2 ^ (-50 : Int)) := by
    have := total_err m.values hC1 (by intro w hw; obtain ⟨kv, hkv, rfl⟩ := List.mem_map.mp hw; exact hnn kv hkv) hS le_rfl
      (by simpa [Dict.values] using hlen) hδ0 hδ ht
    generalize m.values.sum = S at this ⊢
    rw [Dict.values, List.map_map] at this
    exact this
  have hysum : (m.map fun kv => (chunk : ℚ) * (kv.2 / m.values.sum)).sum = chunk := by
    have e : (m.map fun kv => (chunk : ℚ) * (kv.2 / m.values.sum)) = (m.values.map (· / m.values.sum)).map ((chunk : ℚ) * ·) := by
      simp only [Dict.values, List.map_map, Function.comp_def]
    rw [e, sum_map_const_mul, sum_div, div_self hS.ne', mul_one]
  obtain ⟨rows, h1, h2, h3, h4, h5, h6⟩ := parse_close chunk m (fun w => fl (w / t)) (fun w => chunk * (w / m.values.sum)) hc hchunk
    hnd (fun kv hkv => fl_nonneg (div_nonneg (hnn kv hkv) ht0.le)) hysum (lt_of_le_of_lt herr hsmall)
  refine ⟨rows, h1, h2, h3, ?_, ?_, h6⟩
  · intro k w r hw hr
    have h7 : |fl (chunk * fl (w / t)) - chunk * (w / m.values.sum)| ≤
        (m.map fun kv => |fl (chunk * fl (kv.2 / t)) - chunk * (kv.2 / m.values.sum)|).sum :=
      abs_le_sum (fun kv : K × ℚ => fl (chunk * fl (kv.2 / t)) - chunk * (kv.2 / m.values.sum)) m (k, w) (Dict.mem_of_get? hw)
    exact (h4 k w r hw hr).trans (add_le_add le_rfl (h7.trans herr))
  · intro k r hw hr
    exact h5 k 0 r hw (by simp [fl_zero]) hr

/-! ## Python's sum -/

theorem rep_of_fl {x : ℚ} (h : fl x = x) : Rep x := h ▸ rep_fl x

theorem foldl_err : ∀ (l : List ℚ) (a : ℚ), Rep a → 0 ≤ a → (∀ x ∈ l, Rep x) → (∀ x ∈ l, 0 ≤ x) →
    |l.foldl (fun a x => fl (a + x)) a - (a + l.sum)| ≤ ((1 + u) ^ l.length - 1) * (a + l.sum)
  | [], a, _, _, _, _ => by simp
  | x :: l, a, ha, ha0, hl, hl0 => by
    obtain ⟨k1, e1⟩ := rep_grid ha
    obtain ⟨k2, e2⟩ := rep_grid (hl x (by simp))
    have hx0 := hl0 x (by simp)
    have hg : a + x = ((k1 + k2 : Int) : ℚ) * 2 ^ (-1074 : Int) := by rw [e1, e2]; push_cast; ring
    have herr := fl_err_grid _ hg
    rw [abs_of_nonneg (show 0 ≤ a + x by linarith)] at herr
    have ih := foldl_err l (fl (a + x)) (rep_fl _) (fl_nonneg (by linarith)) (fun y hy => hl y (by simp [hy]))
      (fun y hy => hl0 y (by simp [hy]))
    rw [List.foldl_cons, List.sum_cons, List.length_cons]
    have hs0 : 0 ≤ l.sum := List.sum_nonneg fun y hy => hl0 y (by simp [hy])
    have hu := u_nonneg
    have hp : (1 : ℚ) ≤ (1 + u) ^ l.length := one_le_pow₀ (by linarith)
    have h1 := (abs_le.mp herr).2
    have h2 : fl (a + x) + l.sum ≤ (1 + u) * (a + (x + l.sum)) := by nlinarith
    have h3 : ((1 + u) ^ l.length - 1) * (fl (a + x) + l.sum) ≤ ((1 + u) ^ l.length - 1) * ((1 + u) * (a + (x + l.sum))) :=
      mul_le_mul_of_nonneg_left h2 (by linarith)
    have h4 := abs_sub_le (l.foldl (fun a x => fl (a + x)) (fl (a + x))) (fl (a + x) + l.sum) (a + (x + l.sum))
    have h5 : |fl (a + x) + l.sum - (a + (x + l.sum))| ≤ u * (a + (x + l.sum)) := by
      have e : fl (a + x) + l.sum - (a + (x + l.sum)) = fl (a + x) - (a + x) := by ring
      rw [e]
      refine herr.trans (mul_le_mul_of_nonneg_left (by linarith) hu)
    have e : ((1 + u) ^ (l.length + 1) - 1) * (a + (x + l.sum)) =
        ((1 + u) ^ l.length - 1) * ((1 + u) * (a + (x + l.sum))) + u * (a + (x + l.sum)) := by ring
    rw [e]
    linarith

theorem pow_le : ∀ n : Nat, n ≤ 2 ^ 52 → (1 + u) ^ n ≤ 1 + 2 * n * u
  | 0, _ => by simp
  | n + 1, h => by
    have ih := pow_le n (by omega)
    have hu := u_nonneg
    have hn : (n : ℚ) ≤ 2 ^ 52 := by exact_mod_cast (by omega : n ≤ 2 ^ 52)
    have h1 : 2 * (n : ℚ) * u ≤ 1 := by
      have : 2 * (2 ^ 52 : ℚ) * u = 1 := by norm_num [u]
      nlinarith
    rw [pow_succ]
    push_cast
    have h2 : (1 + u) ^ n * (1 + u) ≤ (1 + 2 * n * u) * (1 + u) := mul_le_mul_of_nonneg_right ih (by linarith)
    nlinarith

/-- A sum of non-negative floats by a loop of additions is off by at most `n / 2 ^ 52` of its value. -/
theorem loopSum_err (l : List ℚ) (hf : ∀ x ∈ l, fl x = x) (h0 : ∀ x ∈ l, 0 ≤ x) (hlen : l.length ≤ 2 ^ 52) :
    |loopSum l - l.sum| ≤ l.length / 2 ^ 52 * l.sum := by
  have h := foldl_err l 0 (by simpa using rep_int (n := 0) (by norm_num)) le_rfl (fun x hx => rep_of_fl (hf x hx)) h0
  rw [zero_add] at h
  refine h.trans (mul_le_mul_of_nonneg_right ?_ (List.sum_nonneg h0))
  have h2 := pow_le l.length hlen
  have e : 2 * (l.length : ℚ) * u = l.length / 2 ^ 52 := by norm_num [u]; ring
  rw [e] at h2
  linarith

/-! ## C86 -/

theorem not_close_zero : ¬ closeToOne 0 := by decide +kernel

/-- C86. A static mixture computed with binary64 floats: for non-negative weights that pass the check of their sum, whatever
`sum` returns as long as it is off by at most `δ`, and any chunk size up to about `2 ^ 50` (less if `sum` is less exact), the
constructor does not fail and divides the chunk by the weights. -/
theorem c86_static (sum : List ℚ → ℚ) (chunk : Nat) (m : Dict K ℚ) (δ : ℚ) (hc : 0 < chunk) (hnd : m.keys.Nodup)
    (hnn : ∀ kv ∈ m, 0 ≤ kv.2) (hlen : m.length ≤ 2 ^ 53) (hδ0 : 0 ≤ δ) (hδ : δ ≤ 1 / 4)
    (hsum : |sum m.values - m.values.sum| ≤ δ * m.values.sum) (hone : closeToOne (sum m.values))
    (hsmall : chunk * (2 * δ + 2 ^ (-50 : Int)) < 1) :
    ∃ rows, staticMixture sum chunk m = .ok rows ∧ Apportioned chunk m (chunk * (2 * δ + 2 ^ (-50 : Int))) rows := by
  have h0 : 0 ≤ m.values.sum := List.sum_nonneg (by intro w hw; obtain ⟨kv, hkv, rfl⟩ := List.mem_map.mp hw; exact hnn kv hkv)
  have hS : 0 < m.values.sum := by
    rcases h0.lt_or_eq with h | h
    · exact h
    · rw [← h] at hsum
      have : sum m.values = 0 := by simpa using hsum
      rw [this] at hone
      exact absurd hone not_close_zero
  unfold staticMixture
  rw [if_neg (not_not.mpr hone)]
  exact apportion chunk m _ δ hc hnd hnn hS hlen hδ0 hδ hsum hsmall

/-- C86 with `sum` as a loop of additions. -/
theorem c86_static_loop (chunk : Nat) (m : Dict K ℚ) (hc : 0 < chunk) (hnd : m.keys.Nodup) (hnn : ∀ kv ∈ m, 0 ≤ kv.2)
    (hfloat : ∀ kv ∈ m, fl kv.2 = kv.2) (hone : closeToOne (loopSum m.values)) (hsmall : chunk * (m.length + 2) < 2 ^ 50) :
    ∃ rows, staticMixture loopSum chunk m = .ok rows ∧ Apportioned chunk m (chunk * (m.length + 2) / 2 ^ 51) rows := by
  have hl : m.length + 2 < 2 ^ 50 := lt_of_le_of_lt (Nat.le_mul_of_pos_left _ hc) hsmall
  have hlq : (m.length : ℚ) + 2 < 2 ^ 50 := by exact_mod_cast hl
  have hv : m.values.length = m.length := by simp [Dict.values]
  have hvn : ∀ w ∈ m.values, 0 ≤ w := by intro w hw; obtain ⟨kv, hkv, rfl⟩ := List.mem_map.mp hw; exact hnn kv hkv
  have herr := loopSum_err m.values
    (by intro w hw; obtain ⟨kv, hkv, rfl⟩ := List.mem_map.mp hw; exact hfloat kv hkv) hvn
    (by rw [hv]; have : (2 : Nat) ^ 50 ≤ 2 ^ 52 := Nat.pow_le_pow_right (by norm_num) (by norm_num); omega)
  rw [hv] at herr
  have e : (chunk : ℚ) * (2 * (m.length / 2 ^ 52) + 2 ^ (-50 : Int)) = chunk * (m.length + 2) / 2 ^ 51 := by norm_num; ring
  have hq : (chunk : ℚ) * (m.length + 2) < 2 ^ 50 := by exact_mod_cast hsmall
  have := c86_static loopSum chunk m (m.length / 2 ^ 52) hc hnd hnn
    (by have : (2 : Nat) ^ 50 ≤ 2 ^ 53 := Nat.pow_le_pow_right (by norm_num) (by norm_num); omega) (by positivity)
    (by rw [div_le_iff₀ (by positivity)]; linarith) herr hone
    (by rw [e, div_lt_one (by positivity)]; linarith)
  rw [e] at this
  exact this

/-- C86, the check of the sum: weights adding up to 1 within `0.0009` are accepted, weights off by more than `0.0011` are
refused with `ValueError`, even if `sum` is only right up to `10 ^ -6`. -/
theorem c86_sum_check (t S : ℚ) (ht : |t - S| ≤ 1 / 1000000 * S) :
    (|S - 1| ≤ 9 / 10000 → closeToOne t) ∧ (11 / 10000 ≤ |S - 1| → ¬ closeToOne t) := by
  have hS0 : 0 ≤ S := by have := (abs_nonneg _).trans ht; linarith
  obtain ⟨t1, t2⟩ := abs_le.mp ht
  have herr := fl_err (t - 1)
  obtain ⟨e1, e2⟩ := abs_le.mp herr
  have hη := η_le
  have hη0 := η_pos
  have hu : u ≤ 1 / 10 ^ 12 := by norm_num [u]
  have hu0 := u_nonneg
  have hη1 : η ≤ 1 / 10 ^ 12 := by linarith
  have c1 : (999 / 1000000 : ℚ) ≤ |fl (fl (1 / 1000) * 1)| := by decide +kernel
  have c2 : |fl (fl (1 / 1000) * 1)| ≤ (1001 / 1000000 : ℚ) := by decide +kernel
  have c3 : 0 ≤ fl (1 / 1000) ∧ fl (1 / 1000) ≤ (1001 / 1000000 : ℚ) := by decide +kernel
  have hcl : ∀ z : ℚ, |fl z - z| ≤ u * |z| + η := fl_err
  constructor
  · intro h
    left
    obtain ⟨h1, h2⟩ := abs_le.mp h
    refine le_trans ?_ c1
    have ha : |t - 1| ≤ 91 / 100000 := by rw [abs_le]; constructor <;> linarith
    have hb : u * |t - 1| ≤ 1 / 10 ^ 12 := by nlinarith [abs_nonneg (t - 1)]
    have hd := abs_sub_abs_le_abs_sub (fl (t - 1)) (t - 1)
    linarith
  · intro h hclose
    have hd := abs_sub_abs_le_abs_sub (t - 1) (fl (t - 1))
    rw [abs_sub_comm (t - 1)] at hd
    have ht0 : 0 ≤ t := by linarith
    have hp : 0 ≤ fl (1 / 1000) * t := mul_nonneg c3.1 ht0
    have hfp := fl_nonneg hp
    have hpe := hcl (fl (1 / 1000) * t)
    rw [abs_of_nonneg hp] at hpe
    have hpe := (abs_le.mp hpe).2
    have hpt : fl (1 / 1000) * t ≤ 1001 / 1000000 * t := mul_le_mul_of_nonneg_right c3.2 ht0
    have hut : u * (fl (1 / 1000) * t) ≤ 1 / 10 ^ 12 * t := by nlinarith
    unfold closeToOne at hclose
    rw [abs_of_nonneg hfp] at hclose
    have hmul : u * |t - 1| ≤ 1 / 10 ^ 12 * |t - 1| := mul_le_mul_of_nonneg_right hu (abs_nonneg _)
    rcases le_total 0 (S - 1) with hs | hs
    · rw [abs_of_nonneg hs] at h
      have ht1 : 0 ≤ t - 1 := by linarith
      rw [abs_of_nonneg ht1] at herr hd hmul
      rcases hclose with hcl' | hcl' <;> linarith
    · rw [abs_of_nonpos hs] at h
      have ht1 : t - 1 ≤ 0 := by linarith
      rw [abs_of_nonpos ht1] at herr hd hmul
      rcases hclose with hcl' | hcl' <;> linarith

theorem cast_sum (l : List Nat) : (l.map fun n : Nat => (n : ℚ)).sum = (l.sum : ℚ) := by
  induction l with
  | nil => simp
  | cons a l ih => simp [ih]

/-- C86. An inferring mixture computed with binary64 floats: for every index with a sample and every chunk size below `2 ^ 50`
the rows divide the chunk by the numbers of samples. -/
theorem c86_inferring (chunk : Nat) (index : Dict K Entries) (hc : 0 < chunk) (hnd : index.keys.Nodup)
    (hne : contentSamples index ≠ []) (hlen : index.length ≤ 2 ^ 53) (hsmall : chunk < 2 ^ 50) :
    ∃ rows, inferRows chunk index = .ok rows ∧
      Apportioned chunk (index.map fun kv => (kv.1, ((entriesSamples kv.2).length : ℚ))) (chunk / 2 ^ 50) rows := by
  have hpos : 0 < (contentSamples index).length := List.length_pos_of_ne_nil hne
  have hposq : (0 : ℚ) < (contentSamples index).length := by exact_mod_cast hpos
  have hsum : (Dict.values (index.map fun kv => (kv.1, ((entriesSamples kv.2).length : ℚ)))).sum = (contentSamples index).length := by
    have h1 := masses_sum index
    rw [← h1, ← cast_sum]
    congr 1
    simp only [Dict.values, List.map_map, Function.comp_def, entriesSize_eq_samples]
  have e : (chunk : ℚ) * (2 * 0 + 2 ^ (-50 : Int)) = chunk / 2 ^ 50 := by norm_num; ring
  have hq : (chunk : ℚ) < 2 ^ 50 := by exact_mod_cast hsmall
  have := apportion chunk (index.map fun kv => (kv.1, ((entriesSamples kv.2).length : ℚ))) ((contentSamples index).length) 0 hc
    (by simpa [Dict.keys, List.map_map, Function.comp_def] using hnd)
    (by intro kv hkv; obtain ⟨z, _, rfl⟩ := List.mem_map.mp hkv; positivity)
    (by rw [hsum]; exact hposq) (by simpa using hlen) le_rfl (by norm_num) (by rw [hsum]; simp)
    (by rw [e, div_lt_one (by positivity)]; exact hq)
  rw [e] at this
  obtain ⟨rows, h1, h2⟩ := this
  refine ⟨rows, ?_, h2⟩
  rw [← h1]
  unfold inferRows inferMixture
  dsimp only
  rw [masses_sum, if_neg (by omega)]
  dsimp only
  rw [if_neg (by omega)]
  simp only [List.map_map, Function.comp_def, entriesSize_eq_samples]

/-! ### Redistribution -/

theorem fracOrder_eq (exact : List ℚ) (hf : ∀ x ∈ exact, fl x = x) (h0 : ∀ x ∈ exact, 0 ≤ x) :
    fracOrder exact = Mixtera.fracOrder exact := by
  unfold fracOrder Mixtera.fracOrder
  congr 2
  refine List.ext_getElem (by simp) fun i h1 h2 => ?_
  rw [List.getElem_mapIdx, List.getElem_mapIdx]
  have hi : i < exact.length := by simpa using h1
  have hm := List.getElem_mem hi
  obtain ⟨g1, g2⟩ := rep_fract (rep_of_fl (hf _ hm)) (h0 _ hm)
  rw [pyInt_nonneg_eq (h0 _ hm), fl_rep g1, fl_rep g2]

theorem fl_idem (x : ℚ) : fl (fl x) = fl x := fl_rep (rep_fl x)

theorem getD_sum (l : List ℚ) : ((List.range l.length).map fun i => l.getD i 0).sum = l.sum := by
  congr 1
  refine List.ext_getElem (by simp) fun i h1 h2 => ?_
  simp [h2]

theorem map_range_sum {α β : Type} [AddCommMonoid β] [Inhabited α] (l : List α) (f : α → β) :
    ((List.range l.length).map fun i => f l[i]!).sum = (l.map f).sum := by
  congr 1
  refine List.ext_getElem (by simp) fun i h1 h2 => ?_
  have hi : i < l.length := by simpa using h2
  simp [hi]

/-- C86. Redistributing missing samples by the rows of the remaining keys, computed with binary64 floats: it never fails for up
to `2 ^ 50` missing samples, hands out exactly the missing samples, gives nothing to keys without rows and each key its share
up to one sample (and `missing / 2 ^ 50`), exactly if all the shares are whole numbers. -/
theorem c86_redistribute (sum : List ℚ → ℚ) (missing : Nat) (counts : List Nat) (hm : 0 < missing) (hmax : missing < 2 ^ 50)
    (hlen : counts.length ≤ 2 ^ 53) (hpos : 0 < counts.sum)
    (hsum : ∀ l : List ℚ, l.length = counts.length → (∀ r ∈ l, fl r = r ∧ 0 ≤ r) → |sum l - l.sum| ≤ 1 / 10 ^ 10 * l.sum) :
    ∃ out : List Int, redistribute sum missing counts = .ok out ∧ out.length = counts.length ∧ out.sum = missing ∧
      (∀ (i c : Nat) (r : Int), counts[i]? = some c → out[i]? = some r →
        0 ≤ r ∧ |(r : ℚ) - missing * (c / (counts.sum : ℕ))| ≤ 1 + missing / 2 ^ 50 ∧ (c = 0 → r = 0)) ∧
      ((∀ c ∈ counts, ∃ n : Nat, (missing : ℚ) * (c / (counts.sum : ℕ)) = n) →
        ∀ (i c : Nat) (r : Int), counts[i]? = some c → out[i]? = some r → (r : ℚ) = missing * (c / (counts.sum : ℕ))) := by
  set S : ℚ := ((counts.sum : ℕ) : ℚ) with hS
  have hS0 : 0 < S := by rw [hS]; exact_mod_cast hpos
  set ratios : List ℚ := counts.map fun (c : Nat) => fl ((c : ℚ) / S) with hrat
  have hC1 : (1 : ℚ) ≤ missing := by exact_mod_cast hm
  have hq : (missing : ℚ) < 2 ^ 50 := by exact_mod_cast hmax
  have hfln : fl (missing : ℚ) = missing :=
    fl_nat (by have : (2 : Nat) ^ 50 ≤ 2 ^ 53 := Nat.pow_le_pow_right (by norm_num) (by norm_num); omega)
  have hcs : (counts.map fun c : Nat => (c : ℚ)).sum = S := cast_sum counts
  have hne : counts ≠ [] := by rintro rfl; simp at hpos
  -- the ratios add up to one, almost
  have hr1 : |ratios.sum - 1| ≤ 2 ^ (-50 : Int) := by
    have h1 := abs_sum_sub (fun c : Nat => fl ((c : ℚ) / S)) (fun c : Nat => (c : ℚ) / S) counts
    have h2 : (counts.map fun c : Nat => (c : ℚ) / S).sum = 1 := by
      have := sum_div (counts.map fun c : Nat => (c : ℚ)) S
      rw [List.map_map, hcs, div_self hS0.ne'] at this
      exact this
    rw [h2] at h1
    refine h1.trans ?_
    have h3 : ∀ l : List Nat, (l.map fun c : Nat => |fl ((c : ℚ) / S) - c / S|).sum ≤
        u * (l.map fun c : Nat => (c : ℚ) / S).sum + l.length * η := by
      intro l
      induction l with
      | nil => simp
      | cons a l ih =>
        simp only [List.map_cons, List.sum_cons, List.length_cons]
        have := fl_err ((a : ℚ) / S)
        rw [abs_of_nonneg (show 0 ≤ (a : ℚ) / S by positivity)] at this
        push_cast
        linarith
    refine (h3 counts).trans ?_
    rw [h2]
    have h4 : (counts.length : ℚ) ≤ 2 ^ 53 := by exact_mod_cast hlen
    have h5 : (counts.length : ℚ) * η ≤ 2 ^ 53 * η := mul_le_mul_of_nonneg_right h4 η_pos.le
    have h6 := η_le
    have h7 := η_pos
    have h8 : u * 1 + u ≤ 2 ^ (-50 : Int) := by norm_num [u]
    refine le_trans ?_ h8
    linarith
  have hrn : ∀ r ∈ ratios, fl r = r ∧ 0 ≤ r := by
    intro r hr
    obtain ⟨c, _, rfl⟩ := List.mem_map.mp hr
    exact ⟨fl_idem _, fl_nonneg (by positivity)⟩
  have hcheck : ¬ |fl (sum ratios - 1)| > fl (1 / 1000000000) := by
    have h1 := hsum ratios (by simp [hrat]) hrn
    have c1 : (999 / 10 ^ 12 : ℚ) ≤ fl (1 / 1000000000) := by decide +kernel
    have hr2 : (2 : ℚ) ^ (-50 : Int) ≤ 1 / 10 ^ 12 := by norm_num
    have h2 := abs_le.mp (hr1.trans hr2)
    have hx := abs_le.mp h1
    have h3 : |sum ratios - 1| ≤ 2 / 10 ^ 10 := by rw [abs_le]; constructor <;> linarith
    have h4 := fl_err (sum ratios - 1)
    have h5 := abs_sub_abs_le_abs_sub (fl (sum ratios - 1)) (sum ratios - 1)
    have hu : u ≤ 1 / 10 ^ 12 := by norm_num [u]
    have hη := η_le
    have hη0 := η_pos
    have h6 : u * |sum ratios - 1| ≤ 1 / 10 ^ 12 := by nlinarith [abs_nonneg (sum ratios - 1), u_nonneg]
    rw [gt_iff_lt, not_lt]
    linarith
  set x : Nat → ℚ := fun c => fl (missing * fl ((c : ℚ) / S)) with hx
  set exact' : List ℚ := counts.map x with hex
  have hexeq : ratios.map (fun r => fl (r * fl (missing : ℚ))) = exact' := by
    rw [hrat, hex, List.map_map, List.map_inj_left]
    intro c _
    simp only [Function.comp, hfln, hx, mul_comm]
  have hx0 : ∀ c : Nat, 0 ≤ x c := fun c => fl_nonneg (mul_nonneg (by positivity) (fl_nonneg (by positivity)))
  have hex0 : ∀ z ∈ exact', 0 ≤ z := by intro z hz; obtain ⟨c, _, rfl⟩ := List.mem_map.mp hz; exact hx0 c
  have hexf : ∀ z ∈ exact', fl z = z := by intro z hz; obtain ⟨c, _, rfl⟩ := List.mem_map.mp hz; exact fl_idem _
  have herr : (counts.map fun c => |x c - missing * ((c : ℚ) / S)|).sum ≤ missing / 2 ^ 50 := by
    have := total_err (counts.map fun c : Nat => (c : ℚ)) (C := missing) (S := S) (t := S) (δ := 0) hC1
      (by intro w hw; obtain ⟨c, _, rfl⟩ := List.mem_map.mp hw; positivity) hS0 hcs.le (by simpa using hlen) le_rfl (by norm_num)
      (by simp)
    rw [List.map_map] at this
    have e : (missing : ℚ) * (2 * 0 + 2 ^ (-50 : Int)) = missing / 2 ^ 50 := by norm_num; ring
    rw [e] at this
    exact this
  have hlt1 : (missing : ℚ) / 2 ^ 50 < 1 := by rw [div_lt_one (by positivity)]; exact hq
  have hysum : (counts.map fun c : Nat => (missing : ℚ) * ((c : ℚ) / S)).sum = missing := by
    have e : (counts.map fun c : Nat => (missing : ℚ) * ((c : ℚ) / S)) =
        ((counts.map fun c : Nat => (c : ℚ)).map (· / S)).map ((missing : ℚ) * ·) := by
      simp only [List.map_map, Function.comp_def]
    rw [e, sum_map_const_mul, sum_div, hcs, div_self hS0.ne', mul_one]
  have hdiff := abs_sum_sub x (fun c : Nat => (missing : ℚ) * ((c : ℚ) / S)) counts
  rw [hysum] at hdiff
  have hd := abs_lt.mp (lt_of_le_of_lt (hdiff.trans herr) hlt1)
  obtain ⟨g1, g2, g3, g4⟩ := largestRemainder_spec missing exact' (by simpa [hex] using hne) hex0
    (by rw [hex]; linarith) (by rw [hex]; linarith)
  rw [← fracOrder_eq exact' hexf hex0] at g1 g2 g3 g4
  set out := bumpLoop (missing - (exact'.map pyInt).sum) (fracOrder exact') (exact'.map pyInt) with hout
  have hlenx : exact'.length = counts.length := by simp [hex]
  refine ⟨out, ?_, by rw [g1, hlenx], g2, ?_⟩
  · unfold redistribute
    rw [if_neg (by omega)]
    unfold distributeByRatio
    rw [if_neg (by simpa using hne), if_neg hcheck]
    dsimp only
    rw [hexeq, hout]
  set row : Nat → Int := fun i => out[i]! with hrow
  have hlo : out.length = counts.length := by rw [g1, hlenx]
  have hrowget : ∀ i, i < counts.length → out[i]? = some (row i) := by
    intro i hi
    have : i < out.length := by omega
    simp [hrow, this]
  have hexi : ∀ i (hi : i < exact'.length), exact'[i] = x counts[i]! := by
    intro i hi
    have : i < counts.length := by omega
    simp [hex, this]
  have hnear : ∀ i ∈ List.range counts.length, row i = ⌊x counts[i]!⌋ ∨ row i = ⌊x counts[i]!⌋ + 1 := by
    intro i hi
    have hi : i < counts.length := List.mem_range.mp hi
    have := g3 i (by omega)
    rw [hrowget i hi, hexi] at this
    simpa using this
  obtain ⟨c1, c2, c3⟩ := rounded_close (List.range counts.length) missing (fun i => x counts[i]!)
    (fun i => (missing : ℚ) * ((counts[i]! : ℕ) / S)) row (fun i _ => hx0 _)
    (by rw [map_range_sum counts fun c : Nat => (missing : ℚ) * ((c : ℚ) / S)]; exact hysum)
    (by
      rw [map_range_sum counts fun c : Nat => |x c - (missing : ℚ) * ((c : ℚ) / S)|]
      exact lt_of_le_of_lt herr hlt1)
    (by
      have := map_range_sum out id
      rw [hlo, List.map_id, g2] at this
      exact this) hnear
    (by
      intro i hi j hj e1 e2
      have hi : i < counts.length := List.mem_range.mp hi
      have hj : j < counts.length := List.mem_range.mp hj
      have := g4 i j (by omega) (by omega)
      rw [hrowget i hi, hrowget j hj, hexi, hexi] at this
      exact this (by rw [e1]) (by rw [e2]))
  have hidx : ∀ i c r, counts[i]? = some c → out[i]? = some r → i < counts.length ∧ counts[i]! = c ∧ row i = r := by
    intro i c r h1 h2
    obtain ⟨hi, _⟩ := List.getElem?_eq_some_iff.mp h1
    refine ⟨hi, by simp [h1], by simp [hrow, h2]⟩
  refine ⟨?_, ?_⟩
  · intro i c r h1 h2
    obtain ⟨hi, hc, hr⟩ := hidx i c r h1 h2
    have hir := List.mem_range.mpr hi
    refine ⟨?_, ?_, ?_⟩
    · have hf := Int.floor_nonneg.mpr (hx0 counts[i]!)
      rcases hnear i hir with e | e <;> omega
    · have h3 := c1 i hir
      have h4 : |x c - missing * ((c : ℚ) / S)| ≤ (counts.map fun c => |x c - missing * ((c : ℚ) / S)|).sum := by
        refine List.single_le_sum ?_ _ (List.mem_map_of_mem (f := fun c : Nat => |x c - missing * ((c : ℚ) / S)|)
          (List.mem_of_getElem? h1))
        intro z hz
        obtain ⟨j, _, rfl⟩ := List.mem_map.mp hz
        exact abs_nonneg _
      rw [hc, hr] at h3
      exact h3.trans (add_le_add le_rfl (h4.trans herr))
    · intro h0
      have := c2 i hir (by rw [hc, h0, hx]; simp [fl_zero])
      omega
  · intro hint i c r h1 h2
    obtain ⟨hi, hc, hr⟩ := hidx i c r h1 h2
    have := c3 (fun j hj => by
      have hj : j < counts.length := List.mem_range.mp hj
      obtain ⟨n, hn⟩ := hint counts[j]! (by simp [hj])
      exact ⟨n, by rw [hn]; simp⟩) i (List.mem_range.mpr hi)
    rw [hc, hr] at this
    exact this

/-- C86, redistribution with `sum` as a loop of additions: it never fails for up to `2 ^ 18` keys. -/
theorem c86_redistribute_loop (missing : Nat) (counts : List Nat) (hm : 0 < missing) (hmax : missing < 2 ^ 50)
    (hlen : counts.length ≤ 2 ^ 18) (hpos : 0 < counts.sum) :
    ∃ out : List Int, redistribute loopSum missing counts = .ok out ∧ out.length = counts.length ∧ out.sum = missing := by
  obtain ⟨out, h1, h2, h3, _⟩ := c86_redistribute loopSum missing counts hm hmax
    (hlen.trans (Nat.pow_le_pow_right (by norm_num) (by norm_num))) hpos (by
      intro l hl hr
      have h := loopSum_err l (fun x hx => (hr x hx).1) (fun x hx => (hr x hx).2)
        (by rw [hl]; exact hlen.trans (Nat.pow_le_pow_right (by norm_num) (by norm_num)))
      refine h.trans (mul_le_mul_of_nonneg_right ?_ (List.sum_nonneg fun x hx => (hr x hx).2))
      have hq : (l.length : ℚ) ≤ 2 ^ 18 := by rw [hl]; exact_mod_cast hlen
      rw [div_le_iff₀ (by positivity)]
      refine hq.trans ?_
      norm_num)
  exact ⟨out, h1, h2, h3⟩

/-! ### HierarchicalStaticMixture -/

/-- `leaves` with rounded products. -/
def flLeaves (name : PyStr) : MComps → List (RawKey × ℚ)
  | .nil => []
  | .leaf values weight rest => ([(name, values)], weight) :: flLeaves name rest
  | .sub values weight sname comps rest =>
    (flLeaves sname comps).map (fun leaf => ((name, values) :: leaf.1, fl (leaf.2 * weight))) ++ flLeaves name rest

theorem flLeaves_paths (comps : MComps) : ∀ name, (flLeaves name comps).map Prod.fst = (leaves name comps).map Prod.fst := by
  induction comps with
  | nil => intro; rfl
  | leaf values weight rest ih => intro name; simp [leaves, flLeaves, ih name]
  | sub values weight sname comps rest ihc ihr =>
    intro name
    have h := ihc sname
    simp only [leaves, flLeaves, List.map_append, List.map_map, Function.comp_def, ihr name]
    congr 1
    have := congrArg (List.map fun p : RawKey => (name, values) :: p) h
    simpa [List.map_map, Function.comp_def] using this

theorem convert_fl_eq (comps : MComps) : ∀ (name : PyStr) (acc : Dict RawKey ℚ),
    (acc.keys ++ (leafEntries (flLeaves name comps)).keys).Nodup →
    convert name comps acc = acc ++ leafEntries (flLeaves name comps) := by
  induction comps with
  | nil => intro name acc _; simp [convert, flLeaves, leafEntries]
  | leaf values weight rest ih =>
    intro name acc hnd
    have hk : pathKey [(name, values)] = normKey [(name, values)] := rfl
    simp only [flLeaves, leafEntries, List.map_cons, Dict.keys] at hnd
    rw [convert, Dict.set_of_not_mem, ih]
    · simp [flLeaves, leafEntries, hk]
    · simpa [Dict.keys, leafEntries, List.append_assoc, hk] using hnd
    · intro hc
      exact (List.nodup_append.mp hnd).2.2 _ hc _ (by simp) hk.symm
  | sub values weight sname comps rest ihc ihr =>
    intro name acc hnd
    have hsub : ((leafEntries (flLeaves sname comps)).keys).Nodup := by
      have h1 : ((flLeaves sname comps).map fun pq => pathKey ((name, values) :: pq.1)).Nodup := by
        have := (List.nodup_append.mp hnd).2.1
        simp only [flLeaves, leafEntries, List.map_append, List.map_map, Dict.keys, Function.comp_def] at this
        exact (List.nodup_append.mp this).1
      have h2 : (leafEntries (flLeaves sname comps)).keys = (flLeaves sname comps).map fun pq => pathKey pq.1 := by
        simp [leafEntries, Dict.keys, List.map_map, Function.comp_def]
      rw [h2]
      have h3 : ((flLeaves sname comps).map fun pq => pathKey ((name, values) :: pq.1)) =
          (((flLeaves sname comps).map fun pq => pathKey pq.1).map fun k => normKey (Dict.set k name values)) := by
        simp [List.map_map, Function.comp_def, pathKey]
      rw [h3] at h1
      exact h1.of_map
    have e1 := ihc sname [] (by simpa [Dict.keys] using hsub)
    rw [convert, e1, List.nil_append]
    have e2 : addProperty name values weight (leafEntries (flLeaves sname comps)) acc =
        acc ++ leafEntries ((flLeaves sname comps).map fun leaf => ((name, values) :: leaf.1, fl (leaf.2 * weight))) := by
      unfold addProperty
      rw [foldl_set_append (fun kv : RawKey × ℚ => normKey (Dict.set kv.1 name values)) (fun kv => fl (kv.2 * weight))]
      · simp [leafEntries, List.map_map, Function.comp_def, pathKey]
      · have : (leafEntries (flLeaves sname comps)).map (fun kv => normKey (Dict.set kv.1 name values)) =
            (leafEntries ((flLeaves sname comps).map fun leaf => ((name, values) :: leaf.1, fl (leaf.2 * weight)))).keys := by
          simp [leafEntries, Dict.keys, List.map_map, Function.comp_def, pathKey]
        rw [this]
        have h := hnd
        simp only [flLeaves, leafEntries, List.map_append, Dict.keys] at h
        rw [← List.append_assoc] at h
        exact (List.nodup_append.mp h).1
    rw [e2, ihr]
    · simp [flLeaves, leafEntries]
    · have h := hnd
      simp only [flLeaves, leafEntries, List.map_append, Dict.keys] at h ⊢
      rw [List.append_assoc]
      exact h

/-- One more rounded product, with a factor `W`. -/
theorem step_err {v w W a b : ℚ} (ha : 0 ≤ a) (hW : 0 ≤ W) (hv : 0 ≤ v) (h : |v - w| ≤ a * w + b) :
    |fl (v * W) - w * W| ≤ ((1 + u) * (1 + a) - 1) * (w * W) + (b * (1 + u) * W + η) := by
  have h1 := fl_err (v * W)
  rw [abs_of_nonneg (mul_nonneg hv hW)] at h1
  have h2 : |v * W - w * W| ≤ (a * w + b) * W := by
    rw [← sub_mul, abs_mul, abs_of_nonneg hW]
    exact mul_le_mul_of_nonneg_right h hW
  have h3 := abs_sub_le (fl (v * W)) (v * W) (w * W)
  have h4 : v * W ≤ (w + (a * w + b)) * W := mul_le_mul_of_nonneg_right (by have := (abs_le.mp h).2; linarith) hW
  have h5 : u * (v * W) ≤ u * ((w + (a * w + b)) * W) := mul_le_mul_of_nonneg_left h4 u_nonneg
  have e : ((1 + u) * (1 + a) - 1) * (w * W) + (b * (1 + u) * W + η) =
      u * ((w + (a * w + b)) * W) + η + (a * w + b) * W := by ring
  rw [e]
  linarith

/-- The bound on the absolute error after `k` products. -/
def absErr : Nat → ℚ
  | 0 => 0
  | k + 1 => absErr k * (1 + u) + η

theorem absErr_nonneg : ∀ k, 0 ≤ absErr k
  | 0 => le_rfl
  | k + 1 => by
    have := absErr_nonneg k
    have := η_pos
    have := u_nonneg
    unfold absErr
    positivity

theorem absErr_le : ∀ k : Nat, k ≤ 2 ^ 52 → absErr k ≤ 2 * k * η
  | 0, _ => by simp [absErr]
  | k + 1, h => by
    have ih := absErr_le k (by omega)
    have hη := η_pos
    have hu := u_nonneg
    have hk : (k : ℚ) ≤ 2 ^ 52 := by exact_mod_cast (by omega : k ≤ 2 ^ 52)
    have h1 : 2 * (k : ℚ) * u ≤ 1 := by
      have : 2 * (2 ^ 52 : ℚ) * u = 1 := by norm_num [u]
      nlinarith
    unfold absErr
    push_cast
    have h2 : absErr k * (1 + u) ≤ 2 * k * η * (1 + u) := mul_le_mul_of_nonneg_right ih (by linarith)
    have h3 : 2 * k * η * (1 + u) = 2 * k * η + (2 * k * u) * η := by ring
    have h4 : (2 * k * u) * η ≤ 1 * η := mul_le_mul_of_nonneg_right h1 hη.le
    linarith

theorem absErr_mono {k l : Nat} (h : k ≤ l) : absErr k ≤ absErr l := by
  induction h with
  | refl => exact le_rfl
  | @step m _ ih =>
    refine ih.trans ?_
    show absErr m ≤ absErr m * (1 + u) + η
    have := mul_nonneg (absErr_nonneg m) u_nonneg
    have := η_pos
    linarith

/-- How far a computed leaf weight is off. -/
def NearLeaf (k : Nat) (a b : RawKey × ℚ) : Prop :=
  0 ≤ a.2 ∧ 0 ≤ b.2 ∧ |a.2 - b.2| ≤ ((1 + u) ^ k - 1) * b.2 + absErr k

theorem nearLeaf_mono {k l : Nat} (h : k ≤ l) {a b : RawKey × ℚ} (hn : NearLeaf k a b) : NearLeaf l a b := by
  obtain ⟨h1, h2, h3⟩ := hn
  refine ⟨h1, h2, h3.trans (add_le_add (mul_le_mul_of_nonneg_right ?_ h2) (absErr_mono h))⟩
  have := pow_le_pow_right₀ (show (1 : ℚ) ≤ 1 + u by linarith [u_nonneg]) h
  linarith

theorem leaves_near (comps : MComps) (hw : WeightsUnit comps) : ∀ name,
    List.Forall₂ (NearLeaf (levels comps)) (flLeaves name comps) (leaves name comps) := by
  induction comps with
  | nil => intro; exact .nil
  | leaf values weight rest ih =>
    intro name
    refine .cons (nearLeaf_mono (Nat.zero_le _) ⟨hw.1, hw.1, by simp [absErr]⟩) ?_
    exact (ih hw.2.2 name).imp fun _ _ h => nearLeaf_mono (le_max_right _ _) h
  | sub values weight sname comps rest ihc ihr =>
    intro name
    obtain ⟨w0, w1, hc, hr⟩ := hw
    refine List.rel_append ?_ ((ihr hr name).imp fun _ _ h => nearLeaf_mono (le_max_right _ _) h)
    rw [List.forall₂_map_left_iff, List.forall₂_map_right_iff]
    refine (ihc hc sname).imp fun a b h => nearLeaf_mono (le_max_left _ _) ?_
    obtain ⟨h1, h2, h3⟩ := h
    refine ⟨fl_nonneg (mul_nonneg h1 w0), mul_nonneg w0 h2, ?_⟩
    have hp : (1 : ℚ) ≤ (1 + u) ^ levels comps := one_le_pow₀ (by linarith [u_nonneg])
    have := step_err (by linarith) w0 h1 h3
    have e : (1 + u) * (1 + ((1 + u) ^ levels comps - 1)) - 1 = (1 + u) ^ (levels comps + 1) - 1 := by ring
    rw [e] at this
    rw [mul_comm weight]
    refine this.trans (add_le_add le_rfl ?_)
    show _ ≤ absErr (levels comps) * (1 + u) + η
    have h4 : absErr (levels comps) * (1 + u) * weight ≤ absErr (levels comps) * (1 + u) * 1 :=
      mul_le_mul_of_nonneg_left w1 (mul_nonneg (absErr_nonneg _) (by linarith [u_nonneg]))
    linarith

/-- The rows of a leaf before the remainder is added. -/
def leafRow (chunk : Nat) (v : ℚ) : Nat := (pyInt (ideal chunk v)).toNat

theorem leaf_err {chunk D : Nat} (hc : 0 < chunk) (hchunk : chunk ≤ 2 ^ 53) (hD : D + 1 ≤ 2 ^ 52) {a b : RawKey × ℚ}
    (h : NearLeaf D a b) : |ideal chunk a.2 - chunk * b.2| ≤ chunk * ((D + 1) / 2 ^ 52 * b.2 + 2 * (D + 1) * η) := by
  obtain ⟨h1, h2, h3⟩ := h
  have hC1 : (1 : ℚ) ≤ chunk := by exact_mod_cast hc
  have hp : (1 : ℚ) ≤ (1 + u) ^ D := one_le_pow₀ (by linarith [u_nonneg])
  have := step_err (W := chunk) (by linarith) (by positivity) h1 h3
  have e : (1 + u) * (1 + ((1 + u) ^ D - 1)) - 1 = (1 + u) ^ (D + 1) - 1 := by ring
  rw [e] at this
  unfold ideal
  rw [fl_nat hchunk, mul_comm (chunk : ℚ) a.2, mul_comm (chunk : ℚ) b.2]
  refine this.trans ?_
  have h4 := pow_le (D + 1) hD
  have h5 := absErr_le (D + 1) hD
  have h6 : absErr (D + 1) = absErr D * (1 + u) + η := rfl
  push_cast at h4 h5
  have e2 : 2 * ((D : ℚ) + 1) * u = (D + 1) / 2 ^ 52 := by norm_num [u]; ring
  rw [e2] at h4
  have h7 : ((1 + u) ^ (D + 1) - 1) * (b.2 * chunk) ≤ (D + 1) / 2 ^ 52 * (b.2 * chunk) :=
    mul_le_mul_of_nonneg_right (by linarith) (by positivity)
  have h8 : absErr D * (1 + u) * chunk + η ≤ absErr (D + 1) * chunk := by
    rw [h6]
    have : η ≤ η * chunk := le_mul_of_one_le_right η_pos.le hC1
    linarith
  have h9 : absErr (D + 1) * chunk ≤ 2 * (D + 1) * η * chunk := mul_le_mul_of_nonneg_right h5 (by positivity)
  have e3 : (chunk : ℚ) * ((D + 1) / 2 ^ 52 * b.2 + 2 * (D + 1) * η) =
      (D + 1) / 2 ^ 52 * (b.2 * chunk) + 2 * (D + 1) * η * chunk := by ring
  rw [e3]
  linarith

theorem forall₂_sum {α β : Type} {R : α → β → Prop} (x : α → ℚ) (y : β → ℚ) {l : List α} {l' : List β} (h : List.Forall₂ R l l')
    (hR : ∀ a b, R a b → x a ≤ y b) : (l.map x).sum ≤ (l'.map y).sum := by
  induction h with
  | nil => simp
  | cons h _ ih => simp only [List.map_cons, List.sum_cons]; linarith [hR _ _ h]

/-- C86. A hierarchical mixture computed with binary64 floats: for a tree whose leaves have pairwise different properties, with
weights between 0 and 1 whose products add up to 1 up to `δ`, the rows sum to exactly the chunk size; they belong to the
leaves, in order; every leaf gets at least `chunk * weight - 1` rows and every leaf but the first at most `chunk * weight`, up
to `chunk * (levels + 1) / 2 ^ 51`. Missing: whole-number amounts need not come out exactly, see
`c86_hierarchical_off_by_one`. -/
theorem c86_hierarchical_partial (chunk : Nat) (node : MNode) (δ : ℚ) (hc : 0 < chunk)
    (hd : (leaves node.name node.comps).Pairwise fun a b => ¬ SameContents a.1 b.1) (hw : WeightsUnit node.comps)
    (hlev : levels node.comps + 1 ≤ 2 ^ 52) (hlen : (leaves node.name node.comps).length ≤ 2 ^ 53) (hδ : δ ≤ 1 / 4)
    (hsum : |((leaves node.name node.comps).map Prod.snd).sum - 1| ≤ δ)
    (hsmall : chunk * (δ + (levels node.comps + 1) / 2 ^ 51) < 1) :
    ∃ rows, hierarchicalMixture chunk node = .ok rows ∧ rows.values.sum = chunk ∧
      List.Forall₂ (fun row leaf => SameContents row.1 leaf.1 ∧
        (chunk : ℚ) * leaf.2 - 1 - chunk * (levels node.comps + 1) / 2 ^ 51 ≤ row.2) rows (leaves node.name node.comps) ∧
      List.Forall₂ (fun row leaf => (row.2 : ℚ) ≤ chunk * leaf.2 + chunk * (levels node.comps + 1) / 2 ^ 51)
        rows.tail (leaves node.name node.comps).tail := by
  have hnear := leaves_near node.comps hw node.name
  have hpaths := flLeaves_paths node.comps node.name
  have hC1 : (1 : ℚ) ≤ chunk := by exact_mod_cast hc
  have hδ0 : 0 ≤ δ := (abs_nonneg _).trans hsum
  generalize hDdef : levels node.comps = D at *
  have hchunk : chunk ≤ 2 ^ 53 := by
    have h1 : (chunk : ℚ) * (1 / 2 ^ 51) < 1 := by
      refine lt_of_le_of_lt (mul_le_mul_of_nonneg_left ?_ (by positivity)) hsmall
      have : (1 : ℚ) / 2 ^ 51 ≤ (D + 1) / 2 ^ 51 := div_le_div_of_nonneg_right (by linarith [Nat.cast_nonneg (α := ℚ) D]) (by positivity)
      linarith
    rw [mul_one_div, div_lt_one (by positivity)] at h1
    have h4 : chunk < 2 ^ 51 := by exact_mod_cast h1
    have : (2 : Nat) ^ 51 ≤ 2 ^ 53 := Nat.pow_le_pow_right (by norm_num) (by norm_num)
    omega
  have hm : convert node.name node.comps [] = leafEntries (flLeaves node.name node.comps) := by
    rw [convert_fl_eq, List.nil_append]
    have h1 := leafEntries_nodup hd
    have h2 : ∀ l : List (RawKey × ℚ), (leafEntries l).keys = (l.map Prod.fst).map pathKey := by
      intro l; simp [leafEntries, Dict.keys, List.map_map, Function.comp_def]
    rw [h2] at h1 ⊢
    rw [hpaths]
    simpa [Dict.keys] using h1
  have hLn : ∀ b ∈ leaves node.name node.comps, 0 ≤ b.2 := by
    intro b hb
    obtain ⟨i, hi, rfl⟩ := List.getElem_of_mem hb
    exact (hnear.get (by rw [hnear.length_eq]; exact hi) hi).2.1
  generalize leaves node.name node.comps = L at *
  generalize flLeaves node.name node.comps = F at *
  obtain ⟨s1, s2⟩ := abs_le.mp hsum
  set ws := (L.map Prod.snd).sum with hws
  have hwle : ∀ b ∈ L, b.2 ≤ ws := fun b hb =>
    List.single_le_sum (by intro y hy; obtain ⟨z, hz, rfl⟩ := List.mem_map.mp hy; exact hLn z hz) _ (List.mem_map_of_mem hb)
  have hη := η_le
  have hη0 := η_pos
  have hDp : (0 : ℚ) < (D : ℚ) + 1 := by positivity
  have hu52 : u = 1 / 2 * (1 / 2 ^ 52) := by norm_num [u]
  -- one leaf
  have hone : ∀ a b, NearLeaf D a b → b ∈ L → |ideal chunk a.2 - chunk * b.2| ≤ chunk * (D + 1) / 2 ^ 51 := by
    intro a b h hb
    refine (leaf_err hc hchunk hlev h).trans ?_
    have h1 : 2 * η ≤ u := by linarith
    have h2 := hwle b hb
    have e : (chunk : ℚ) * ((D + 1) / 2 ^ 52 * b.2 + 2 * (D + 1) * η) = chunk * (D + 1) * (b.2 * (1 / 2 ^ 52) + 2 * η) := by ring
    have e2 : (chunk : ℚ) * (D + 1) / 2 ^ 51 = chunk * (D + 1) * (2 * (1 / 2 ^ 52)) := by ring
    rw [e, e2]
    refine mul_le_mul_of_nonneg_left ?_ (by positivity)
    rw [hu52] at h1
    have h3 : b.2 * (1 / 2 ^ 52 : ℚ) ≤ 5 / 4 * (1 / 2 ^ 52) := mul_le_mul_of_nonneg_right (by linarith) (by positivity)
    linarith [show (0 : ℚ) ≤ 1 / 2 ^ 52 by positivity]
  -- all of them
  have hall : (F.map fun a => ideal chunk a.2).sum ≤ chunk * ws + chunk * (D + 1) / 2 ^ 51 := by
    have h1 := forall₂_sum (fun a => ideal chunk a.2)
      (fun b : RawKey × ℚ => chunk * b.2 + chunk * ((D + 1) / 2 ^ 52 * b.2 + 2 * (D + 1) * η)) hnear
      (fun a b h => by have := (abs_le.mp (leaf_err hc hchunk hlev h)).2; linarith)
    have h2 : ∀ l : List (RawKey × ℚ),
        (l.map fun b : RawKey × ℚ => (chunk : ℚ) * b.2 + chunk * ((D + 1) / 2 ^ 52 * b.2 + 2 * (D + 1) * η)).sum =
        chunk * (l.map Prod.snd).sum + chunk * (D + 1) * ((l.map Prod.snd).sum * (1 / 2 ^ 52) + l.length * (2 * η)) := by
      intro l
      induction l with
      | nil => simp
      | cons a l ih => simp only [List.map_cons, List.sum_cons, List.length_cons, ih]; push_cast; ring
    rw [h2] at h1
    refine h1.trans (add_le_add le_rfl ?_)
    have e2 : (chunk : ℚ) * (D + 1) / 2 ^ 51 = chunk * (D + 1) * (2 * (1 / 2 ^ 52)) := by ring
    rw [e2]
    refine mul_le_mul_of_nonneg_left ?_ (by positivity)
    have h3 : ws * (1 / 2 ^ 52 : ℚ) ≤ 5 / 4 * (1 / 2 ^ 52) := mul_le_mul_of_nonneg_right (by linarith) (by positivity)
    have h4 : (L.length : ℚ) ≤ 2 ^ 53 := by exact_mod_cast hlen
    have h5 : (L.length : ℚ) * (2 * η) ≤ 2 ^ 53 * (2 * η) := mul_le_mul_of_nonneg_right h4 (by linarith)
    rw [hu52] at hη
    rw [← hws]
    linarith [show (0 : ℚ) ≤ 1 / 2 ^ 52 by positivity]
  have hFn : ∀ a ∈ F, 0 ≤ a.2 := by
    intro a ha
    obtain ⟨i, hi, rfl⟩ := List.getElem_of_mem ha
    exact (hnear.get hi (by rw [← hnear.length_eq]; exact hi)).1
  have hrow : ∀ v : ℚ, 0 ≤ v → ((leafRow chunk v : ℕ) : ℚ) ≤ ideal chunk v ∧ ideal chunk v - 1 ≤ leafRow chunk v := by
    intro v hv
    have h0 := ideal_nonneg (chunk := chunk) hv
    have e : ((leafRow chunk v : ℕ) : ℚ) = (⌊ideal chunk v⌋ : Int) := by
      unfold leafRow
      rw [pyInt_nonneg_eq h0]
      have : ((⌊ideal chunk v⌋.toNat : Int) : ℚ) = ((⌊ideal chunk v⌋ : Int) : ℚ) := by
        rw [Int.toNat_of_nonneg (Int.floor_nonneg.mpr h0)]
      rw [← this]
      exact (Int.cast_natCast _).symm
    rw [e]
    have h1 := Int.floor_le (ideal chunk v)
    have h2 := Int.lt_floor_add_one (ideal chunk v)
    constructor <;> linarith
  have hfc : floorCounts chunk (leafEntries F) = F.map fun a => (pathKey a.1, leafRow chunk a.2) := by
    unfold floorCounts leafEntries
    rw [List.map_map]
    rfl
  have hvals : (floorCounts chunk (leafEntries F)).values.sum = (F.map fun a => leafRow chunk a.2).sum := by
    rw [hfc]; simp [Dict.values, List.map_map, Function.comp_def]
  have htot : (F.map fun a => leafRow chunk a.2).sum ≤ chunk := by
    have h1 : (((F.map fun a => leafRow chunk a.2).sum : ℕ) : ℚ) ≤ (F.map fun a => ideal chunk a.2).sum := by
      rw [← cast_sum, List.map_map]
      refine List.sum_le_sum fun a ha => ?_
      exact (hrow a.2 (hFn a ha)).1
    have h2 : (chunk : ℚ) * ws ≤ chunk * (1 + δ) := mul_le_mul_of_nonneg_left (by linarith) (by positivity)
    have h3 : (chunk : ℚ) * (δ + (D + 1) / 2 ^ 51) = chunk * δ + chunk * (D + 1) / 2 ^ 51 := by ring
    rw [h3] at hsmall
    have h4 : (((F.map fun a => leafRow chunk a.2).sum : ℕ) : ℚ) < ((chunk + 1 : ℕ) : ℚ) := by push_cast; linarith
    have := Nat.cast_lt.mp h4
    omega
  have hpath : ∀ a b, (a, b) ∈ F.zip L → SameContents (pathKey a.1) b.1 := by
    intro a b h
    obtain ⟨i, hi, e⟩ := List.getElem_of_mem h
    rw [List.getElem_zip] at e
    obtain ⟨rfl, rfl⟩ := Prod.mk.inj e
    simp only [List.length_zip, lt_min_iff] at hi
    have h2 : (F.map Prod.fst)[i]'(by simpa using hi.1) = (L.map Prod.fst)[i]'(by simpa using hi.2) := by simp only [hpaths]
    simp only [List.getElem_map] at h2
    rw [← h2]
    exact pathKey_contents _
  have hrel : List.Forall₂ (fun a b => NearLeaf D a b ∧ SameContents (pathKey a.1) b.1 ∧ b ∈ L) F L := by
    rw [List.forall₂_iff_zip] at hnear ⊢
    refine ⟨hnear.1, fun {a b} h => ⟨hnear.2 h, hpath a b h, (List.of_mem_zip h).2⟩⟩
  have hlow : ∀ a b, (NearLeaf D a b ∧ SameContents (pathKey a.1) b.1 ∧ b ∈ L) →
      (chunk : ℚ) * b.2 - 1 - chunk * (D + 1) / 2 ^ 51 ≤ (leafRow chunk a.2 : ℕ) := by
    intro a b ⟨h1, _, h2⟩
    have := (abs_le.mp (hone a b h1 h2)).1
    have := (hrow a.2 h1.1).2
    linarith
  have hhigh : ∀ a b, (NearLeaf D a b ∧ SameContents (pathKey a.1) b.1 ∧ b ∈ L) →
      ((leafRow chunk a.2 : ℕ) : ℚ) ≤ chunk * b.2 + chunk * (D + 1) / 2 ^ 51 := by
    intro a b ⟨h1, _, h2⟩
    have := (abs_le.mp (hone a b h1 h2)).2
    have := (hrow a.2 h1.1).1
    linarith
  unfold hierarchicalMixture
  dsimp only
  rw [hm, any_neg_false (by intro kv hkv; obtain ⟨a, ha, rfl⟩ := List.mem_map.mp hkv; exact hFn a ha), if_neg (by simp)]
  rw [hvals, hfc]
  cases hrel with
  | nil =>
    exfalso
    simp [hws] at s1
    linarith
  | @cons a b F' L' h0 hr =>
    simp only [List.map_cons, List.sum_cons] at htot ⊢
    have hv : ∀ l : List (RawKey × ℚ), (Dict.values (l.map fun a => (pathKey a.1, leafRow chunk a.2))).sum =
        (l.map fun a => leafRow chunk a.2).sum := by
      intro l; simp [Dict.values, List.map_map, Function.comp_def]
    have hcons : ∀ (k : RawKey) (r : Nat) (d : Dict RawKey Nat), (Dict.values ((k, r) :: d)).sum = r + d.values.sum := by
      intro k r d; simp [Dict.values]
    have t1 : List.Forall₂ (fun (row : RawKey × Nat) (leaf : RawKey × ℚ) => SameContents row.1 leaf.1 ∧
        (chunk : ℚ) * leaf.2 - 1 - chunk * (D + 1) / 2 ^ 51 ≤ row.2) (F'.map fun a => (pathKey a.1, leafRow chunk a.2)) L' := by
      rw [List.forall₂_map_left_iff]
      exact hr.imp fun x y h => ⟨h.2.1, hlow x y h⟩
    have t2 : List.Forall₂ (fun (row : RawKey × Nat) (leaf : RawKey × ℚ) => (row.2 : ℚ) ≤ chunk * leaf.2 + chunk * (D + 1) / 2 ^ 51)
        (F'.map fun a => (pathKey a.1, leafRow chunk a.2)) L' := by
      rw [List.forall₂_map_left_iff]
      exact hr.imp fun x y h => hhigh x y h
    have l0 := hlow a b h0
    by_cases hdiff : chunk - (leafRow chunk a.2 + (F'.map fun a => leafRow chunk a.2).sum) > 0
    · rw [if_pos hdiff]
      refine ⟨_, rfl, ?_, .cons ⟨h0.2.1, ?_⟩ t1, t2⟩
      · rw [hcons, hv]
        omega
      · push_cast
        have : (0 : ℚ) ≤ ((chunk - (leafRow chunk a.2 + (F'.map fun a => leafRow chunk a.2).sum) : ℕ) : ℚ) := Nat.cast_nonneg _
        linarith
    · rw [if_neg hdiff]
      refine ⟨_, rfl, ?_, .cons ⟨h0.2.1, l0⟩ t1, t2⟩
      rw [hcons, hv]
      omega

/-- Finding: a hierarchical mixture does not round to the largest remainders, so one rounding error is enough to move a row.
With the weights 0.71 and 0.29 and 100 rows the second key gets 28 rows (`100 * 0.29` is slightly less than 29 in binary64) and
the first 72; the static mixture with the same weights gives 71 and 29. -/
theorem c86_hierarchical_off_by_one :
    hierarchicalMixture 100 ⟨['t'], .leaf [['a']] (fl (71 / 100)) (.leaf [['b']] (fl (29 / 100)) .nil)⟩ =
      .ok [([(['t'], [['a']])], 72), ([(['t'], [['b']])], 28)] ∧
    staticMixture loopSum 100 [(['a'], fl (71 / 100)), (['b'], fl (29 / 100))] = .ok [(['a'], 71), (['b'], 29)] := by
  constructor <;> decide +kernel

/-- The hypotheses of the theorem about trees are met by a tree of two levels with weights 0.6, 0.4, 0.3 and 0.7. -/
example : let tree : MComps := .sub [['l']] (fl (3 / 5)) ['g'] (.leaf [['e']] (fl (3 / 10)) (.leaf [['f']] (fl (7 / 10)) .nil)) <|
      .leaf [['m']] (fl (2 / 5)) .nil
    (leaves ['t'] tree).Pairwise (fun a b => ¬ SameContents a.1 b.1) ∧ WeightsUnit tree ∧ levels tree = 2 ∧
    |((leaves ['t'] tree).map Prod.snd).sum - 1| ≤ 1 / 2 ^ 50 ∧ (100 : ℚ) * (1 / 2 ^ 50 + (2 + 1) / 2 ^ 51) < 1 ∧
    hierarchicalMixture 100 ⟨['t'], tree⟩ = .ok [([(['g'], [['e']]), (['t'], [['l']])], 18),
      ([(['g'], [['f']]), (['t'], [['l']])], 42), ([(['t'], [['m']])], 40)] := by
  refine ⟨?_, ?_, by decide, by decide +kernel, by norm_num, by decide +kernel⟩
  · simp only [leaves, List.map_cons, List.map_nil, List.cons_append, List.nil_append]
    refine .cons ?_ (.cons ?_ (.cons ?_ .nil))
    · intro b hb
      rcases List.mem_cons.mp hb with rfl | hb
      · intro h; have := h ['g']; simp [Dict.get?] at this
      · obtain rfl := List.mem_singleton.mp hb
        intro h; have := h ['g']; simp [Dict.get?] at this
    · intro b hb
      obtain rfl := List.mem_singleton.mp hb
      intro h; have := h ['g']; simp [Dict.get?] at this
    · intro b hb; cases hb
  · simp only [WeightsUnit]
    refine ⟨by decide +kernel, by decide +kernel, ⟨by decide +kernel, by decide +kernel, by decide +kernel, by decide +kernel, trivial⟩,
      by decide +kernel, by decide +kernel, trivial⟩

/-- The hypotheses of the theorems are met: the weights 0.1, 0.2 and 0.7 as floats, whose sum is not exactly 1. -/
example : let m : Dict Nat ℚ := [(1, fl (1 / 10)), (2, fl (1 / 5)), (3, fl (7 / 10))]
    m.keys.Nodup ∧ (∀ kv ∈ m, 0 ≤ kv.2) ∧ (∀ kv ∈ m, fl kv.2 = kv.2) ∧ closeToOne (loopSum m.values) ∧
    1000 * (m.length + 2) < 2 ^ 50 ∧ m.values.sum ≠ 1 ∧
    staticMixture loopSum 1000 m = .ok [(1, 100), (2, 200), (3, 700)] := by decide +kernel

example : inferRows 10 [(1, [(0, [(0, [(0, 7)]), (1, [(3, 5)])])]), (2, [(0, [(0, [(7, 11)])])])] =
    .ok [(1, 7), (2, 3)] := by decide +kernel

example : redistribute loopSum 5 [3, 0, 4] = .ok [2, 0, 3] := by decide +kernel

/-- Weights that are off by more than the tolerance are refused. -/
example : staticMixture loopSum 10 [(1, fl (1 / 2)), (2, fl (49 / 100))] = .error .valueError := by decide +kernel

end Mixtera.F64
