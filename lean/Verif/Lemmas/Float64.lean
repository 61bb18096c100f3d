import Verif.Model.Float64
import Verif.Lemmas.Rounding
import Mathlib.Tactic.Linarith
import Mathlib.Tactic.Ring
import Mathlib.Tactic.FieldSimp
import Mathlib.Tactic.NormNum
import Mathlib.Tactic.Positivity

/-!
# Rounding to binary64: error bounds and exact cases
-/

namespace Mixtera.F64

theorem roundEven_err (q : ℚ) : |(roundEven q : ℚ) - q| ≤ 1 / 2 := by
  have h0 := Int.floor_le q
  have h1 := Int.lt_floor_add_one q
  unfold roundEven
  split
  · rw [abs_le]; constructor <;> linarith
  · split
    · push_cast; rw [abs_le]; constructor <;> linarith
    · split
      · rw [abs_le]; constructor <;> linarith
      · push_cast; rw [abs_le]; constructor <;> linarith

theorem roundEven_int (n : Int) : roundEven (n : ℚ) = n := by
  unfold roundEven
  rw [Int.floor_intCast, if_pos (by norm_num)]

theorem roundEven_nonneg {q : ℚ} (h : 0 ≤ q) : 0 ≤ roundEven q := by
  have := Int.floor_nonneg.mpr h
  unfold roundEven
  split
  · exact this
  · split
    · omega
    · split <;> omega

theorem fl_zero : fl 0 = 0 := by rw [fl, if_pos rfl]

theorem pow_pos' (e : Int) : (0 : ℚ) < 2 ^ e := zpow_pos (by norm_num) e

theorem fl_nonneg {x : ℚ} (h : 0 ≤ x) : 0 ≤ fl x := by
  unfold fl
  split
  · exact le_rfl
  · have h1 := roundEven_nonneg (div_nonneg h (pow_pos' (ulpExp x)).le)
    exact mul_nonneg (by exact_mod_cast h1) (pow_pos' _).le

theorem fl_err_ulp (x : ℚ) (hx : x ≠ 0) : |fl x - x| ≤ 2 ^ ulpExp x / 2 := by
  rw [fl, if_neg hx]
  have hp := pow_pos' (ulpExp x)
  have h := roundEven_err (x / 2 ^ ulpExp x)
  have e : (roundEven (x / 2 ^ ulpExp x) : ℚ) * 2 ^ ulpExp x - x =
      ((roundEven (x / 2 ^ ulpExp x) : ℚ) - x / 2 ^ ulpExp x) * 2 ^ ulpExp x := by
    field_simp
  rw [e, abs_mul, abs_of_pos hp]
  nlinarith

/-- The unit roundoff, `2 ^ -53`. -/
def u : ℚ := 1 / 9007199254740992

theorem u_eq : u = (2 : ℚ) ^ (-53 : Int) := by norm_num [u]

theorem log_le (x : ℚ) (hx : x ≠ 0) : (2 : ℚ) ^ Int.log 2 |x| ≤ |x| := by
  exact_mod_cast Int.zpow_log_le_self (b := 2) (by norm_num) (abs_pos.mpr hx)

theorem lt_log (x : ℚ) : |x| < (2 : ℚ) ^ (Int.log 2 |x| + 1) := by
  exact_mod_cast Int.lt_zpow_succ_log_self (b := 2) (by norm_num) |x|

/-- The smallest spacing halved, `2 ^ -1075`. -/
def η : ℚ := 2 ^ (-1075 : Int)

theorem η_pos : 0 < η := pow_pos' _

/-- The rounding error: relative `2 ^ -53`, or absolute `2 ^ -1075` close to zero. -/
theorem fl_err (x : ℚ) : |fl x - x| ≤ u * |x| + η := by
  by_cases hx : x = 0
  · subst hx
    rw [fl_zero]
    simp only [sub_self, abs_zero, mul_zero, zero_add]
    exact η_pos.le
  have h := fl_err_ulp x hx
  have hu : (0 : ℚ) ≤ u * |x| := mul_nonneg (by norm_num [u]) (abs_nonneg _)
  rcases le_total (Int.log 2 |x| - 52) (-1074) with hc | hc
  · have e : ulpExp x = -1074 := max_eq_right hc
    rw [e] at h
    have : (2 : ℚ) ^ (-1074 : Int) / 2 = η := by
      unfold η
      rw [show (-1075 : Int) = -1074 - 1 from rfl, zpow_sub_one₀ (by norm_num)]
      rfl
    rw [this] at h
    linarith
  · have e : ulpExp x = Int.log 2 |x| - 52 := max_eq_left hc
    rw [e] at h
    have h2 : (2 : ℚ) ^ (Int.log 2 |x| - 52) / 2 = u * 2 ^ Int.log 2 |x| := by
      rw [zpow_sub₀ (by norm_num), u]
      norm_num
      ring
    have h3 : u * 2 ^ Int.log 2 |x| ≤ u * |x| := mul_le_mul_of_nonneg_left (log_le x hx) (by norm_num [u])
    have := η_pos
    linarith

/-- Numbers that are exact in binary64 (apart from overflow). -/
def Rep (x : ℚ) : Prop := ∃ (m : Int) (e : Int), |m| ≤ 2 ^ 53 ∧ -1074 ≤ e ∧ x = m * 2 ^ e

theorem zpow_nonneg_int {e : Int} (h : 0 ≤ e) : (2 : ℚ) ^ e = ((2 ^ e.toNat : Int) : ℚ) := by
  conv_lhs => rw [← Int.toNat_of_nonneg h]
  rw [zpow_natCast]
  push_cast
  rfl

theorem fl_rep {x : ℚ} (h : Rep x) : fl x = x := by
  obtain ⟨m, e, hm, he, rfl⟩ := h
  by_cases hx : (m : ℚ) * 2 ^ e = 0
  · rw [hx, fl_zero]
  have hm0 : m ≠ 0 := by
    rintro rfl
    simp at hx
  suffices hs : ∃ k : Int, (m : ℚ) * 2 ^ e = k * 2 ^ ulpExp ((m : ℚ) * 2 ^ e) by
    obtain ⟨k, hk⟩ := hs
    rw [fl, if_neg hx]
    have hp := pow_pos' (ulpExp ((m : ℚ) * 2 ^ e))
    have : (m : ℚ) * 2 ^ e / 2 ^ ulpExp ((m : ℚ) * 2 ^ e) = k := by
      rw [div_eq_iff hp.ne']
      exact hk
    rw [this, roundEven_int]
    exact hk.symm
  have hlog := log_le _ hx
  rw [abs_mul, abs_of_pos (pow_pos' e)] at hlog
  -- if the spacing is at most `2 ^ e`, then `x` is a multiple of it
  have main : ∀ (m' : Int) (e' : Int), (m : ℚ) * 2 ^ e = m' * 2 ^ e' → ulpExp ((m : ℚ) * 2 ^ e) ≤ e' →
      ∃ k : Int, (m : ℚ) * 2 ^ e = k * 2 ^ ulpExp ((m : ℚ) * 2 ^ e) := by
    intro m' e' h1 h2
    refine ⟨m' * 2 ^ (e' - ulpExp ((m : ℚ) * 2 ^ e)).toNat, ?_⟩
    have h3 : (2 : ℚ) ^ e' = 2 ^ (e' - ulpExp ((m : ℚ) * 2 ^ e)) * 2 ^ ulpExp ((m : ℚ) * 2 ^ e) := by
      rw [← zpow_add₀ (by norm_num)]
      congr 1
      omega
    conv_lhs => rw [h1, h3, zpow_nonneg_int (by omega)]
    push_cast
    ring
  have habs : |(m : ℚ)| ≤ 2 ^ (53 : Int) := by
    have : ((|m| : Int) : ℚ) ≤ ((2 ^ 53 : Int) : ℚ) := by exact_mod_cast hm
    rw [Int.cast_abs] at this
    norm_num at this ⊢
    exact this
  rcases lt_or_eq_of_le habs with hlt | heq
  · refine main m e rfl ?_
    have h4 : (2 : ℚ) ^ Int.log 2 |(m : ℚ) * 2 ^ e| < 2 ^ (53 + e) := by
      rw [zpow_add₀ (by norm_num)]
      rw [abs_mul, abs_of_pos (pow_pos' e)]
      exact lt_of_le_of_lt hlog (mul_lt_mul_of_pos_right hlt (pow_pos' e))
    have h5 := (zpow_lt_zpow_iff_right₀ (by norm_num : (1 : ℚ) < 2)).mp h4
    exact max_le (by omega) he
  · -- |m| = 2 ^ 53: x = ± 2 ^ 52 * 2 ^ (e + 1)
    have hm2 : |m| = 2 ^ 53 := by
      have : ((|m| : Int) : ℚ) = ((2 ^ 53 : Int) : ℚ) := by
        rw [Int.cast_abs, heq]
        push_cast
        exact_mod_cast rfl
      exact_mod_cast this
    obtain ⟨m', hm'⟩ : ∃ m', m = 2 * m' := by
      refine ⟨m / 2, ?_⟩
      rcases abs_eq (a := m) (b := (2 ^ 53 : Int)) (by positivity) |>.mp hm2 with h | h
      · rw [h]; norm_num
      · rw [h]; norm_num
    refine main m' (e + 1) ?_ ?_
    · rw [hm', zpow_add_one₀ (by norm_num)]
      push_cast
      ring
    · have h4 : (2 : ℚ) ^ Int.log 2 |(m : ℚ) * 2 ^ e| ≤ 2 ^ (53 + e) := by
        rw [zpow_add₀ (by norm_num)]
        rw [abs_mul, abs_of_pos (pow_pos' e)]
        exact le_trans hlog (by rw [heq])
      have h5 := (zpow_le_zpow_iff_right₀ (by norm_num : (1 : ℚ) < 2)).mp h4
      exact max_le (by omega) (by omega)

theorem rep_int {n : Int} (h : |n| ≤ 2 ^ 53) : Rep (n : ℚ) := ⟨n, 0, h, by omega, by simp⟩

theorem fl_nat {n : Nat} (h : n ≤ 2 ^ 53) : fl (n : ℚ) = n := by
  have := fl_rep (rep_int (n := (n : Int)) (by rw [abs_of_nonneg (by omega)]; exact_mod_cast h))
  exact_mod_cast this

/-- Rounded numbers are exact. -/
theorem rep_fl (x : ℚ) : Rep (fl x) := by
  by_cases hx : x = 0
  · subst hx
    rw [fl_zero]
    exact ⟨0, 0, by norm_num, by omega, by simp⟩
  rw [fl, if_neg hx]
  refine ⟨_, _, ?_, le_max_right _ _, rfl⟩
  have hp := pow_pos' (ulpExp x)
  have h1 : |x / 2 ^ ulpExp x| < 2 ^ (53 : Int) := by
    rw [abs_div, abs_of_pos hp, div_lt_iff₀ hp, ← zpow_add₀ (by norm_num)]
    refine lt_of_lt_of_le (lt_log x) ?_
    refine zpow_le_zpow_right₀ (by norm_num) ?_
    have : Int.log 2 |x| - 52 ≤ ulpExp x := le_max_left _ _
    omega
  have h2 := roundEven_err (x / 2 ^ ulpExp x)
  rw [abs_lt] at h1
  rw [abs_le] at h2
  have e53 : (2 : ℚ) ^ (53 : Int) = ((2 ^ 53 : Int) : ℚ) := by norm_num
  rw [e53] at h1
  rw [abs_le]
  constructor
  · have : ((-(2 ^ 53) - 1 : Int) : ℚ) < (roundEven (x / 2 ^ ulpExp x) : ℚ) := by push_cast at h1 ⊢; linarith
    have := Int.cast_lt.mp this
    omega
  · have : (roundEven (x / 2 ^ ulpExp x) : ℚ) < ((2 ^ 53 + 1 : Int) : ℚ) := by push_cast at h1 ⊢; linarith
    have := Int.cast_lt.mp this
    omega

/-- The part after the point of an exact non-negative number is exact, and so is the part before. -/
theorem rep_fract {x : ℚ} (h : Rep x) (h0 : 0 ≤ x) : Rep (⌊x⌋ : ℚ) ∧ Rep (x - ⌊x⌋) := by
  obtain ⟨m, e, hm, he, rfl⟩ := h
  have hm0 : 0 ≤ m := by
    by_contra hc
    have : (m : ℚ) < 0 := by exact_mod_cast not_le.mp hc
    have := mul_neg_of_neg_of_pos this (pow_pos' e)
    linarith
  rw [abs_of_nonneg hm0] at hm
  rcases le_or_gt 0 e with hp | hn
  · -- an integer
    have hint : (m : ℚ) * 2 ^ e = ((m * 2 ^ e.toNat : Int) : ℚ) := by
      rw [zpow_nonneg_int hp]
      push_cast
      ring
    have hfl : (⌊(m : ℚ) * 2 ^ e⌋ : ℚ) = (m : ℚ) * 2 ^ e := by
      rw [hint, Int.floor_intCast]
    rw [hfl]
    refine ⟨⟨m, e, by rw [abs_of_nonneg hm0]; exact hm, he, rfl⟩, 0, 0, by norm_num, by omega, by simp⟩
  · -- `2 ^ e` is a fraction with denominator `d`
    obtain ⟨k, rfl⟩ : ∃ k : Nat, e = -(k : Int) := ⟨(-e).toNat, by omega⟩
    have hd : (2 : ℚ) ^ (-(k : Int)) = 1 / ((2 ^ k : Int) : ℚ) := by
      rw [zpow_neg, zpow_natCast]
      push_cast
      rw [one_div]
    have hdpos : (0 : Int) < 2 ^ k := by positivity
    have hfloor : ⌊(m : ℚ) * 2 ^ (-(k : Int))⌋ = m / 2 ^ k := by
      rw [hd, mul_one_div]
      have := Rat.floor_intCast_div_natCast m (2 ^ k)
      push_cast at this ⊢
      exact this
    have hq0 : 0 ≤ m / 2 ^ k := Int.ediv_nonneg hm0 hdpos.le
    have hqle : m / 2 ^ k ≤ 2 ^ 53 := (Int.ediv_le_self _ hm0).trans hm
    rw [hfloor]
    refine ⟨rep_int (by rw [abs_of_nonneg hq0]; exact hqle), m % 2 ^ k, -(k : Int), ?_, he, ?_⟩
    · rw [abs_of_nonneg (Int.emod_nonneg _ hdpos.ne')]
      refine le_trans ?_ hm
      have := Int.mul_ediv_add_emod m (2 ^ k)
      have h2 : 0 ≤ 2 ^ k * (m / 2 ^ k) := mul_nonneg hdpos.le hq0
      omega
    · have := Int.mul_ediv_add_emod m (2 ^ k)
      have h3 : (m : ℚ) = ((2 ^ k : Int) : ℚ) * ((m / 2 ^ k : Int) : ℚ) + ((m % 2 ^ k : Int) : ℚ) := by exact_mod_cast this.symm
      have hdne : ((2 ^ k : Int) : ℚ) ≠ 0 := by exact_mod_cast hdpos.ne'
      rw [hd]
      conv_lhs => rw [h3]
      field_simp
      ring

/-- The error of rounding a sum of exact numbers is relative. -/
theorem fl_err_grid {x : ℚ} (k : Int) (h : x = k * 2 ^ (-1074 : Int)) : |fl x - x| ≤ u * |x| := by
  by_cases hx : x = 0
  · rw [hx, fl_zero]
    simp
  rcases le_total (Int.log 2 |x| - 52) (-1074) with hc | hc
  · -- the spacing is `2 ^ -1074`: exact
    have e : ulpExp x = -1074 := max_eq_right hc
    have : fl x = x := by
      rw [fl, if_neg hx, e]
      have : x / 2 ^ (-1074 : Int) = k := by
        rw [div_eq_iff (pow_pos' _).ne']
        exact h
      rw [this, roundEven_int]
      exact h.symm
    rw [this, sub_self, abs_zero]
    exact mul_nonneg (by norm_num [u]) (abs_nonneg _)
  · have hb := fl_err_ulp x hx
    have e : ulpExp x = Int.log 2 |x| - 52 := max_eq_left hc
    rw [e] at hb
    have h2 : (2 : ℚ) ^ (Int.log 2 |x| - 52) / 2 = u * 2 ^ Int.log 2 |x| := by
      rw [zpow_sub₀ (by norm_num), u]
      norm_num
      ring
    have h3 : u * 2 ^ Int.log 2 |x| ≤ u * |x| := mul_le_mul_of_nonneg_left (log_le x hx) (by norm_num [u])
    linarith

theorem rep_grid {x : ℚ} (h : Rep x) : ∃ k : Int, x = k * 2 ^ (-1074 : Int) := by
  obtain ⟨m, e, _, he, rfl⟩ := h
  refine ⟨m * 2 ^ (e + 1074).toNat, ?_⟩
  have h3 : (2 : ℚ) ^ e = 2 ^ (e + 1074) * 2 ^ (-1074 : Int) := by
    rw [← zpow_add₀ (by norm_num)]
    congr 1
    omega
  rw [h3, zpow_nonneg_int (by omega)]
  push_cast
  ring

end Mixtera.F64
