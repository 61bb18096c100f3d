import Verif.Model.Float32Averages
import Verif.Lemmas.Float64
import Verif.Props.Mixing
import Mathlib.Algebra.Order.Ring.Pow

/-!
# Rounding to binary32: relative errors
-/

set_option linter.unusedSectionVars false

namespace Mixtera.F32

open F64 (roundEven fl roundEven_err roundEven_int log_le lt_log pow_pos')

/-- A little more than the unit roundoff of single precision: `2 ^ -24 + 2 ^ -46`. -/
def v : ℚ := 1 / 2 ^ 24 + 1 / 2 ^ 46

/-- `x` and `y` agree up to a factor `(1 + v) ^ k`. -/
def Rel (k : Nat) (x y : ℚ) : Prop := 0 ≤ x ∧ 0 ≤ y ∧ y ≤ x * (1 + v) ^ k ∧ x ≤ y * (1 + v) ^ k

/-- Zero, or in the range in which single precision has all its digits. -/
def Normal (x : ℚ) : Prop := x = 0 ∨ 2 ^ (-126 : Int) ≤ x

theorem v_pos : 0 < v := by norm_num [v]

theorem one_le_pow_v (k : Nat) : 1 ≤ (1 + v) ^ k := one_le_pow₀ (by have := v_pos; linarith)

theorem pow_v_pos (k : Nat) : 0 < (1 + v) ^ k := lt_of_lt_of_le one_pos (one_le_pow_v k)

theorem Rel.refl {x : ℚ} (h : 0 ≤ x) (k : Nat) : Rel k x x :=
  ⟨h, h, le_mul_of_one_le_right h (one_le_pow_v k), le_mul_of_one_le_right h (one_le_pow_v k)⟩

theorem Rel.symm {k : Nat} {x y : ℚ} (h : Rel k x y) : Rel k y x := ⟨h.2.1, h.1, h.2.2.2, h.2.2.1⟩

theorem Rel.trans {j k : Nat} {x y z : ℚ} (h : Rel j x y) (g : Rel k y z) : Rel (j + k) x z := by
  refine ⟨h.1, g.2.1, ?_, ?_⟩
  · have := mul_le_mul_of_nonneg_right h.2.2.1 (pow_v_pos k).le
    rw [pow_add, ← mul_assoc]; exact g.2.2.1.trans this
  · have := mul_le_mul_of_nonneg_right g.2.2.2 (pow_v_pos j).le
    have e : z * (1 + v) ^ (j + k) = z * (1 + v) ^ k * (1 + v) ^ j := by rw [pow_add]; ring
    rw [e]; exact h.2.2.2.trans this

theorem Rel.mono {j k : Nat} {x y : ℚ} (h : Rel j x y) (hk : j ≤ k) : Rel k x y := by
  obtain ⟨d, rfl⟩ := Nat.exists_eq_add_of_le hk
  exact h.trans (Rel.refl h.2.1 d)

theorem Rel.add {k : Nat} {x y a b : ℚ} (h : Rel k x y) (g : Rel k a b) : Rel k (x + a) (y + b) := by
  refine ⟨add_nonneg h.1 g.1, add_nonneg h.2.1 g.2.1, ?_, ?_⟩
  · rw [add_mul]; exact add_le_add h.2.2.1 g.2.2.1
  · rw [add_mul]; exact add_le_add h.2.2.2 g.2.2.2

theorem Rel.zero_iff {k : Nat} {x y : ℚ} (h : Rel k x y) : x = 0 ↔ y = 0 := by
  constructor
  · rintro rfl; have := h.2.2.1; rw [zero_mul] at this; exact le_antisymm this h.2.1
  · rintro rfl; have := h.2.2.2; rw [zero_mul] at this; exact le_antisymm this h.1

theorem Rel.div {j k : Nat} {x y a b : ℚ} (h : Rel j x y) (g : Rel k a b) (ha : 0 < a) : Rel (j + k) (x / a) (y / b) := by
  have hb : 0 < b := lt_of_le_of_ne g.2.1 fun e => ha.ne' (g.zero_iff.2 e.symm)
  refine ⟨div_nonneg h.1 ha.le, div_nonneg h.2.1 hb.le, ?_, ?_⟩
  · rw [div_mul_eq_mul_div, div_le_div_iff₀ hb ha, pow_add]
    have h1 := mul_le_mul h.2.2.1 g.2.2.2 ha.le (mul_nonneg h.1 (pow_v_pos j).le)
    calc y * a ≤ x * (1 + v) ^ j * (b * (1 + v) ^ k) := h1
      _ = x * ((1 + v) ^ j * (1 + v) ^ k) * b := by ring
  · rw [div_mul_eq_mul_div, div_le_div_iff₀ ha hb, pow_add]
    have h1 := mul_le_mul h.2.2.2 g.2.2.1 hb.le (mul_nonneg h.2.1 (pow_v_pos j).le)
    calc x * b ≤ y * (1 + v) ^ j * (a * (1 + v) ^ k) := h1
      _ = y * ((1 + v) ^ j * (1 + v) ^ k) * a := by ring

theorem Rel.sum {α : Type} {k : Nat} (l : List α) (f g : α → ℚ) (h : ∀ a ∈ l, Rel k (f a) (g a)) : Rel k (l.map f).sum (l.map g).sum := by
  induction l with
  | nil => exact Rel.refl le_rfl k
  | cons a l ih =>
    rw [List.map_cons, List.map_cons, List.sum_cons, List.sum_cons]
    exact (h a (by simp)).add (ih fun b hb => h b (List.mem_cons_of_mem _ hb))

/-- Rounding to `p + 1` significant bits in the normal range. -/
theorem flp_err {p : Nat} {emin : Int} {x : ℚ} (h : 2 ^ (emin + p) ≤ x) :
    |flp p emin x - x| ≤ x / 2 ^ (p + 1) ∧ 2 ^ (emin + p) ≤ flp p emin x := by
  have hx0 : 0 < x := lt_of_lt_of_le (pow_pos' _) h
  have habs : |x| = x := abs_of_pos hx0
  have hl := log_le x hx0.ne'
  rw [habs] at hl
  have hlog : emin + p ≤ Int.log 2 x := by
    have := (Int.zpow_le_iff_le_log (b := 2) (by norm_num) hx0).1 (by exact_mod_cast h)
    exact this
  have he : max (Int.log 2 |x| - p) emin = Int.log 2 x - p := by rw [habs]; exact max_eq_left (by omega)
  have hp := pow_pos' (Int.log 2 x - p)
  unfold flp
  rw [if_neg hx0.ne', he]
  have hy := roundEven_err (x / 2 ^ (Int.log 2 x - p))
  have hsplit : (2 : ℚ) ^ (Int.log 2 x) = 2 ^ p * 2 ^ (Int.log 2 x - p) := by
    rw [← zpow_natCast, ← zpow_add₀ (by norm_num)]; congr 1; omega
  constructor
  · have e : (roundEven (x / 2 ^ (Int.log 2 x - p)) : ℚ) * 2 ^ (Int.log 2 x - p) - x =
        ((roundEven (x / 2 ^ (Int.log 2 x - p)) : ℚ) - x / 2 ^ (Int.log 2 x - p)) * 2 ^ (Int.log 2 x - p) := by
      field_simp
    rw [e, abs_mul, abs_of_pos hp]
    have h1 : 2 ^ (Int.log 2 x - p) ≤ x / 2 ^ p := by
      rw [le_div_iff₀ (by positivity)]; rw [hsplit] at hl; linarith
    have h2 : x / 2 ^ (p + 1) = 1 / 2 * (x / 2 ^ p) := by rw [pow_succ]; field_simp
    rw [h2]
    exact mul_le_mul hy h1 hp.le (by norm_num)
  · have h1 : (2 : ℚ) ^ p ≤ x / 2 ^ (Int.log 2 x - p) := by
      rw [le_div_iff₀ hp, ← hsplit]; exact hl
    have h2 : ((2 ^ p : Int) : ℚ) ≤ (roundEven (x / 2 ^ (Int.log 2 x - p)) : ℚ) := by
      have hf : (2 ^ p : Int) ≤ ⌊x / 2 ^ (Int.log 2 x - p)⌋ := Int.le_floor.2 (by push_cast; exact h1)
      have : ⌊x / 2 ^ (Int.log 2 x - p)⌋ ≤ roundEven (x / 2 ^ (Int.log 2 x - p)) := by
        unfold roundEven
        split
        · exact le_rfl
        · split
          · omega
          · split <;> omega
      exact_mod_cast hf.trans this
    push_cast at h2
    calc (2 : ℚ) ^ (emin + p) ≤ 2 ^ (Int.log 2 x) := zpow_le_zpow_right₀ (by norm_num) hlog
      _ = 2 ^ p * 2 ^ (Int.log 2 x - p) := hsplit
      _ ≤ _ := mul_le_mul_of_nonneg_right h2 hp.le

theorem fl_flp (x : ℚ) : fl x = flp 52 (-1074) x := rfl

theorem flp_zero (p : Nat) (emin : Int) : flp p emin 0 = 0 := if_pos rfl

theorem Normal.nonneg {x : ℚ} (h : Normal x) : 0 ≤ x := by
  rcases h with h | h
  · exact h.ge
  · exact (pow_pos' _).le.trans h

theorem fl32_err {x : ℚ} (h : Normal x) : |fl32 x - x| ≤ x / 2 ^ 24 ∧ Normal (fl32 x) := by
  rcases h with rfl | h
  · unfold fl32; rw [flp_zero]; exact ⟨by simp, Or.inl rfl⟩
  · obtain ⟨a, b⟩ := flp_err (p := 23) (emin := -149) (x := x) (by norm_num at h ⊢; exact h)
    exact ⟨a, Or.inr (by norm_num at b ⊢; exact b)⟩

theorem fl64_err {x : ℚ} (h : Normal x) : |fl x - x| ≤ x / 2 ^ 53 ∧ Normal (fl x) := by
  rcases h with rfl | h
  · rw [fl_flp, flp_zero]; exact ⟨by simp, Or.inl rfl⟩
  · have hx0 : 0 < x := lt_of_lt_of_le (pow_pos' _) h
    have hle : (2 : ℚ) ^ ((-1074 : Int) + (52 : Nat)) ≤ x :=
      (zpow_le_zpow_right₀ (by norm_num) (by norm_num)).trans h
    refine ⟨by rw [fl_flp]; exact (flp_err hle).1, Or.inr ?_⟩
    -- rounding does not go below a power of two
    have hlog : -126 ≤ Int.log 2 x := (Int.zpow_le_iff_le_log (b := 2) (by norm_num) hx0).1 (by exact_mod_cast h)
    have : flp 52 (-1074) x = flp 52 (-178) x := by
      have habs : |x| = x := abs_of_pos hx0
      unfold flp
      rw [if_neg hx0.ne', if_neg hx0.ne', habs, max_eq_left (by push_cast; omega), max_eq_left (by push_cast; omega)]
    rw [fl_flp, this]
    have hb := (flp_err (p := 52) (emin := -178) (x := x) (by norm_num at h ⊢; exact h)).2
    norm_num at hb ⊢; exact hb

theorem rel_of_err {x y d : ℚ} (hx : 0 ≤ x) (h : |y - x| ≤ x * d) (hd0 : 0 ≤ d) (hd1 : d ≤ v) (hd2 : 1 ≤ (1 - d) * (1 + v)) : Rel 1 y x := by
  rw [abs_le] at h
  have hd : d ≤ 1 := by
    have := v_pos
    nlinarith
  have h1 : x * (1 - d) ≤ y := by linarith
  have hy : 0 ≤ y := (mul_nonneg hx (by linarith)).trans h1
  refine ⟨hy, hx, ?_, ?_⟩
  · rw [pow_one]
    have h2 := mul_le_mul_of_nonneg_right h1 (by have := v_pos; linarith : 0 ≤ 1 + v)
    have h3 := mul_le_mul_of_nonneg_left hd2 hx
    nlinarith
  · rw [pow_one]
    have := mul_le_mul_of_nonneg_left hd1 hx
    linarith

theorem fl32_rel {x : ℚ} (h : Normal x) : Rel 1 (fl32 x) x := by
  refine rel_of_err h.nonneg (d := 1 / 2 ^ 24) ?_ (by norm_num) (by norm_num [v]) (by norm_num [v])
  have := (fl32_err h).1
  rwa [mul_one_div]

/-- Double rounding costs hardly more. -/
theorem fl32_fl_rel {x : ℚ} (h : Normal x) : Rel 1 (fl32 (fl x)) x ∧ Normal (fl32 (fl x)) := by
  obtain ⟨a1, a2⟩ := fl64_err h
  obtain ⟨b1, b2⟩ := fl32_err a2
  refine ⟨rel_of_err h.nonneg (d := 1 / 2 ^ 24 + 1 / 2 ^ 52) ?_ (by norm_num) (by norm_num [v]) (by norm_num [v]), b2⟩
  have hx := h.nonneg
  rw [abs_le] at a1 b1 ⊢
  have e1 : x / 2 ^ 53 = x * (1 / 2 ^ 53) := by ring
  have e2 : fl x / 2 ^ 24 = fl x * (1 / 2 ^ 24) := by ring
  rw [e1] at a1
  rw [e2] at b1
  norm_num at a1 b1 ⊢
  constructor <;> linarith

/-- `fl32 (fl (l / fl c))` for an exact count. -/
theorem Normal.add {x y : ℚ} (hx : Normal x) (hy : Normal y) : Normal (x + y) := by
  have := hx.nonneg
  have := hy.nonneg
  rcases hx with rfl | hx
  · rw [zero_add]; exact hy
  · exact Or.inr (by linarith)

theorem add_rel (d : Bool) {a x : ℚ} (ha : Normal a) (hx : Normal x) : Rel 1 (add d a x) (a + x) ∧ Normal (add d a x) := by
  unfold add
  cases d with
  | false => exact ⟨fl32_rel (ha.add hx), (fl32_err (ha.add hx)).2⟩
  | true => exact fl32_fl_rel (ha.add hx)

/-- The factor stays small. -/
theorem pow_v_le (k : Nat) (h : k ≤ 2 ^ 22) : (1 + v) ^ k ≤ 2 := by
  have h1 : (1 - k * v) ≤ (1 - v) ^ k := by
    have := one_add_mul_le_pow (a := -v) (by have := v_pos; norm_num [v]) k
    have e : 1 + (k : ℚ) * -v = 1 - k * v := by ring
    rw [e] at this
    simpa [sub_eq_add_neg] using this
  have h2 : (1 + v) ^ k * (1 - v) ^ k ≤ 1 := by
    rw [← mul_pow]
    refine pow_le_one₀ (by norm_num [v]) (by norm_num [v])
  have h3 : (k : ℚ) ≤ 2 ^ 22 := by exact_mod_cast h
  have h4 : (1 : ℚ) / 2 ≤ 1 - k * v := by
    have : (k : ℚ) * v ≤ 2 ^ 22 * v := mul_le_mul_of_nonneg_right h3 v_pos.le
    have : (2 : ℚ) ^ 22 * v ≤ 1 / 2 := by norm_num [v]
    linarith
  have h5 := pow_v_pos k
  nlinarith

end Mixtera.F32
