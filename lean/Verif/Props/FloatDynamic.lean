import Verif.Model.FloatDynamic
import Verif.Props.Float64
import Verif.Props.Dynamic
import Verif.Props.ChunkConfig

/-!
# C89: mixtures of a dynamic algorithm in floating point
-/

namespace Mixtera.F64

variable {K : Type} [DecidableEq K]

/-! ## Specification -/

/-- The policy with the minimum for sampled domains: what the shares of the domains are proportional to. -/
def floored (deltaMin : ℚ) (counts : List Int) (pi : List ℚ) (i : Nat) : ℚ :=
  match counts[i]?, pi[i]? with
  | some c, some p => if 0 < c then max p deltaMin else p
  | _, _ => 0

/-- The sum of that over all domains. -/
def flooredTotal (deltaMin : ℚ) (counts : List Int) (pi : List ℚ) : ℚ :=
  ((List.range pi.length).map (floored deltaMin counts pi)).sum

/-- A sum of non-negative floats that is right up to the fraction `δ`. -/
def SumsUpTo (n : Nat) (δ : ℚ) (sum : List ℚ → ℚ) : Prop :=
  ∀ l : List ℚ, l.length ≤ n → (∀ x ∈ l, 0 ≤ x ∧ fl x = x) → |sum l - l.sum| ≤ δ * l.sum

/-- A sum computed by a loop of additions is right up to `n / 2 ^ 52`. -/
theorem sumsUpTo_loop (n : Nat) (hn : n ≤ 2 ^ 52) : SumsUpTo n (n / 2 ^ 52) loopSum := by
  intro l hl hx
  refine (loopSum_err l (fun x h => (hx x h).2) (fun x h => (hx x h).1) (hl.trans hn)).trans ?_
  refine mul_le_mul_of_nonneg_right ?_ (List.sum_nonneg fun x h => (hx x h).1)
  have : (l.length : ℚ) ≤ n := by exact_mod_cast hl
  gcongr

/-! ## The division -/

/-- Dividing by the sum. -/
theorem div_sum_err (v : List ℚ) (t : ℚ) (ht : 0 < t) (hv : ∀ x ∈ v, 0 ≤ x) :
    |(v.map fun x => fl (x / t)).sum - v.sum / t| ≤ u * (v.sum / t) + v.length * η := by
  induction v with
  | nil => simp
  | cons x v ih =>
    have ih := ih fun y hy => hv y (by simp [hy])
    have hx : 0 ≤ x / t := div_nonneg (hv x (by simp)) ht.le
    have he := fl_err (x / t)
    rw [abs_of_nonneg hx] at he
    simp only [List.map_cons, List.sum_cons, List.length_cons, Nat.cast_add, Nat.cast_one]
    have e : fl (x / t) + (v.map fun x => fl (x / t)).sum - (x + v.sum) / t =
        (fl (x / t) - x / t) + ((v.map fun x => fl (x / t)).sum - v.sum / t) := by ring
    rw [e]
    refine (abs_add_le _ _).trans ?_
    have e2 : u * ((x + v.sum) / t) + ((v.length : ℚ) + 1) * η = (u * (x / t) + η) + (u * (v.sum / t) + v.length * η) := by ring
    rw [e2]
    exact add_le_add he ih

/-- The share of a rounded quotient in the sum of the rounded quotients. -/
theorem share_of_quotients {y w Y W e : ℚ} (hy : 0 ≤ y) (hyY : y ≤ Y) (hY : 99 / 100 ≤ Y) (hY2 : Y ≤ 101 / 100) (hW : 98 / 100 ≤ W)
    (he : 0 ≤ e) (heu : e ≤ u) (h1 : |w - y| ≤ u * y + e) (h2 : |W - Y| ≤ u * Y + e) : |w / W - y / Y| ≤ 8 * u := by
  have hu0 := u_nonneg
  have hW0 : 0 < W := by linarith
  have hY0 : 0 < Y := by linarith
  have e1 : w / W - y / Y = ((w - y) * Y - y * (W - Y)) / (W * Y) := by
    field_simp
    ring
  rw [e1, abs_div, abs_of_pos (mul_pos hW0 hY0), div_le_iff₀ (mul_pos hW0 hY0)]
  have h3 : |(w - y) * Y - y * (W - Y)| ≤ (u * y + e) * Y + y * (u * Y + e) := by
    refine (abs_sub _ _).trans ?_
    rw [abs_mul, abs_mul, abs_of_pos hY0, abs_of_nonneg hy]
    exact add_le_add (mul_le_mul_of_nonneg_right h1 hY0.le) (mul_le_mul_of_nonneg_left h2 hy)
  refine h3.trans ?_
  have h4 : u * y ≤ u * Y := mul_le_mul_of_nonneg_left hyY hu0
  have h5 : y * (u * Y + e) ≤ Y * (u * Y + e) := mul_le_mul_of_nonneg_right hyY (by positivity)
  have h6 : (u * y + e) * Y ≤ (u * Y + e) * Y := mul_le_mul_of_nonneg_right (by linarith) hY0.le
  have h7 : (u * Y + e) ≤ u * (201 / 100) := by nlinarith
  have h8 : Y * (u * Y + e) ≤ Y * (u * (201 / 100)) := mul_le_mul_of_nonneg_left h7 hY0.le
  have h9 : 0 ≤ u * Y := by positivity
  have h10 : u * Y * (98 / 100) ≤ u * Y * W := mul_le_mul_of_nonneg_left hW h9
  nlinarith

theorem npClose {x : ℚ} (h : |x - 1| ≤ 9 / 1000000) : npCloseToOne x := by
  unfold npCloseToOne
  have c : (99 / 10000000 : ℚ) ≤ fl (fl (1 / 100000000) + fl (fl (1 / 100000) * 1)) := by decide +kernel
  refine le_trans ?_ c
  have he := fl_err (x - 1)
  have hη := η_le
  have hη0 := η_pos
  have hu : u ≤ 1 / 10 ^ 12 := by norm_num [u]
  have hu0 := u_nonneg
  have hη1 : η ≤ 1 / 10 ^ 12 := by linarith
  have h1 : |fl (x - 1)| ≤ |fl (x - 1) - (x - 1)| + |x - 1| := by
    have := abs_add_le (fl (x - 1) - (x - 1)) (x - 1)
    simpa using this
  have h2 : u * |x - 1| ≤ 1 / 10 ^ 12 * 1 := mul_le_mul hu (h.trans (by norm_num)) (abs_nonneg _) (by norm_num)
  linarith

/-! ## The mixture -/

theorem floored_list (deltaMin : ℚ) (counts : List Int) (pi : List ℚ) (h : counts.length = pi.length) :
    List.zipWith (fun (c : Int) p => if c > 0 then max p deltaMin else p) counts pi =
      (List.range pi.length).map (floored deltaMin counts pi) := by
  apply List.ext_getElem
  · simp [h]
  · intro i h1 h2
    have hi : i < pi.length := by simpa using h2
    simp [floored, List.getElem?_eq_getElem (h ▸ hi : i < counts.length), List.getElem?_eq_getElem hi]

theorem floored_good {deltaMin : ℚ} {counts : List Int} {pi : List ℚ} (hpi : ∀ x ∈ pi, 0 ≤ x ∧ fl x = x) (hd : 0 ≤ deltaMin)
    (hdf : fl deltaMin = deltaMin) (i : Nat) : 0 ≤ floored deltaMin counts pi i ∧ fl (floored deltaMin counts pi i) = floored deltaMin counts pi i := by
  unfold floored
  cases hc : counts[i]? with
  | none => exact ⟨le_rfl, fl_zero⟩
  | some c =>
    cases hp : pi[i]? with
    | none => exact ⟨le_rfl, fl_zero⟩
    | some p =>
      obtain ⟨h1, h2⟩ := hpi p (List.mem_of_getElem? hp)
      dsimp only
      by_cases h : 0 < c
      · rw [if_pos h]
        refine ⟨le_max_of_le_left h1, ?_⟩
        rcases max_choice p deltaMin with hm | hm <;> rw [hm] <;> assumption
      · rw [if_neg h]; exact ⟨h1, h2⟩

theorem length_set_le {α β : Type} [DecidableEq α] (d : Dict α β) (k : α) (v : β) : (d.set k v).length ≤ d.length + 1 := by
  unfold Dict.set
  induction d with
  | nil => simp [Dict.upsert]
  | cons kv d ih =>
    obtain ⟨k', v'⟩ := kv
    simp only [Dict.upsert]
    split
    · simp
    · simpa using ih

theorem weightMap_length (ids : Dict K Nat) (w : List ℚ) : ∀ (i : Nat) (acc m : Dict K ℚ), weightMap ids i w acc = .ok m →
    m.length ≤ acc.length + w.length := by
  induction w with
  | nil => intro i acc m h; simp only [weightMap, Except.ok.injEq] at h; subst h; simp
  | cons x w ih =>
    intro i acc m h
    rw [weightMap] at h
    split at h
    · split at h
      · cases h
      · have := ih _ _ _ h
        have := length_set_le acc (by assumption) x
        simp only [List.length_cons]
        omega
    · have := ih _ _ _ h
      simp only [List.length_cons]
      omega

/-- The bounds that do not depend on the mixture: `Y` is the quotient of the exact sum and the computed sum, `W` the sum of the
quotients. -/
theorem total_bounds {S t ν W e : ℚ} (hS : 0 < S) (hν0 : 0 ≤ ν) (hν : ν ≤ 1 / 1000000) (ht : |t - S| ≤ ν * S) (he : 0 ≤ e) (heu : e ≤ u)
    (hW : |W - S / t| ≤ u * (S / t) + e) :
    0 < t ∧ 99 / 100 ≤ S / t ∧ S / t ≤ 101 / 100 ∧ 98 / 100 ≤ W ∧ |W - 1| ≤ 2 / 1000000 := by
  obtain ⟨t1, t2⟩ := abs_le.mp ht
  have h1 : ν * S ≤ 1 / 1000000 * S := mul_le_mul_of_nonneg_right hν hS.le
  have ht0 : 0 < t := by linarith
  have y1 : 999998 / 1000000 ≤ S / t := by rw [le_div_iff₀ ht0]; linarith
  have y2 : S / t ≤ 1000002 / 1000000 - 1 / 10 ^ 7 := by rw [div_le_iff₀ ht0]; linarith
  have hu0 := u_nonneg
  have hu : u ≤ 1 / 10 ^ 12 := by norm_num [u]
  have hy : u * (S / t) ≤ 1 / 10 ^ 12 * 2 := mul_le_mul hu (by linarith) (by linarith) (by norm_num)
  obtain ⟨w1, w2⟩ := abs_le.mp hW
  have y3 : 9999989 / 10000000 ≤ S / t := by rw [le_div_iff₀ ht0]; linarith
  exact ⟨ht0, by linarith, by linarith, by linarith, abs_le.mpr ⟨by linarith, by linarith⟩⟩

/-- **C89.** A policy of a dynamic mixing algorithm becomes a mixture: whatever non-negative policy is computed and whatever domains
have been sampled, the algorithm and the mixture accept it (with `np.sum` right up to a millionth, and `sum` up to `δ`), the rows add
up to the chunk size, and every key gets its share of the policy with the minimum probability, up to one sample and a rounding error. -/
theorem c89_shares (npSum sum : List ℚ → ℚ) (ν δ deltaMin : ℚ) (counts : List Int) (mu pi : List ℚ) (ids : Dict K Nat) (chunk : Nat)
    (hc : 0 < chunk) (hlen : counts.length = pi.length) (hn : pi.length ≤ 2 ^ 52) (hνs : SumsUpTo pi.length ν npSum) (hν0 : 0 ≤ ν)
    (hν : ν ≤ 1 / 1000000) (hδs : SumsUpTo pi.length δ sum) (hδ0 : 0 ≤ δ) (hδ : δ ≤ 1 / 1000000) (hpi : ∀ x ∈ pi, 0 ≤ x ∧ fl x = x)
    (hd : 0 ≤ deltaMin) (hdf : fl deltaMin = deltaMin) (hpos : 0 < flooredTotal deltaMin counts pi) (hk : ids.keys.Nodup)
    (hv : ids.values.Nodup) (hknown : ∀ i, 0 < floored deltaMin counts pi i → ∃ k, ids.get? k = some i)
    (hsmall : chunk * (2 * δ + 2 ^ (-49 : Int)) < 1) :
    ∃ w rows, enforceMin npSum deltaMin counts mu pi = .ok w ∧ dynamicRows npSum sum chunk ids w = .ok rows ∧
      rows.values.sum = chunk ∧ (∀ k ∈ rows.keys, ∃ i, ids.get? k = some i ∧ 0 < floored deltaMin counts pi i) ∧
      ∀ k i, ids.get? k = some i →
        |((rows.get? k).getD 0 : ℚ) - chunk * (floored deltaMin counts pi i / flooredTotal deltaMin counts pi)| ≤
          1 + chunk * (2 * δ + 2 ^ (-49 : Int)) := by
  have hC1 : (1 : ℚ) ≤ chunk := by exact_mod_cast hc
  have hu0 := u_nonneg
  have hu8 : 8 * u = (2 : ℚ) ^ (-50 : Int) := by norm_num [u]
  have h49 : (2 : ℚ) ^ (-49 : Int) = 2 ^ (-50 : Int) + 2 ^ (-50 : Int) := by norm_num
  have h50 : (0 : ℚ) < 2 ^ (-50 : Int) := pow_pos' _
  have hgood := floored_good (counts := counts) hpi hd hdf
  obtain ⟨v, hvdef⟩ : ∃ v, v = (List.range pi.length).map (floored deltaMin counts pi) := ⟨_, rfl⟩
  have hvlen : v.length = pi.length := by rw [hvdef]; simp
  have hvg : ∀ x ∈ v, 0 ≤ x ∧ fl x = x := by
    intro x hx
    rw [hvdef] at hx
    obtain ⟨i, _, rfl⟩ := List.mem_map.mp hx
    exact hgood i
  have hvi : ∀ i, i < pi.length → v[i]? = some (floored deltaMin counts pi i) := by
    intro i hi
    rw [hvdef, List.getElem?_map, List.getElem?_range hi]; rfl
  have hout : ∀ i, ¬ i < pi.length → floored deltaMin counts pi i = 0 := by
    intro i hi
    unfold floored
    rw [List.getElem?_eq_none (by omega : pi.length ≤ i)]
    cases counts[i]? <;> rfl
  have hS : v.sum = flooredTotal deltaMin counts pi := by rw [hvdef]; rfl
  rw [← hS] at hpos ⊢
  have ht := hνs v hvlen.le hvg
  obtain ⟨t, htdef⟩ : ∃ t, t = npSum v := ⟨_, rfl⟩
  rw [← htdef] at ht
  -- the quotients
  obtain ⟨w, hwdef⟩ : ∃ w, w = v.map fun x => fl (x / t) := ⟨_, rfl⟩
  have ht0 : 0 < t := by
    obtain ⟨t1, _⟩ := abs_le.mp ht
    have : ν * v.sum ≤ 1 / 1000000 * v.sum := mul_le_mul_of_nonneg_right hν hpos.le
    linarith
  have hη0 := η_pos
  have hnq : (pi.length : ℚ) ≤ 2 ^ 52 := by exact_mod_cast hn
  obtain ⟨e, hedef⟩ : ∃ e, e = ((pi.length : ℚ) + 1) * η := ⟨_, rfl⟩
  have hp0 : (0 : ℚ) ≤ pi.length := Nat.cast_nonneg _
  have he0 : 0 ≤ e := by rw [hedef]; exact mul_nonneg (by linarith) hη0.le
  have heu : e ≤ u := by
    rw [hedef]
    have h1 := η_le
    have h2 : ((pi.length : ℚ) + 1) * η ≤ 3 * 2 ^ 53 * η := mul_le_mul_of_nonneg_right (by linarith) hη0.le
    exact h2.trans h1
  have hne : (pi.length : ℚ) * η ≤ e := by rw [hedef]; linarith
  have hηe : η ≤ e := by
    rw [hedef]
    have : 0 ≤ (pi.length : ℚ) * η := mul_nonneg hp0 hη0.le
    linarith
  have hW := div_sum_err v t ht0 fun x hx => (hvg x hx).1
  rw [← hwdef, hvlen] at hW
  have hW : |w.sum - v.sum / t| ≤ u * (v.sum / t) + e := hW.trans (by linarith)
  obtain ⟨_, y1, y2, w1, w2⟩ := total_bounds hpos hν0 hν ht he0 heu hW
  have hwlen : w.length = pi.length := by rw [hwdef]; simpa using hvlen
  have hwg : ∀ x ∈ w, 0 ≤ x ∧ fl x = x := by
    intro x hx
    rw [hwdef] at hx
    obtain ⟨y, hy, rfl⟩ := List.mem_map.mp hx
    exact ⟨fl_nonneg (div_nonneg (hvg y hy).1 ht0.le), fl_idem _⟩
  have hwi : ∀ i, i < pi.length → w[i]? = some (fl (floored deltaMin counts pi i / t)) := by
    intro i hi
    rw [hwdef, List.getElem?_map, hvi i hi]; rfl
  have hshare : ∀ i, i < pi.length → |fl (floored deltaMin counts pi i / t) / w.sum - floored deltaMin counts pi i / v.sum| ≤ 8 * u := by
    intro i hi
    have hy0 : 0 ≤ floored deltaMin counts pi i / t := div_nonneg (hgood i).1 ht0.le
    have hle : floored deltaMin counts pi i ≤ v.sum :=
      List.single_le_sum (fun x hx => (hvg x hx).1) _ (List.mem_of_getElem? (hvi i hi))
    have hf := fl_err (floored deltaMin counts pi i / t)
    rw [abs_of_nonneg hy0] at hf
    have h := share_of_quotients hy0 (div_le_div_of_nonneg_right hle ht0.le) y1 y2 w1 he0 heu (hf.trans (by linarith)) hW
    have e1 : floored deltaMin counts pi i / t / (v.sum / t) = floored deltaMin counts pi i / v.sum := by
      field_simp
    rwa [e1] at h
  -- accepted
  have hnp := hνs w hwlen.le hwg
  have hclose : npCloseToOne (npSum w) := by
    apply npClose
    have h1 : |npSum w - 1| ≤ |npSum w - w.sum| + |w.sum - 1| := by
      have := abs_add_le (npSum w - w.sum) (w.sum - 1)
      simpa using this
    have hw2 : w.sum ≤ 2 := by linarith [(abs_le.mp w2).2]
    have h2 : ν * w.sum ≤ 1 / 1000000 * 2 := mul_le_mul hν hw2 (by linarith) (by norm_num)
    linarith
  obtain ⟨m, hmap⟩ := weightMap_ok hk hv w 0 [] (by
    intro j q hj hq
    have hjn : j < pi.length := by
      have := (List.getElem?_eq_some_iff.mp hj).1
      omega
    rw [hwi j hjn] at hj
    injection hj with hj
    rw [Nat.zero_add]
    refine hknown j (lt_of_le_of_ne (hgood j).1 fun h0 => ?_)
    rw [← h0, zero_div, fl_zero] at hj
    rw [← hj] at hq
    exact lt_irrefl _ hq)
  obtain ⟨m1, m2, m3, _⟩ := weightMap_spec hk hv w 0 [] m (by simp [Dict.keys]) (by simp [Dict.keys]) hmap
  have hm3 : ∀ k q, m.get? k = some q ↔ ∃ j, ids.get? k = some j ∧ w[j]? = some q ∧ 0 < q := by
    intro k q
    rw [m3]
    simp [Dict.get?]
  have hmsum : m.values.sum = w.sum := by
    rw [m2, posSum_of_nonneg w fun x hx => (hwg x hx).1]; simp [Dict.values]
  have hmg : ∀ kv ∈ m, 0 ≤ kv.2 ∧ fl kv.2 = kv.2 := by
    intro kv hkv
    obtain ⟨j, _, hj, _⟩ := (hm3 kv.1 kv.2).mp (Dict.get?_of_mem m1 hkv)
    exact hwg _ (List.mem_of_getElem? hj)
  have hmlen : m.length ≤ pi.length := by
    have := weightMap_length ids w 0 [] m hmap
    simpa [hwlen] using this
  have hpy := hδs m.values (by simpa [Dict.values] using hmlen) (by
    intro x hx
    obtain ⟨kv, hkv, rfl⟩ := List.mem_map.mp hx
    exact hmg kv hkv)
  have hone : closeToOne (sum m.values) := by
    refine (c86_sum_check (sum m.values) m.values.sum (hpy.trans ?_)).1 ?_
    · exact mul_le_mul_of_nonneg_right hδ (by rw [hmsum]; linarith)
    · rw [hmsum]; exact w2.trans (by norm_num)
  obtain ⟨rows, r1, r2⟩ := c86_static sum chunk m δ hc m1 (fun kv hkv => (hmg kv hkv).1)
    (hmlen.trans (hn.trans (Nat.pow_le_pow_right (by norm_num) (by norm_num)))) hδ0 (by linarith) hpy hone (by
      refine lt_of_le_of_lt (mul_le_mul_of_nonneg_left ?_ (by linarith)) hsmall
      linarith)
  refine ⟨w, rows, ?_, ?_, r2.total, ?_, ?_⟩
  · unfold enforceMin
    rw [if_neg (not_not.mpr hlen), floored_list deltaMin counts pi hlen, ← hvdef]
    dsimp only
    rw [← htdef, if_pos ht0, hwdef]
  · unfold dynamicRows
    rw [if_neg (not_not.mpr hclose), hmap]
    exact r1
  · intro k hkr
    rw [r2.keys] at hkr
    obtain ⟨q, hq⟩ := (Dict.mem_keys_iff _ _).mp hkr
    obtain ⟨j, j1, j2, j3⟩ := (hm3 k q).mp hq
    have hjn : j < pi.length := by
      have := (List.getElem?_eq_some_iff.mp j2).1
      omega
    rw [hwi j hjn] at j2
    injection j2 with j2
    refine ⟨j, j1, lt_of_le_of_ne (hgood j).1 fun h0 => ?_⟩
    rw [← h0, zero_div, fl_zero] at j2
    rw [← j2] at j3
    exact lt_irrefl _ j3
  · intro k i hki
    have hrk : ∀ r, rows.get? k = some r → ∃ q, m.get? k = some q := by
      intro r hr
      have : k ∈ rows.keys := (Dict.mem_keys_iff _ _).mpr ⟨_, hr⟩
      rw [r2.keys] at this
      exact (Dict.mem_keys_iff _ _).mp this
    have hbase : (0 : ℚ) ≤ chunk * (2 * δ + 2 ^ (-49 : Int)) := by
      apply mul_nonneg (by linarith)
      linarith
    by_cases hin : i < pi.length
    · have hs := hshare i hin
      have hmul : |chunk * (fl (floored deltaMin counts pi i / t) / w.sum) - chunk * (floored deltaMin counts pi i / v.sum)| ≤
          chunk * 2 ^ (-50 : Int) := by
        rw [← mul_sub, abs_mul, abs_of_nonneg (show (0 : ℚ) ≤ chunk by linarith), ← hu8]
        exact mul_le_mul_of_nonneg_left hs (by linarith)
      have hexp : (chunk : ℚ) * (2 * δ + 2 ^ (-49 : Int)) = chunk * (2 * δ + 2 ^ (-50 : Int)) + chunk * 2 ^ (-50 : Int) := by
        rw [h49]; ring
      cases hr : rows.get? k with
      | some r =>
        obtain ⟨q, hq⟩ := hrk r hr
        obtain ⟨j, j1, j2, j3⟩ := (hm3 k q).mp hq
        rw [hki] at j1
        injection j1 with j1
        subst j1
        rw [hwi i hin] at j2
        injection j2 with j2
        have hcl := r2.close k q r hq hr
        rw [hmsum, ← j2] at hcl
        show |(r : ℚ) - _| ≤ _
        have := abs_sub_le (r : ℚ) (chunk * (fl (floored deltaMin counts pi i / t) / w.sum)) (chunk * (floored deltaMin counts pi i / v.sum))
        rw [hexp]
        linarith
      | none =>
        have hz : fl (floored deltaMin counts pi i / t) = 0 := by
          by_contra hne0
          have hq : m.get? k = some (fl (floored deltaMin counts pi i / t)) :=
            (hm3 k _).mpr ⟨i, hki, hwi i hin, lt_of_le_of_ne (fl_nonneg (div_nonneg (hgood i).1 ht0.le)) (Ne.symm hne0)⟩
          have : k ∈ m.keys := (Dict.mem_keys_iff _ _).mpr ⟨_, hq⟩
          rw [← r2.keys] at this
          obtain ⟨r, hr'⟩ := (Dict.mem_keys_iff _ _).mp this
          rw [hr] at hr'; cases hr'
        rw [hz, zero_div, mul_zero] at hmul
        show |((0 : Nat) : ℚ) - _| ≤ _
        rw [Nat.cast_zero]
        have : (0 : ℚ) ≤ chunk * (2 * δ + 2 ^ (-50 : Int)) := by
          apply mul_nonneg (by linarith)
          linarith
        rw [hexp]
        linarith
    · have hr : rows.get? k = none := by
        cases hr : rows.get? k with
        | none => rfl
        | some r =>
          obtain ⟨q, hq⟩ := hrk r hr
          obtain ⟨j, j1, j2, _⟩ := (hm3 k q).mp hq
          rw [hki] at j1
          injection j1 with j1
          subst j1
          have := (List.getElem?_eq_some_iff.mp j2).1
          omega
      rw [hr, hout i hin]
      simp only [Option.getD_none, Nat.cast_zero, zero_div, mul_zero, sub_zero, abs_zero]
      linarith

theorem floored_le {deltaMin : ℚ} {counts : List Int} {pi : List ℚ} (hpi : ∀ x ∈ pi, 0 ≤ x) (hd : 0 ≤ deltaMin) (i : Nat) :
    floored deltaMin counts pi i ≤ (pi[i]?).getD 0 + deltaMin := by
  unfold floored
  cases hp : pi[i]? with
  | none => cases counts[i]? <;> simpa using hd
  | some p =>
    have h0 := hpi p (List.mem_of_getElem? hp)
    cases counts[i]? with
    | none => simp only [Option.getD_some]; linarith
    | some c =>
      dsimp only
      rw [Option.getD_some]
      split
      · exact max_le (by linarith) (by linarith)
      · linarith

theorem flooredTotal_le {deltaMin : ℚ} {counts : List Int} {pi : List ℚ} (hpi : ∀ x ∈ pi, 0 ≤ x) (hd : 0 ≤ deltaMin) :
    flooredTotal deltaMin counts pi ≤ pi.sum + pi.length * deltaMin := by
  unfold flooredTotal
  have h1 : ((List.range pi.length).map (floored deltaMin counts pi)).sum ≤
      ((List.range pi.length).map fun i => pi.getD i 0 + deltaMin).sum := by
    apply List.sum_le_sum
    intro i _
    have := floored_le (counts := counts) hpi hd i
    rwa [← List.getD_eq_getElem?_getD] at this
  have h2 : ((List.range pi.length).map fun i => pi.getD i 0 + deltaMin).sum = pi.sum + pi.length * deltaMin := by
    rw [List.sum_map_add, getD_sum]
    simp
  rw [← h2]; exact h1

/-- **C89** (every sampled domain). If the chunks are large enough for the minimum probability, every chunk has a sample of every
domain sampled before. -/
theorem c89_every_domain (npSum sum : List ℚ → ℚ) (ν δ deltaMin : ℚ) (counts : List Int) (mu pi : List ℚ) (ids : Dict K Nat) (chunk : Nat)
    (hc : 0 < chunk) (hlen : counts.length = pi.length) (hn : pi.length ≤ 2 ^ 52) (hνs : SumsUpTo pi.length ν npSum) (hν0 : 0 ≤ ν)
    (hν : ν ≤ 1 / 1000000) (hδs : SumsUpTo pi.length δ sum) (hδ0 : 0 ≤ δ) (hδ : δ ≤ 1 / 1000000) (hpi : ∀ x ∈ pi, 0 ≤ x ∧ fl x = x)
    (hd : 0 ≤ deltaMin) (hdf : fl deltaMin = deltaMin) (hpos : 0 < flooredTotal deltaMin counts pi) (hk : ids.keys.Nodup)
    (hv : ids.values.Nodup) (hknown : ∀ i, 0 < floored deltaMin counts pi i → ∃ k, ids.get? k = some i)
    (hsmall : chunk * (2 * δ + 2 ^ (-49 : Int)) < 1)
    (hbig : (1 + chunk * (2 * δ + 2 ^ (-49 : Int))) * (pi.sum + pi.length * deltaMin) < chunk * deltaMin) :
    ∃ w rows, enforceMin npSum deltaMin counts mu pi = .ok w ∧ dynamicRows npSum sum chunk ids w = .ok rows ∧
      ∀ k i c, ids.get? k = some i → counts[i]? = some c → 0 < c → ∃ r, rows.get? k = some r ∧ 1 ≤ r := by
  obtain ⟨w, rows, h1, h2, _, _, h5⟩ := c89_shares npSum sum ν δ deltaMin counts mu pi ids chunk hc hlen hn hνs hν0 hν hδs hδ0 hδ hpi hd
    hdf hpos hk hv hknown hsmall
  refine ⟨w, rows, h1, h2, fun k i c hki hci hcp => ?_⟩
  have hC1 : (1 : ℚ) ≤ chunk := by exact_mod_cast hc
  have h := h5 k i hki
  have hT := flooredTotal_le (counts := counts) (fun x hx => (hpi x hx).1) hd
  have hge : deltaMin ≤ floored deltaMin counts pi i := by
    have hin : i < pi.length := by
      have := (List.getElem?_eq_some_iff.mp hci).1
      omega
    unfold floored
    rw [hci, List.getElem?_eq_getElem hin]
    dsimp only
    rw [if_pos hcp]
    exact le_max_right _ _
  have hε : (0 : ℚ) ≤ 1 + chunk * (2 * δ + 2 ^ (-49 : Int)) := by
    have h49 : (0 : ℚ) < 2 ^ (-49 : Int) := pow_pos' _
    have : (0 : ℚ) ≤ chunk * (2 * δ + 2 ^ (-49 : Int)) := mul_nonneg (by linarith) (by linarith)
    linarith
  have hbig2 : 1 + (chunk : ℚ) * (2 * δ + 2 ^ (-49 : Int)) < chunk * (floored deltaMin counts pi i / flooredTotal deltaMin counts pi) := by
    rw [mul_div_assoc', lt_div_iff₀ hpos]
    refine lt_of_le_of_lt (mul_le_mul_of_nonneg_left hT hε) (lt_of_lt_of_le hbig ?_)
    exact mul_le_mul_of_nonneg_left hge (by linarith)
  cases hr : rows.get? k with
  | none =>
    rw [hr] at h
    simp only [Option.getD_none, Nat.cast_zero, zero_sub, abs_neg] at h
    have := le_abs_self ((chunk : ℚ) * (floored deltaMin counts pi i / flooredTotal deltaMin counts pi))
    linarith
  | some r =>
    rw [hr] at h
    refine ⟨r, rfl, ?_⟩
    by_contra hr0
    have hr0 : r = 0 := by omega
    subst hr0
    simp only [Option.getD_some, Nat.cast_zero, zero_sub, abs_neg] at h
    have := le_abs_self ((chunk : ℚ) * (floored deltaMin counts pi i / flooredTotal deltaMin counts pi))
    linarith

/-! ## Examples -/

/-- The hypotheses are met with a loop of additions, two domains, a minimum of 0.01 and chunks of 1000 samples. -/
example : let pi := [fl (7 / 10), fl (3 / 10)]
    let ids : Dict Nat Nat := [(1, 0), (2, 1)]
    SumsUpTo pi.length (2 / 2 ^ 52) loopSum ∧ (∀ x ∈ pi, 0 ≤ x ∧ fl x = x) ∧ fl (fl (1 / 100)) = fl (1 / 100) ∧
    0 < flooredTotal (fl (1 / 100)) [5, 2] pi ∧ ids.keys.Nodup ∧ ids.values.Nodup ∧
    (∀ i, 0 < floored (fl (1 / 100)) [5, 2] pi i → ∃ k, ids.get? k = some i) ∧
    ((1000 : Nat) : ℚ) * (2 * (2 / 2 ^ 52) + 2 ^ (-49 : Int)) < 1 ∧
    (1 + ((1000 : Nat) : ℚ) * (2 * (2 / 2 ^ 52) + 2 ^ (-49 : Int))) * (pi.sum + pi.length * fl (1 / 100)) < ((1000 : Nat) : ℚ) * fl (1 / 100) := by
  refine ⟨?_, ?_, fl_idem _, by decide +kernel, by decide, by decide, ?_, by norm_num, by decide +kernel⟩
  · exact_mod_cast sumsUpTo_loop 2 (by norm_num)
  · intro x hx
    simp only [List.mem_cons, List.not_mem_nil, or_false] at hx
    rcases hx with rfl | rfl
    · exact ⟨fl_nonneg (by norm_num), fl_idem _⟩
    · exact ⟨fl_nonneg (by norm_num), fl_idem _⟩
  · intro i hi
    match i with
    | 0 => exact ⟨1, rfl⟩
    | 1 => exact ⟨2, rfl⟩
    | i + 2 => simp [floored] at hi

example : (do dynamicRows loopSum loopSum 1000 [(1, 0), (2, 1)] (← enforceMin loopSum (fl (1 / 100)) [5, 2] [] [fl (7 / 10), fl (3 / 10)]) :
    Except Err (Dict Nat Nat)) = .ok [(1, 700), (2, 300)] := by decide +kernel

/-- **C89** (small chunks). A domain with the minimum probability 0.01 gets no sample in a chunk of three, but a row in its mixture: such
a chunk cannot be configured by the client (`c76_zero_row_fails`), which raises an error for it. -/
theorem c89_small_chunk :
    (do dynamicRows loopSum loopSum 3 [(1, 0), (2, 1)] (← enforceMin loopSum (fl (1 / 100)) [1, 1] [] [1, 0]) : Except Err (Dict Nat Nat)) =
      .ok [(1, 3), (2, 0)] ∧
    ((Gen.init Ex.index Ex.order).play Ex.ops false [Ex.req ⟨[(1, 3), (2, 0)], true, 3⟩ 0]).2.map (fun o => Ex.seeCfg o Ex.simpleArgs) = [none] := by
  constructor <;> decide +kernel

end Mixtera.F64
