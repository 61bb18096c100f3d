import Verif.Model.FloatWindow
import Verif.Props.Float64
import Verif.Props.Window
import Verif.Props.ChunkConfig

/-!
# C87: windows, reader processes and inferred mixtures with float shares
-/

set_option linter.unusedSectionVars false

namespace Mixtera.F64

variable {K α : Type} [DecidableEq K]

/-- The product of `n` and the float nearest to `v / chunk`, rounded and then cut off: right unless the exact product is a whole
number, when it may be one too small. -/
theorem floor_share {n chunk v : Nat} (hv : v ≤ chunk) (hc : 0 < chunk) (hsmall : n * chunk ≤ 2 ^ 50) :
    let c := pyInt (fl ((n : ℚ) * fl ((v : ℚ) / chunk)))
    (c = (n * v / chunk : Nat) ∨ (chunk ∣ n * v ∧ 0 < n * v ∧ c = (n * v / chunk : Nat) - 1)) ∧ 0 ≤ c := by
  intro c
  have hcq : (0 : ℚ) < chunk := by exact_mod_cast hc
  have hx0 : 0 ≤ fl ((n : ℚ) * fl ((v : ℚ) / chunk)) := fl_nonneg (mul_nonneg (by positivity) (fl_nonneg (by positivity)))
  have hce : c = ⌊fl ((n : ℚ) * fl ((v : ℚ) / chunk))⌋ := pyInt_nonneg_eq hx0
  have hc0 : 0 ≤ c := by rw [hce]; exact Int.floor_nonneg.mpr hx0
  refine ⟨?_, hc0⟩
  by_cases hnv : n * v = 0
  · left
    have : (n : ℚ) * fl ((v : ℚ) / chunk) = 0 := by
      rcases Nat.mul_eq_zero.mp hnv with h | h
      · rw [h]; simp
      · rw [h]; simp [fl_zero]
    rw [hce, this, fl_zero, hnv]
    simp
  have hn : 0 < n := Nat.pos_of_ne_zero fun h => hnv (by rw [h]; simp)
  have hn1 : (1 : ℚ) ≤ n := by exact_mod_cast hn
  have h := share_err (C := n) (w := v) (S := chunk) (t := chunk) (δ := 0) hn1 (by positivity) hcq le_rfl (by norm_num) (by simp)
  set x := fl ((n : ℚ) * fl ((v : ℚ) / chunk)) with hx
  have hr1 : (v : ℚ) / chunk ≤ 1 := by rw [div_le_one hcq]; exact_mod_cast hv
  have herr : |x - n * (v / chunk)| * chunk < 1 := by
    have h1 : (n : ℚ) * (v / chunk) * (2 * 0 + 4 * u) ≤ n * (4 * u) := by
      have h2 : (n : ℚ) * (v / chunk) ≤ n * 1 := mul_le_mul_of_nonneg_left hr1 (by positivity)
      have h3 : (n : ℚ) * (v / chunk) * (4 * u) ≤ n * 1 * (4 * u) := mul_le_mul_of_nonneg_right h2 (by linarith [u_nonneg])
      linarith
    have h4 : 3 * (n : ℚ) * η ≤ n * u := by
      have h5 : 3 * η ≤ u := by have := η_le; have := η_pos; linarith
      have h6 := mul_le_mul_of_nonneg_left h5 (show (0 : ℚ) ≤ n by positivity)
      linarith
    have h7 : |x - n * (v / chunk)| ≤ n * (5 * u) := by linarith
    have h8 : |x - n * (v / chunk)| * chunk ≤ n * (5 * u) * chunk := mul_le_mul_of_nonneg_right h7 hcq.le
    have h9 : (n : ℚ) * chunk ≤ 2 ^ 50 := by exact_mod_cast hsmall
    have h10 : (n : ℚ) * (5 * u) * chunk = 5 * u * (n * chunk) := by ring
    have h11 : 5 * u * ((n : ℚ) * chunk) ≤ 5 * u * 2 ^ 50 := mul_le_mul_of_nonneg_left h9 (by linarith [u_nonneg])
    have h12 : 5 * u * 2 ^ 50 < 1 := by norm_num [u]
    linarith
  have hdm := Nat.div_add_mod (n * v) chunk
  set q := n * v / chunk with hq
  set r := n * v % chunk with hr
  have hrlt : r < chunk := Nat.mod_lt _ hc
  have hdmq : (n : ℚ) * v = chunk * q + r := by exact_mod_cast hdm.symm
  have hy : (n : ℚ) * (v / chunk) * chunk = chunk * q + r := by
    rw [← hdmq]; field_simp
  rw [← abs_of_pos hcq, ← abs_mul, abs_of_pos hcq, sub_mul, hy] at herr
  obtain ⟨e1, e2⟩ := abs_lt.mp herr
  by_cases hr0 : r = 0
  · rw [hr0] at e1 e2
    have hdvd : chunk ∣ n * v := Nat.dvd_of_mod_eq_zero hr0
    have l1 : ((q - 1 : Int) : ℚ) ≤ x := by
      push_cast
      by_contra hlt
      have : x < (q : ℚ) - 1 := not_le.mp hlt
      have hc1 : (1 : ℚ) ≤ chunk := by exact_mod_cast hc
      push_cast at e1
      nlinarith
    have l2 : x < ((q + 1 : Int) : ℚ) := by
      push_cast
      by_contra hge
      have : (q : ℚ) + 1 ≤ x := not_lt.mp hge
      have hc1 : (1 : ℚ) ≤ chunk := by exact_mod_cast hc
      push_cast at e2
      nlinarith
    have f1 := Int.le_floor.mpr l1
    have f2 := Int.floor_lt.mpr l2
    rcases (show ⌊x⌋ = q ∨ ⌊x⌋ = (q : Int) - 1 by omega) with h | h
    · left; rw [hce, h]
    · right; exact ⟨hdvd, by omega, by rw [hce, h]⟩
  · left
    have hr1' : (1 : ℚ) ≤ r := by exact_mod_cast Nat.one_le_iff_ne_zero.mpr hr0
    have hr2 : (r : ℚ) + 1 ≤ chunk := by exact_mod_cast hrlt
    have l1 : ((q : Int) : ℚ) ≤ x := by
      push_cast
      by_contra hlt
      have : x < (q : ℚ) := not_le.mp hlt
      nlinarith
    have l2 : x < ((q + 1 : Int) : ℚ) := by
      push_cast
      by_contra hge
      have : (q : ℚ) + 1 ≤ x := not_lt.mp hge
      nlinarith
    have f1 := Int.le_floor.mpr l1
    have f2 := Int.floor_lt.mpr l2
    rw [hce]
    omega

/-- `c` is the number of samples that a key with `v` of `chunk` rows gets of `n`: its share rounded down, or one less if the share
is a whole number. -/
def NearShare (n chunk v : Nat) (c : Int) : Prop :=
  c = (n * v / chunk : Nat) ∨ chunk ∣ n * v ∧ 0 < n * v ∧ c = (n * v / chunk : Nat) - 1

theorem windowShare_spec {W chunk v : Nat} (hv : v ≤ chunk) (hc : 0 < chunk) (hsmall : W * chunk ≤ 2 ^ 50) :
    NearShare W chunk v (windowShare W chunk v) ∧ 0 ≤ windowShare W chunk v := by
  have hW : W ≤ 2 ^ 53 := by
    have h1 : W ≤ W * chunk := Nat.le_mul_of_pos_right _ hc
    have : (2 : Nat) ^ 50 ≤ 2 ^ 53 := Nat.pow_le_pow_right (by norm_num) (by norm_num)
    omega
  unfold windowShare
  rw [fl_nat hW]
  exact floor_share hv hc hsmall

theorem readerShare_spec {R chunk v : Nat} (hv : v ≤ chunk) (hc : 0 < chunk) (hsmall : R * chunk ≤ 2 ^ 50) :
    NearShare R chunk v (readerShare R chunk v) ∧ 0 ≤ readerShare R chunk v := by
  have hR : R ≤ 2 ^ 53 := by
    have h1 : R ≤ R * chunk := Nat.le_mul_of_pos_right _ hc
    have : (2 : Nat) ^ 50 ≤ 2 ^ 53 := Nat.pow_le_pow_right (by norm_num) (by norm_num)
    omega
  unfold readerShare
  rw [fl_nat hR, mul_comm]
  exact floor_share hv hc hsmall

theorem nearShare_le {n chunk v : Nat} {c : Int} (h : NearShare n chunk v c) : c ≤ (n * v / chunk : Nat) := by
  rcases h with h | ⟨_, _, h⟩ <;> omega

theorem sum_le_of_near (n chunk : Nat) (hc : 0 < chunk) (share : Nat → Int) (l : List (K × Nat))
    (hl : ∀ kv ∈ l, NearShare n chunk kv.2 (share kv.2)) :
    ((l.map fun kv => share kv.2).sum : Int) * chunk ≤ n * ((l.map Prod.snd).sum : Nat) := by
  induction l with
  | nil => simp
  | cons a l ih =>
    have h1 := nearShare_le (hl a (by simp))
    have h2 := ih fun kv hkv => hl kv (by simp [hkv])
    have h3 : ((n * a.2 / chunk : Nat) : Int) * chunk ≤ n * a.2 := by exact_mod_cast Nat.div_mul_le_self (n * a.2) chunk
    simp only [List.map_cons, List.sum_cons]
    push_cast at h2 h3 ⊢
    have h4 : share a.2 * (chunk : Int) ≤ ((n * a.2 / chunk : Nat) : Int) * chunk :=
      Int.mul_le_mul_of_nonneg_right h1 (by omega)
    push_cast at h4
    rw [add_mul, mul_add]
    linarith

/-- **C87**: with float shares, the counts of a window still have the keys of the mixture, add up to the window size and are not
negative; every count but the first is the key's share of the window rounded down, or one less if that share is a whole number,
and the first is at least that. -/
theorem c87_window_counts (W chunk : Nat) (hc : 0 < chunk) (k : K) (v : Nat) (mixture : List (K × Nat))
    (hsum : (((k, v) :: mixture).map Prod.snd).sum ≤ chunk) (hsmall : W * chunk ≤ 2 ^ 50) :
    let cs := elementCounts W chunk ((k, v) :: mixture)
    cs.map Prod.fst = ((k, v) :: mixture).map Prod.fst ∧ (cs.map Prod.snd).sum = (W : Int) ∧ (∀ p ∈ cs, 0 ≤ p.2) ∧
      List.Forall₂ (fun p kv => p.1 = kv.1 ∧ NearShare W chunk kv.2 p.2) cs.tail mixture ∧
      ∃ c n, cs.head? = some (k, n) ∧ NearShare W chunk v c ∧ c ≤ n := by
  intro cs
  have hle : ∀ kv ∈ (k, v) :: mixture, kv.2 ≤ chunk := fun kv hkv =>
    (List.single_le_sum (by simp) _ (List.mem_map_of_mem (f := Prod.snd) hkv)).trans hsum
  have hsp : ∀ kv ∈ (k, v) :: mixture, NearShare W chunk kv.2 (windowShare W chunk kv.2) ∧ 0 ≤ windowShare W chunk kv.2 :=
    fun kv hkv => windowShare_spec (hle kv hkv) hc hsmall
  set rem : Int := (W : Int) - ((((k, v) :: mixture).map fun kv => (kv.1, windowShare W chunk kv.2)).map Prod.snd).sum with hrem
  have hcs : cs = (k, windowShare W chunk v + rem) :: mixture.map fun kv => (kv.1, windowShare W chunk kv.2) := rfl
  have hsumeq : ((((k, v) :: mixture).map fun kv => (kv.1, windowShare W chunk kv.2)).map Prod.snd).sum =
      (((k, v) :: mixture).map fun kv => windowShare W chunk kv.2).sum := by
    rw [List.map_map]; rfl
  have hrem0 : 0 ≤ rem := by
    have h1 := sum_le_of_near W chunk hc (windowShare W chunk) ((k, v) :: mixture) (fun kv hkv => (hsp kv hkv).1)
    have h2 : (W : Int) * ((((k, v) :: mixture).map Prod.snd).sum : Nat) ≤ W * chunk :=
      Int.mul_le_mul_of_nonneg_left (by exact_mod_cast hsum) (by omega)
    have h3 := Int.le_of_mul_le_mul_right (h1.trans h2) (by omega : (0 : Int) < chunk)
    rw [hrem, hsumeq]
    omega
  have hk := hsp (k, v) (by simp)
  refine ⟨?_, ?_, ?_, ?_, windowShare W chunk v, windowShare W chunk v + rem, ?_, hk.1, by omega⟩
  · rw [hcs]; simp [List.map_map, Function.comp_def]
  · rw [hcs, List.map_cons, List.sum_cons]
    have h : rem = (W : Int) - (windowShare W chunk v +
        ((mixture.map fun kv => (kv.1, windowShare W chunk kv.2)).map Prod.snd).sum) := rfl
    omega
  · rw [hcs]
    intro p hp
    rcases List.mem_cons.mp hp with rfl | hp
    · have := hk.2
      exact add_nonneg this hrem0
    · obtain ⟨kv, hkv, rfl⟩ := List.mem_map.mp hp
      exact (hsp kv (by simp [hkv])).2
  · rw [hcs, List.tail_cons, List.forall₂_map_left_iff, List.forall₂_same]
    exact fun kv hkv => ⟨rfl, (hsp kv (by simp [hkv])).1⟩
  · rw [hcs]; rfl

open Classical in
/-- **C87**: strict windows work with float shares exactly as C39 says, whatever the shuffled order of the counts: reading ends,
every complete window has the counted number of samples of each key. -/
theorem c87_strict (W chunk : Nat) (hW : 0 < W) (hc : 0 < chunk) (k : K) (v : Nat) (mixture : List (K × Nat))
    (hnd : (((k, v) :: mixture).map Prod.fst).Nodup) (hsum : (((k, v) :: mixture).map Prod.snd).sum ≤ chunk)
    (hsmall : W * chunk ≤ 2 ^ 50) (cs : List (K × Int)) (hcs : cs.Perm (elementCounts W chunk ((k, v) :: mixture)))
    (it : K → List α) :
    ∃ n, (∀ fuel, n + 1 ≤ fuel →
        iterateWindows W false cs it fuel = some ((List.range (n + 1)).flatMap (windowAt W cs it))) ∧
      (∀ w < n, (windowAt W cs it w).length = W ∧
        ∀ p ∈ cs, ((samplesOf p.1 (windowAt W cs it w)).length : Int) = p.2) ∧
      (∃ p ∈ cs, (it p.1).length < (n + 1) * p.2.toNat) := by
  obtain ⟨h1, h2, h3, -, -⟩ := c87_window_counts W chunk hc k v mixture hsum hsmall
  refine c39_strict hW ?_ (fun p hp => h3 p (hcs.mem_iff.mp hp)) ?_ it
  · rw [(hcs.map Prod.fst).nodup_iff, h1]; exact hnd
  · rw [(hcs.map Prod.snd).sum_eq]; exact h2

open Classical in
/-- **C87**, best effort: if every key's share of a window is more than one sample, reading ends and delivers every sample exactly
once. Partial: a share of exactly one sample is not enough, see `c87_one_sample_stuck`. -/
theorem c87_best_effort_partial (W chunk : Nat) (hc : 0 < chunk) (k : K) (v : Nat) (mixture : List (K × Nat))
    (hnd : (((k, v) :: mixture).map Prod.fst).Nodup) (hsum : (((k, v) :: mixture).map Prod.snd).sum ≤ chunk)
    (hsmall : W * chunk ≤ 2 ^ 50) (hone : ∀ kv ∈ (k, v) :: mixture, chunk < W * kv.2)
    (cs : List (K × Int)) (hcs : cs.Perm (elementCounts W chunk ((k, v) :: mixture))) (it : K → List α) :
    ∃ N out, (∀ fuel, N ≤ fuel → iterateWindows W true cs it fuel = some out) ∧
      (∀ p ∈ cs, samplesOf p.1 out = it p.1) ∧ ∀ q ∈ out, q.1 ∈ cs.map Prod.fst := by
  obtain ⟨h1, h2, h3, h4, c, n, h5, h6, h7⟩ := c87_window_counts W chunk hc k v mixture hsum hsmall
  have hnear : ∀ (w : Nat) (d : Int), chunk < W * w → NearShare W chunk w d → 1 ≤ d := by
    intro w d hw hd
    have hq : 1 ≤ W * w / chunk := (Nat.one_le_div_iff hc).mpr hw.le
    rcases hd with h | ⟨hdvd, _, h⟩
    · omega
    · have h2 : 2 ≤ W * w / chunk := by
        obtain ⟨z, hz⟩ := hdvd
        rw [hz, Nat.mul_div_cancel_left _ hc] at hq ⊢
        rcases Nat.lt_or_ge z 2 with hz2 | hz2
        · have : z = 1 := by omega
          rw [this] at hz
          omega
        · exact hz2
      omega
  have hpos : ∀ p ∈ cs, 1 ≤ p.2 := by
    intro p hp
    have hp := hcs.mem_iff.mp hp
    generalize elementCounts W chunk ((k, v) :: mixture) = E at *
    cases E with
    | nil => cases hp
    | cons e E =>
      rcases List.mem_cons.mp hp with rfl | hp
      · simp only [List.head?_cons, Option.some.injEq] at h5
        rw [h5]
        have := hnear v c (hone (k, v) (by simp)) h6
        exact this.trans h7
      · rw [List.tail_cons] at h4
        obtain ⟨i, hi, rfl⟩ := List.getElem_of_mem hp
        have hi' : i < mixture.length := by rw [← h4.length_eq]; exact hi
        have := h4.get hi hi'
        simp only [List.get_eq_getElem] at this
        exact hnear _ _ (hone mixture[i] (by simp [List.getElem_mem])) this.2
  have hnd' : (cs.map Prod.fst).Nodup := by rw [(hcs.map Prod.fst).nodup_iff, h1]; exact hnd
  obtain ⟨N, out, a1, -, a2, a3⟩ := c39_best_effort_partial hnd' hpos (by rw [(hcs.map Prod.snd).sum_eq]; exact h2) it
  exact ⟨N, out, a1, a2, a3⟩

/-- Finding: `49 * (1 / 49)` is less than 1 in binary64. In a window of 49 samples, a key with one 49th of the chunk therefore gets
no sample, and best-effort reading never ends, although the key's share is exactly one sample per window. -/
theorem c87_one_sample_stuck (it : Char → List α) (cs : List (Char × Int))
    (hcs : cs.Perm (elementCounts 49 98 [('a', 96), ('b', 2)])) (fuel : Nat) :
    49 * 2 = 98 ∧ iterateWindows 49 true cs it fuel = none := by
  refine ⟨rfl, ?_⟩
  have e : elementCounts 49 98 [('a', 96), ('b', 2)] = [('a', 49), ('b', 0)] := by decide +kernel
  rw [e] at hcs
  refine c39_best_effort_stuck ?_ ?_ ?_ it 'b' (hcs.mem_iff.mpr (by simp)) fuel
  · rw [(hcs.map Prod.fst).nodup_iff]; decide
  · intro p hp
    have := hcs.mem_iff.mp hp
    simp at this
    rcases this with rfl | rfl <;> simp
  · rw [(hcs.map Prod.snd).sum_eq]; rfl

/-- Finding: a window as large as the chunk does not have the chunk's mixture: `100 * (29 / 100)` is less than 29. -/
theorem c87_whole_chunk_off_by_one : elementCounts 100 100 [('a', 71), ('b', 29)] = [('a', 72), ('b', 28)] := by decide +kernel

/-- **C87**: the numbers of reader processes have the keys of the mixture and add up to the number of readers; each but the first is
the key's share rounded down, or one less if the share is a whole number. (A key with less than one process gets one, see C41:
what is read does not depend on these numbers.) -/
theorem c87_readers (readers chunk : Nat) (hc : 0 < chunk) (k : K) (v : Nat) (mixture : List (K × Nat))
    (hsum : (((k, v) :: mixture).map Prod.snd).sum ≤ chunk) (hsmall : readers * chunk ≤ 2 ^ 50) :
    let cs := processCounts readers chunk ((k, v) :: mixture)
    cs.map Prod.fst = ((k, v) :: mixture).map Prod.fst ∧ (cs.map Prod.snd).sum = (readers : Int) ∧
      List.Forall₂ (fun p kv => p.1 = kv.1 ∧ NearShare readers chunk kv.2 p.2) cs.tail mixture := by
  intro cs
  have hle : ∀ kv ∈ (k, v) :: mixture, kv.2 ≤ chunk := fun kv hkv =>
    (List.single_le_sum (by simp) _ (List.mem_map_of_mem (f := Prod.snd) hkv)).trans hsum
  set rem : Int := (readers : Int) - ((((k, v) :: mixture).map fun kv => (kv.1, readerShare readers chunk kv.2)).map Prod.snd).sum
    with hrem
  have hcs : cs = (k, readerShare readers chunk v + rem) :: mixture.map fun kv => (kv.1, readerShare readers chunk kv.2) := rfl
  refine ⟨?_, ?_, ?_⟩
  · rw [hcs]; simp [List.map_map, Function.comp_def]
  · rw [hcs, List.map_cons, List.sum_cons]
    have h : rem = (readers : Int) - (readerShare readers chunk v +
        ((mixture.map fun kv => (kv.1, readerShare readers chunk kv.2)).map Prod.snd).sum) := rfl
    omega
  · rw [hcs, List.tail_cons, List.forall₂_map_left_iff, List.forall₂_same]
    exact fun kv hkv => ⟨rfl, (readerShare_spec (hle kv (by simp [hkv])) hc hsmall).1⟩

/-! ## The mixture inferred from a chunk -/

theorem ratios_err (l : List Nat) (S : ℚ) (hS : 0 < S) (hl : (l.map fun c : Nat => (c : ℚ)).sum = S) (hlen : l.length ≤ 2 ^ 53) :
    (l.map fun c : Nat => |fl ((c : ℚ) / S) - c / S|).sum ≤ 2 * u := by
  have h2 : (l.map fun c : Nat => (c : ℚ) / S).sum = 1 := by
    have := sum_div (l.map fun c : Nat => (c : ℚ)) S
    rw [List.map_map, hl, div_self hS.ne'] at this
    exact this
  have h3 : ∀ l : List Nat, (l.map fun c : Nat => |fl ((c : ℚ) / S) - c / S|).sum ≤
      u * (l.map fun c : Nat => (c : ℚ) / S).sum + l.length * η := by
    intro l
    induction l with
    | nil => simp
    | cons a l ih =>
      simp only [List.map_cons, List.sum_cons, List.length_cons]
      have := fl_err ((a : ℚ) / S)
      rw [abs_of_nonneg (show 0 ≤ (a : ℚ) / S by positivity)] at this
      push_cast
      linarith
  refine (h3 l).trans ?_
  rw [h2]
  have h4 : (l.length : ℚ) ≤ 2 ^ 53 := by exact_mod_cast hlen
  have h5 : (l.length : ℚ) * η ≤ 2 ^ 53 * η := mul_le_mul_of_nonneg_right h4 η_pos.le
  have h6 := η_le
  have h7 := η_pos
  linarith

/-- **C87**: the mixture inferred from a chunk with at least one sample is exactly the number of samples of each key, although it
is computed by dividing and multiplying floats. -/
theorem c87_inferred (sum : List ℚ → ℚ) (content : Dict K Entries) (δ : ℚ) (hnd : content.keys.Nodup)
    (hne : contentSamples content ≠ []) (hlen : content.length ≤ 2 ^ 53) (hδ0 : 0 ≤ δ) (hδ : δ ≤ 1 / 1000000)
    (hsum : ∀ l : List ℚ, l.length = content.length → (∀ r ∈ l, fl r = r ∧ 0 ≤ r) → |sum l - l.sum| ≤ δ * l.sum)
    (hsmall : (contentSamples content).length * (2 * δ + 2 ^ (-49 : Int)) < 1) :
    inferChunkMixture sum content = .ok (content.map fun kv => (kv.1, (entriesSamples kv.2).length)) := by
  have hpos : 0 < (contentSamples content).length := List.length_pos_of_ne_nil hne
  have hms := masses_sum content
  set N := (contentSamples content).length with hN
  set S : ℚ := (N : ℚ) with hS
  have hS0 : 0 < S := by rw [hS]; exact_mod_cast hpos
  have hS1 : 1 ≤ S := by rw [hS]; exact_mod_cast hpos
  set counts : List Nat := content.map fun kv => (entriesSamples kv.2).length with hcounts
  have hcs : (counts.map fun c : Nat => (c : ℚ)).sum = S := by
    rw [cast_sum, hS, ← hms]
    congr 2
    rw [Dict.values_mapVal entriesSize]
    simp [hcounts, Dict.values, List.map_map, Function.comp_def, entriesSize_eq_samples]
  have hcl : counts.length = content.length := by simp [hcounts]
  set ws : List ℚ := counts.map fun c : Nat => fl ((c : ℚ) / S) with hws
  have hwn : ∀ w ∈ ws, fl w = w ∧ 0 ≤ w := by
    intro w hw
    obtain ⟨c, _, rfl⟩ := List.mem_map.mp hw
    exact ⟨fl_idem _, fl_nonneg (by positivity)⟩
  have hre := ratios_err counts S hS0 hcs (by rw [hcl]; exact hlen)
  have hr1 : (counts.map fun c : Nat => (c : ℚ) / S).sum = 1 := by
    have := sum_div (counts.map fun c : Nat => (c : ℚ)) S
    rw [List.map_map, hcs, div_self hS0.ne'] at this
    exact this
  have hW : |ws.sum - 1| ≤ 2 * u := by
    have h1 := abs_sum_sub (fun c : Nat => fl ((c : ℚ) / S)) (fun c : Nat => (c : ℚ) / S) counts
    rw [hr1] at h1
    exact h1.trans hre
  have hu : u ≤ 1 / 10 ^ 12 := by norm_num [u]
  have hu0 := u_nonneg
  have hWb := abs_le.mp hW
  have hW0 : 0 < ws.sum := by linarith
  set t := sum ws with ht
  have htW : |t - ws.sum| ≤ δ * ws.sum := hsum ws (by simp [hws, hcl]) hwn
  have hclose : closeToOne t := by
    refine (c86_sum_check t ws.sum (htW.trans (mul_le_mul_of_nonneg_right hδ hW0.le))).1 ?_
    refine hW.trans ?_
    linarith
  have ht0 : 0 < t := by
    have := (abs_le.mp htW).1
    have : δ * ws.sum ≤ 1 / 1000000 * ws.sum := mul_le_mul_of_nonneg_right hδ hW0.le
    linarith
  -- the errors
  have e1 : (counts.map fun c : Nat => |fl (S * fl (fl ((c : ℚ) / S) / t)) - S * (fl ((c : ℚ) / S) / ws.sum)|).sum ≤
      S * (2 * δ + 2 ^ (-50 : Int)) := by
    have := total_err ws hS1 (fun w hw => (hwn w hw).2) hW0 le_rfl (by rw [hws, List.length_map, hcl]; exact hlen) hδ0
      (by linarith) htW
    generalize ws.sum = W at this ⊢
    rw [hws, List.map_map] at this
    exact this
  have e2 : (counts.map fun c : Nat => |S * (fl ((c : ℚ) / S) / ws.sum) - c|).sum ≤ S * 2 ^ (-50 : Int) := by
    have h1 : ∀ l : List Nat, (l.map fun c : Nat => |S * (fl ((c : ℚ) / S) / ws.sum) - c|).sum ≤
        S * (|ws.sum - 1| * ((l.map fun c : Nat => fl ((c : ℚ) / S)).sum / ws.sum) +
          (l.map fun c : Nat => |fl ((c : ℚ) / S) - c / S|).sum) := by
      intro l
      induction l with
      | nil => simp
      | cons a l ih =>
        simp only [List.map_cons, List.sum_cons]
        have hf : 0 ≤ fl ((a : ℚ) / S) := fl_nonneg (by positivity)
        have e : S * (fl ((a : ℚ) / S) / ws.sum) - a =
            S * (-((ws.sum - 1) * (fl ((a : ℚ) / S) / ws.sum)) + (fl ((a : ℚ) / S) - a / S)) := by
          field_simp
          ring
        have h2 : |S * (fl ((a : ℚ) / S) / ws.sum) - a| ≤
            S * (|ws.sum - 1| * (fl ((a : ℚ) / S) / ws.sum) + |fl ((a : ℚ) / S) - a / S|) := by
          rw [e, abs_mul, abs_of_pos hS0]
          refine mul_le_mul_of_nonneg_left ?_ hS0.le
          refine (abs_add_le _ _).trans ?_
          rw [abs_neg, abs_mul, abs_of_nonneg (div_nonneg hf hW0.le)]
        have e3 : S * (|ws.sum - 1| * ((fl ((a : ℚ) / S) + (l.map fun c : Nat => fl ((c : ℚ) / S)).sum) / ws.sum) +
            (|fl ((a : ℚ) / S) - a / S| + (l.map fun c : Nat => |fl ((c : ℚ) / S) - c / S|).sum)) =
            S * (|ws.sum - 1| * (fl ((a : ℚ) / S) / ws.sum) + |fl ((a : ℚ) / S) - a / S|) +
            S * (|ws.sum - 1| * ((l.map fun c : Nat => fl ((c : ℚ) / S)).sum / ws.sum) +
              (l.map fun c : Nat => |fl ((c : ℚ) / S) - c / S|).sum) := by ring
        rw [e3]
        exact add_le_add h2 ih
    refine (h1 counts).trans (mul_le_mul_of_nonneg_left ?_ hS0.le)
    rw [← hws, div_self hW0.ne', mul_one]
    have h5 : 2 * u + 2 * u ≤ 2 ^ (-50 : Int) := by norm_num [u]
    exact (add_le_add hW hre).trans h5
  have herr : (counts.map fun c : Nat => |fl (S * fl (fl ((c : ℚ) / S) / t)) - c|).sum < 1 := by
    have h1 : (counts.map fun c : Nat => |fl (S * fl (fl ((c : ℚ) / S) / t)) - c|).sum ≤
        (counts.map fun c : Nat => |fl (S * fl (fl ((c : ℚ) / S) / t)) - S * (fl ((c : ℚ) / S) / ws.sum)|).sum +
        (counts.map fun c : Nat => |S * (fl ((c : ℚ) / S) / ws.sum) - c|).sum := by
      rw [← List.sum_map_add]
      exact List.sum_le_sum fun c _ => abs_sub_le _ _ _
    refine lt_of_le_of_lt (h1.trans (add_le_add e1 e2)) (lt_of_eq_of_lt ?_ hsmall)
    norm_num
    ring
  -- the rows
  have hchunk : N ≤ 2 ^ 53 := by
    have h1 : S * 2 ^ (-49 : Int) < 1 := by
      have : 0 ≤ S * (2 * δ) := by positivity
      have e : S * (2 * δ + 2 ^ (-49 : Int)) = S * (2 * δ) + S * 2 ^ (-49 : Int) := by ring
      rw [e] at hsmall
      linarith
    have h3 : (2 : ℚ) ^ (-49 : Int) = 1 / 2 ^ 49 := by norm_num
    rw [h3, mul_one_div, div_lt_one (by positivity), hS] at h1
    have h4 : N < 2 ^ 49 := by exact_mod_cast h1
    have : (2 : Nat) ^ 49 ≤ 2 ^ 53 := Nat.pow_le_pow_right (by norm_num) (by norm_num)
    omega
  set m : Dict K ℚ := content.map fun kv => (kv.1, ((entriesSamples kv.2).length : ℚ)) with hm
  have hmk : m.keys = content.keys := by simp [hm, Dict.keys, List.map_map, Function.comp_def]
  obtain ⟨rows, r1, r2, -, -, -, r6⟩ := parse_close N m (fun c => fl (fl (c / S) / t)) (fun c => c) hpos hchunk
    (by rw [hmk]; exact hnd)
    (fun kv hkv => fl_nonneg (div_nonneg (fl_nonneg (div_nonneg (by
      obtain ⟨z, _, rfl⟩ := List.mem_map.mp hkv; positivity) hS0.le)) ht0.le))
    (by rw [← hS, ← hcs, hcounts, hm, List.map_map, List.map_map]; rfl)
    (by
      have e : (m.map fun kv => |fl (N * fl (fl (kv.2 / S) / t)) - kv.2|) =
          counts.map fun c : Nat => |fl (S * fl (fl ((c : ℚ) / S) / t)) - c| := by
        rw [hcounts, hm, List.map_map, List.map_map]; rfl
      rw [e]
      exact herr)
  have hrows : rows = content.map fun kv => (kv.1, (entriesSamples kv.2).length) := by
    refine dict_ext_of_keys (by rw [r2, hmk]; simp [Dict.keys]) (by rw [r2, hmk]; exact hnd) ?_
    intro k r r' hr hr'
    rw [Dict.get?_mapVal (fun e => (entriesSamples e).length)] at hr'
    obtain ⟨e, he, rfl⟩ := Option.map_eq_some_iff.mp hr'
    have h := r6 (fun k w hw => by
      rw [hm, Dict.get?_mapVal (fun e => ((entriesSamples e).length : ℚ))] at hw
      obtain ⟨e, _, rfl⟩ := Option.map_eq_some_iff.mp hw
      exact ⟨_, rfl⟩) k ((entriesSamples e).length : ℚ) r
      (by rw [hm, Dict.get?_mapVal (fun e => ((entriesSamples e).length : ℚ)), he]; rfl) hr
    exact_mod_cast h
  unfold inferChunkMixture inferMixture
  dsimp only
  rw [hms, if_neg (by omega)]
  dsimp only
  unfold staticMixture
  have hvals : (Dict.values ((content.map fun kv => (kv.1, entriesSize kv.2)).map fun kv => (kv.1, fl ((kv.2 : ℚ) / (N : ℕ))))) = ws := by
    simp [hws, hcounts, hS, Dict.values, List.map_map, Function.comp_def, entriesSize_eq_samples]
  rw [hvals, ← ht, if_neg (not_not.mpr hclose), ← hrows, ← r1]
  congr 1
  simp [hm, hS, List.map_map, Function.comp_def, entriesSize_eq_samples]

/-- **C87** with `sum` as a loop of additions. -/
theorem c87_inferred_loop (content : Dict K Entries) (hnd : content.keys.Nodup) (hne : contentSamples content ≠ [])
    (hlen : content.length ≤ 2 ^ 30) (hsmall : (contentSamples content).length * (content.length + 4) < 2 ^ 51) :
    inferChunkMixture loopSum content = .ok (content.map fun kv => (kv.1, (entriesSamples kv.2).length)) := by
  have hq : (content.length : ℚ) ≤ 2 ^ 30 := by exact_mod_cast hlen
  refine c87_inferred loopSum content (content.length / 2 ^ 52) hnd hne
    (hlen.trans (Nat.pow_le_pow_right (by norm_num) (by norm_num))) (by positivity)
    (by rw [div_le_iff₀ (by positivity)]; refine hq.trans ?_; norm_num) (fun l hl hr => ?_) ?_
  · have h := loopSum_err l (fun x hx => (hr x hx).1) (fun x hx => (hr x hx).2)
      (by rw [hl]; exact hlen.trans (Nat.pow_le_pow_right (by norm_num) (by norm_num)))
    rw [hl] at h
    exact h
  · have e : ((contentSamples content).length : ℚ) * (2 * (content.length / 2 ^ 52) + 2 ^ (-49 : Int)) =
        (contentSamples content).length * (content.length + 4) / 2 ^ 51 := by norm_num; ring
    rw [e, div_lt_one (by positivity)]
    exact_mod_cast hsmall

/-- The hypotheses are met. -/
example : inferChunkMixture loopSum [(1, [(0, [(0, [(0, 1)])])]), (2, [(0, [(0, [(7, 55)])])])] = .ok [(1, 1), (2, 48)] := by
  decide +kernel

example : elementCounts 10 100 [('a', 50), ('b', 29), ('c', 21)] = [('a', 6), ('b', 2), ('c', 2)] ∧
    (∀ kv ∈ [('a', 50), ('b', 29), ('c', 21)], 100 < 10 * kv.2) := by decide +kernel

example : processCounts 8 100 [('a', 50), ('b', 29), ('c', 21)] = [('a', 5), ('b', 2), ('c', 1)] := by decide +kernel

end Mixtera.F64
