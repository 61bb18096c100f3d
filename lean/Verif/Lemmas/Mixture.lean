import Verif.Model.Mixture
import Verif.Spec.Rounding
import Verif.Lemmas.Rounding
import Verif.Lemmas.Dict
import Verif.Lemmas.Sort
import Mathlib.Tactic.Linarith
import Mathlib.Tactic.FieldSimp
import Mathlib.Tactic.Positivity

/-!
# Lemmas about rounding user mixtures
-/

set_option linter.unusedSectionVars false

namespace Mixtera

variable {K : Type} [DecidableEq K]

theorem Dict.get?_mapVal {α β γ : Type} [DecidableEq α] (f : β → γ) (d : Dict α β) (k : α) :
    Dict.get? (d.map fun kv => (kv.1, f kv.2)) k = (d.get? k).map f := by
  induction d with
  | nil => rfl
  | cons x d ih =>
    obtain ⟨a, b⟩ := x
    rw [List.map_cons, Dict.get?_cons, Dict.get?_cons, ih]
    split <;> simp

theorem Dict.keys_mapVal {α β γ : Type} (f : β → γ) (d : Dict α β) :
    Dict.keys (d.map fun kv => (kv.1, f kv.2)) = d.keys := by
  simp [Dict.keys, List.map_map, Function.comp_def]

theorem Dict.values_mapVal {α β γ : Type} (f : β → γ) (d : Dict α β) :
    Dict.values (d.map fun kv => (kv.1, f kv.2)) = d.values.map f := by
  simp [Dict.values, List.map_map, Function.comp_def]

theorem addRemainder_spec (keys : List K) (diff index : Nat) (d : Dict K Nat) (hne : keys ≠ []) (hsub : ∀ k ∈ keys, k ∈ d.keys) :
    ∃ out, addRemainder keys diff index d = .ok out ∧ out.keys = d.keys ∧ out.values.sum = d.values.sum + diff ∧
      (keys.Nodup → index + diff ≤ keys.length → ∀ k v, d.get? k = some v →
        out.get? k = some (v + if k ∈ (keys.drop index).take diff then 1 else 0)) := by
  induction diff generalizing index d with
  | zero => exact ⟨d, rfl, rfl, rfl, fun _ _ k v hv => by simpa using hv⟩
  | succ diff ih =>
    have hlt : index % keys.length < keys.length := Nat.mod_lt _ (List.length_pos_of_ne_nil hne)
    have hget : keys[index % keys.length]? = some keys[index % keys.length] := List.getElem?_eq_getElem hlt
    rw [addRemainder, hget]
    dsimp only
    generalize hk0 : keys[index % keys.length] = k0 at hget
    have hmem : k0 ∈ keys := hk0 ▸ List.getElem_mem hlt
    have hkeys := Dict.keys_upsert_of_mem (hsub k0 hmem) (fun o => o.getD 0 + 1)
    obtain ⟨out, h1, h2, h3, h4⟩ := ih (index + 1) (d.upsert k0 fun o => o.getD 0 + 1) (by rw [hkeys]; exact hsub)
    refine ⟨out, h1, h2.trans hkeys, ?_, ?_⟩
    · rw [h3, Dict.values_sum, Dict.sumBy_upsert (fun _ n => n) d k0 _ 1, ← Dict.values_sum]
      · omega
      · intro o _; cases o <;> simp
    · intro hnd hle k v hv
      have hidx : index < keys.length := by omega
      have hmod : index % keys.length = index := Nat.mod_eq_of_lt hidx
      have hk0' : keys[index] = k0 := by rw [← hk0]; simp only [hmod]
      have hdrop : keys.drop index = k0 :: keys.drop (index + 1) := by rw [List.drop_eq_getElem_cons hidx, hk0']
      have hnot : k0 ∉ keys.drop (index + 1) := by
        have : (keys.drop index).Nodup := hnd.sublist (List.drop_sublist _ _)
        rw [hdrop] at this
        exact (List.nodup_cons.mp this).1
      rw [hdrop, List.take_succ_cons]
      by_cases he : k0 = k
      · subst he
        rw [h4 hnd (by omega) k0 (v + 1) (by rw [Dict.get?_upsert, if_pos rfl, hv]; rfl)]
        have : k0 ∉ (keys.drop (index + 1)).take diff := fun h => hnot (List.mem_of_mem_take h)
        simp [this]
      · rw [h4 hnd (by omega) k v (by rw [Dict.get?_upsert, if_neg he, hv])]
        have : (k ∈ k0 :: (keys.drop (index + 1)).take diff) ↔ k ∈ (keys.drop (index + 1)).take diff := by
          simp [Ne.symm he]
        simp only [this]

theorem floorCounts_keys (chunk : Nat) (m : Dict K ℚ) : (floorCounts chunk m).keys = m.keys := by
  exact Dict.keys_mapVal (fun v : ℚ => (pyInt ((chunk : ℚ) * v)).toNat) m

theorem floorCounts_get? (chunk : Nat) (m : Dict K ℚ) (k : K) :
    (floorCounts chunk m).get? k = (m.get? k).map fun v => (pyInt (chunk * v)).toNat :=
  Dict.get?_mapVal (fun v : ℚ => (pyInt ((chunk : ℚ) * v)).toNat) m k

theorem floorCounts_sum (chunk : Nat) (m : Dict K ℚ) (hnn : ∀ kv ∈ m, 0 ≤ kv.2) :
    (((floorCounts chunk m).values.sum : Nat) : Int) = ((m.values.map ((chunk : ℚ) * ·)).map pyInt).sum := by
  unfold floorCounts
  rw [Dict.values_mapVal (fun v : ℚ => (pyInt ((chunk : ℚ) * v)).toNat)]
  induction m with
  | nil => rfl
  | cons x m ih =>
    have h0 : 0 ≤ pyInt ((chunk : ℚ) * x.2) := pyInt_nonneg (mul_nonneg (by positivity) (hnn x (by simp)))
    have := ih (fun kv h => hnn kv (by simp [h]))
    simp only [Dict.values, List.map_cons, List.sum_cons, Nat.cast_add] at this ⊢
    rw [this, Int.toNat_of_nonneg h0]

theorem sortedKeys_perm (chunk : Nat) (m : Dict K ℚ) : (sortedKeys chunk m).Perm m.keys := (sortBy_perm _ _).map _

theorem sortedKeys_sorted (chunk : Nat) (m : Dict K ℚ) (hnd : m.keys.Nodup) :
    (sortedKeys chunk m).Pairwise fun k k' => ∀ q q', m.get? k = some q → m.get? k' = some q' →
      fraction chunk q' ≤ fraction chunk q := by
  unfold sortedKeys
  rw [List.pairwise_map]
  have hs := sortBy_sorted (fun (a b : K × ℚ) => decide (fraction chunk b.2 ≤ fraction chunk a.2))
    (by intro a b; simp; exact le_total _ _) (by intro a b c; simp; exact fun h1 h2 => h2.trans h1) m
  refine hs.imp_of_mem ?_
  intro a b ha hb hab q q' hq hq'
  have ha' := Dict.get?_of_mem hnd ((sortBy_perm _ m).mem_iff.mp ha)
  have hb' := Dict.get?_of_mem hnd ((sortBy_perm _ m).mem_iff.mp hb)
  rw [ha'] at hq
  rw [hb'] at hq'
  simp only [Option.some.injEq] at hq hq'
  subst hq hq'
  simpa using hab

theorem any_neg_false {m : Dict K ℚ} (hnn : ∀ kv ∈ m, 0 ≤ kv.2) : (m.any fun kv => decide (kv.2 < 0)) = false := by
  rw [List.any_eq_false]
  intro kv hkv
  simpa using hnn kv hkv

/-- Rounding non-negative weights whose sum deviates from 1 by less than one row. -/
theorem parseUserMixture_spec (chunk : Nat) (m : Dict K ℚ) (hnd : m.keys.Nodup) (hne : m ≠ []) (hnn : ∀ kv ∈ m, 0 ≤ kv.2)
    (hlo : (chunk : ℚ) - 1 < chunk * m.values.sum) (hhi : chunk * m.values.sum < chunk + 1) :
    ∃ rows, parseUserMixture chunk m = .ok rows ∧ Rounded chunk m rows := by
  have hex0 : ∀ x ∈ m.values.map ((chunk : ℚ) * ·), 0 ≤ x := by
    intro x hx
    rw [List.mem_map] at hx
    obtain ⟨q, hq, rfl⟩ := hx
    obtain ⟨kv, hkv, rfl⟩ := List.mem_map.mp hq
    exact mul_nonneg (by positivity) (hnn kv hkv)
  have hexne : m.values.map ((chunk : ℚ) * ·) ≠ [] := by simpa [Dict.values] using hne
  have hexsum : (m.values.map ((chunk : ℚ) * ·)).sum = chunk * m.values.sum := sum_map_const_mul _ _
  obtain ⟨b1, _, b3⟩ := sum_floor_bounds _ hex0
  have b3 := b3 hexne
  rw [hexsum, ← floorCounts_sum chunk m hnn] at b1 b3
  have hlen : (m.values.map ((chunk : ℚ) * ·)).length = m.keys.length := by simp [Dict.values, Dict.keys]
  rw [hlen] at b3
  have hS : ¬ chunk < (floorCounts chunk m).values.sum := by
    have : (((floorCounts chunk m).values.sum : Int) : ℚ) < ((chunk + 1 : Int) : ℚ) := by push_cast at b1 ⊢; linarith
    have := Int.cast_lt.mp this
    omega
  have hD : 0 + (chunk - (floorCounts chunk m).values.sum) ≤ (sortedKeys chunk m).length := by
    rw [(sortedKeys_perm chunk m).length_eq]
    have : ((chunk - 1 : Int) : ℚ) < (((floorCounts chunk m).values.sum + m.keys.length : Int) : ℚ) := by
      push_cast at b3 ⊢; linarith
    have := Int.cast_lt.mp this
    omega
  have hsne : sortedKeys chunk m ≠ [] := by
    intro e
    have := (sortedKeys_perm chunk m).length_eq
    rw [e] at this
    simp [Dict.keys] at this
    exact hne (List.length_eq_zero_iff.mp this.symm)
  obtain ⟨out, h1, h2, h3, h4⟩ := addRemainder_spec (sortedKeys chunk m) (chunk - (floorCounts chunk m).values.sum) 0
    (floorCounts chunk m) hsne (by intro k hk; rw [floorCounts_keys]; exact (sortedKeys_perm chunk m).mem_iff.mp hk)
  have hsnd : (sortedKeys chunk m).Nodup := (sortedKeys_perm chunk m).nodup_iff.mpr hnd
  have h4 := h4 hsnd hD
  rw [List.drop_zero] at h4
  have htot : out.values.sum = chunk := by rw [h3]; omega
  have hval : ∀ k q r, m.get? k = some q → out.get? k = some r → (r : Int) = ⌊(chunk : ℚ) * q⌋ +
      if k ∈ (sortedKeys chunk m).take (chunk - (floorCounts chunk m).values.sum) then 1 else 0 := by
    intro k q r hq hr
    have hq0 : 0 ≤ (chunk : ℚ) * q := mul_nonneg (by positivity) (hnn _ (Dict.mem_of_get? hq))
    have := h4 k (pyInt (chunk * q)).toNat (by rw [floorCounts_get?, hq]; rfl)
    rw [hr] at this
    simp only [Option.some.injEq] at this
    rw [this, pyInt_nonneg_eq hq0]
    push_cast
    rw [Int.toNat_of_nonneg (Int.floor_nonneg.mpr hq0)]
  refine ⟨out, ?_, ?_⟩
  · unfold parseUserMixture
    rw [any_neg_false hnn, if_neg (by simp), if_neg hS, h1]
    simp [htot]
  · refine ⟨by rw [h2, floorCounts_keys], htot, ?_, ?_⟩
    · intro k q r hq hr
      rw [hval k q r hq hr]
      split <;> simp
    · intro k q r k' q' r' hq hr hq' hr' e e'
      rw [hval k q r hq hr] at e
      rw [hval k' q' r' hq' hr'] at e'
      have hk : k ∈ (sortedKeys chunk m).take (chunk - (floorCounts chunk m).values.sum) := by
        by_contra hc; rw [if_neg hc] at e; omega
      have hk' : k' ∉ (sortedKeys chunk m).take (chunk - (floorCounts chunk m).values.sum) := by
        intro hc; rw [if_pos hc] at e'; omega
      have hkm : k' ∈ sortedKeys chunk m :=
        (sortedKeys_perm chunk m).mem_iff.mpr ((Dict.mem_keys_iff m k').mpr ⟨q', hq'⟩)
      have hs := sortedKeys_sorted chunk m hnd
      rw [← List.take_append_drop (chunk - (floorCounts chunk m).values.sum) (sortedKeys chunk m)] at hkm hs
      have hkd := (List.mem_append.mp hkm).resolve_left hk'
      have := (List.pairwise_append.mp hs).2.2 k hk k' hkd q q' hq hq'
      unfold fraction at this
      rw [pyInt_nonneg_eq (mul_nonneg (by positivity) (hnn _ (Dict.mem_of_get? hq))),
        pyInt_nonneg_eq (mul_nonneg (by positivity) (hnn _ (Dict.mem_of_get? hq')))] at this
      exact this

/-- With shares that sum to exactly 1, whole amounts stay exact. -/
theorem Rounded.exact {chunk : Nat} {share : Dict K ℚ} {rows : Dict K Nat} (h : Rounded chunk share rows)
    (hnd : share.keys.Nodup) (hsum : share.values.sum = 1) (k : K) (q : ℚ) (r n : Nat) (hq : share.get? k = some q)
    (hr : rows.get? k = some r) (hn : (chunk : ℚ) * q = n) : r = n := by
  have hfl : ⌊(chunk : ℚ) * q⌋ = n := by rw [hn]; simp
  rcases h.near k q r hq hr with e | e
  · rw [hfl] at e; exact_mod_cast e
  · exfalso
    have hall : ∀ k' q' r', share.get? k' = some q' → rows.get? k' = some r' → (chunk : ℚ) * q' ≤ r' := by
      intro k' q' r' hq' hr'
      rcases h.near k' q' r' hq' hr' with e' | e'
      · have := h.largest k q r k' q' r' hq hr hq' hr' e e'
        rw [hn] at this
        simp only [Int.fract_natCast] at this
        have h0 := Int.fract_nonneg ((chunk : ℚ) * q')
        have hz : Int.fract ((chunk : ℚ) * q') = 0 := le_antisymm this h0
        have := Int.self_sub_floor ((chunk : ℚ) * q')
        rw [hz, ← e'] at this
        push_cast at this
        linarith
      · have := Int.lt_floor_add_one ((chunk : ℚ) * q')
        have e2 : ((r' : Int) : ℚ) = ⌊(chunk : ℚ) * q'⌋ + 1 := by rw [e']; push_cast; ring
        push_cast at e2
        linarith
    have hlt : (chunk : ℚ) * q < r := by
      have e2 : ((r : Int) : ℚ) = n + 1 := by rw [e, hfl]; push_cast; ring
      push_cast at e2
      rw [hn, e2]; linarith
    -- compare the sums
    have key : ∀ (s : Dict K ℚ) (t : Dict K Nat), s.keys = t.keys → s.keys.Nodup →
        (∀ k' q' r', s.get? k' = some q' → t.get? k' = some r' → (chunk : ℚ) * q' ≤ r') →
        (chunk : ℚ) * s.values.sum ≤ t.values.sum ∧
        ((∃ k' q' r', s.get? k' = some q' ∧ t.get? k' = some r' ∧ (chunk : ℚ) * q' < r') →
          (chunk : ℚ) * s.values.sum < t.values.sum) := by
      intro s
      induction s with
      | nil =>
        intro t ht _ _
        cases t with
        | nil => simp [Dict.values, Dict.get?]
        | cons y t => simp [Dict.keys] at ht
      | cons x s ih =>
        intro t ht hnd hle
        cases t with
        | nil => simp [Dict.keys] at ht
        | cons y t =>
          obtain ⟨a, b⟩ := x
          obtain ⟨a', b'⟩ := y
          simp only [Dict.keys, List.map_cons, List.cons.injEq, List.nodup_cons] at ht hnd
          obtain ⟨rfl, ht⟩ := ht
          have hne : ∀ k' q', Dict.get? s k' = some q' → a ≠ k' := by
            rintro k' q' hk' rfl
            exact hnd.1 ((Dict.mem_keys_iff s a).mpr ⟨q', hk'⟩)
          obtain ⟨i1, i2⟩ := ih t ht hnd.2 (fun k' q' r' h1 h2 => hle k' q' r'
            (by rw [Dict.get?_cons, if_neg (hne k' q' h1)]; exact h1) (by rw [Dict.get?_cons, if_neg (hne k' q' h1)]; exact h2))
          have hhead := hle a b b' (by simp [Dict.get?_cons]) (by simp [Dict.get?_cons])
          simp only [Dict.values, List.map_cons, List.sum_cons] at i1 i2 ⊢
          push_cast
          constructor
          · nlinarith
          · rintro ⟨k', q', r', h1, h2, h3⟩
            rw [Dict.get?_cons] at h1 h2
            by_cases he : a = k'
            · rw [if_pos he] at h1 h2
              simp only [Option.some.injEq] at h1 h2
              subst h1 h2
              nlinarith
            · rw [if_neg he] at h1 h2
              have := i2 ⟨k', q', r', h1, h2, h3⟩
              nlinarith
    have := (key share rows h.keys.symm hnd hall).2 ⟨k, q, r, hq, hr, hlt⟩
    rw [hsum, h.total] at this
    linarith

end Mixtera
