import Verif.Lemmas.CompLoop
import Mathlib.Tactic.FieldSimp
import Mathlib.Algebra.Order.Field.Rat

set_option linter.unusedSectionVars false

namespace Mixtera

variable {K : Type} [DecidableEq K]

def Att.mix (st : Att K) (k : K) : Nat := (st.mixture.get? k).getD 0

/-- All components matching `k` are used up. -/
def Att.Exhausted (ops : KeyOps K) (st : Att K) (k : K) : Prop :=
  ∀ c ∈ st.iters.keys, ops.isMatch k c = true → samples (st.it c) = []

/-- Loop invariant of an attempt started with `iters0` and `rows`. -/
structure AttInv (ops : KeyOps K) (iters0 : Dict K (List Seg)) (rows : Dict K Nat) (st : Att K) : Prop where
  remNodup : st.remaining.keys.Nodup
  mixNodup : st.mixture.keys.Nodup
  mixSub : ∀ k ∈ st.mixture.keys, k ∈ rows.keys
  remMix : ∀ k ∈ st.remaining.keys, k ∈ st.mixture.keys
  bal : ∀ k, entW sizeW (st.ce k) + st.rem k = st.mix k
  sum : st.remaining ≠ [] → st.mixture.values.sum = rows.values.sum
  iterKeys : st.iters.keys = iters0.keys
  iterSuffix : ∀ c, samples (st.it c) <:+ samples ((iters0.get? c).getD [])
  chunkNodup : st.chunk.keys.Nodup
  chunkSub : ∀ k ∈ st.chunk.keys, k ∈ rows.keys
  cons : ∀ p, unread p st.iters + chunkW (countW p) st.chunk = unread p iters0
  prov : ∀ k p, 0 < entW (countW p) (st.ce k) →
    ∃ c, c ∈ iters0.keys ∧ ops.isMatch k c = true ∧ p ∈ samples ((iters0.get? c).getD [])
  popped : ∀ k ∈ rows.keys, k ∉ st.remaining.keys → st.Exhausted ops k
  iterOther : ∀ c, (∀ k ∈ rows.keys, ops.isMatch k c = false) → st.iters.get? c = iters0.get? c
  short : st.remaining = [] → rows ≠ [] → st.mixture.values.sum < rows.values.sum

theorem AttInv.start (ops : KeyOps K) (iters0 : Dict K (List Seg)) (rows : Dict K Nat)
    (hn : rows.keys.Nodup) : AttInv ops iters0 rows (Att.start iters0 rows) where
  remNodup := hn
  mixNodup := hn
  mixSub _ := id
  remMix _ := id
  bal k := by simp [Att.ce, Att.start, Att.rem, Att.mix]
  sum _ := rfl
  iterKeys := rfl
  iterSuffix _ := List.suffix_refl _
  chunkNodup := by simp [Att.start, Dict.keys]
  chunkSub k hk := by simp [Att.start, Dict.keys] at hk
  cons p := by simp [Att.start, chunkW]
  prov k p h := by simp [Att.start, Att.ce] at h
  popped k hk h := absurd hk h
  iterOther _ _ := rfl
  short h h' := absurd h h'

theorem CompRel.exhausted {ops : KeyOps K} {mk : K} {st st' : Att K} (r : CompRel ops mk st st') {k : K}
    (h : st.Exhausted ops k) : st'.Exhausted ops k := by
  intro c hc hm
  have := r.iterSuffix c
  rw [h c (r.iterKeys ▸ hc) hm] at this
  exact List.suffix_nil.mp this

theorem AttInv.comp {ops : KeyOps K} {iters0 : Dict K (List Seg)} {rows : Dict K Nat} {mk : K} {st st' : Att K}
    (hmk : mk ∈ st.remaining.keys) (h : AttInv ops iters0 rows st) (r : CompRel ops mk st st') :
    AttInv ops iters0 rows st' where
  remNodup := by rw [r.remKeys]; exact h.remNodup
  mixNodup := by rw [r.mixture]; exact h.mixNodup
  mixSub := by rw [r.mixture]; exact h.mixSub
  remMix := by rw [r.mixture, r.remKeys]; exact h.remMix
  bal k := by
    have := h.bal k
    by_cases hk : k = mk
    · subst hk
      have := r.size
      simp only [Att.mix, r.mixture] at *
      omega
    · simp only [Att.mix, Att.ce, Att.rem, r.mixture, r.remOther k hk, r.chunkOther k hk] at *
      omega
  sum hne := by
    rw [r.mixture]
    apply h.sum
    intro h0
    have := r.remKeys
    rw [h0] at this
    apply hne
    simpa [Dict.keys] using this
  iterKeys := r.iterKeys.trans h.iterKeys
  iterSuffix c := (r.iterSuffix c).trans (h.iterSuffix c)
  chunkNodup := r.chunkKeys h.chunkNodup
  chunkSub k hk := by
    rcases r.chunkKeysSub k hk with rfl | hk
    · exact h.mixSub _ (h.remMix _ hmk)
    · exact h.chunkSub k hk
  cons p := (r.cons p).trans (h.cons p)
  prov k p hp := by
    by_cases hk : k = mk
    · subst hk
      rcases r.prov p hp with hp | ⟨c, hc, hm, hp⟩
      · exact h.prov k p hp
      · exact ⟨c, h.iterKeys ▸ hc, hm, (h.iterSuffix c).subset hp⟩
    · simp only [Att.ce, r.chunkOther k hk] at hp
      exact h.prov k p hp
  popped k hk hk' := r.exhausted (h.popped k hk (r.remKeys ▸ hk'))
  iterOther c hc := (r.iterOther c (hc mk (h.mixSub _ (h.remMix _ hmk)))).trans (h.iterOther c hc)
  short h0 := by
    have := r.remKeys
    rw [h0] at this
    rw [← this] at hmk
    simp [Dict.keys] at hmk

/-! ### addAll -/

def added (k : K) : List (K × Int) → Nat
  | [] => 0
  | (k', x) :: l => (if k' = k then x.toNat else 0) + added k l

theorem addAll_getD (d : Dict K Nat) (l : List (K × Int)) (k : K) :
    ((addAll d l).get? k).getD 0 = (d.get? k).getD 0 + added k l := by
  induction l generalizing d with
  | nil => simp [addAll, added]
  | cons kx l ih =>
    obtain ⟨k', x⟩ := kx
    rw [addAll, ih, Dict.get?_upsert, added]
    split
    · rename_i h; subst h; simp; omega
    · omega

theorem addAll_keys (d : Dict K Nat) (l : List (K × Int)) (h : ∀ kx ∈ l, kx.1 ∈ d.keys) :
    (addAll d l).keys = d.keys := by
  induction l generalizing d with
  | nil => rfl
  | cons kx l ih =>
    obtain ⟨k', x⟩ := kx
    have hk := Dict.keys_upsert_of_mem (h (k', x) (by simp)) (fun o => o.getD 0 + x.toNat)
    rw [addAll, ih]
    · exact hk
    · intro kx hkx; rw [hk]; exact h kx (by simp [hkx])

theorem addAll_sum (d : Dict K Nat) (l : List (K × Int)) :
    (addAll d l).values.sum = d.values.sum + (l.map fun kx => kx.2.toNat).sum := by
  induction l generalizing d with
  | nil => rfl
  | cons kx l ih =>
    obtain ⟨k', x⟩ := kx
    rw [addAll, ih, Dict.values_sum, Dict.sumBy_upsert (m := x.toNat)]
    · simp [Dict.values_sum]; omega
    · intro o _; cases o <;> simp

theorem sum_toNat (l : List Int) (h : ∀ x ∈ l, 0 ≤ x) : ((l.map Int.toNat).sum : Int) = l.sum := by
  induction l with
  | nil => rfl
  | cons a l ih =>
    have ha := h a (by simp)
    have := ih (fun x hx => h x (by simp [hx]))
    simp only [List.map_cons, List.sum_cons]
    push_cast [this]
    omega

theorem natCast_sum (l : List Nat) : ((l.sum : Nat) : ℚ) = (l.map (fun n : Nat => (n : ℚ))).sum := by
  induction l with
  | nil => simp
  | cons a l ih => simp [ih]

/-- Distributing by the ratios `x_i / sum x`. -/
theorem distribute_props (missing : Nat) (xs : List Nat) (hpos : xs.sum ≠ 0) :
    ∃ out, distributeByRatio missing (xs.map fun x => ((x : Nat) : ℚ) / ((xs.sum : Nat) : ℚ)) = .ok out ∧
      out.length = xs.length ∧ out.sum = missing ∧ ∀ x ∈ out, 0 ≤ x := by
  have hq : ((xs.sum : Nat) : ℚ) ≠ 0 := by exact_mod_cast hpos
  have hsum : (xs.map fun x => ((x : Nat) : ℚ) / ((xs.sum : Nat) : ℚ)).sum = 1 := by
    have := sum_map_div_const (xs.map (fun n : Nat => (n : ℚ))) ((xs.sum : Nat) : ℚ)
    rw [List.map_map] at this
    rw [show (xs.map fun x => ((x : Nat) : ℚ) / ((xs.sum : Nat) : ℚ)) =
      List.map ((fun x => x / ((xs.sum : Nat) : ℚ)) ∘ fun n : Nat => (n : ℚ)) xs from rfl, this,
      ← natCast_sum]
    exact div_self hq
  have hne : xs ≠ [] := by rintro rfl; simp at hpos
  obtain ⟨out, h1, h2, h3, h4, _⟩ := distributeByRatio_spec missing
    (xs.map fun x => ((x : Nat) : ℚ) / ((xs.sum : Nat) : ℚ)) (by simpa using hne)
    (by intro r hr; simp only [List.mem_map] at hr; obtain ⟨x, _, rfl⟩ := hr; positivity)
    (by rw [hsum]; norm_num) (by rw [hsum]; norm_num)
  refine ⟨out, h1, by simpa using h2, h3, ?_⟩
  intro x hx
  obtain ⟨i, hi, rfl⟩ := List.mem_iff_getElem.mp hx
  have hi' : i < (xs.map fun x => ((x : Nat) : ℚ) / ((xs.sum : Nat) : ℚ)).length := by rw [← h2]; exact hi
  have hfl : 0 ≤ ⌊(xs.map fun x => ((x : Nat) : ℚ) / ((xs.sum : Nat) : ℚ))[i] * (missing : ℚ)⌋ := by
    apply Int.floor_nonneg.mpr
    simp only [List.getElem_map]
    positivity
  rcases h4 i hi' with h | h
  · rw [List.getElem?_eq_getElem hi] at h; simp only [Option.some.injEq] at h; omega
  · rw [List.getElem?_eq_getElem hi] at h; simp only [Option.some.injEq] at h; omega

/-! ### redistribute -/

theorem sort_perm (ops : KeyOps K) (l : List K) : (ops.sort l).Perm l := sortBy_perm _ _

/-- Every open key has a positive share. -/
def Att.Pos (st : Att K) : Prop := ∀ k ∈ st.remaining.keys, 0 < st.mix k

theorem redistribute_spec {ops : KeyOps K} {iters0 : Dict K (List Seg)} {rows : Dict K Nat} {mk : K} {st : Att K}
    (h : AttInv ops iters0 rows st) (hmk : mk ∈ st.remaining.keys) (hpos : 0 < st.rem mk)
    (hex : st.Exhausted ops mk) :
    (redistribute ops mk st = .error .zeroDivision ∧ ¬ st.Pos) ∨
    ∃ st', redistribute ops mk st = .ok st' ∧ AttInv ops iters0 rows st' ∧ (st.Pos → st'.Pos) ∧
      st'.iters = st.iters ∧ st'.chunk = st.chunk ∧ st'.remaining.length + 1 = st.remaining.length ∧
      (st'.progress = true ∨ st'.remaining = []) := by
  have hbal := h.bal mk
  have hle : (st.remaining.get? mk).getD 0 ≤ (st.mixture.get? mk).getD 0 := by
    have : st.rem mk ≤ st.mix mk := by omega
    exact this
  obtain ⟨planned, hplanned⟩ := (Dict.mem_keys_iff _ _).mp (h.remMix mk hmk)
  obtain ⟨missing, hmissing⟩ := (Dict.mem_keys_iff _ _).mp hmk
  have hmp : missing ≤ planned := by simpa [hplanned, hmissing] using hle
  have hmpos : 0 < missing := by simpa [Att.rem, hmissing] using hpos
  simp only [redistribute, hmissing, hplanned, Option.getD_some, if_pos hmp]
  -- the mixture after removing the missing samples
  set M : Dict K Nat := if missing = planned then st.mixture.pop mk else st.mixture.set mk (planned - missing) with hM
  have hMget : ∀ k, (M.get? k).getD 0 = if k = mk then planned - missing else st.mix k := by
    intro k
    rw [hM]
    by_cases he : missing = planned
    · simp only [if_pos he, Dict.get?_pop h.mixNodup]
      by_cases hk : k = mk
      · subst hk; simp; omega
      · simp [Ne.symm hk, hk, Att.mix]
    · simp only [if_neg he, Dict.get?_set]
      by_cases hk : k = mk
      · subst hk; simp
      · simp [Ne.symm hk, hk, Att.mix]
  have hMkeys : ∀ k, k ≠ mk → (k ∈ M.keys ↔ k ∈ st.mixture.keys) := by
    intro k hk
    rw [hM]
    by_cases he : missing = planned
    · simp [if_pos he, Dict.mem_keys_pop h.mixNodup, hk]
    · rw [if_neg he]
      rw [Dict.keys_set_of_mem (h.remMix mk hmk)]
  have hMsub : ∀ k ∈ M.keys, k ∈ rows.keys := by
    intro k hk
    by_cases hkm : k = mk
    · subst hkm; exact h.mixSub _ (h.remMix _ hmk)
    · exact h.mixSub _ ((hMkeys k hkm).mp hk)
  have hMnodup : M.keys.Nodup := by
    rw [hM]; split
    · exact Dict.nodup_keys_pop h.mixNodup _
    · exact Dict.nodup_keys_upsert h.mixNodup _ _
  have hMsum : M.values.sum + missing = st.mixture.values.sum := by
    rw [hM, Dict.values_sum, Dict.values_sum]
    split
    · rename_i he; subst he
      exact Dict.sumBy_pop_add (fun _ n => n) _ _ _ hplanned
    · have := Dict.sumBy_set_add (fun _ n => n) st.mixture mk (planned - missing) planned hplanned
      omega
  have hRnodup := Dict.nodup_keys_pop h.remNodup mk
  have hRkeys : ∀ k, k ∈ (st.remaining.pop mk).keys ↔ k ≠ mk ∧ k ∈ st.remaining.keys :=
    Dict.mem_keys_pop h.remNodup mk
  have hRget : ∀ k, ((st.remaining.pop mk).get? k).getD 0 = if k = mk then 0 else st.rem k := by
    intro k
    rw [Dict.get?_pop h.remNodup]
    by_cases hk : k = mk
    · subst hk; simp
    · simp [Ne.symm hk, hk, Att.rem]
  have hpop : ∀ k ∈ rows.keys, k ∉ (st.remaining.pop mk).keys → st.Exhausted ops k := by
    intro k hk hk'
    by_cases hkm : k = mk
    · subst hkm; exact hex
    · exact h.popped k hk (fun h2 => hk' ((hRkeys k).mpr ⟨hkm, h2⟩))
  have hlen := Dict.length_pop_of_mem hmk
  have hce : st.rem mk = missing := by simp [Att.rem, hmissing]
  have hmx : st.mix mk = planned := by simp [Att.mix, hplanned]
  by_cases hR : st.remaining.pop mk = []
  · right
    rw [if_pos hR]
    refine ⟨_, rfl, ?_, ?_, rfl, rfl, by simpa using hlen, Or.inr hR⟩
    · exact
      { remNodup := hRnodup
        mixNodup := hMnodup
        mixSub := hMsub
        remMix := by intro k hk; simp only [hR] at hk; simp [Dict.keys] at hk
        bal := by
          intro k
          have := h.bal k
          simp only [Att.ce, Att.rem, Att.mix, hMget, hRget] at *
          by_cases hk : k = mk
          · subst hk; simp [hmissing, hplanned] at this ⊢; omega
          · simp [hk]; omega
        sum := fun hne => absurd hR hne
        iterKeys := h.iterKeys
        iterSuffix := h.iterSuffix
        chunkNodup := h.chunkNodup
        chunkSub := h.chunkSub
        cons := h.cons
        prov := h.prov
        popped := hpop
        iterOther := h.iterOther
        short := by
          intro _ _
          have : st.remaining ≠ [] := by intro h0; simp [h0, Dict.keys] at hmk
          have := h.sum this
          dsimp only
          omega }
    · intro _ k hk; simp only [hR] at hk; simp [Dict.keys] at hk
  · rw [if_neg hR]
    have htp : (ops.sort (st.remaining.pop mk).keys).Perm (st.remaining.pop mk).keys := sort_perm ..
    by_cases hT : ((ops.sort (st.remaining.pop mk).keys).map fun k => (M.get? k).getD 0).sum = 0
    · left
      rw [if_pos hT]
      refine ⟨rfl, ?_⟩
      intro hp
      obtain ⟨k, hk⟩ : ∃ k, k ∈ (st.remaining.pop mk).keys := by
        cases hc : (st.remaining.pop mk) with
        | nil => exact absurd hc hR
        | cons a l => exact ⟨a.1, by simp [Dict.keys]⟩
      have hk' := (hRkeys k).mp hk
      have h0 : (M.get? k).getD 0 = 0 := by
        have hmem : (M.get? k).getD 0 ∈ (ops.sort (st.remaining.pop mk).keys).map fun k => (M.get? k).getD 0 :=
          List.mem_map_of_mem (f := fun k => (M.get? k).getD 0) (htp.mem_iff.mpr hk)
        have hall := List.sum_eq_zero_iff.mp hT
        exact hall _ hmem
      rw [hMget, if_neg hk'.1] at h0
      have := hp k hk'.2
      omega
    · rw [if_neg hT]
      right
      obtain ⟨extra, hd, hel, hes, henn⟩ := distribute_props missing
        ((ops.sort (st.remaining.pop mk).keys).map fun k => (M.get? k).getD 0) hT
      rw [List.map_map] at hd
      have hd' : distributeByRatio missing (List.map (fun k => (((M.get? k).getD 0 : Nat) : ℚ) /
          ((((ops.sort (st.remaining.pop mk).keys).map fun k => (M.get? k).getD 0).sum : Nat) : ℚ))
          (ops.sort (st.remaining.pop mk).keys)) = .ok extra := hd
      rw [hd']
      dsimp only
      rw [if_pos hes]
      set T := (ops.sort (st.remaining.pop mk).keys).zip extra with hTdef
      have hTR : ∀ kx ∈ T, kx.1 ∈ (st.remaining.pop mk).keys := by
        intro kx hkx; exact htp.mem_iff.mp (List.of_mem_zip hkx).1
      have hTM : ∀ kx ∈ T, kx.1 ∈ M.keys := by
        intro kx hkx
        have := (hRkeys _).mp (hTR kx hkx)
        exact (hMkeys _ this.1).mpr (h.remMix _ this.2)
      have hTsum : (T.map fun kx => kx.2.toNat).sum = missing := by
        have e1 : (T.map fun kx => kx.2.toNat) = extra.map Int.toNat := by
          rw [hTdef]
          have : (fun kx : K × Int => kx.2.toNat) = Int.toNat ∘ Prod.snd := rfl
          rw [this, ← List.map_map, List.map_snd_zip]
          rw [hel]; simp
        have e2 := sum_toNat extra henn
        rw [e1]; omega
      have hpp : st.mixture.values.sum = (addAll M T).values.sum := by
        rw [addAll_sum, hTsum]; omega
      rw [if_pos hpp]
      refine ⟨_, rfl, ?_, ?_, rfl, rfl, ?_, Or.inl rfl⟩
      · exact
        { remNodup := by dsimp only; rw [addAll_keys _ _ hTR]; exact hRnodup
          mixNodup := by dsimp only; rw [addAll_keys _ _ hTM]; exact hMnodup
          mixSub := by dsimp only; rw [addAll_keys _ _ hTM]; exact hMsub
          remMix := by
            dsimp only; rw [addAll_keys _ _ hTM, addAll_keys _ _ hTR]
            intro k hk
            have := (hRkeys _).mp hk
            exact (hMkeys _ this.1).mpr (h.remMix _ this.2)
          bal := by
            intro k
            have := h.bal k
            simp only [Att.ce, Att.rem, Att.mix, addAll_getD, hMget, hRget] at *
            by_cases hk : k = mk
            · subst hk; simp [hmissing, hplanned] at this ⊢; omega
            · simp [hk]; omega
          sum := by
            intro _
            dsimp only
            rw [← hpp]
            apply h.sum
            intro h0; simp [h0, Dict.pop] at hR
          iterKeys := h.iterKeys
          iterSuffix := h.iterSuffix
          chunkNodup := h.chunkNodup
          chunkSub := h.chunkSub
          cons := h.cons
          prov := h.prov
          popped := by
            intro k hk hk'
            dsimp only at hk'
            rw [addAll_keys _ _ hTR] at hk'
            exact hpop k hk hk'
          iterOther := h.iterOther
          short := by
            intro h0
            exfalso
            dsimp only at h0
            have e := addAll_keys _ _ hTR
            rw [h0] at e
            apply hR
            simpa [Dict.keys] using e.symm }
      · intro hp k hk
        dsimp only at hk
        rw [addAll_keys _ _ hTR] at hk
        have hk' := (hRkeys _).mp hk
        have := hp k hk'.2
        simp only [Att.mix, addAll_getD, hMget, if_neg hk'.1] at this ⊢
        omega
      · dsimp only
        have : (addAll (st.remaining.pop mk) T).length = (st.remaining.pop mk).length := by
          rw [← Dict.length_keys, ← Dict.length_keys, addAll_keys _ _ hTR]
        rw [this]; exact hlen

end Mixtera
