import Verif.Lemmas.Attempt

set_option linter.unusedSectionVars false

namespace Mixtera

variable {K : Type} [DecidableEq K]

theorem CompRel.pos {ops : KeyOps K} {mk : K} {st st' : Att K} (r : CompRel ops mk st st') :
    st'.Pos ↔ st.Pos := by
  simp only [Att.Pos, r.remKeys, Att.mix, r.mixture]

theorem keyLoop_best {ops : KeyOps K} {iters0 : Dict K (List Seg)} {rows : Dict K Nat} {comps : List K}
    (ks : List K) (st : Att K) (h : AttInv ops iters0 rows st)
    (hcomps : ∀ c, c ∈ comps ↔ c ∈ st.iters.keys) (hks : ∀ k ∈ ks, k ∈ st.remaining.keys)
    (hnd : ks.Nodup) :
    (keyLoop ops false comps ks st = .error .zeroDivision ∧ ¬ st.Pos) ∨
    ∃ st', keyLoop ops false comps ks st = .ok st' ∧ AttInv ops iters0 rows st' ∧ (st.Pos → st'.Pos) ∧
      ((st'.remaining.keys = st.remaining.keys ∧ (∀ k ∈ ks, st'.rem k = 0) ∧
          (∀ k, k ∉ ks → st'.rem k = st.rem k)) ∨
        (st'.remaining.length + 1 = st.remaining.length ∧ (st'.progress = true ∨ st'.remaining = []))) := by
  induction ks generalizing st with
  | nil => exact Or.inr ⟨st, rfl, h, id, Or.inl ⟨rfl, by simp, fun _ _ => rfl⟩⟩
  | cons mk ks ih =>
    have hmk := hks mk (by simp)
    have hnd' := List.nodup_cons.mp hnd
    obtain ⟨st1, e1, r1, hex1⟩ := compLoop_spec ops mk comps st hmk (fun c hc => (hcomps c).mp hc)
    have h1 := h.comp hmk r1
    simp only [keyLoop, e1]
    by_cases hr : 0 < st1.rem mk
    · have hr' : (st1.remaining.get? mk).getD 0 > 0 := hr
      rw [if_pos hr']
      simp only [Bool.false_eq_true, if_false]
      have hex : st1.Exhausted ops mk := by
        intro c hc hm
        exact hex1 hr c ((hcomps c).mpr (r1.iterKeys ▸ hc)) hm
      rcases redistribute_spec h1 (by rw [r1.remKeys]; exact hmk) hr hex with
        ⟨he, hp⟩ | ⟨st', e, hi, hp, _, _, hlen, hprog⟩
      · exact Or.inl ⟨he, fun hp' => hp (r1.pos.mpr hp')⟩
      · refine Or.inr ⟨st', e, hi, fun hp' => hp (r1.pos.mpr hp'), Or.inr ⟨?_, hprog⟩⟩
        rw [hlen, ← Dict.length_keys, ← Dict.length_keys, r1.remKeys]
    · have hr' : ¬ (st1.remaining.get? mk).getD 0 > 0 := hr
      rw [if_neg hr']
      rcases ih st1 h1 (fun c => by rw [r1.iterKeys]; exact hcomps c)
        (fun k hk => by rw [r1.remKeys]; exact hks k (by simp [hk])) hnd'.2 with
        ⟨he, hp⟩ | ⟨st', e, hi, hp, hcase⟩
      · exact Or.inl ⟨he, fun hp' => hp (r1.pos.mpr hp')⟩
      · refine Or.inr ⟨st', e, hi, fun hp' => hp (r1.pos.mpr hp'), ?_⟩
        rcases hcase with ⟨hk1, hz, hsame⟩ | ⟨hlen, hprog⟩
        · left
          refine ⟨hk1.trans r1.remKeys, ?_, ?_⟩
          · intro k hk
            rcases List.mem_cons.mp hk with rfl | hk
            · rw [hsame k hnd'.1]; omega
            · exact hz k hk
          · intro k hk
            simp only [List.mem_cons, not_or] at hk
            rw [hsame k hk.2]
            simp only [Att.rem, r1.remOther k hk.1]
        · right
          refine ⟨?_, hprog⟩
          rw [hlen, ← Dict.length_keys, ← Dict.length_keys, r1.remKeys]

theorem keyLoop_strict {ops : KeyOps K} {iters0 : Dict K (List Seg)} {rows : Dict K Nat} {comps : List K}
    (ks : List K) (st : Att K) (h : AttInv ops iters0 rows st)
    (hcomps : ∀ c, c ∈ comps ↔ c ∈ st.iters.keys) (hks : ∀ k ∈ ks, k ∈ st.remaining.keys) :
    ∃ st', keyLoop ops true comps ks st = .ok st' ∧ AttInv ops iters0 rows st' ∧
      st'.remaining.keys = st.remaining.keys ∧ st'.mixture = st.mixture ∧
      (∀ k, st'.rem k ≤ st.rem k) ∧ (∀ k, st.Exhausted ops k → st'.Exhausted ops k) ∧
      (∀ k ∈ ks, 0 < st'.rem k → st'.Exhausted ops k) ∧
      ((∀ k ∈ ks, 0 < st.rem k → st.Exhausted ops k) → st'.progress = st.progress) := by
  induction ks generalizing st with
  | nil => exact ⟨st, rfl, h, rfl, rfl, fun _ => le_refl _, fun _ => id, by simp, fun _ => rfl⟩
  | cons mk ks ih =>
    have hmk := hks mk (by simp)
    obtain ⟨st1, e1, r1, hex1⟩ := compLoop_spec ops mk comps st hmk (fun c hc => (hcomps c).mp hc)
    have h1 := h.comp hmk r1
    obtain ⟨st', e, hi, hk1, hm, hle, hexm, hexk, hno⟩ := ih st1 h1
      (fun c => by rw [r1.iterKeys]; exact hcomps c)
      (fun k hk => by rw [r1.remKeys]; exact hks k (by simp [hk]))
    have hle1 : ∀ k, st1.rem k ≤ st.rem k := by
      intro k
      by_cases hk : k = mk
      · subst hk; exact r1.remLe
      · simp only [Att.rem, r1.remOther k hk]; exact le_refl _
    refine ⟨st', ?_, hi, hk1.trans r1.remKeys, hm.trans r1.mixture, fun k => (hle k).trans (hle1 k),
      fun k hk => hexm k (r1.exhausted hk), ?_, ?_⟩
    · simp only [keyLoop, e1, e]
      split <;> simp
    · intro k hk hpos
      rcases List.mem_cons.mp hk with rfl | hk
      · apply hexm
        have : 0 < st1.rem k := lt_of_lt_of_le hpos (hle k)
        intro c hc hmm
        exact hex1 this c ((hcomps c).mpr (r1.iterKeys ▸ hc)) hmm
      · exact hexk k hk hpos
    · intro hall
      rw [hno, r1.prog]
      · have : st1.rem mk = st.rem mk := by
          by_cases h0 : 0 < st.rem mk
          · exact r1.exh (hall mk (by simp) h0)
          · have := r1.remLe; omega
        simp [this]
      · intro k hk hpos
        exact r1.exhausted (hall k (by simp [hk]) (lt_of_lt_of_le hpos (hle1 k)))

theorem any_false {d : Dict K Nat} (h : d.values.any (· != 0) = false) (k : K) : (d.get? k).getD 0 = 0 := by
  match hg : d.get? k with
  | none => rfl
  | some v =>
    have hm := Dict.mem_of_get? hg
    have : v ∈ d.values := List.mem_map_of_mem (f := Prod.snd) hm
    rw [List.any_eq_false] at h
    simpa using h v this

theorem passes_best {ops : KeyOps K} {iters0 : Dict K (List Seg)} {rows : Dict K Nat} (n : Nat) (st : Att K)
    (h : AttInv ops iters0 rows st) (hn : st.remaining.length + 2 ≤ n)
    (hp : st.progress = true ∨ ∀ k, st.rem k = 0) :
    (passes ops false n st = .error .zeroDivision ∧ ¬ st.Pos) ∨
    ∃ st', passes ops false n st = .ok st' ∧ AttInv ops iters0 rows st' ∧ ∀ k, st'.rem k = 0 := by
  induction n generalizing st with
  | zero => omega
  | succ n ih =>
    rw [passes]
    by_cases hc : (st.progress && st.remaining.values.any (· != 0)) = true
    · rw [if_pos hc]
      have h0 : AttInv ops iters0 rows { st with progress := false } := { h with }
      rcases keyLoop_best (ops.sort st.remaining.keys) { st with progress := false } h0
        (fun c => (sort_perm ops _).mem_iff) (fun k hk => (sort_perm ops _).mem_iff.mp hk)
        ((sort_perm ops _).nodup_iff.mpr h.remNodup) with ⟨he, hpos⟩ | ⟨st', e, hi, hpp, hcase⟩
      · rw [he]; exact Or.inl ⟨rfl, hpos⟩
      · rw [e]
        dsimp only
        rcases hcase with ⟨hk, hz, hsame⟩ | ⟨hlen, hprog⟩
        · have hall : ∀ k, st'.rem k = 0 := by
            intro k
            by_cases hk' : k ∈ st.remaining.keys
            · exact hz k ((sort_perm ops _).mem_iff.mpr hk')
            · have : st'.remaining.get? k = none := by
                rw [Dict.get?_eq_none_iff, hk]; exact hk'
              simp [Att.rem, this]
          obtain ⟨m, rfl⟩ : ∃ m, n = m + 1 := ⟨n - 1, by omega⟩
          right
          refine ⟨st', ?_, hi, hall⟩
          rw [passes, if_neg]
          intro hcc
          simp only [Bool.and_eq_true, List.any_eq_true] at hcc
          obtain ⟨_, v, hv, hv0⟩ := hcc
          simp only [Dict.values, List.mem_map] at hv
          obtain ⟨⟨k, v'⟩, hkv, rfl⟩ := hv
          have := Dict.get?_of_mem hi.remNodup hkv
          have h2 := hall k
          simp [Att.rem, this] at h2
          simp [h2] at hv0
        · have hlen' : st'.remaining.length + 1 = st.remaining.length := hlen
          rcases ih st' hi (by omega) (by
            rcases hprog with hprog | hprog
            · exact Or.inl hprog
            · exact Or.inr (fun k => by simp [Att.rem, hprog])) with ⟨he, hpos⟩ | hok
          · exact Or.inl ⟨he, fun hp' => hpos (hpp hp')⟩
          · exact Or.inr hok
    · rw [if_neg hc]
      right
      refine ⟨st, rfl, h, ?_⟩
      rcases hp with hp | hp
      · intro k
        rw [hp, Bool.true_and, Bool.not_eq_true] at hc
        exact any_false hc k
      · exact hp

theorem passes_strict_aux {ops : KeyOps K} {iters0 : Dict K (List Seg)} {rows : Dict K Nat} (n : Nat) (st : Att K)
    (h : AttInv ops iters0 rows st) (hn : 2 ≤ n) (hex : ∀ k ∈ st.remaining.keys, 0 < st.rem k → st.Exhausted ops k) :
    ∃ st', passes ops true n st = .ok st' ∧ AttInv ops iters0 rows st' ∧
      st'.remaining.keys = st.remaining.keys ∧ st'.mixture = st.mixture ∧
      (∀ k ∈ st'.remaining.keys, 0 < st'.rem k → st'.Exhausted ops k) := by
  obtain ⟨m, rfl⟩ : ∃ m, n = m + 1 + 1 := ⟨n - 2, by omega⟩
  rw [passes]
  split
  · have h0 : AttInv ops iters0 rows { st with progress := false } := { h with }
    obtain ⟨st', e, hi, hk, hm, hle, hexm, hexk, hno⟩ := keyLoop_strict (ops.sort st.remaining.keys)
      { st with progress := false } h0 (fun c => (sort_perm ops _).mem_iff)
      (fun k hk => (sort_perm ops _).mem_iff.mp hk)
    rw [e]
    have hpf : st'.progress = false := hno (fun k hk => hex k ((sort_perm ops _).mem_iff.mp hk))
    refine ⟨st', ?_, hi, hk, hm, ?_⟩
    · simp [passes, hpf]
    · intro k hk'
      exact hexk k ((sort_perm ops _).mem_iff.mpr (hk ▸ hk'))
  · exact ⟨st, rfl, h, rfl, rfl, hex⟩

theorem passes_strict {ops : KeyOps K} {iters0 : Dict K (List Seg)} {rows : Dict K Nat} (n : Nat) (st : Att K)
    (h : AttInv ops iters0 rows st) (hn : 3 ≤ n) (hp : st.progress = true) :
    ∃ st', passes ops true n st = .ok st' ∧ AttInv ops iters0 rows st' ∧
      st'.remaining.keys = st.remaining.keys ∧ st'.mixture = st.mixture ∧
      (∀ k ∈ st'.remaining.keys, 0 < st'.rem k → st'.Exhausted ops k) := by
  obtain ⟨m, rfl⟩ : ∃ m, n = m + 1 := ⟨n - 1, by omega⟩
  rw [passes]
  split
  · have h0 : AttInv ops iters0 rows { st with progress := false } := { h with }
    obtain ⟨st1, e, hi, hk, hm, hle, hexm, hexk, hno⟩ := keyLoop_strict (ops.sort st.remaining.keys)
      { st with progress := false } h0 (fun c => (sort_perm ops _).mem_iff)
      (fun k hk => (sort_perm ops _).mem_iff.mp hk)
    rw [e]
    obtain ⟨st', e', hi', hk', hm', hex'⟩ := passes_strict_aux m st1 hi (by omega) (by
      intro k hk' hpos
      exact hexk k ((sort_perm ops _).mem_iff.mpr (hk ▸ hk')) hpos)
    exact ⟨st', e', hi', hk'.trans hk, hm'.trans hm, hex'⟩
  · rename_i hc
    refine ⟨st, rfl, h, rfl, rfl, ?_⟩
    intro k _ hpos
    rw [hp, Bool.true_and, Bool.not_eq_true] at hc
    have := any_false hc k
    simp [Att.rem, this] at hpos

end Mixtera
