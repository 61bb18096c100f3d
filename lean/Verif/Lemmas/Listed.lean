import Verif.Lemmas.AttemptSpec

/-!
Which keys a chunk lists.
-/

set_option linter.unusedSectionVars false

namespace Mixtera

variable {K : Type} [DecidableEq K]

/-- What `redistribute` leaves as the mixture before it hands out the missing samples. -/
def cutMixture (mk : K) (st : Att K) : Dict K Nat :=
  if (st.remaining.get? mk).getD 0 = (st.mixture.get? mk).getD 0 then st.mixture.pop mk
    else st.mixture.set mk ((st.mixture.get? mk).getD 0 - (st.remaining.get? mk).getD 0)

theorem distributeByRatio_length {n : Nat} {ratios : List ℚ} {extra : List Int}
    (h : distributeByRatio n ratios = .ok extra) : extra.length = ratios.length := by
  unfold distributeByRatio at h
  split at h
  · rename_i h0
    simp only [Except.ok.injEq] at h
    subst h h0; rfl
  · split at h
    · simp at h
    · simp only [Except.ok.injEq] at h
      subst h
      rw [bumpLoop_length]
      simp

theorem redistribute_cases {ops : KeyOps K} {mk : K} {st st' : Att K} (h : redistribute ops mk st = .ok st') :
    (st.remaining.get? mk).getD 0 ≤ (st.mixture.get? mk).getD 0 ∧ st'.chunk = st.chunk ∧ st'.iters = st.iters ∧
    ((st'.remaining = [] ∧ st'.mixture = cutMixture mk st) ∨
      ∃ extra : List Int, st'.mixture = addAll (cutMixture mk st) ((ops.sort (st.remaining.pop mk).keys).zip extra) ∧
        st'.remaining = addAll (st.remaining.pop mk) ((ops.sort (st.remaining.pop mk).keys).zip extra) ∧
        extra.sum = (((st.remaining.get? mk).getD 0 : Nat) : Int) ∧ st'.progress = true ∧
        extra.length = (ops.sort (st.remaining.pop mk).keys).length) := by
  unfold redistribute at h
  dsimp only at h
  rw [← cutMixture] at h
  split at h
  · rename_i hle
    split at h
    · rename_i hnil
      simp only [Except.ok.injEq] at h; subst h
      exact ⟨hle, rfl, rfl, .inl ⟨hnil, rfl⟩⟩
    · split at h
      · simp at h
      · split at h
        · simp at h
        · rename_i extra hd
          split at h
          · rename_i hsum
            split at h
            · simp only [Except.ok.injEq] at h; subst h
              refine ⟨hle, rfl, rfl, .inr ⟨extra, rfl, rfl, hsum, rfl, ?_⟩⟩
              have := distributeByRatio_length hd
              simpa using this
            · simp at h
          · simp at h
  · simp at h

/-- What is collected and what is left only moves in one direction. -/
structure Grows (st st' : Att K) : Prop where
  keys : ∀ k ∈ st.chunk.keys, k ∈ st'.chunk.keys
  suffix : ∀ c, samples (st'.it c) <:+ samples (st.it c)

theorem Grows.refl (st : Att K) : Grows st st := ⟨fun _ h => h, fun _ => List.suffix_refl _⟩

theorem Grows.trans {a b c : Att K} (h1 : Grows a b) (h2 : Grows b c) : Grows a c :=
  ⟨fun k hk => h2.keys k (h1.keys k hk), fun k => (h2.suffix k).trans (h1.suffix k)⟩

theorem CompRel.grows {ops : KeyOps K} {mk : K} {st st' : Att K} (r : CompRel ops mk st st') : Grows st st' :=
  ⟨r.chunkKeysMono, r.iterSuffix⟩

theorem redistribute_grows {ops : KeyOps K} {mk : K} {st st' : Att K} (h : redistribute ops mk st = .ok st') :
    Grows st st' := by
  obtain ⟨-, h1, h2, -⟩ := redistribute_cases h
  exact ⟨fun k hk => by rw [h1]; exact hk, fun c => by simp only [Att.it, h2]; exact List.suffix_refl _⟩

/-- The key is listed, or there is nothing left for it. -/
def Visited (ops : KeyOps K) (st : Att K) (k : K) : Prop :=
  k ∈ st.chunk.keys ∨ ∀ c ∈ st.iters.keys, ops.isMatch k c = true → samples (st.it c) = []

theorem Visited.mono {ops : KeyOps K} {st st' : Att K} {k : K} (h : Visited ops st k) (g : Grows st st')
    (hk : st'.iters.keys = st.iters.keys) : Visited ops st' k := by
  rcases h with h | h
  · exact .inl (g.keys k h)
  · refine .inr fun c hc hm => ?_
    have := g.suffix c
    rw [h c (hk ▸ hc) hm] at this
    exact List.suffix_nil.mp this

theorem compLoop_visits (ops : KeyOps K) (mk : K) (cs : List K) (st st' : Att K)
    (e : compLoop ops mk cs st = .ok st')
    (hmk : mk ∈ st.remaining.keys) (hcs : ∀ c ∈ cs, c ∈ st.iters.keys) :
    mk ∈ st'.chunk.keys ∨ ∀ c ∈ cs, ops.isMatch mk c = true → samples (st'.it c) = [] := by
  induction cs generalizing st with
  | nil => exact .inr (by simp)
  | cons c cs ih =>
    have hc := hcs c (by simp)
    rw [compLoop] at e
    by_cases hm : ops.isMatch mk c = true
    · rw [if_pos hm] at e
      dsimp only at e
      match hs : Mixtera.send (st.rem mk) (st.it c) with
      | none =>
        have hs' : Mixtera.send ((st.remaining.get? mk).getD 0) ((st.iters.get? c).getD []) = none := hs
        rw [hs'] at e
        dsimp only at e
        have r1 := CompRel.exhaust (ops := ops) (mk := mk) hc hm (send_none hs)
        have hcs' : ∀ c' ∈ cs, c' ∈ ({ st with iters := st.iters.set c [] } : Att K).iters.keys := by
          intro c' hc'; rw [r1.iterKeys]; exact hcs c' (by simp [hc'])
        rcases ih _ e hmk hcs' with h | h
        · exact .inl h
        · obtain ⟨st2, e2, r2, -⟩ := compLoop_spec ops mk cs { st with iters := st.iters.set c [] } hmk hcs'
          rw [e] at e2
          simp only [Except.ok.injEq] at e2
          subst e2
          refine .inr fun c' hc' hm' => ?_
          rcases List.mem_cons.mp hc' with rfl | hc'
          · have := (r1.trans r2).iterSuffix c'
            rw [send_none hs] at this
            exact List.suffix_nil.mp this
          · exact h c' hc' hm'
      | some (out, rest) =>
        have hs' : Mixtera.send ((st.remaining.get? mk).getD 0) ((st.iters.get? c).getD []) = some (out, rest) := hs
        rw [hs'] at e
        dsimp only at e
        rw [entriesSize_nestSegs] at e
        obtain ⟨hle, r1⟩ := CompRel.take hmk hc hm hs
        have hle' : (samples out).length ≤ (st.remaining.get? mk).getD 0 := hle
        rw [if_pos hle'] at e
        left
        by_cases h0 : (st.remaining.get? mk).getD 0 - (samples out).length = 0
        · rw [if_pos h0] at e
          simp only [Except.ok.injEq] at e
          subst e
          exact (Dict.mem_keys_upsert _ _ _).mpr (.inl rfl)
        · rw [if_neg h0] at e
          obtain ⟨st2, e2, r2, -⟩ := compLoop_spec ops mk cs _ (by rw [r1.remKeys]; exact hmk)
            (by intro c' hc'; rw [r1.iterKeys]; exact hcs c' (by simp [hc']))
          have e2' := e.symm.trans e2
          simp only [Except.ok.injEq] at e2'
          subst e2'
          exact r2.chunkKeysMono _ ((Dict.mem_keys_upsert _ _ _).mpr (.inl rfl))
    · rw [if_neg hm] at e
      rcases ih st e hmk (fun c' hc' => hcs c' (by simp [hc'])) with h | h
      · exact .inl h
      · refine .inr fun c' hc' hm' => ?_
        rcases List.mem_cons.mp hc' with rfl | hc'
        · exact absurd hm' hm
        · exact h c' hc' hm'

/-- There is something left to do after a redistribution, unless no key is left. -/
theorem redistribute_left {ops : KeyOps K} {mk : K} {st st' : Att K} (h : redistribute ops mk st = .ok st')
    (hpos : 0 < st.rem mk) :
    st'.remaining = [] ∨ (st'.progress && st'.remaining.values.any (· != 0)) = true := by
  obtain ⟨-, -, -, ⟨h1, -⟩ | ⟨extra, -, h1, h2, h3, h4⟩⟩ := redistribute_cases h
  · exact .inl h1
  · right
    rw [h3, Bool.true_and, h1]
    by_contra hno
    rw [Bool.not_eq_true, List.any_eq_false] at hno
    have hz : ∀ l : List Nat, (∀ x ∈ l, ¬ (x != 0) = true) → l.sum = 0 := by
      intro l hl
      rw [List.sum_eq_zero]
      intro x hx
      simpa using hl x hx
    have h0 := hz _ hno
    rw [addAll_sum] at h0
    have hle : ∀ (l : List Int), l.sum ≤ ((l.map Int.toNat).sum : Nat) := by
      intro l
      induction l with
      | nil => simp
      | cons a l ih =>
        simp only [List.sum_cons, List.map_cons, Nat.cast_add]
        have := Int.self_le_toNat a
        omega
    have hmap : (((ops.sort (st.remaining.pop mk).keys).zip extra).map fun kx => kx.2.toNat) = extra.map Int.toNat := by
      rw [← List.map_snd_zip (l₁ := ops.sort (st.remaining.pop mk).keys) (l₂ := extra) (by omega), List.map_map]
      rw [List.map_snd_zip (by omega)]
      rfl
    rw [hmap] at h0
    have := hle extra
    have hp : 0 < (st.remaining.get? mk).getD 0 := hpos
    omega

theorem keyLoop_visits (ops : KeyOps K) (strict : Bool) (comps ks : List K) (st st' : Att K)
    (e : keyLoop ops strict comps ks st = .ok st')
    (hks : ∀ k ∈ ks, k ∈ st.remaining.keys) (hcs : ∀ c, c ∈ comps ↔ c ∈ st.iters.keys) :
    Grows st st' ∧ st'.iters.keys = st.iters.keys ∧
    ((st'.remaining.keys = st.remaining.keys ∧ ∀ k ∈ ks, Visited ops st' k) ∨
      ((∀ k ∈ st'.remaining.keys, k ∈ st.remaining.keys) ∧
        (st'.remaining = [] ∨ (st'.progress && st'.remaining.values.any (· != 0)) = true))) := by
  induction ks generalizing st with
  | nil =>
    rw [keyLoop] at e; simp only [Except.ok.injEq] at e; subst e
    exact ⟨.refl _, rfl, .inl ⟨rfl, by simp⟩⟩
  | cons k ks ih =>
    have hk := hks k (by simp)
    obtain ⟨st1, e1, r1, -⟩ := compLoop_spec ops k comps st hk (fun c hc => (hcs c).mp hc)
    have hv : Visited ops st1 k := by
      rcases compLoop_visits ops k comps st st1 e1 hk (fun c hc => (hcs c).mp hc) with h | h
      · exact .inl h
      · exact .inr fun c hc hm => h c ((hcs c).mpr (r1.iterKeys ▸ hc)) hm
    rw [keyLoop, e1] at e
    dsimp only at e
    have hks1 : ∀ k' ∈ ks, k' ∈ st1.remaining.keys := fun k' hk' => by rw [r1.remKeys]; exact hks k' (by simp [hk'])
    have hcs1 : ∀ c, c ∈ comps ↔ c ∈ st1.iters.keys := fun c => by rw [r1.iterKeys]; exact hcs c
    have cont : keyLoop ops strict comps ks st1 = .ok st' → Grows st st' ∧ st'.iters.keys = st.iters.keys ∧
        ((st'.remaining.keys = st.remaining.keys ∧ ∀ k' ∈ k :: ks, Visited ops st' k') ∨
          ((∀ k ∈ st'.remaining.keys, k ∈ st.remaining.keys) ∧
            (st'.remaining = [] ∨ (st'.progress && st'.remaining.values.any (· != 0)) = true))) := by
      intro e'
      obtain ⟨hg, hit, h⟩ := ih st1 e' hks1 hcs1
      refine ⟨r1.grows.trans hg, hit.trans r1.iterKeys, ?_⟩
      rcases h with ⟨h1, h2⟩ | ⟨h1, h2⟩
      · refine .inl ⟨h1.trans r1.remKeys, fun k' hk' => ?_⟩
        rcases List.mem_cons.mp hk' with rfl | hk'
        · exact hv.mono hg hit
        · exact h2 k' hk'
      · exact .inr ⟨fun k' hk' => by rw [← r1.remKeys]; exact h1 k' hk', h2⟩
    split at e
    · rename_i hpos
      split at e
      · exact cont e
      · have hr := redistribute_cases e
        refine ⟨r1.grows.trans (redistribute_grows e), by rw [hr.2.2.1]; exact r1.iterKeys, .inr ⟨?_, redistribute_left e hpos⟩⟩
        intro k' hk'
        rw [← r1.remKeys]
        obtain ⟨-, -, -, ⟨h1, -⟩ | ⟨extra, -, h1, -, -⟩⟩ := hr
        · rw [h1] at hk'; simp [Dict.keys] at hk'
        · rw [h1, addAll_keys] at hk'
          · exact (Dict.keys_pop_sublist _ _).subset hk'
          · intro kx hkx
            exact (sort_perm ops _).mem_iff.mp (List.of_mem_zip hkx).1
    · exact cont e

theorem passes_grows (ops : KeyOps K) (strict : Bool) (n : Nat) (st st' : Att K) (e : passes ops strict n st = .ok st') :
    Grows st st' ∧ st'.iters.keys = st.iters.keys ∧ ∀ k ∈ st'.remaining.keys, k ∈ st.remaining.keys := by
  induction n generalizing st with
  | zero => simp [passes] at e
  | succ n ih =>
    rw [passes] at e
    split at e
    · split at e
      · simp at e
      · rename_i st1 e1
        obtain ⟨hg, hit, h⟩ := keyLoop_visits ops strict _ _ { st with progress := false } st1 e1
          (fun k hk => (sort_perm ops _).mem_iff.mp hk) (fun c => (sort_perm ops _).mem_iff)
        obtain ⟨hg', hit', h'⟩ := ih st1 e
        refine ⟨(Grows.trans ⟨hg.keys, hg.suffix⟩ hg'), hit'.trans hit, fun k hk => ?_⟩
        have hk1 := h' k hk
        rcases h with ⟨h1, -⟩ | ⟨h1, -⟩
        · rw [h1] at hk1; exact hk1
        · exact h1 k hk1
    · simp only [Except.ok.injEq] at e; subst e
      exact ⟨.refl _, rfl, fun _ h => h⟩

/-- Once the loop is entered, every key that is kept to the end is visited. -/
theorem passes_visits (ops : KeyOps K) (strict : Bool) (n : Nat) (st st' : Att K) (e : passes ops strict n st = .ok st')
    (hc : (st.progress && st.remaining.values.any (· != 0)) = true) :
    ∀ k ∈ st'.remaining.keys, Visited ops st' k := by
  induction n generalizing st with
  | zero => simp [passes] at e
  | succ n ih =>
    rw [passes, if_pos hc] at e
    split at e
    · simp at e
    · rename_i st1 e1
      obtain ⟨hg, hit, h⟩ := keyLoop_visits ops strict _ _ { st with progress := false } st1 e1
        (fun k hk => (sort_perm ops _).mem_iff.mp hk) (fun c => (sort_perm ops _).mem_iff)
      obtain ⟨hg', hit', h'⟩ := passes_grows ops strict n st1 st' e
      intro k hk
      have hk1 := h' k hk
      rcases h with ⟨h1, h2⟩ | ⟨h1, h2 | h2⟩
      · rw [h1] at hk1
        exact (h2 k ((sort_perm ops _).mem_iff.mpr hk1)).mono hg' hit'
      · rw [h2] at hk1; simp [Dict.keys] at hk1
      · exact ih st1 e h2 k hk

theorem attempt_visits (ops : KeyOps K) (iters : Dict K (List Seg)) (v : MixView K) (att : Att K) (b : Bool)
    (e : attempt ops iters v = .ok (att, b)) (hc : ∃ x ∈ v.rows.values, x ≠ 0) :
    ∀ k ∈ att.remaining.keys, Visited ops att k := by
  unfold attempt at e
  split at e
  · simp at e
  · rename_i st e1
    simp only [Except.ok.injEq, Prod.mk.injEq] at e
    obtain ⟨rfl, _⟩ := e
    refine passes_visits ops v.strict _ _ _ e1 ?_
    simp only [Att.start, Bool.true_and, List.any_eq_true]
    obtain ⟨x, hx, h0⟩ := hc
    exact ⟨x, hx, by simpa using h0⟩

/-! ## Keys that were asked for -/

/-- A key that is in the mixture has samples; a key that is in the chunk has samples. -/
structure KeyOk (st : Att K) (k : K) : Prop where
  mix : k ∈ st.mixture.keys → 0 < st.mix k
  chunk : k ∈ st.chunk.keys → 0 < entW sizeW (st.ce k)

theorem compLoop_keyOk (ops : KeyOps K) (mk : K) (cs : List K) (st st' : Att K)
    (e : compLoop ops mk cs st = .ok st') (hmk : mk ∈ st.remaining.keys) (hcs : ∀ c ∈ cs, c ∈ st.iters.keys)
    (h1 : 0 < st.rem mk ∨ 0 < entW sizeW (st.ce mk)) (h2 : mk ∈ st.chunk.keys → 0 < entW sizeW (st.ce mk)) :
    mk ∈ st'.chunk.keys → 0 < entW sizeW (st'.ce mk) := by
  induction cs generalizing st with
  | nil => rw [compLoop] at e; simp only [Except.ok.injEq] at e; subst e; exact h2
  | cons c cs ih =>
    have hc := hcs c (by simp)
    rw [compLoop] at e
    by_cases hm : ops.isMatch mk c = true
    · rw [if_pos hm] at e
      dsimp only at e
      match hs : Mixtera.send (st.rem mk) (st.it c) with
      | none =>
        have hs' : Mixtera.send ((st.remaining.get? mk).getD 0) ((st.iters.get? c).getD []) = none := hs
        rw [hs'] at e
        dsimp only at e
        have r1 := CompRel.exhaust (ops := ops) (mk := mk) hc hm (send_none hs)
        exact ih _ e hmk (by intro c' hc'; rw [r1.iterKeys]; exact hcs c' (by simp [hc'])) h1 h2
      | some (out, rest) =>
        have hs' : Mixtera.send ((st.remaining.get? mk).getD 0) ((st.iters.get? c).getD []) = some (out, rest) := hs
        rw [hs'] at e
        dsimp only at e
        rw [entriesSize_nestSegs] at e
        obtain ⟨hle, r1⟩ := CompRel.take hmk hc hm hs
        have hle' : (samples out).length ≤ (st.remaining.get? mk).getD 0 := hle
        rw [if_pos hle'] at e
        have hgt : 0 < entW sizeW (st.ce mk) + (samples out).length := by
          rcases h1 with h1 | h1
          · obtain ⟨hne, hout, -⟩ := send_some hs
            have : 0 < (samples out).length := by
              rw [hout, List.length_take]
              have := List.length_pos_iff.mpr hne
              omega
            omega
          · omega
        have key : ∀ (st2 : Att K), CompRel ops mk st st2 →
            st2.remaining = st.remaining.set mk ((st.remaining.get? mk).getD 0 - (samples out).length) →
            0 < entW sizeW (st2.ce mk) := by
          intro st2 r h
          have hr : st2.rem mk = st.rem mk - (samples out).length := by
            simp only [Att.rem, h, Dict.get?_set, if_true, Option.getD_some]
          have hsz := r.size
          have hle2 : (samples out).length ≤ st.rem mk := hle
          omega
        have hkey := key _ r1 rfl
        by_cases h0 : (st.remaining.get? mk).getD 0 - (samples out).length = 0
        · rw [if_pos h0] at e
          simp only [Except.ok.injEq] at e
          subst e
          intro _
          exact hkey
        · rw [if_neg h0] at e
          exact ih _ e (r1.remKeys.symm ▸ hmk : mk ∈ Dict.keys (st.remaining.set mk _))
            (fun c' hc' => (r1.iterKeys.symm ▸ hcs c' (by simp [hc']) : c' ∈ Dict.keys (st.iters.set c rest))) (.inr hkey) (fun _ => hkey)
    · rw [if_neg hm] at e
      exact ih st e hmk (fun c' hc' => hcs c' (by simp [hc'])) h1 h2

theorem redistribute_keyOk {ops : KeyOps K} {mk : K} {st st' : Att K} (e : redistribute ops mk st = .ok st')
    (hmn : st.mixture.keys.Nodup) (hrn : st.remaining.keys.Nodup) (hmk : mk ∈ st.remaining.keys)
    (hsub : ∀ k ∈ st.remaining.keys, k ∈ st.mixture.keys) {k : K} (h : KeyOk st k) : KeyOk st' k := by
  obtain ⟨hle, hch, -, hcase⟩ := redistribute_cases e
  have hcutkeys : ∀ k', k' ∈ (cutMixture mk st).keys → k' ∈ st.mixture.keys := by
    intro k' hk'
    unfold cutMixture at hk'
    split at hk'
    · exact ((Dict.mem_keys_pop hmn _ _).mp hk').2
    · rwa [Dict.keys_set_of_mem (hsub mk hmk)] at hk'
  have hcutmem : ∀ k', k' ≠ mk → k' ∈ st.mixture.keys → k' ∈ (cutMixture mk st).keys := by
    intro k' hne hk'
    unfold cutMixture
    split
    · exact (Dict.mem_keys_pop hmn _ _).mpr ⟨hne, hk'⟩
    · rwa [Dict.keys_set_of_mem (hsub mk hmk)]
  have hcut : k ∈ (cutMixture mk st).keys → 0 < ((cutMixture mk st).get? k).getD 0 := by
    intro hk
    have hm := h.mix (hcutkeys k hk)
    unfold cutMixture at hk ⊢
    split at hk
    · rename_i heq
      rw [if_pos heq]
      have hne := ((Dict.mem_keys_pop hmn _ _).mp hk).1
      rw [Dict.get?_pop hmn, if_neg (Ne.symm hne)]
      exact hm
    · rename_i heq
      rw [if_neg heq, Dict.get?_set]
      split
      · simp only [Option.getD_some]; omega
      · exact hm
  refine ⟨?_, ?_⟩
  · rcases hcase with ⟨-, h1⟩ | ⟨extra, h1, -⟩
    · simp only [Att.mix, h1]; exact hcut
    · simp only [Att.mix, h1]
      rw [addAll_keys, addAll_getD]
      · intro hk; have := hcut hk; omega
      · intro kx hkx
        have h2 := (sort_perm ops _).mem_iff.mp (List.of_mem_zip hkx).1
        have h3 := (Dict.mem_keys_pop hrn _ _).mp h2
        exact hcutmem _ h3.1 (hsub _ h3.2)
  · simp only [Att.ce, hch]; exact h.chunk

theorem compLoop_keyOk' {ops : KeyOps K} {iters0 : Dict K (List Seg)} {rows : Dict K Nat} {mk : K} {cs : List K}
    {st st' : Att K} (hi : AttInv ops iters0 rows st)
    (e : compLoop ops mk cs st = .ok st') (hmk : mk ∈ st.remaining.keys) (hcs : ∀ c ∈ cs, c ∈ st.iters.keys)
    {k : K} (h : KeyOk st k) : KeyOk st' k := by
  obtain ⟨st2, e2, r, -⟩ := compLoop_spec ops mk cs st hmk hcs
  have := e.symm.trans e2
  simp only [Except.ok.injEq] at this
  subst this
  refine ⟨by simp only [Att.mix, r.mixture]; exact h.mix, ?_⟩
  by_cases hk : k = mk
  · subst hk
    refine compLoop_keyOk ops k cs st st' e hmk hcs ?_ h.chunk
    have h1 := h.mix (hi.remMix k hmk)
    have h2 := hi.bal k
    omega
  · intro hc
    rcases r.chunkKeysSub k hc with h1 | h1
    · exact absurd h1 hk
    · have := h.chunk h1
      simp only [Att.ce, r.chunkOther k hk]
      exact this

theorem keyLoop_keyOk {ops : KeyOps K} {iters0 : Dict K (List Seg)} {rows : Dict K Nat} (strict : Bool) (comps ks : List K)
    (st st' : Att K) (hi : AttInv ops iters0 rows st) (e : keyLoop ops strict comps ks st = .ok st')
    (hks : ∀ k ∈ ks, k ∈ st.remaining.keys) (hcs : ∀ c, c ∈ comps ↔ c ∈ st.iters.keys) {k : K} (h : KeyOk st k) :
    AttInv ops iters0 rows st' ∧ KeyOk st' k := by
  induction ks generalizing st with
  | nil => rw [keyLoop] at e; simp only [Except.ok.injEq] at e; subst e; exact ⟨hi, h⟩
  | cons mk ks ih =>
    have hk := hks mk (by simp)
    obtain ⟨st1, e1, r1, hex⟩ := compLoop_spec ops mk comps st hk (fun c hc => (hcs c).mp hc)
    have hi1 := hi.comp hk r1
    have h1 := compLoop_keyOk' hi e1 hk (fun c hc => (hcs c).mp hc) h
    rw [keyLoop, e1] at e
    dsimp only at e
    have hks1 : ∀ k' ∈ ks, k' ∈ st1.remaining.keys := fun k' hk' => by rw [r1.remKeys]; exact hks k' (by simp [hk'])
    have hcs1 : ∀ c, c ∈ comps ↔ c ∈ st1.iters.keys := fun c => by rw [r1.iterKeys]; exact hcs c
    split at e
    · rename_i hpos
      split at e
      · exact ih st1 hi1 e hks1 hcs1 h1
      · have hex1 : st1.Exhausted ops mk := fun c hc hm => hex hpos c ((hcs1 c).mpr hc) hm
        have hk1 : mk ∈ st1.remaining.keys := by rw [r1.remKeys]; exact hk
        refine ⟨?_, redistribute_keyOk e hi1.mixNodup hi1.remNodup hk1 hi1.remMix h1⟩
        rcases redistribute_spec hi1 hk1 hpos hex1 with ⟨he, -⟩ | ⟨st2, e2, hi2, -⟩
        · rw [he] at e; simp at e
        · have := e.symm.trans e2
          simp only [Except.ok.injEq] at this
          subst this
          exact hi2
    · exact ih st1 hi1 e hks1 hcs1 h1

theorem passes_keyOk {ops : KeyOps K} {iters0 : Dict K (List Seg)} {rows : Dict K Nat} (strict : Bool) (n : Nat)
    (st st' : Att K) (hi : AttInv ops iters0 rows st) (e : passes ops strict n st = .ok st') {k : K} (h : KeyOk st k) :
    KeyOk st' k := by
  induction n generalizing st with
  | zero => simp [passes] at e
  | succ n ih =>
    rw [passes] at e
    split at e
    · split at e
      · simp at e
      · rename_i st1 e1
        have hi0 : AttInv ops iters0 rows { st with progress := false } := { hi with }
        obtain ⟨hi1, h1⟩ := keyLoop_keyOk strict _ _ { st with progress := false } st1 hi0 e1
          (fun k hk => (sort_perm ops _).mem_iff.mp hk) (fun c => (sort_perm ops _).mem_iff) ⟨h.mix, h.chunk⟩
        exact ih st1 hi1 e h1
    · simp only [Except.ok.injEq] at e; subst e; exact h

/-- Of a key that was asked for: it is in the mixture only with samples, and in the chunk only with samples. -/
theorem attempt_keyOk (ops : KeyOps K) (iters : Dict K (List Seg)) (v : MixView K) (hn : v.rows.keys.Nodup) (att : Att K)
    (b : Bool) (e : attempt ops iters v = .ok (att, b)) (k : K) (hk : v.rows.get? k ≠ some 0) : KeyOk att k := by
  unfold attempt at e
  split at e
  · simp at e
  · rename_i st e1
    simp only [Except.ok.injEq, Prod.mk.injEq] at e
    obtain ⟨rfl, _⟩ := e
    refine passes_keyOk v.strict _ _ _ (AttInv.start ops iters v.rows hn) e1 ⟨?_, ?_⟩
    · intro hm
      obtain ⟨x, hx⟩ := (Dict.mem_keys_iff _ _).mp hm
      simp only [Att.start] at hx
      simp only [Att.mix, Att.start, hx, Option.getD_some]
      rcases Nat.eq_zero_or_pos x with rfl | h
      · exact absurd hx hk
      · exact h
    · intro hm
      simp [Att.start, Dict.keys] at hm

end Mixtera
