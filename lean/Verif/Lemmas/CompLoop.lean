import Verif.Lemmas.Entries

set_option linter.unusedSectionVars false

namespace Mixtera

variable {K : Type} [DecidableEq K]

/-- Unread ranges of component `c`. -/
def Att.it (st : Att K) (c : K) : List Seg := (st.iters.get? c).getD []
/-- Missing samples for mixture key `k`. -/
def Att.rem (st : Att K) (k : K) : Nat := (st.remaining.get? k).getD 0
/-- Ranges collected for mixture key `k`. -/
def Att.ce (st : Att K) (k : K) : Entries := (st.chunk.get? k).getD []
/-- Occurrences of a position in all unread ranges. -/
def unread (p : Pos) (iters : Dict K (List Seg)) : Nat :=
  Dict.sumBy (fun _ l => (samples l).count p) iters
/-- Weight of all collected ranges. -/
def chunkW (w : Weight) (c : Dict K Entries) : Nat := Dict.sumBy (fun _ e => entW w e) c

/-- How the state changes while serving mixture key `mk` from components. -/
structure CompRel (ops : KeyOps K) (mk : K) (st st' : Att K) : Prop where
  mixture : st'.mixture = st.mixture
  remKeys : st'.remaining.keys = st.remaining.keys
  remOther : ∀ k, k ≠ mk → st'.remaining.get? k = st.remaining.get? k
  remLe : st'.rem mk ≤ st.rem mk
  iterKeys : st'.iters.keys = st.iters.keys
  iterSuffix : ∀ c, samples (st'.it c) <:+ samples (st.it c)
  iterOther : ∀ c, ops.isMatch mk c = false → st'.iters.get? c = st.iters.get? c
  chunkOther : ∀ k, k ≠ mk → st'.chunk.get? k = st.chunk.get? k
  chunkKeys : st.chunk.keys.Nodup → st'.chunk.keys.Nodup
  chunkKeysSub : ∀ k, k ∈ st'.chunk.keys → k = mk ∨ k ∈ st.chunk.keys
  chunkKeysMono : ∀ k, k ∈ st.chunk.keys → k ∈ st'.chunk.keys
  size : entW sizeW (st'.ce mk) + st'.rem mk = entW sizeW (st.ce mk) + st.rem mk
  cons : ∀ p, unread p st'.iters + chunkW (countW p) st'.chunk =
    unread p st.iters + chunkW (countW p) st.chunk
  prov : ∀ p, 0 < entW (countW p) (st'.ce mk) → 0 < entW (countW p) (st.ce mk) ∨
    ∃ c, c ∈ st.iters.keys ∧ ops.isMatch mk c = true ∧ p ∈ samples (st.it c)
  prog : st'.progress = (st.progress || decide (st'.rem mk < st.rem mk))
  exh : (∀ c ∈ st.iters.keys, ops.isMatch mk c = true → samples (st.it c) = []) → st'.rem mk = st.rem mk

theorem CompRel.refl (ops : KeyOps K) (mk : K) (st : Att K) : CompRel ops mk st st where
  mixture := rfl
  remKeys := rfl
  remOther _ _ := rfl
  remLe := le_refl _
  iterKeys := rfl
  iterSuffix _ := List.suffix_refl _
  iterOther _ _ := rfl
  chunkOther _ _ := rfl
  chunkKeys := id
  chunkKeysSub _ := Or.inr
  chunkKeysMono _ := id
  size := rfl
  cons _ := rfl
  prov _ := Or.inl
  prog := by simp
  exh _ := rfl

theorem CompRel.trans {ops : KeyOps K} {mk : K} {a b c : Att K} (h1 : CompRel ops mk a b)
    (h2 : CompRel ops mk b c) : CompRel ops mk a c where
  mixture := h2.mixture.trans h1.mixture
  remKeys := h2.remKeys.trans h1.remKeys
  remOther k hk := (h2.remOther k hk).trans (h1.remOther k hk)
  remLe := h2.remLe.trans h1.remLe
  iterKeys := h2.iterKeys.trans h1.iterKeys
  iterSuffix k := (h2.iterSuffix k).trans (h1.iterSuffix k)
  iterOther k hk := (h2.iterOther k hk).trans (h1.iterOther k hk)
  chunkOther k hk := (h2.chunkOther k hk).trans (h1.chunkOther k hk)
  chunkKeys h := h2.chunkKeys (h1.chunkKeys h)
  chunkKeysSub k hk := by
    rcases h2.chunkKeysSub k hk with h | h
    · exact Or.inl h
    · exact h1.chunkKeysSub k h
  chunkKeysMono k hk := h2.chunkKeysMono k (h1.chunkKeysMono k hk)
  size := h2.size.trans h1.size
  cons p := (h2.cons p).trans (h1.cons p)
  prov p hp := by
    rcases h2.prov p hp with h | ⟨k, hk, hm, hp⟩
    · exact h1.prov p h
    · exact Or.inr ⟨k, h1.iterKeys ▸ hk, hm, (h1.iterSuffix k).subset hp⟩
  prog := by
    have e1 := h1.prog; have e2 := h2.prog; have l1 := h1.remLe; have l2 := h2.remLe
    rw [e2, e1, Bool.or_assoc]
    congr 1
    rw [← Bool.decide_or]
    apply decide_eq_decide.mpr
    omega
  exh h := by
    rw [h2.exh, h1.exh h]
    intro k hk hm
    have := h1.iterSuffix k
    rw [h k (h1.iterKeys ▸ hk) hm] at this
    exact List.suffix_nil.mp this

theorem CompRel.exhaust {ops : KeyOps K} {mk c : K} {st : Att K} (hc : c ∈ st.iters.keys)
    (hm : ops.isMatch mk c = true) (h : samples (st.it c) = []) :
    CompRel ops mk st { st with iters := st.iters.set c [] } where
  mixture := rfl
  remKeys := rfl
  remOther _ _ := rfl
  remLe := le_refl _
  iterKeys := Dict.keys_set_of_mem hc _
  iterSuffix c' := by
    simp only [Att.it, Dict.get?_set]
    split
    · simp
    · exact List.suffix_refl _
  iterOther c' hc' := by
    simp only [Dict.get?_set]
    split
    · rename_i h2; subst h2; simp [hm] at hc'
    · rfl
  chunkOther _ _ := rfl
  chunkKeys := id
  chunkKeysSub _ := Or.inr
  chunkKeysMono _ := id
  size := rfl
  cons p := by
    obtain ⟨v, hv⟩ := (Dict.mem_keys_iff _ _).mp hc
    have := Dict.sumBy_set_add (fun _ l => (samples l).count p) st.iters c [] v hv
    simp only [Att.it, hv, Option.getD_some] at h
    simp [h] at this
    simp [unread, this]
  prov _ := Or.inl
  prog := by simp [Att.rem]
  exh _ := rfl

theorem chunkW_upsert (w : Weight) (c : Dict K Entries) (mk : K) (part : Entries) :
    chunkW w (c.upsert mk fun e => addEntries (e.getD []) part) = chunkW w c + entW w part := by
  apply Dict.sumBy_upsert
  intro o _
  rw [entW_addEntries]
  cases o <;> simp

theorem CompRel.take {ops : KeyOps K} {mk c : K} {st : Att K} {out rest : List Seg}
    (hmk : mk ∈ st.remaining.keys) (hc : c ∈ st.iters.keys)
    (hm : ops.isMatch mk c = true) (h : Mixtera.send (st.rem mk) (st.it c) = some (out, rest)) :
    (samples out).length ≤ st.rem mk ∧
    CompRel ops mk st
      { iters := st.iters.set c rest
        remaining := st.remaining.set mk (st.rem mk - (samples out).length)
        mixture := st.mixture
        chunk := st.chunk.upsert mk fun e => addEntries (e.getD []) (nestSegs out)
        progress := st.progress || decide ((samples out).length > 0) } := by
  obtain ⟨hne, hout, hrest⟩ := send_some h
  have hlen : (samples out).length ≤ st.rem mk := by rw [hout]; simp
  refine ⟨hlen, ?_⟩
  have hrem' : ∀ (a b cc : _) (pr : Bool), (Att.rem { iters := a, remaining := st.remaining.set mk (st.rem mk - (samples out).length), mixture := b, chunk := cc, progress := pr } mk) = st.rem mk - (samples out).length := by
    intros; simp [Att.rem, Dict.get?_set]
  constructor
  case mixture => rfl
  case remKeys => exact Dict.keys_set_of_mem hmk _
  case remOther => intro k hk; simp [Dict.get?_set, Ne.symm hk]
  case remLe => rw [hrem']; omega
  case iterKeys => exact Dict.keys_set_of_mem hc _
  case iterSuffix =>
    intro c'
    simp only [Att.it, Dict.get?_set]
    split
    · rename_i h2; subst h2
      simp only [Option.getD_some, hrest]
      exact List.drop_suffix _ _
    · exact List.suffix_refl _
  case iterOther =>
    intro c' hc'
    simp only [Dict.get?_set]
    split
    · rename_i h2; subst h2; simp [hm] at hc'
    · rfl
  case chunkOther => intro k hk; exact Dict.get?_upsert_ne _ (Ne.symm hk) _
  case chunkKeys => intro hn; exact Dict.nodup_keys_upsert hn _ _
  case chunkKeysSub => intro k hk; exact (Dict.mem_keys_upsert _ _ _).mp hk
  case chunkKeysMono => intro k hk; exact (Dict.mem_keys_upsert _ _ _).mpr (Or.inr hk)
  case size =>
    rw [hrem']
    simp only [Att.ce, Dict.get?_upsert_self, Option.getD_some, entW_addEntries, entW_nestSegs]
    rw [← length_samples]; omega
  case cons =>
    intro p
    obtain ⟨v, hv⟩ := (Dict.mem_keys_iff _ _).mp hc
    have h1 := Dict.sumBy_set_add (fun _ l => (samples l).count p) st.iters c rest v hv
    simp only [chunkW_upsert, unread, entW_nestSegs, ← count_samples]
    simp only [Att.it, hv, Option.getD_some] at hrest hout
    have h2 : (samples v).count p = (samples out).count p + (samples rest).count p := by
      rw [hrest, hout, ← List.count_append, List.take_append_drop]
    simp only [h2] at h1
    omega
  case prov =>
    intro p
    simp only [Att.ce, Dict.get?_upsert_self, Option.getD_some, entW_addEntries, entW_nestSegs, ← count_samples]
    intro hp
    by_cases h0 : 0 < entW (countW p) ((st.chunk.get? mk).getD [])
    · exact Or.inl h0
    · right
      refine ⟨c, hc, hm, ?_⟩
      have : 0 < (samples out).count p := by omega
      have := List.count_pos_iff.mp this
      rw [hout] at this
      exact List.mem_of_mem_take this
  case prog =>
    rw [hrem']
    simp only
    congr 1
    apply decide_eq_decide.mpr
    omega
  case exh => intro hall; exact absurd (hall c hc hm) hne

theorem compLoop_spec (ops : KeyOps K) (mk : K) (cs : List K) (st : Att K)
    (hmk : mk ∈ st.remaining.keys) (hcs : ∀ c ∈ cs, c ∈ st.iters.keys) :
    ∃ st', compLoop ops mk cs st = .ok st' ∧ CompRel ops mk st st' ∧
      (0 < st'.rem mk → ∀ c ∈ cs, ops.isMatch mk c = true → samples (st'.it c) = []) := by
  induction cs generalizing st with
  | nil => exact ⟨st, rfl, .refl .., by simp⟩
  | cons c cs ih =>
    have hc := hcs c (by simp)
    rw [compLoop]
    by_cases hm : ops.isMatch mk c = true
    · rw [if_pos hm]
      dsimp only
      match hs : Mixtera.send (st.rem mk) (st.it c) with
      | none =>
        have r1 := CompRel.exhaust (ops := ops) (mk := mk) hc hm (send_none hs)
        obtain ⟨st', e, r2, hex⟩ := ih { st with iters := st.iters.set c [] } hmk
          (by intro c' hc'; rw [r1.iterKeys]; exact hcs c' (by simp [hc']))
        refine ⟨st', e, r1.trans r2, ?_⟩
        intro hpos c' hc' hm'
        rcases List.mem_cons.mp hc' with rfl | hc'
        · have := (r1.trans r2).iterSuffix c'
          rw [send_none hs] at this
          exact List.suffix_nil.mp this
        · exact hex hpos c' hc' hm'
      | some (out, rest) =>
        dsimp only
        rw [entriesSize_nestSegs]
        obtain ⟨hle, r1⟩ := CompRel.take hmk hc hm hs
        have hle' : (samples out).length ≤ (st.remaining.get? mk).getD 0 := hle
        rw [if_pos hle']
        by_cases h0 : (st.remaining.get? mk).getD 0 - (samples out).length = 0
        · rw [if_pos h0]
          refine ⟨_, rfl, r1, ?_⟩
          intro hpos
          simp [Att.rem, Dict.get?_set, h0] at hpos
        · rw [if_neg h0]
          obtain ⟨st', e, r2, hex⟩ := ih _ (by rw [r1.remKeys]; exact hmk)
            (by intro c' hc'; rw [r1.iterKeys]; exact hcs c' (by simp [hc']))
          refine ⟨st', e, r1.trans r2, ?_⟩
          intro hpos c' hc' hm'
          rcases List.mem_cons.mp hc' with rfl | hc'
          · have h1 := r2.iterSuffix c'
            obtain ⟨_, hout, hrest⟩ := send_some hs
            have hlt : (samples out).length < st.rem mk := by
              have : st.rem mk - (samples out).length ≠ 0 := h0
              omega
            have : samples rest = [] := by
              rw [hrest, List.drop_eq_nil_iff]
              rw [hout] at hlt; simp at hlt; omega
            simp only [Att.it, Dict.get?_set, if_true, Option.getD_some, this] at h1
            exact List.suffix_nil.mp h1
          · exact hex hpos c' hc' hm'
    · rw [if_neg hm]
      obtain ⟨st', e, r, hex⟩ := ih st hmk (fun c' hc' => hcs c' (by simp [hc']))
      refine ⟨st', e, r, ?_⟩
      intro hpos c' hc' hm'
      rcases List.mem_cons.mp hc' with rfl | hc'
      · exact absurd hm' hm
      · exact hex hpos c' hc' hm'

end Mixtera
