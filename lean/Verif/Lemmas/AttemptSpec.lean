import Verif.Lemmas.Sorted

/-!
Summary of one attempt to build a chunk.
-/

set_option linter.unusedSectionVars false

namespace Mixtera

variable {K : Type} [DecidableEq K]

theorem all_zero {d : Dict K Nat} (hn : d.keys.Nodup) :
    d.values.all (· == 0) = true ↔ ∀ k, (d.get? k).getD 0 = 0 := by
  constructor
  · intro h k
    match hg : d.get? k with
    | none => rfl
    | some v =>
      have hm : v ∈ d.values := List.mem_map_of_mem (f := Prod.snd) (Dict.mem_of_get? hg)
      simpa using List.all_eq_true.mp h v hm
  · intro h
    rw [List.all_eq_true]
    intro v hv
    simp only [Dict.values, List.mem_map] at hv
    obtain ⟨⟨k, v'⟩, hkv, rfl⟩ := hv
    have := h k
    rw [Dict.get?_of_mem hn hkv] at this
    simpa using this

/-- Everything the generator relies on about one attempt. -/
structure AttemptSpec (ops : KeyOps K) (iters : Dict K (List Seg)) (v : MixView K) (att : Att K) (b : Bool) :
    Prop where
  inv : AttInv ops iters v.rows att
  done : b = true → ∀ k, att.rem k = 0
  ne : b = true → att.remaining ≠ []
  strictMix : v.strict = true → att.mixture = v.rows
  strictFail : v.strict = true → b = false → v.rows ≠ [] → ∃ k ∈ v.rows.keys, 0 < att.rem k ∧ att.Exhausted ops k
  bestFail : v.strict = false → b = false → att.remaining = [] ∧ (∀ k, att.rem k = 0) ∧
    ∀ k ∈ v.rows.keys, att.Exhausted ops k

theorem attempt_spec (ops : KeyOps K) (iters : Dict K (List Seg)) (v : MixView K) (hn : v.rows.keys.Nodup) :
    (attempt ops iters v = .error .zeroDivision ∧ v.strict = false ∧ ∃ k ∈ v.rows.keys, v.rows.get? k = some 0) ∨
    ∃ att b, attempt ops iters v = .ok (att, b) ∧ AttemptSpec ops iters v att b := by
  have h0 := AttInv.start ops iters v.rows hn
  unfold attempt
  cases hs : v.strict with
  | false =>
    rcases passes_best (v.rows.length + 3) (Att.start iters v.rows) h0
      (by show v.rows.length + 2 ≤ _; omega) (Or.inl rfl) with ⟨he, hp⟩ | ⟨st, he, hi, hz⟩
    · left
      rw [he]
      refine ⟨rfl, rfl, ?_⟩
      simp only [Att.Pos, not_forall] at hp
      obtain ⟨k, hk, hk0⟩ := hp
      refine ⟨k, hk, ?_⟩
      obtain ⟨x, hx⟩ := (Dict.mem_keys_iff _ _).mp hk
      have hx' : v.rows.get? k = some x := hx
      have : (v.rows.get? k).getD 0 = 0 := by
        have : ¬ 0 < (v.rows.get? k).getD 0 := hk0
        omega
      rw [hx'] at this ⊢
      simpa using this
    · right
      rw [he]
      refine ⟨st, _, rfl, hi, fun _ => hz, ?_, ?_, ?_, ?_⟩
      · intro h; simp only [Bool.and_eq_true, Bool.not_eq_true'] at h
        intro h0; simp [h0] at h
      · intro h; rw [hs] at h; simp at h
      · intro h; rw [hs] at h; simp at h
      · intro _ hb
        have : st.remaining.values.all (· == 0) = true := (all_zero hi.remNodup).mpr hz
        rw [this, Bool.and_true, Bool.not_eq_false', List.isEmpty_iff] at hb
        refine ⟨hb, hz, ?_⟩
        intro k hk
        apply hi.popped k hk
        simp [hb, Dict.keys]
  | true =>
    obtain ⟨st, he, hi, hk, hm, hex⟩ := passes_strict (v.rows.length + 3) (Att.start iters v.rows) h0
      (by omega) rfl
    right
    rw [he]
    have hk' : st.remaining.keys = v.rows.keys := hk
    refine ⟨st, _, rfl, hi, ?_, ?_, ?_, ?_, ?_⟩
    · intro h k
      simp only [Bool.and_eq_true] at h
      exact (all_zero hi.remNodup).mp h.2 k
    · intro h; simp only [Bool.and_eq_true, Bool.not_eq_true'] at h
      intro h0; simp [h0] at h
    · intro _; exact hm
    · intro _ hb hne
      have hr : st.remaining ≠ [] := by
        intro h; rw [h] at hk'; apply hne; simpa [Dict.keys] using hk'.symm
      have : st.remaining.isEmpty = false := by
        cases hc : st.remaining with
        | nil => exact absurd hc hr
        | cons _ _ => rfl
      rw [this, Bool.not_false, Bool.true_and] at hb
      have hnz : ¬ ∀ k, (st.remaining.get? k).getD 0 = 0 := by
        intro h; rw [(all_zero hi.remNodup).mpr h] at hb; simp at hb
      simp only [not_forall] at hnz
      obtain ⟨k, hk0⟩ := hnz
      have hkm : k ∈ st.remaining.keys := by
        rw [Dict.mem_keys_iff]
        cases hg : st.remaining.get? k with
        | none => simp [hg] at hk0
        | some x => exact ⟨x, rfl⟩
      have hpos : 0 < st.rem k := Nat.pos_of_ne_zero hk0
      exact ⟨k, hk' ▸ hkm, hpos, hex k hkm hpos⟩
    · intro h; rw [hs] at h; simp at h

theorem count_allUnread (p : Pos) (iters : Dict K (List Seg)) : (allUnread iters).count p = unread p iters := by
  unfold allUnread unread
  induction iters with
  | nil => rfl
  | cons cl iters ih => obtain ⟨a, b⟩ := cl; simp [List.count_append, ih]

theorem count_contentSamples (p : Pos) (c : Dict K Entries) :
    (contentSamples c).count p = chunkW (countW p) c := by
  unfold contentSamples chunkW
  induction c with
  | nil => rfl
  | cons ke c ih => obtain ⟨a, b⟩ := ke; simp [List.count_append, ih, count_entriesSamples]

theorem length_contentSamples (c : Dict K Entries) :
    (contentSamples c).length = chunkW sizeW c := by
  unfold contentSamples chunkW
  induction c with
  | nil => rfl
  | cons ke c ih => obtain ⟨a, b⟩ := ke; simp [ih, length_entriesSamples]

/-- Conservation as a permutation of position lists. -/
theorem AttInv.perm {ops : KeyOps K} {iters : Dict K (List Seg)} {rows : Dict K Nat} {st : Att K}
    (h : AttInv ops iters rows st) : (allUnread st.iters ++ contentSamples st.chunk).Perm (allUnread iters) := by
  rw [List.perm_iff_count]
  intro p
  rw [List.count_append, count_allUnread, count_allUnread, count_contentSamples]
  exact h.cons p

theorem sumBy_le_of {α β γ : Type} [DecidableEq α] (g : α → β → Nat) (g' : α → γ → Nat) (d : Dict α β) (d' : Dict α γ)
    (hn : d.keys.Nodup) (hn' : d'.keys.Nodup)
    (h : ∀ k b, d.get? k = some b → g k b ≤ ((d'.get? k).map (g' k)).getD 0) :
    Dict.sumBy g d ≤ Dict.sumBy g' d' := by
  induction d generalizing d' with
  | nil => simp
  | cons kb d ih =>
    obtain ⟨k, b⟩ := kb
    simp only [Dict.keys, List.map_cons, List.nodup_cons] at hn
    have hk : k ∉ Dict.keys d := hn.1
    rw [Dict.sumBy_cons]
    have h1 := h k b (by simp [Dict.get?_cons])
    have h2 : ∀ k' b', Dict.get? d k' = some b' → k' ≠ k := by
      rintro k' b' hg rfl
      exact hk ((Dict.mem_keys_iff _ _).mpr ⟨b', hg⟩)
    cases hg : d'.get? k with
    | none =>
      rw [hg] at h1
      simp at h1
      have := ih d' hn.2 hn' (fun k' b' hg' => by
        apply h k' b'
        rw [Dict.get?_cons, if_neg (Ne.symm (h2 k' b' hg'))]; exact hg')
      omega
    | some c =>
      rw [hg] at h1
      simp only [Option.map_some, Option.getD_some] at h1
      have e := Dict.sumBy_pop_add g' d' k c hg
      have := ih (d'.pop k) hn.2 (Dict.nodup_keys_pop hn' k) (fun k' b' hg' => by
        rw [Dict.get?_pop hn', if_neg (Ne.symm (h2 k' b' hg'))]
        apply h k' b'
        rw [Dict.get?_cons, if_neg (Ne.symm (h2 k' b' hg'))]; exact hg')
      omega

theorem AttInv.chunkSize {ops : KeyOps K} {iters : Dict K (List Seg)} {rows : Dict K Nat} {st : Att K}
    (h : AttInv ops iters rows st) (hz : ∀ k, st.rem k = 0) :
    (contentSamples st.chunk).length = st.mixture.values.sum := by
  rw [length_contentSamples, Dict.values_sum]
  apply Nat.le_antisymm
  · apply sumBy_le_of _ _ _ _ h.chunkNodup h.mixNodup
    intro k e he
    have := h.bal k
    rw [hz k] at this
    simp only [Att.ce, he, Option.getD_some, Att.mix] at this
    rw [show entW sizeW e = _ from this]
    cases st.mixture.get? k <;> simp
  · apply sumBy_le_of _ _ _ _ h.mixNodup h.chunkNodup
    intro k m hm
    have := h.bal k
    rw [hz k] at this
    simp only [Att.ce, Att.mix, hm, Option.getD_some] at this
    cases hg : st.chunk.get? k with
    | none => simp [hg] at this ⊢; omega
    | some e => simp [hg] at this ⊢; omega

end Mixtera
