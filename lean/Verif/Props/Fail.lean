import Verif.Props.Chunks
import Verif.Spec.Example

/-!
# C11, C12: when a request with a mixture is not served
-/

set_option linter.unusedSectionVars false

namespace Mixtera

variable {K : Type} [DecidableEq K]

/-- Positions that have neither been delivered nor discarded and belong to a property combination
matching one of `keys`. -/
def availableFor (ops : KeyOps K) (g : Gen K) (keys : List K) : List Pos :=
  g.iters.flatMap fun cl => if keys.any (fun k => ops.isMatch k cl.1) then samples cl.2 else []

/-- The keys that are requested do not compete for a property combination. -/
def NoOverlap (ops : KeyOps K) (rows : Dict K Nat) (order : List K) : Prop :=
  ∀ k ∈ rows.keys, ∀ k' ∈ rows.keys, ∀ c ∈ order,
    ops.isMatch k c = true → ops.isMatch k' c = true → k = k'

theorem mem_availableFor {ops : KeyOps K} {g : Gen K} (hg : GenInv g) {keys : List K} {p : Pos} :
    p ∈ availableFor ops g keys ↔
      ∃ c ∈ g.order, (∃ k ∈ keys, ops.isMatch k c = true) ∧ p ∈ samples (itOf g.iters c) := by
  unfold availableFor
  rw [List.mem_flatMap]
  constructor
  · rintro ⟨⟨c, l⟩, hc, hp⟩
    split at hp
    · rename_i hm
      have e := Dict.get?_of_mem (hg.keys ▸ hg.nodup) hc
      refine ⟨c, ?_, ?_, ?_⟩
      · rw [← hg.keys]; exact List.mem_map_of_mem (f := Prod.fst) hc
      · simpa using hm
      · simpa [itOf, e] using hp
    · simp at hp
  · rintro ⟨c, hc, ⟨k, hk, hm⟩, hp⟩
    rw [← hg.keys] at hc
    obtain ⟨l, hl⟩ := (Dict.mem_keys_iff _ _).mp hc
    refine ⟨(c, l), Dict.mem_of_get? hl, ?_⟩
    rw [if_pos (by simpa using ⟨k, hk, hm⟩)]
    simpa [itOf, hl] using hp

theorem length_split (ops : KeyOps K) (iters : Dict K (List Seg)) (keys : List K) :
    (allUnread iters).length =
      Dict.sumBy (fun c l => if keys.any (fun k => ops.isMatch k c) then (samples l).length else 0) iters +
      Dict.sumBy (fun c l => if keys.any (fun k => ops.isMatch k c) then 0 else (samples l).length) iters := by
  unfold allUnread
  induction iters with
  | nil => rfl
  | cons cl iters ih =>
    obtain ⟨c, l⟩ := cl
    simp only [List.flatMap_cons, List.length_append, ih, Dict.sumBy_cons]
    split <;> omega

theorem length_availableFor (ops : KeyOps K) (g : Gen K) (keys : List K) :
    (availableFor ops g keys).length =
      Dict.sumBy (fun c l => if keys.any (fun k => ops.isMatch k c) then (samples l).length else 0) g.iters := by
  unfold availableFor
  induction g.iters with
  | nil => rfl
  | cons cl iters ih =>
    obtain ⟨c, l⟩ := cl
    rw [List.flatMap_cons, List.length_append, ih, Dict.sumBy_cons]
    dsimp only
    split <;> simp

/-- If every component matching a requested key is used up after an attempt, then what was available
before is exactly as much as was taken. -/
theorem available_before {ops : KeyOps K} {g : Gen K} (hg : GenInv g) {rows : Dict K Nat} {att : Att K}
    (hi : AttInv ops g.iters rows att) (hex : ∀ k ∈ rows.keys, att.Exhausted ops k) :
    (availableFor ops g rows.keys).length = (contentSamples att.chunk).length := by
  have h1 := hi.perm.length_eq
  rw [List.length_append, length_split ops att.iters rows.keys, length_split ops g.iters rows.keys] at h1
  have hz : Dict.sumBy (fun c l => if rows.keys.any (fun k => ops.isMatch k c) then (samples l).length else 0)
      att.iters = 0 := by
    have : Dict.sumBy (fun c l => if rows.keys.any (fun k => ops.isMatch k c) then (samples l).length else 0)
        att.iters = Dict.sumBy (fun _ _ => 0) att.iters := by
      apply Dict.sumBy_congr rfl (by rw [hi.iterKeys, hg.keys]; exact hg.nodup)
      intro c l l' hl _
      split
      · rename_i hm
        simp only [List.any_eq_true] at hm
        obtain ⟨k, hk, hm⟩ := hm
        have := hex k hk c ((Dict.mem_keys_iff _ _).mpr ⟨l, hl⟩) hm
        simp only [Att.it, hl, Option.getD_some] at this
        simp [this]
      · rfl
    rw [this]
    simp [Dict.sumBy]
  have hsame : Dict.sumBy (fun c l => if rows.keys.any (fun k => ops.isMatch k c) then 0 else (samples l).length) att.iters =
      Dict.sumBy (fun c l => if rows.keys.any (fun k => ops.isMatch k c) then 0 else (samples l).length) g.iters := by
    apply Dict.sumBy_congr hi.iterKeys (by rw [hi.iterKeys, hg.keys]; exact hg.nodup)
    intro c l l' hl hl'
    split
    · rfl
    · rename_i hm
      have := hi.iterOther c (by
        intro k hk
        by_contra hc
        apply hm
        simp only [List.any_eq_true]
        exact ⟨k, hk, by simpa using hc⟩)
      rw [hl, hl'] at this
      simp only [Option.some.injEq] at this
      rw [this]
  rw [length_availableFor]
  omega

/-- C11. If a best-effort request is not served, then afterwards no data matching any of the mixture's
keys is left. -/
theorem c11_best_effort_exhausts (ops : KeyOps K) (replay : Bool) (index : Dict K Entries) (order : List K)
    (hi : IndexOk index order) (history : List (Req K)) (hh : ∀ r ∈ history, HeapOk r.heap)
    (r : Req K) (hr : HeapOk r.heap) (g g' : Gen K)
    (hg : g = after ops replay index order history)
    (h : g.send ops r.fuel replay r.heap r.mix r.target = (g', .none))
    (hs : (g.eff r).strict = false) :
    availableFor ops g' (g.eff r).rows.keys = [] := by
  have hgi : GenInv g := hg ▸ after_inv ops replay hi history hh
  rcases send_spec ops replay g hgi r hr h with ⟨_, h1, _⟩ | ⟨h1, _⟩ | ⟨g1, h1, h2, _, h3⟩
  · simp at h1
  · simp at h1
  · obtain ⟨hne, att, hsp, hit⟩ := h3.none rfl
    obtain ⟨_, _, hex⟩ := hsp.bestFail hs rfl
    apply List.eq_nil_iff_forall_not_mem.mpr
    intro p hp
    obtain ⟨c, hc, ⟨k, hk, hm⟩, hp⟩ := (mem_availableFor h3.inv).mp hp
    have := hex k hk c (by rw [← hit, h3.inv.keys]; exact hc) hm
    rw [hit] at hp
    rw [show itOf att.iters c = att.it c from rfl, this] at hp
    simp at hp

/-- C11, before the request: a best-effort request from the consumer whose turn it is (its target is the
next chunk) is refused only if fewer samples than a whole chunk were left for the mixture's keys. -/
theorem c11_best_effort_short (ops : KeyOps K) (replay : Bool) (index : Dict K Entries) (order : List K)
    (hi : IndexOk index order) (history : List (Req K)) (hh : ∀ r ∈ history, HeapOk r.heap)
    (r : Req K) (hr : HeapOk r.heap) (g g' : Gen K)
    (hg : g = after ops replay index order history)
    (h : g.send ops r.fuel replay r.heap r.mix r.target = (g', .none))
    (hs : (g.eff r).strict = false) (hturn : g.cur = g.effTarget r) :
    (availableFor ops g (g.eff r).rows.keys).length < (g.eff r).rows.values.sum := by
  have hgi : GenInv g := hg ▸ after_inv ops replay hi history hh
  rcases send_spec ops replay g hgi r hr h with ⟨_, h1, _⟩ | ⟨h1, _⟩ | ⟨g1, h1, h2, hsame, h3⟩
  · simp at h1
  · simp at h1
  · obtain ⟨hne, att, hsp, hit⟩ := h3.none rfl
    obtain ⟨hrem, hz, hex⟩ := hsp.bestFail hs rfl
    have hav : availableFor ops g (g.eff r).rows.keys = availableFor ops g1 (g.eff r).rows.keys := by
      unfold availableFor; rw [(hsame hturn).1]
    rw [hav, available_before h2 hsp.inv hex, hsp.inv.chunkSize hz]
    exact hsp.inv.short hrem hne

/-- C12. If a strict request is not served, then for some key of the mixture no matching data is left
afterwards. -/
theorem c12_strict_exhausts (ops : KeyOps K) (replay : Bool) (index : Dict K Entries) (order : List K)
    (hi : IndexOk index order) (history : List (Req K)) (hh : ∀ r ∈ history, HeapOk r.heap)
    (r : Req K) (hr : HeapOk r.heap) (g g' : Gen K)
    (hg : g = after ops replay index order history)
    (h : g.send ops r.fuel replay r.heap r.mix r.target = (g', .none))
    (hs : (g.eff r).strict = true) :
    ∃ k ∈ (g.eff r).rows.keys, availableFor ops g' [k] = [] := by
  have hgi : GenInv g := hg ▸ after_inv ops replay hi history hh
  rcases send_spec ops replay g hgi r hr h with ⟨_, h1, _⟩ | ⟨h1, _⟩ | ⟨g1, h1, h2, _, h3⟩
  · simp at h1
  · simp at h1
  · obtain ⟨hne, att, hsp, hit⟩ := h3.none rfl
    obtain ⟨k, hk, _, hex⟩ := hsp.strictFail hs rfl hne
    refine ⟨k, hk, ?_⟩
    apply List.eq_nil_iff_forall_not_mem.mpr
    intro p hp
    obtain ⟨c, hc, ⟨k', hk', hm⟩, hpc⟩ := (mem_availableFor h3.inv).mp hp
    simp only [List.mem_singleton] at hk'
    rw [hk'] at hm
    have := hex c (by rw [← hit, h3.inv.keys]; exact hc) hm
    rw [hit] at hpc
    rw [show itOf att.iters c = att.it c from rfl, this] at hpc
    simp at hpc

theorem after_nodup (ops : KeyOps K) (replay : Bool) {index : Dict K Entries} {order : List K}
    (hi : IndexOk index order) (hd : (contentSamples index).Nodup) (history : List (Req K)) (hh : ∀ r ∈ history, HeapOk r.heap) :
    (allUnread (after ops replay index order history).iters).Nodup := by
  rw [List.nodup_iff_count_le_one]
  intro p
  rw [count_allUnread]
  have h1 := (play_rel ops replay _ (genInv_init hi) history hh).1.cons p
  have h2 := (init_unread hi).count_eq p
  rw [count_allUnread] at h2
  have h3 := List.nodup_iff_count_le_one.mp hd p
  show unread p ((Gen.init index order).play ops replay history).1.iters ≤ 1
  omega

/-- Distinct positions: a position is unread in one component only. -/
theorem comp_unique {iters : Dict K (List Seg)} (hk : iters.keys.Nodup) (hn : (allUnread iters).Nodup) {c c' : K} {p : Pos}
    (h1 : p ∈ samples (itOf iters c)) (h2 : p ∈ samples (itOf iters c')) : c = c' := by
  by_contra hne
  have hc1 : ∃ l, iters.get? c = some l := by
    cases hg : iters.get? c with
    | none => simp [itOf, hg] at h1
    | some l => exact ⟨l, rfl⟩
  have hc2 : ∃ l, iters.get? c' = some l := by
    cases hg : iters.get? c' with
    | none => simp [itOf, hg] at h2
    | some l => exact ⟨l, rfl⟩
  obtain ⟨l, hl⟩ := hc1
  obtain ⟨l', hl'⟩ := hc2
  have e := Dict.sumBy_pop_add (fun _ l => (samples l).count p) iters c l hl
  have hl2 : (iters.pop c).get? c' = some l' := by
    rw [Dict.get?_pop hk, if_neg hne]; exact hl'
  have e2 := Dict.le_sumBy (g := fun _ l => (samples l).count p) hl2
  have p1 : 0 < (samples l).count p := List.count_pos_iff.mpr (by simpa [itOf, hl] using h1)
  have p2 : 0 < (samples l').count p := List.count_pos_iff.mpr (by simpa [itOf, hl'] using h2)
  have := List.nodup_iff_count_le_one.mp hn p
  rw [count_allUnread] at this
  have this' : Dict.sumBy (fun _ l => (samples l).count p) iters ≤ 1 := this
  omega

theorem availableFor_nodup {ops : KeyOps K} {g : Gen K} (hn : (allUnread g.iters).Nodup) (keys : List K) :
    (availableFor ops g keys).Nodup := by
  refine List.Nodup.sublist ?_ hn
  unfold availableFor allUnread
  induction g.iters with
  | nil => simp
  | cons cl l ih =>
    rw [List.flatMap_cons, List.flatMap_cons]
    apply List.Sublist.append _ ih
    split
    · exact List.Sublist.refl _
    · exact List.nil_sublist _

/-- C12, before the request: when the mixture's keys do not compete for a property combination, a strict
request from the consumer whose turn it is is refused only if for some key fewer samples than requested
were left. -/
theorem c12_strict_short (ops : KeyOps K) (replay : Bool) (index : Dict K Entries) (order : List K)
    (hi : IndexOk index order) (hd : (contentSamples index).Nodup)
    (history : List (Req K)) (hh : ∀ r ∈ history, HeapOk r.heap)
    (r : Req K) (hr : HeapOk r.heap) (g g' : Gen K)
    (hg : g = after ops replay index order history)
    (h : g.send ops r.fuel replay r.heap r.mix r.target = (g', .none))
    (hs : (g.eff r).strict = true) (hturn : g.cur = g.effTarget r)
    (hno : NoOverlap ops (g.eff r).rows order) :
    ∃ k n, (k, n) ∈ (g.eff r).rows ∧ (availableFor ops g [k]).length < n := by
  have hrel := play_rel ops replay _ (genInv_init hi) history hh
  have hgi : GenInv g := hg ▸ hrel.2
  have hord : g.order = order := by rw [hg]; exact hrel.1.order
  have hnd : (allUnread g.iters).Nodup := by rw [hg]; exact after_nodup ops replay hi hd history hh
  rcases send_spec ops replay g hgi r hr h with ⟨_, h1, _⟩ | ⟨h1, _⟩ | ⟨g1, h1, h2, hsame, h3⟩
  · simp at h1
  · simp at h1
  · obtain ⟨hne, att, hsp, hit⟩ := h3.none rfl
    obtain ⟨k, hk, hpos, hex⟩ := hsp.strictFail hs rfl hne
    have hit1 := (hsame hturn).1
    have hord1 : g1.order = order := h1.order.trans hord
    rw [hit1] at hsp
    obtain ⟨n, hn⟩ := (Dict.mem_keys_iff _ _).mp hk
    refine ⟨k, n, Dict.mem_of_get? hn, ?_⟩
    have hkn : g.iters.keys.Nodup := by rw [hgi.keys]; exact hgi.nodup
    -- everything that was available for `k` is now listed under `k`
    have hsub : availableFor ops g [k] ⊆ entriesSamples (att.ce k) := by
      intro p hp
      obtain ⟨c, hc, ⟨k', hk', hm⟩, hp⟩ := (mem_availableFor hgi).mp hp
      simp only [List.mem_singleton] at hk'
      rw [hk'] at hm
      clear hk' k'
      have hall : p ∈ allUnread g.iters := by
        rw [hgi.keys.symm] at hc
        obtain ⟨l, hl⟩ := (Dict.mem_keys_iff _ _).mp hc
        exact List.mem_flatMap.mpr ⟨(c, l), Dict.mem_of_get? hl, by simpa [itOf, hl] using hp⟩
      rcases List.mem_append.mp (hsp.inv.perm.mem_iff.mpr hall) with hu | hcnt
      · obtain ⟨⟨c', l'⟩, hc', hp'⟩ := List.mem_flatMap.mp hu
        have e := Dict.get?_of_mem (by rw [hsp.inv.iterKeys]; exact hkn) hc'
        have hp1 : p ∈ samples (att.it c') := by simpa [Att.it, e] using hp'
        have hp2 : p ∈ samples (itOf g.iters c') := (hsp.inv.iterSuffix c').subset hp1
        have := comp_unique hkn hnd hp hp2
        subst this
        have := hex c (by rw [hsp.inv.iterKeys, hgi.keys]; exact hc) hm
        rw [this] at hp1
        simp at hp1
      · obtain ⟨⟨k2, e2⟩, hke, hp2⟩ := List.mem_flatMap.mp hcnt
        have e := Dict.get?_of_mem hsp.inv.chunkNodup hke
        have hce : att.ce k2 = e2 := by simp [Att.ce, e]
        have hpos2 : 0 < entW (countW p) (att.ce k2) := by
          rw [hce, ← count_entriesSamples, List.count_pos_iff]; exact hp2
        obtain ⟨c2, hc2, hm2, hpc2⟩ := hsp.inv.prov k2 p hpos2
        have := comp_unique hkn hnd hp hpc2
        subst this
        have hk2 : k2 ∈ (g.eff r).rows.keys :=
          hsp.inv.chunkSub k2 (List.mem_map_of_mem (f := Prod.fst) hke)
        have := hno k hk k2 hk2 c (by rw [← hord]; exact hc) hm hm2
        subst this
        rw [hce]; exact hp2
    have hlen : (availableFor ops g [k]).length ≤ (entriesSamples (att.ce k)).length :=
      (List.subperm_of_subset (availableFor_nodup hnd [k]) hsub).length_le
    rw [length_entriesSamples] at hlen
    have hb := hsp.inv.bal k
    simp only [Att.mix, hsp.strictMix hs, hn, Option.getD_some] at hb
    omega

/-- A request with a mixture is always answered by a chunk, by `None`, or (best effort with a key of zero
rows) by a ZeroDivisionError; for the consumer whose turn it is one iteration suffices. -/
theorem mixture_answers (ops : KeyOps K) (replay : Bool) {g : Gen K} (hg : GenInv g) (r : Req K) (hr : HeapOk r.heap)
    (hf : 0 < r.fuel) (hsusp : g.susp ≠ .finished) (hns : g.noSuccess ≤ 10) (hne : (g.eff r).rows ≠ [])
    (hz : (g.eff r).strict = true ∨ ∀ k ∈ (g.eff r).rows.keys, (g.eff r).rows.get? k ≠ some 0)
    (hturn : g.cur = g.effTarget r) :
    (∃ g' c, g.send ops r.fuel replay r.heap r.mix r.target = (g', .chunk c)) ∨
    ∃ g', g.send ops r.fuel replay r.heap r.mix r.target = (g', .none) := by
  obtain ⟨m, hm⟩ : ∃ m, r.fuel = m + 1 := ⟨r.fuel - 1, by omega⟩
  have key : ∀ g0 : Gen K, GenInv g0 → g0.cur = g0.target → r.heap g0.base = g.eff r → g0.noSuccess ≤ 10 →
      (∃ g' c, g0.run ops r.fuel replay r.heap r.fuel = (g', .chunk c)) ∨
      ∃ g', g0.run ops r.fuel replay r.heap r.fuel = (g', .none) := by
    intro g0 hg0 hc0 hb0 hns0
    have hrun : ∀ x, x = r.fuel → g0.run ops x replay r.heap r.fuel =
        match g0.step ops x replay r.heap with
        | (g', some o) => (g', o)
        | (g', none) => Gen.run ops x replay r.heap m g' := by
      intro x _
      rw [hm, Gen.run]
      rfl
    rw [hrun r.fuel rfl]
    have hsome := step_answers ops r.fuel replay r.heap g0 hc0
    match hs : g0.step ops r.fuel replay r.heap with
    | (g2, none) => rw [hs] at hsome; exact absurd rfl hsome
    | (g2, some o) =>
      have sp := step_spec ops r.fuel replay r.heap hr g0 hg0 hs
      rw [hb0] at sp
      dsimp only
      match o, sp with
      | .chunk c, _ => exact Or.inl ⟨g2, c, rfl⟩
      | .none, _ => exact Or.inr ⟨g2, rfl⟩
      | .stop, sp =>
        rcases (sp.stop rfl).2 with h | ⟨h, _⟩
        · omega
        · exact absurd h hne
      | .raised e, sp =>
        obtain ⟨_, h1, k, hk, h2⟩ := sp.raised e rfl hne
        rcases hz with hz | hz
        · rw [hz] at h1; simp at h1
        · exact absurd h2 (hz k hk)
  unfold Gen.send
  match hs : g.susp with
  | .finished => exact absurd hs hsusp
  | .ready =>
    dsimp only
    apply key { g with susp := .ready, base := r.mix, target := r.target }
    · exact ⟨hg.keys, hg.nodup, hg.empty⟩
    · simpa [Gen.effTarget, hs] using hturn
    · simp [Gen.eff, hs]
    · exact hns
  | .afterNone =>
    dsimp only
    apply key g hg
    · simpa [Gen.effTarget, hs] using hturn
    · simp [Gen.eff, hs]
    · exact hns

/-- C12, "otherwise it delivers the chunk": with enough data left for every key, and the generator not
stopped, a strict request is served. -/
theorem c12_strict_delivers (ops : KeyOps K) (replay : Bool) (index : Dict K Entries) (order : List K)
    (hi : IndexOk index order) (hd : (contentSamples index).Nodup)
    (history : List (Req K)) (hh : ∀ r ∈ history, HeapOk r.heap)
    (r : Req K) (hr : HeapOk r.heap) (hf : 0 < r.fuel) (g : Gen K)
    (hg : g = after ops replay index order history) (hsusp : g.susp ≠ .finished) (hns : g.noSuccess ≤ 10)
    (hne : (g.eff r).rows ≠ []) (hs : (g.eff r).strict = true) (hturn : g.cur = g.effTarget r)
    (hno : NoOverlap ops (g.eff r).rows order)
    (henough : ∀ k n, (k, n) ∈ (g.eff r).rows → n ≤ (availableFor ops g [k]).length) :
    ∃ g' c, g.send ops r.fuel replay r.heap r.mix r.target = (g', .chunk c) := by
  have hgi : GenInv g := hg ▸ after_inv ops replay hi history hh
  rcases mixture_answers ops replay hgi r hr hf hsusp hns hne (Or.inl hs) hturn with h | ⟨g', h⟩
  · exact h
  · obtain ⟨k, n, hk, hlt⟩ := c12_strict_short ops replay index order hi hd history hh r hr g g' hg h hs hturn hno
    have := henough k n hk
    omega

/-- C11, converse direction: with a whole chunk left for the mixture's keys (and no key of zero rows) a
best-effort request is served. -/
theorem c11_best_effort_delivers (ops : KeyOps K) (replay : Bool) (index : Dict K Entries) (order : List K)
    (hi : IndexOk index order) (history : List (Req K)) (hh : ∀ r ∈ history, HeapOk r.heap)
    (r : Req K) (hr : HeapOk r.heap) (hf : 0 < r.fuel) (g : Gen K)
    (hg : g = after ops replay index order history) (hsusp : g.susp ≠ .finished) (hns : g.noSuccess ≤ 10)
    (hne : (g.eff r).rows ≠ []) (hs : (g.eff r).strict = false) (hturn : g.cur = g.effTarget r)
    (hpos : ∀ k ∈ (g.eff r).rows.keys, (g.eff r).rows.get? k ≠ some 0)
    (henough : (g.eff r).rows.values.sum ≤ (availableFor ops g (g.eff r).rows.keys).length) :
    ∃ g' c, g.send ops r.fuel replay r.heap r.mix r.target = (g', .chunk c) := by
  have hgi : GenInv g := hg ▸ after_inv ops replay hi history hh
  rcases mixture_answers ops replay hgi r hr hf hsusp hns hne (Or.inr hpos) hturn with h | ⟨g', h⟩
  · exact h
  · have := c11_best_effort_short ops replay index order hi history hh r hr g g' hg h hs hturn
    omega

/-! ### The hypotheses are met: after two chunks the strict mixture cannot be served (one sample of key 1
is left, three are wanted), the best-effort mixture can; later the best-effort mixture fails as well. -/

example : let g := after Ex.ops false Ex.index Ex.order [Ex.req Ex.strictMix 0, Ex.req Ex.strictMix 1]
    (g.send Ex.ops 20 false (fun _ => Ex.strictMix) 0 2).2 matches .none ∧
    (g.eff (Ex.req Ex.strictMix 2)).strict = true ∧ g.cur = g.effTarget (Ex.req Ex.strictMix 2) ∧
    (availableFor Ex.ops g [1]).length = 1 := by
  decide +kernel

example : NoOverlap Ex.ops Ex.strictMix.rows Ex.order := by unfold NoOverlap; decide

example : let g := after Ex.ops false Ex.index Ex.order [Ex.req Ex.bestMix 0, Ex.req Ex.bestMix 1, Ex.req Ex.bestMix 2]
    (g.send Ex.ops 20 false (fun _ => Ex.bestMix) 0 3).2 matches .none ∧
    (g.eff (Ex.req Ex.bestMix 3)).strict = false ∧ g.cur = g.effTarget (Ex.req Ex.bestMix 3) ∧
    (availableFor Ex.ops g [2, 1]).length = 2 ∧ g.susp ≠ .finished ∧ g.noSuccess ≤ 10 := by
  decide +kernel

end Mixtera
