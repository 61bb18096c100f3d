import Verif.Lemmas.AttemptSpec
import Verif.Spec.History

/-!
Invariants of the chunk generator over whole histories.
-/

set_option linter.unusedSectionVars false

namespace Mixtera

variable {K : Type} [DecidableEq K]

/-- Unread ranges of component `c`. -/
def itOf (iters : Dict K (List Seg)) (c : K) : List Seg := (iters.get? c).getD []

theorem unread_set {iters : Dict K (List Seg)} {c : K} (hc : c ∈ iters.keys) (l : List Seg) (p : Pos) :
    unread p (iters.set c l) + (samples (itOf iters c)).count p = unread p iters + (samples l).count p := by
  obtain ⟨old, ho⟩ := (Dict.mem_keys_iff _ _).mp hc
  have := Dict.sumBy_set_add (fun _ l => (samples l).count p) iters c l old ho
  simp only [itOf, ho, Option.getD_some]
  exact this

theorem itOf_set (iters : Dict K (List Seg)) (c c' : K) (l : List Seg) :
    itOf (iters.set c l) c' = if c = c' then l else itOf iters c' := by
  simp only [itOf, Dict.get?_set]; split <;> simp

/-- The set of keys marked as empty is correct. -/
structure EmptyInv (order : List K) (iters : Dict K (List Seg)) (empty : List Nat) : Prop where
  nodup : empty.Nodup
  lt : ∀ i ∈ empty, i < order.length
  used : ∀ i ∈ empty, ∀ k, order[i]? = some k → samples (itOf iters k) = []

theorem EmptyInv.set {order : List K} {iters : Dict K (List Seg)} {empty : List Nat}
    (h : EmptyInv order iters empty) (iters' : Dict K (List Seg))
    (hs : ∀ c, samples (itOf iters' c) <:+ samples (itOf iters c)) : EmptyInv order iters' empty where
  nodup := h.nodup
  lt := h.lt
  used i hi k hk := by
    have := hs k
    rw [h.used i hi k hk] at this
    exact List.suffix_nil.mp this

theorem EmptyInv.full {order : List K} {iters : Dict K (List Seg)} {empty : List Nat}
    (h : EmptyInv order iters empty) (hl : order.length ≤ empty.length) :
    ∀ k ∈ order, samples (itOf iters k) = [] := by
  intro k hk
  obtain ⟨i, hi, rfl⟩ := List.getElem_of_mem hk
  apply h.used i _ _ (List.getElem?_eq_getElem hi)
  have hsub : empty.Subperm (List.range order.length) :=
    List.subperm_of_subset h.nodup (fun j hj => List.mem_range.mpr (h.lt j hj))
  have hp : empty.Perm (List.range order.length) := hsub.perm_of_length_le (by simpa using hl)
  exact hp.mem_iff.mpr (List.mem_range.mpr hi)

/-- What the search for a component with data does. -/
structure RotSpec (order : List K) (size : Nat) (iters : Dict K (List Seg))
    (idx' : Nat) (empty' : List Nat) (iters' : Dict K (List Seg)) (r : Option (List Seg)) : Prop where
  keys : iters'.keys = iters.keys
  suffix : ∀ c, samples (itOf iters' c) <:+ samples (itOf iters c)
  empty : EmptyInv order iters' empty'
  none : r = none → (∀ p, unread p iters' = unread p iters) ∧ ∀ k ∈ order, samples (itOf iters' k) = []
  some : ∀ out, r = some out → ∃ key, order[idx']? = some key ∧
    (∀ p, unread p iters' + (samples out).count p = unread p iters) ∧
    samples out = (samples (itOf iters key)).take size ∧
    samples (itOf iters' key) = (samples (itOf iters key)).drop size ∧
    samples (itOf iters key) ≠ [] ∧
    (SegSorted (itOf iters key) → SegSorted out)
  sorted : (∀ c, SegSorted (itOf iters c)) → ∀ c, SegSorted (itOf iters' c)
  files : ∀ out, r = Option.some out → ∀ key, order[idx']? = Option.some key →
    ∀ o ∈ out, ∃ s ∈ itOf iters key, s.ds = o.ds ∧ s.file = o.file ∧ s.lo < s.hi

/-- What is yielded comes from ranges with unread samples. -/
theorem sendAux_files (n : Nat) : ∀ (st : List Seg) (cur : Nat) (acc : List Seg) {out rest : List Seg},
    sendAux n cur acc st = some (out, rest) →
    ∀ o ∈ out, o ∈ acc ∨ ∃ s ∈ st, s.ds = o.ds ∧ s.file = o.file ∧ s.lo < s.hi
  | [], cur, acc, out, rest, e => by
    rw [sendAux] at e
    split at e
    · simp only [Option.some.injEq, Prod.mk.injEq] at e
      obtain ⟨rfl, rfl⟩ := e
      exact fun o ho => Or.inl ho
    · simp at e
  | s :: st, cur, acc, out, rest, e => by
    intro o ho
    rw [sendAux] at e
    split at e
    · rename_i hs
      split at e
      · rcases sendAux_files n st _ _ e o ho with h | ⟨s', hs', h⟩
        · rcases List.mem_append.mp h with h | h
          · exact Or.inl h
          · simp only [List.mem_singleton] at h
            subst h
            exact Or.inr ⟨o, by simp, rfl, rfl, hs⟩
        · exact Or.inr ⟨s', by simp [hs'], h⟩
      · simp only [Option.some.injEq, Prod.mk.injEq] at e
        obtain ⟨rfl, rfl⟩ := e
        rcases List.mem_append.mp ho with h | h
        · exact Or.inl h
        · simp only [List.mem_singleton] at h
          subst h
          exact Or.inr ⟨s, by simp, rfl, rfl, hs⟩
    · rcases sendAux_files n st _ _ e o ho with h | ⟨s', hs', h⟩
      · exact Or.inl h
      · exact Or.inr ⟨s', by simp [hs'], h⟩

theorem rotate_spec (order : List K) (size : Nat) (fuel idx : Nat) (empty : List Nat)
    (iters : Dict K (List Seg)) (hk : iters.keys = order) (he : EmptyInv order iters empty)
    {idx' : Nat} {empty' : List Nat} {iters' : Dict K (List Seg)} {r : Option (List Seg)}
    (h : rotate order size fuel idx empty iters = .ok (idx', empty', iters', r)) :
    RotSpec order size iters idx' empty' iters' r := by
  induction fuel generalizing idx empty iters with
  | zero => simp [rotate] at h
  | succ fuel ih =>
    rw [rotate] at h
    split at h
    · dsimp only at h
      split at h
      · exact ih _ _ _ hk he h
      · rename_i hlt hni
        split at h
        · simp at h
        · rename_i key hkey
          have hlt' : (idx + 1) % order.length < order.length := Nat.mod_lt _ (by omega)
          have hmem : key ∈ iters.keys := hk ▸ List.mem_of_getElem? hkey
          split at h
          · rename_i hs
            have hs0 : samples (itOf iters key) = [] := send_none hs
            have hsuf : ∀ c, samples (itOf (iters.set key []) c) <:+ samples (itOf iters c) := by
              intro c; rw [itOf_set]; split
              · simp
              · exact List.suffix_refl _
            have hun : ∀ p, unread p (iters.set key []) = unread p iters := by
              intro p; have := unread_set hmem [] p; simpa [hs0] using this
            have he' : EmptyInv order (iters.set key []) (empty ++ [(idx + 1) % order.length]) := by
              refine ⟨?_, ?_, ?_⟩
              · rw [List.nodup_append]
                refine ⟨he.nodup, by simp, ?_⟩
                intro a ha b hb
                simp only [List.mem_singleton] at hb
                subst hb
                intro hab; exact hni (hab ▸ ha)
              · intro i hi
                rcases List.mem_append.mp hi with hi | hi
                · exact he.lt i hi
                · simp only [List.mem_singleton] at hi; omega
              · intro i hi k hik
                rcases List.mem_append.mp hi with hi | hi
                · exact (he.set _ hsuf).used i hi k hik
                · simp only [List.mem_singleton] at hi
                  subst hi
                  rw [hkey] at hik
                  simp only [Option.some.injEq] at hik
                  subst hik
                  rw [itOf_set]; simp
            have sp := ih _ _ _ ((Dict.keys_set_of_mem hmem _).trans hk) he' h
            refine ⟨sp.keys.trans (Dict.keys_set_of_mem hmem _), fun c => (sp.suffix c).trans (hsuf c), sp.empty, ?_, ?_, ?_, ?_⟩
            · intro hr
              exact ⟨fun p => ((sp.none hr).1 p).trans (hun p), (sp.none hr).2⟩
            · intro out ho
              obtain ⟨key', h1, h2, h3, h4, h5, h6⟩ := sp.some out ho
              have hne : key ≠ key' := by
                intro hkk; subst hkk; rw [itOf_set] at h5; simp at h5
              simp only [itOf_set, if_neg hne] at h3 h4 h5 h6
              exact ⟨key', h1, fun p => (h2 p).trans (hun p), h3, h4, h5, h6⟩
            · intro hso
              apply sp.sorted
              intro c; rw [itOf_set]; split
              · exact SegSorted.nil
              · exact hso c
            · intro out ho key' hkey' o hoo
              obtain ⟨s, hs', h⟩ := sp.files out ho key' hkey' o hoo
              rw [itOf_set] at hs'
              split at hs'
              · cases hs'
              · exact ⟨s, hs', h⟩
          · rename_i out rest hs
            simp only [Except.ok.injEq, Prod.mk.injEq] at h
            obtain ⟨rfl, rfl, rfl, rfl⟩ := h
            obtain ⟨hne, hout, hrest⟩ := send_some hs
            have hne' : samples (itOf iters key) ≠ [] := hne
            have hsuf : ∀ c, samples (itOf (iters.set key rest) c) <:+ samples (itOf iters c) := by
              intro c; rw [itOf_set]; split
              · rename_i hc; subst hc; rw [hrest]; exact List.drop_suffix _ _
              · exact List.suffix_refl _
            refine ⟨Dict.keys_set_of_mem hmem _, hsuf, he.set _ hsuf, by simp, ?_, ?_, ?_⟩
            · intro out' ho
              simp only [Option.some.injEq] at ho
              subst ho
              refine ⟨key, hkey, ?_, hout, ?_, hne', ?_⟩
              · intro p
                have := unread_set hmem rest p
                have e : (samples out).count p + (samples rest).count p = (samples (itOf iters key)).count p := by
                  rw [hout, hrest, ← List.count_append, List.take_append_drop]; rfl
                omega
              · rw [itOf_set, if_pos rfl]; exact hrest
              · intro hso; exact (send_sorted hso hs).1
            · intro hso c
              rw [itOf_set]; split
              · exact (send_sorted (hso key) hs).2
              · exact hso c
            · intro out' ho key' hkey' o hoo
              simp only [Option.some.injEq] at ho
              subst ho
              rw [hkey] at hkey'
              simp only [Option.some.injEq] at hkey'
              subst hkey'
              rcases sendAux_files _ _ _ _ hs o hoo with h | h
              · cases h
              · exact h
    · rename_i hlt
      simp only [Except.ok.injEq, Prod.mk.injEq] at h
      obtain ⟨rfl, rfl, rfl, rfl⟩ := h
      refine ⟨rfl, fun _ => List.suffix_refl _, he, ?_, by simp, fun h => h, by simp⟩
      intro _
      exact ⟨fun _ => rfl, he.full (by omega)⟩

/-- The invariant of the generator. -/
structure GenInv (g : Gen K) : Prop where
  keys : g.iters.keys = g.order
  nodup : g.order.Nodup
  empty : EmptyInv g.order g.iters g.emptyIdx

/-- How an iteration or a whole `send` changes the generator. -/
structure GenRel (g g' : Gen K) (out : List Pos) : Prop where
  order : g'.order = g.order
  keys : g'.iters.keys = g.iters.keys
  suffix : ∀ c, Mixtera.samples (itOf g'.iters c) <:+ Mixtera.samples (itOf g.iters c)
  cons : ∀ p, unread p g'.iters + out.count p ≤ unread p g.iters
  sorted : (∀ c, SegSorted (itOf g.iters c)) → ∀ c, SegSorted (itOf g'.iters c)

theorem GenRel.refl (g g' : Gen K) (h1 : g'.order = g.order) (h2 : g'.iters = g.iters) : GenRel g g' [] where
  order := h1
  keys := by rw [h2]
  suffix _ := by rw [h2]; exact List.suffix_refl _
  cons p := by simp [h2]
  sorted h := by rw [h2]; exact h

theorem GenRel.trans {a b c : Gen K} {o1 o2 : List Pos} (h1 : GenRel a b o1) (h2 : GenRel b c o2) :
    GenRel a c (o1 ++ o2) where
  order := h2.order.trans h1.order
  keys := h2.keys.trans h1.keys
  suffix k := (h2.suffix k).trans (h1.suffix k)
  cons p := by
    have := h1.cons p; have := h2.cons p
    rw [List.count_append]; omega
  sorted h := h2.sorted (h1.sorted h)

theorem GenRel.inv {g g' : Gen K} {o : List Pos} (h : GenRel g g' o) (hg : GenInv g)
    (he : EmptyInv g.order g'.iters g'.emptyIdx) : GenInv g' where
  keys := by rw [h.keys, h.order]; exact hg.keys
  nodup := by rw [h.order]; exact hg.nodup
  empty := by rw [h.order]; exact he

theorem allUnread_eq (p : Pos) (iters : Dict K (List Seg)) : p ∈ allUnread iters ↔ 0 < unread p iters := by
  rw [← count_allUnread, List.count_pos_iff]

/-- A chunk built for a mixture. -/
structure MixChunk (ops : KeyOps K) (iters : Dict K (List Seg)) (v : MixView K) (c : RChunk K)
    (iters' : Dict K (List Seg)) : Prop where
  ex : ∃ att, AttemptSpec ops iters v att true ∧ att.chunk = c.content ∧ c.mixture = some att.mixture ∧
    att.iters = iters' ∧ attempt ops iters v = .ok (att, true)
  strict : c.strict = v.strict
  size : c.chunkSize = v.chunkSize
  sorted : (∀ c, SegSorted (itOf iters c)) → ∀ k e, (k, e) ∈ c.content → AllSorted e

/-- A chunk built without a mixture. -/
structure ArbChunk (order : List K) (iters : Dict K (List Seg)) (v : MixView K) (c : RChunk K)
    (iters' : Dict K (List Seg)) : Prop where
  ex : ∃ key out, c.content = [(key, nestSegs out)] ∧ key ∈ order ∧
    (∀ p, unread p iters' + (samples out).count p = unread p iters) ∧
    samples out = (samples (itOf iters key)).take v.chunkSize ∧
    samples (itOf iters' key) = (samples (itOf iters key)).drop v.chunkSize ∧
    samples (itOf iters key) ≠ [] ∧
    (SegSorted (itOf iters key) → SegSorted out)
  mixture : c.mixture = none
  size : c.chunkSize = v.chunkSize
  files : ∀ k e, (k, e) ∈ c.content → ∃ out, e = nestSegs out ∧
    ∀ o ∈ out, ∃ s ∈ itOf iters k, s.ds = o.ds ∧ s.file = o.file ∧ s.lo < s.hi

theorem attempt_rel {ops : KeyOps K} {g : Gen K} {v : MixView K} (hg : GenInv g)
    {att : Att K} {b : Bool} (ha : attempt ops g.iters v = .ok (att, b)) (hs : AttemptSpec ops g.iters v att b)
    {g' : Gen K} (h1 : g'.order = g.order) (h2 : g'.iters = att.iters) (h3 : g'.emptyIdx = g.emptyIdx) :
    GenRel g g' (contentSamples att.chunk) ∧ GenInv g' := by
  have r : GenRel g g' (contentSamples att.chunk) :=
    { order := h1
      keys := by rw [h2]; exact hs.inv.iterKeys
      suffix := by rw [h2]; exact hs.inv.iterSuffix
      cons := by
        intro p; rw [h2, count_contentSamples]; exact le_of_eq (hs.inv.cons p)
      sorted := by
        intro h
        rw [h2]
        have := attempt_sorted ops g.iters v att b ha (by
          intro c l hl
          have e := Dict.get?_of_mem (hg.keys ▸ hg.nodup) hl
          have := h c
          simpa [itOf, e] using this)
        exact this.get }
  refine ⟨r, r.inv hg ?_⟩
  rw [h3, h2]
  exact hg.empty.set _ hs.inv.iterSuffix

theorem GenRel.weaken {g g' : Gen K} {o : List Pos} (h : GenRel g g' o) : GenRel g g' [] where
  order := h.order
  keys := h.keys
  suffix := h.suffix
  cons p := by have := h.cons p; simp; omega
  sorted := h.sorted

/-- Positions delivered by an optional answer. -/
def Out.samples? : Option (Out K) → List Pos
  | some o => o.samples
  | Option.none => []

theorem stepMixture_spec (ops : KeyOps K) (replay : Bool) (v : MixView K) (g : Gen K) (hg : GenInv g)
    (hv : v.rows.keys.Nodup) {g' : Gen K} {o : Option (Out K)} (h : stepMixture ops replay v g = (g', o)) :
    GenRel g g' (Out.samples? o) ∧ GenInv g' ∧ g'.base = g.base ∧ g'.target = g.target ∧
    (o = none → g'.susp = g.susp) ∧
    (∀ c, o = some (.chunk c) → MixChunk ops g.iters v c g'.iters ∧ g'.susp = .ready) ∧
    (o = some .none → ∃ att, AttemptSpec ops g.iters v att false ∧ g'.iters = att.iters) ∧
    (∀ e, o = some (.raised e) → e = .zeroDivision ∧ v.strict = false ∧ ∃ k ∈ v.rows.keys, v.rows.get? k = some 0) ∧
    o ≠ some .stop := by
  unfold stepMixture at h
  dsimp only at h
  generalize hg1 : (if (match g.prev with | Option.none => true | some p => !dictEq p v.rows) = true then
      ({ g with
        mixtureId := g.mixtureId + 1
        prev := some v.rows
        log := if replay = true then g.log else g.log ++ [(g.cur, v)] } : Gen K)
    else g) = g1 at h
  have i1 : g1.iters = g.iters := by rw [← hg1]; split <;> split <;> rfl
  have i2 : g1.order = g.order := by rw [← hg1]; split <;> split <;> rfl
  have i3 : g1.emptyIdx = g.emptyIdx := by rw [← hg1]; split <;> split <;> rfl
  have i4 : g1.base = g.base := by rw [← hg1]; split <;> split <;> rfl
  have i5 : g1.target = g.target := by rw [← hg1]; split <;> split <;> rfl
  have i6 : g1.susp = g.susp := by rw [← hg1]; split <;> split <;> rfl
  clear hg1
  rcases attempt_spec ops g.iters v hv with ⟨he, hs, hz⟩ | ⟨att, b, ha, hs⟩
  · rw [show attempt ops g1.iters v = _ from i1 ▸ he] at h
    simp only [Prod.mk.injEq] at h
    obtain ⟨rfl, rfl⟩ := h
    have r : GenRel g { g1 with susp := .finished } [] := GenRel.refl _ _ i2 i1
    refine ⟨r, r.inv hg (by show EmptyInv g.order g1.iters g1.emptyIdx; rw [i1, i3]; exact hg.empty), i4, i5, by simp, by simp, by simp, ?_, by simp⟩
    intro e he'
    simp only [Option.some.injEq, Out.raised.injEq] at he'
    exact ⟨he'.symm, hs, hz⟩
  · rw [show attempt ops g1.iters v = _ from i1 ▸ ha] at h
    cases b with
    | true =>
      dsimp only at h
      split at h
      · simp only [Prod.mk.injEq] at h
        obtain ⟨rfl, rfl⟩ := h
        have r := attempt_rel hg ha hs (g' := { g1 with iters := att.iters, noSuccess := 0, cur := g1.cur + 1, susp := .ready })
          i2 rfl i3
        refine ⟨r.1, r.2, i4, i5, by simp, ?_, by simp, by simp, by simp⟩
        intro c hc
        simp only [Option.some.injEq, Out.chunk.injEq] at hc
        subst hc
        refine ⟨⟨⟨att, hs, rfl, rfl, rfl, ha⟩, rfl, rfl, ?_⟩, rfl⟩
        intro hso
        exact (attempt_sorted ops g.iters v att true ha (by
          intro c l hl
          have e := Dict.get?_of_mem (hg.keys ▸ hg.nodup) hl
          have := hso c
          simpa [itOf, e] using this)).2
      · simp only [Prod.mk.injEq] at h
        obtain ⟨rfl, rfl⟩ := h
        have r := attempt_rel hg ha hs (g' := { g1 with iters := att.iters, noSuccess := 0, cur := g1.cur + 1 })
          i2 rfl i3
        exact ⟨r.1.weaken, r.2, i4, i5, fun _ => i6, by simp, by simp, by simp, by simp⟩
    | false =>
      simp only [Prod.mk.injEq] at h
      obtain ⟨rfl, rfl⟩ := h
      have r := attempt_rel hg ha hs (g' := { g1 with iters := att.iters, noSuccess := g1.noSuccess + 1, susp := .afterNone })
          i2 rfl i3
      exact ⟨r.1.weaken, r.2, i4, i5, by simp, by simp, fun _ => ⟨att, hs, rfl⟩, by simp, by simp⟩

theorem contentSamples_single (key : K) (e : Entries) : contentSamples [(key, e)] = entriesSamples e := by
  simp [contentSamples]

theorem stepArbitrary_spec (fuel : Nat) (replay : Bool) (v : MixView K) (g : Gen K) (hg : GenInv g)
    {g' : Gen K} {o : Option (Out K)} (h : stepArbitrary fuel replay v g = (g', o)) :
    GenRel g g' (Out.samples? o) ∧ GenInv g' ∧ g'.base = g.base ∧ g'.target = g.target ∧
    (o = none → g'.susp = g.susp) ∧
    (∀ c, o = some (.chunk c) → ArbChunk g.order g.iters v c g'.iters ∧ g'.susp = .ready) ∧
    o ≠ some .none ∧
    (o = some .stop → (∀ p, unread p g'.iters = unread p g.iters) ∧ ∀ k ∈ g.order, samples (itOf g'.iters k) = []) := by
  unfold stepArbitrary at h
  dsimp only at h
  generalize hg1 : (if (g.prev.isSome || g.cur == 0) = true then
      ({ g with
        mixtureId := g.mixtureId + 1
        prev := Option.none
        log := if replay = true then g.log else g.log ++ [(g.cur, v)] } : Gen K)
    else g) = g1 at h
  have i1 : g1.iters = g.iters := by rw [← hg1]; split <;> rfl
  have i2 : g1.order = g.order := by rw [← hg1]; split <;> rfl
  have i3 : g1.emptyIdx = g.emptyIdx := by rw [← hg1]; split <;> rfl
  have i4 : g1.base = g.base := by rw [← hg1]; split <;> rfl
  have i5 : g1.target = g.target := by rw [← hg1]; split <;> rfl
  have i6 : g1.susp = g.susp := by rw [← hg1]; split <;> rfl
  clear hg1
  split at h
  · simp only [Prod.mk.injEq] at h
    obtain ⟨rfl, rfl⟩ := h
    have r : GenRel g { g1 with susp := .finished } [] := GenRel.refl _ _ i2 i1
    exact ⟨r, r.inv hg (by show EmptyInv g.order g1.iters g1.emptyIdx; rw [i1, i3]; exact hg.empty), i4, i5, by simp, by simp, by simp, by simp⟩
  · rename_i idx empty iters hr
    rw [i1, i2, i3] at hr
    have sp := rotate_spec _ _ _ _ _ _ hg.keys hg.empty hr
    simp only [Prod.mk.injEq] at h
    obtain ⟨rfl, rfl⟩ := h
    have r : GenRel g { g1 with keyIdx := idx, emptyIdx := empty, iters := iters, susp := .finished } [] :=
      ⟨i2, sp.keys, sp.suffix, fun p => by simp [(sp.none rfl).1 p], sp.sorted⟩
    exact ⟨r, r.inv hg sp.empty, i4, i5, by simp, by simp, by simp, fun _ => ⟨(sp.none rfl).1, (sp.none rfl).2⟩⟩
  · rename_i idx empty iters out hr
    rw [i1, i2, i3] at hr
    have sp := rotate_spec _ _ _ _ _ _ hg.keys hg.empty hr
    obtain ⟨key, hkey, hun, hout, hrest, hne, hso⟩ := sp.some out rfl
    have hc : ∀ p, unread p iters + (contentSamples [(key, nestSegs out)]).count p ≤ unread p g.iters := by
      intro p; rw [contentSamples_single, count_nestSegs]; exact le_of_eq (hun p)
    split at h
    · rw [show g1.order[idx]? = _ from i2 ▸ hkey] at h
      simp only [Prod.mk.injEq] at h
      obtain ⟨rfl, rfl⟩ := h
      have r : GenRel g { g1 with keyIdx := idx, emptyIdx := empty, iters := iters, cur := g1.cur + 1, susp := .ready }
          (contentSamples [(key, nestSegs out)]) := ⟨i2, sp.keys, sp.suffix, hc, sp.sorted⟩
      refine ⟨r, r.inv hg sp.empty, i4, i5, by simp, ?_, by simp, by simp⟩
      intro c hcc
      simp only [Option.some.injEq, Out.chunk.injEq] at hcc
      subst hcc
      refine ⟨⟨⟨key, out, rfl, List.mem_of_getElem? hkey, hun, hout, hrest, hne, hso⟩, rfl, rfl, ?_⟩, rfl⟩
      intro k e hke
      simp only [List.mem_singleton, Prod.mk.injEq] at hke
      obtain ⟨rfl, rfl⟩ := hke
      exact ⟨out, rfl, sp.files out rfl _ hkey⟩
    · simp only [Prod.mk.injEq] at h
      obtain ⟨rfl, rfl⟩ := h
      have r : GenRel g { g1 with keyIdx := idx, emptyIdx := empty, iters := iters, cur := g1.cur + 1 }
          (contentSamples [(key, nestSegs out)]) := ⟨i2, sp.keys, sp.suffix, hc, sp.sorted⟩
      exact ⟨r.weaken, r.inv hg sp.empty, i4, i5, fun _ => i6, by simp, by simp, by simp⟩

end Mixtera
