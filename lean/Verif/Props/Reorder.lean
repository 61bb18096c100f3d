import Verif.Props.Chunks

/-!
# C09: semantically equal mixtures give equal chunks

The order in which a mixture's dictionary lists its keys is unobservable: for whole histories whose
mixtures differ only in that order, all answers agree.
-/

set_option linter.unusedSectionVars false

namespace Mixtera

variable {K : Type} [DecidableEq K]

/-- Two dictionaries with the same items. -/
structure DSim (a b : Dict K Nat) : Prop where
  left : a.keys.Nodup
  right : b.keys.Nodup
  get : ∀ k, a.get? k = b.get? k

namespace DSim

theorem perm {a b : Dict K Nat} (h : DSim a b) : a.Perm b := by
  have na : a.Nodup := List.Nodup.of_map _ h.left
  have nb : b.Nodup := List.Nodup.of_map _ h.right
  rw [List.perm_ext_iff_of_nodup na nb]
  rintro ⟨k, v⟩
  constructor
  · intro hm; apply Dict.mem_of_get?; rw [← h.get]; exact Dict.get?_of_mem h.left hm
  · intro hm; apply Dict.mem_of_get?; rw [h.get]; exact Dict.get?_of_mem h.right hm

theorem of_perm {a b : Dict K Nat} (hn : a.keys.Nodup) (h : a.Perm b) : DSim a b := by
  have hb : b.keys.Nodup := (h.map Prod.fst).nodup_iff.mp hn
  refine ⟨hn, hb, fun k => ?_⟩
  cases e : a.get? k with
  | none =>
    symm
    rw [Dict.get?_eq_none_iff] at e ⊢
    exact fun hk => e ((h.map Prod.fst).mem_iff.mpr hk)
  | some v => exact (Dict.get?_of_mem hb (h.mem_iff.mp (Dict.mem_of_get? e))).symm

theorem keysPerm {a b : Dict K Nat} (h : DSim a b) : a.keys.Perm b.keys := h.perm.map _
theorem valuesPerm {a b : Dict K Nat} (h : DSim a b) : a.values.Perm b.values := h.perm.map _

theorem upsert {a b : Dict K Nat} (h : DSim a b) (k : K) (f : Option Nat → Nat) :
    DSim (a.upsert k f) (b.upsert k f) :=
  ⟨Dict.nodup_keys_upsert h.left _ _, Dict.nodup_keys_upsert h.right _ _, fun k' => by
    rw [Dict.get?_upsert, Dict.get?_upsert, h.get, h.get]⟩

theorem set {a b : Dict K Nat} (h : DSim a b) (k : K) (v : Nat) : DSim (a.set k v) (b.set k v) := h.upsert k _

theorem pop {a b : Dict K Nat} (h : DSim a b) (k : K) : DSim (a.pop k) (b.pop k) :=
  ⟨Dict.nodup_keys_pop h.left _, Dict.nodup_keys_pop h.right _, fun k' => by
    rw [Dict.get?_pop h.left, Dict.get?_pop h.right, h.get]⟩

theorem addAll {a b : Dict K Nat} (h : DSim a b) (l : List (K × Int)) : DSim (addAll a l) (addAll b l) := by
  induction l generalizing a b with
  | nil => exact h
  | cons x l ih => exact ih (h.upsert _ _)

theorem eq_nil {a b : Dict K Nat} (h : DSim a b) : a = [] ↔ b = [] := by
  have := h.perm.length_eq
  constructor
  · rintro rfl; simpa using this.symm
  · rintro rfl; simpa using this

end DSim

/-- The local variables of two attempts agree up to the order of dictionaries. -/
structure ASim (a b : Att K) : Prop where
  iters : a.iters = b.iters
  remaining : DSim a.remaining b.remaining
  mixture : DSim a.mixture b.mixture
  chunk : a.chunk = b.chunk
  progress : a.progress = b.progress

/-- Both fail in the same way or both succeed with related results. -/
def ESim {α : Type} (R : α → α → Prop) : Except Err α → Except Err α → Prop
  | .error e, .error e' => e = e'
  | .ok a, .ok b => R a b
  | _, _ => False

/-- The key order is total (see C26). -/
structure KeyOps.Total (ops : KeyOps K) : Prop where
  total : ∀ a b, ops.le a b = true ∨ ops.le b a = true
  trans : ∀ a b c, ops.le a b = true → ops.le b c = true → ops.le a c = true
  antisymm : ∀ a b, ops.le a b = true → ops.le b a = true → a = b

variable (ops : KeyOps K)

theorem sort_congr (ht : ops.Total) {l l' : List K} (h : l.Perm l') : ops.sort l = ops.sort l' :=
  sortBy_eq_of_perm _ ht.total ht.trans ht.antisymm h

theorem compLoop_sim (mk : K) (cs : List K) {a b : Att K} (h : ASim a b) :
    ESim ASim (compLoop ops mk cs a) (compLoop ops mk cs b) := by
  induction cs generalizing a b with
  | nil => exact h
  | cons c cs ih =>
    rw [compLoop, compLoop]
    split
    · dsimp only
      rw [← h.iters, ← h.remaining.get mk]
      split
      · exact ih { h with iters := by dsimp only }
      · split
        · have hs : ∀ (d : Nat) (p : Bool) (it : Dict K (List Seg)) (e : Entries),
              ASim { iters := it, remaining := a.remaining.set mk d, mixture := a.mixture,
                     chunk := a.chunk.upsert mk fun x => addEntries (x.getD []) e, progress := a.progress || p }
                   { iters := it, remaining := b.remaining.set mk d, mixture := b.mixture,
                     chunk := b.chunk.upsert mk fun x => addEntries (x.getD []) e, progress := b.progress || p } :=
            fun d p it e => ⟨rfl, h.remaining.set _ _, h.mixture, by dsimp only; rw [h.chunk],
              by dsimp only; rw [h.progress]⟩
          split
          · exact hs _ _ _ _
          · exact ih (hs _ _ _ _)
        · exact rfl
    · exact ih h

theorem redistribute_sim (ht : ops.Total) (mk : K) {a b : Att K} (h : ASim a b) :
    ESim ASim (redistribute ops mk a) (redistribute ops mk b) := by
  unfold redistribute
  dsimp only
  rw [← h.remaining.get mk, ← h.mixture.get mk]
  generalize (a.remaining.get? mk).getD 0 = missing
  generalize (a.mixture.get? mk).getD 0 = planned
  split
  · have hm : DSim (if missing = planned then a.mixture.pop mk else a.mixture.set mk (planned - missing))
        (if missing = planned then b.mixture.pop mk else b.mixture.set mk (planned - missing)) := by
      split
      · exact h.mixture.pop mk
      · exact h.mixture.set _ _
    generalize (if missing = planned then a.mixture.pop mk else a.mixture.set mk (planned - missing)) = ma at hm ⊢
    generalize (if missing = planned then b.mixture.pop mk else b.mixture.set mk (planned - missing)) = mb at hm ⊢
    have hr := h.remaining.pop mk
    by_cases hnil : a.remaining.pop mk = []
    · rw [if_pos hnil, if_pos (hr.eq_nil.mp hnil)]
      exact ⟨h.iters, hr, hm, h.chunk, h.progress⟩
    · rw [if_neg hnil, if_neg (fun hb => hnil (hr.eq_nil.mpr hb))]
      rw [sort_congr ops ht hr.keysPerm]
      simp only [hm.get]
      rw [h.mixture.valuesPerm.sum_eq]
      generalize (List.map (fun k => (mb.get? k).getD 0) (ops.sort (b.remaining.pop mk).keys)).sum = total
      split
      · exact rfl
      · generalize hd : distributeByRatio missing _ = dr
        match dr with
        | .error e => exact rfl
        | .ok extra =>
          dsimp only
          split
          · have hma := hm.addAll ((ops.sort (b.remaining.pop mk).keys).zip extra)
            rw [hma.valuesPerm.sum_eq]
            split
            · exact ⟨h.iters, hr.addAll _, hma, h.chunk, rfl⟩
            · exact rfl
          · exact rfl
  · exact rfl

theorem keyLoop_sim (ht : ops.Total) (strict : Bool) (comps mks : List K) {a b : Att K} (h : ASim a b) :
    ESim ASim (keyLoop ops strict comps mks a) (keyLoop ops strict comps mks b) := by
  induction mks generalizing a b with
  | nil => exact h
  | cons mk mks ih =>
    rw [keyLoop, keyLoop]
    have hc := compLoop_sim ops mk comps h
    match ha : compLoop ops mk comps a, hb : compLoop ops mk comps b with
    | .error e, .error e' => rw [ha, hb] at hc; exact hc
    | .error e, .ok b' => rw [ha, hb] at hc; exact hc.elim
    | .ok a', .error e => rw [ha, hb] at hc; exact hc.elim
    | .ok a', .ok b' =>
      rw [ha, hb] at hc
      have hc : ASim a' b' := hc
      dsimp only
      rw [← hc.remaining.get mk]
      split
      · split
        · exact ih hc
        · exact redistribute_sim ops ht mk hc
      · exact ih hc

theorem passes_sim (ht : ops.Total) (strict : Bool) (n : Nat) {a b : Att K} (h : ASim a b) :
    ESim ASim (passes ops strict n a) (passes ops strict n b) := by
  induction n generalizing a b with
  | zero => exact rfl
  | succ n ih =>
    rw [passes, passes]
    rw [← h.progress, h.remaining.valuesPerm.any_eq, h.iters, sort_congr ops ht h.remaining.keysPerm]
    split
    · have hk := keyLoop_sim ops ht strict (ops.sort b.iters.keys) (ops.sort b.remaining.keys)
        (a := { a with progress := false }) (b := { b with progress := false })
        ⟨h.iters, h.remaining, h.mixture, h.chunk, rfl⟩
      rw [show ({ iters := b.iters, remaining := a.remaining, mixture := a.mixture, chunk := a.chunk, progress := false } : Att K)
        = { a with progress := false } by rw [← h.iters]]
      generalize keyLoop ops strict (ops.sort b.iters.keys) (ops.sort b.remaining.keys) { a with progress := false } = x at hk ⊢
      generalize keyLoop ops strict (ops.sort b.iters.keys) (ops.sort b.remaining.keys) { b with progress := false } = y at hk ⊢
      match x, y, hk with
      | .error e, .error e', hk => exact hk
      | .ok a', .ok b', hk => exact ih hk
    · exact h

/-- Same key-to-rows map, same mode, same chunk size. -/
structure VSim (v w : MixView K) : Prop where
  rows : DSim v.rows w.rows
  strict : v.strict = w.strict
  chunkSize : v.chunkSize = w.chunkSize

theorem attempt_sim (ht : ops.Total) (iters : Dict K (List Seg)) {v w : MixView K} (h : VSim v w) :
    ESim (fun x y => ASim x.1 y.1 ∧ x.2 = y.2) (attempt ops iters v) (attempt ops iters w) := by
  unfold attempt
  rw [h.rows.perm.length_eq, h.strict]
  have hp := passes_sim ops ht w.strict (w.rows.length + 3) (a := Att.start iters v.rows) (b := Att.start iters w.rows)
    ⟨rfl, h.rows, h.rows, rfl, rfl⟩
  generalize passes ops w.strict (w.rows.length + 3) (Att.start iters v.rows) = x at hp ⊢
  generalize passes ops w.strict (w.rows.length + 3) (Att.start iters w.rows) = y at hp ⊢
  match x, y, hp with
  | .error e, .error e', hp => exact hp
  | .ok a, .ok b, hp =>
    have hp : ASim a b := hp
    refine ⟨hp, ?_⟩
    dsimp only
    rw [hp.remaining.valuesPerm.all_eq]
    congr 2
    have := hp.remaining.eq_nil
    rw [Bool.eq_iff_iff, List.isEmpty_iff, List.isEmpty_iff]
    exact this

/-- Optional dictionaries that agree up to order. -/
def OSim : Option (Dict K Nat) → Option (Dict K Nat) → Prop
  | none, none => True
  | some a, some b => DSim a b
  | _, _ => False

/-- The answers agree: same kind, same contents, same ids; the reported mixture has the same items. -/
inductive OutSim : Out K → Out K → Prop
  | chunk {c d : RChunk K} (h1 : c.content = d.content) (h2 : c.chunkSize = d.chunkSize)
      (h3 : c.mixtureId = d.mixtureId) (h4 : OSim c.mixture d.mixture) (h5 : c.strict = d.strict) :
      OutSim (.chunk c) (.chunk d)
  | none : OutSim .none .none
  | stop : OutSim .stop .stop
  | raised (e : Err) : OutSim (.raised e) (.raised e)

structure GSim (g h : Gen K) : Prop where
  order : g.order = h.order
  iters : g.iters = h.iters
  cur : g.cur = h.cur
  mixtureId : g.mixtureId = h.mixtureId
  keyIdx : g.keyIdx = h.keyIdx
  emptyIdx : g.emptyIdx = h.emptyIdx
  noSuccess : g.noSuccess = h.noSuccess
  prev : OSim g.prev h.prev
  susp : g.susp = h.susp
  base : g.base = h.base
  target : g.target = h.target

theorem dictEq_iff {a b : Dict K Nat} (ha : a.keys.Nodup) (hb : b.keys.Nodup) :
    dictEq a b = true ↔ ∀ k, a.get? k = b.get? k := by
  unfold dictEq
  rw [Bool.and_eq_true, beq_iff_eq, List.all_eq_true]
  constructor
  · rintro ⟨hl, hall⟩ k
    have hall' : ∀ k v, (k, v) ∈ a → b.get? k = some v := fun k v h => by simpa using hall (k, v) h
    have hsub : a.Perm b := by
      have na : a.Nodup := List.Nodup.of_map _ ha
      have hs : a ⊆ b := fun x hx => Dict.mem_of_get? (hall' x.1 x.2 hx)
      exact (List.subperm_of_subset na hs).perm_of_length_le (by omega)
    exact (DSim.of_perm ha hsub).get k
  · intro h
    have := (DSim.mk ha hb h).perm
    refine ⟨this.length_eq, ?_⟩
    rintro ⟨k, v⟩ hx
    simp [← h k, Dict.get?_of_mem ha hx]

theorem dictEq_sim {a a' b b' : Dict K Nat} (h1 : DSim a a') (h2 : DSim b b') : dictEq a b = dictEq a' b' := by
  rw [Bool.eq_iff_iff, dictEq_iff h1.left h2.left, dictEq_iff h1.right h2.right]
  constructor
  · intro h k; rw [← h1.get, ← h2.get, h]
  · intro h k; rw [h1.get, h2.get, h]

/-- Optional answers. -/
def OOSim : Option (Out K) → Option (Out K) → Prop
  | none, none => True
  | some a, some b => OutSim a b
  | _, _ => False

/-- The part of `stepMixture` after the bookkeeping of mixture changes. -/
theorem stepMixture_tail (ht : ops.Total) {v w : MixView K} (hv : VSim v w) {g1 h1 : Gen K} (hg1 : GSim g1 h1)
    {F : MixView K → Gen K → Except Err (Att K × Bool) → Gen K × Option (Out K)}
    (hF : F = fun v g r => match r with
        | .error e => (({ g with susp := .finished } : Gen K), some (Out.raised e))
        | .ok (att, true) =>
          if g.cur = g.target then
            ({ g with iters := att.iters, noSuccess := 0, cur := g.cur + 1, susp := .ready },
              some (.chunk { content := att.chunk, chunkSize := v.chunkSize, mixtureId := g.mixtureId,
                             mixture := some att.mixture, strict := v.strict }))
          else ({ g with iters := att.iters, noSuccess := 0, cur := g.cur + 1 }, Option.none)
        | .ok (att, false) =>
          ({ g with iters := att.iters, noSuccess := g.noSuccess + 1, susp := .afterNone }, some .none)) :
    GSim (F v g1 (attempt ops g1.iters v)).1 (F w h1 (attempt ops h1.iters w)).1 ∧
    OOSim (F v g1 (attempt ops g1.iters v)).2 (F w h1 (attempt ops h1.iters w)).2 := by
  have ha := attempt_sim ops ht g1.iters hv
  have hit : attempt ops h1.iters w = attempt ops g1.iters w := by rw [hg1.iters]
  rw [hit]
  generalize attempt ops g1.iters v = x at ha ⊢
  generalize attempt ops g1.iters w = y at ha ⊢
  subst hF
  match x, y, ha with
  | .error e, .error e', ha =>
    have ha : e = e' := ha
    subst ha
    exact ⟨{ hg1 with susp := rfl }, OutSim.raised e⟩
  | .ok (a, true), .ok (b, true), ha =>
    have ha : ASim a b := ha.1
    dsimp only
    by_cases hc : g1.cur = g1.target
    · rw [if_pos hc, if_pos (by rw [← hg1.cur, ← hg1.target]; exact hc)]
      exact ⟨{ hg1 with iters := ha.iters, cur := by dsimp only; rw [hg1.cur], noSuccess := rfl, susp := rfl },
        OutSim.chunk ha.chunk hv.chunkSize hg1.mixtureId ha.mixture hv.strict⟩
    · rw [if_neg hc, if_neg (by rw [← hg1.cur, ← hg1.target]; exact hc)]
      exact ⟨{ hg1 with iters := ha.iters, cur := by dsimp only; rw [hg1.cur], noSuccess := rfl }, trivial⟩
  | .ok (a, false), .ok (b, false), ha =>
    exact ⟨{ hg1 with iters := ha.1.iters, noSuccess := by dsimp only; rw [hg1.noSuccess], susp := rfl }, OutSim.none⟩
  | .ok (a, true), .ok (b, false), ha => exact absurd ha.2 (by simp)
  | .ok (a, false), .ok (b, true), ha => exact absurd ha.2 (by simp)

theorem stepMixture_sim (ht : ops.Total) (replay : Bool) {v w : MixView K} (hv : VSim v w) {g h : Gen K} (hg : GSim g h) :
    GSim (stepMixture ops replay v g).1 (stepMixture ops replay w h).1 ∧
    OOSim (stepMixture ops replay v g).2 (stepMixture ops replay w h).2 := by
  unfold stepMixture
  dsimp only
  have hprev := hg.prev
  match hp : g.prev, hq : h.prev with
  | none, some _ => rw [hp, hq] at hprev; exact hprev.elim
  | some _, none => rw [hp, hq] at hprev; exact hprev.elim
  | none, none =>
    dsimp only
    exact stepMixture_tail ops ht hv
      (g1 := { g with mixtureId := g.mixtureId + 1, prev := some v.rows, log := if replay then g.log else g.log ++ [(g.cur, v)] })
      (h1 := { h with mixtureId := h.mixtureId + 1, prev := some w.rows, log := if replay then h.log else h.log ++ [(h.cur, w)] })
      { hg with mixtureId := by dsimp only; rw [hg.mixtureId], prev := hv.rows } rfl
  | some p, some q =>
    rw [hp, hq] at hprev
    dsimp only
    by_cases hd : (!dictEq p v.rows) = true
    · have hd' : (!dictEq q w.rows) = true := by rw [← dictEq_sim hprev hv.rows]; exact hd
      rw [if_pos hd, if_pos hd']
      exact stepMixture_tail ops ht hv
        (g1 := { g with mixtureId := g.mixtureId + 1, prev := some v.rows, log := if replay then g.log else g.log ++ [(g.cur, v)] })
        (h1 := { h with mixtureId := h.mixtureId + 1, prev := some w.rows, log := if replay then h.log else h.log ++ [(h.cur, w)] })
        { hg with mixtureId := by dsimp only; rw [hg.mixtureId], prev := hv.rows } rfl
    · have hd' : ¬ (!dictEq q w.rows) = true := by rw [← dictEq_sim hprev hv.rows]; exact hd
      rw [if_neg hd, if_neg hd']
      exact stepMixture_tail ops ht hv (g1 := g) (h1 := h) hg rfl

theorem stepArbitrary_sim (fuel : Nat) (replay : Bool) {v w : MixView K} (hv : VSim v w) {g h : Gen K} (hg : GSim g h) :
    GSim (stepArbitrary fuel replay v g).1 (stepArbitrary fuel replay w h).1 ∧
    OOSim (stepArbitrary fuel replay v g).2 (stepArbitrary fuel replay w h).2 := by
  unfold stepArbitrary
  dsimp only
  have hps : g.prev.isSome = h.prev.isSome := by
    have := hg.prev
    revert this
    cases g.prev <;> cases h.prev <;> intro this <;> first | rfl | exact this.elim
  rw [hps, hg.cur]
  have hg1 : GSim
      (if (h.prev.isSome || h.cur == 0) = true then
        ({ g with mixtureId := g.mixtureId + 1, prev := Option.none, cur := h.cur,
                  log := if replay = true then g.log else g.log ++ [(h.cur, v)] } : Gen K) else g)
      (if (h.prev.isSome || h.cur == 0) = true then
        ({ h with mixtureId := h.mixtureId + 1, prev := Option.none,
                  log := if replay = true then h.log else h.log ++ [(h.cur, w)] } : Gen K) else h) := by
    split
    · exact { hg with cur := rfl, mixtureId := by dsimp only; rw [hg.mixtureId], prev := trivial }
    · exact hg
  generalize (if (h.prev.isSome || h.cur == 0) = true then
        ({ g with mixtureId := g.mixtureId + 1, prev := Option.none, cur := h.cur,
                  log := if replay = true then g.log else g.log ++ [(h.cur, v)] } : Gen K) else g) = g1 at hg1 ⊢
  generalize (if (h.prev.isSome || h.cur == 0) = true then
        ({ h with mixtureId := h.mixtureId + 1, prev := Option.none,
                  log := if replay = true then h.log else h.log ++ [(h.cur, w)] } : Gen K) else h) = h1 at hg1 ⊢
  rw [hg1.order, hg1.keyIdx, hg1.emptyIdx, hg1.iters, hv.chunkSize]
  generalize rotate h1.order w.chunkSize fuel h1.keyIdx h1.emptyIdx h1.iters = x
  match x with
  | .error e =>
    exact ⟨{ hg1 with susp := rfl, order := by dsimp only, keyIdx := by dsimp only, emptyIdx := by dsimp only, iters := by dsimp only }, OutSim.raised e⟩
  | .ok (idx, empty, iters, none) =>
    exact ⟨{ hg1 with susp := rfl, keyIdx := rfl, emptyIdx := rfl, iters := rfl, order := by dsimp only }, OutSim.stop⟩
  | .ok (idx, empty, iters, some out) =>
    dsimp only
    rw [hg1.cur, hg1.target]
    split
    · generalize h1.order[idx]? = y
      cases y with
      | none => exact ⟨{ hg1 with susp := rfl, keyIdx := rfl, emptyIdx := rfl, iters := rfl, order := by dsimp only, cur := by dsimp only, target := by dsimp only }, OutSim.raised _⟩
      | some key =>
        exact ⟨{ hg1 with susp := rfl, keyIdx := rfl, emptyIdx := rfl, iters := rfl, order := by dsimp only, cur := by dsimp only, target := by dsimp only },
          OutSim.chunk rfl rfl hg1.mixtureId trivial rfl⟩
    · exact ⟨{ hg1 with keyIdx := rfl, emptyIdx := rfl, iters := rfl, order := by dsimp only, cur := by dsimp only, target := by dsimp only }, trivial⟩

/-- Heaps whose mixture objects agree up to dictionary order. -/
def HSim (a b : Nat → MixView K) : Prop := ∀ i, VSim (a i) (b i)

theorem step_sim (ht : ops.Total) (fuel : Nat) (replay : Bool) {a b : Nat → MixView K} (hh : HSim a b) {g h : Gen K}
    (hg : GSim g h) :
    GSim (g.step ops fuel replay a).1 (h.step ops fuel replay b).1 ∧
    OOSim (g.step ops fuel replay a).2 (h.step ops fuel replay b).2 := by
  unfold Gen.step
  rw [hg.noSuccess, hg.base]
  split
  · exact ⟨{ hg with susp := rfl, noSuccess := by dsimp only, base := by dsimp only }, OutSim.stop⟩
  · dsimp only
    by_cases hr : (a h.base).rows = []
    · rw [if_pos hr, if_pos ((hh h.base).rows.eq_nil.mp hr)]
      exact stepArbitrary_sim fuel replay (hh _) hg
    · rw [if_neg hr, if_neg (fun hb => hr ((hh h.base).rows.eq_nil.mpr hb))]
      exact stepMixture_sim ops ht replay (hh _) hg

theorem run_sim (ht : ops.Total) (fuel : Nat) (replay : Bool) {a b : Nat → MixView K} (hh : HSim a b) (n : Nat)
    {g h : Gen K} (hg : GSim g h) :
    GSim (g.run ops fuel replay a n).1 (h.run ops fuel replay b n).1 ∧
    OutSim (g.run ops fuel replay a n).2 (h.run ops fuel replay b n).2 := by
  induction n generalizing g h with
  | zero => exact ⟨{ hg with susp := rfl }, OutSim.raised _⟩
  | succ n ih =>
    rw [Gen.run, Gen.run]
    have hs := step_sim ops ht fuel replay hh hg
    generalize g.step ops fuel replay a = x at hs ⊢
    generalize h.step ops fuel replay b = y at hs ⊢
    match x, y, hs with
    | (g1, some o), (h1, some o'), hs => exact hs
    | (g1, none), (h1, none), hs => exact ih hs.1
    | (g1, some o), (h1, none), hs => exact hs.2.elim
    | (g1, none), (h1, some o), hs => exact hs.2.elim

theorem send_sim (ht : ops.Total) (fuel : Nat) (replay : Bool) {a b : Nat → MixView K} (hh : HSim a b)
    {g h : Gen K} (hg : GSim g h) (mix t : Nat) :
    GSim (g.send ops fuel replay a mix t).1 (h.send ops fuel replay b mix t).1 ∧
    OutSim (g.send ops fuel replay a mix t).2 (h.send ops fuel replay b mix t).2 := by
  unfold Gen.send
  have hs := hg.susp
  match e : g.susp, e' : h.susp with
  | .finished, .finished => exact ⟨hg, OutSim.stop⟩
  | .ready, .ready =>
    exact run_sim ops ht fuel replay hh fuel
      (g := { g with susp := .ready, base := mix, target := t }) (h := { h with susp := .ready, base := mix, target := t })
      { hg with susp := rfl, base := rfl, target := rfl }
  | .afterNone, .afterNone => exact run_sim ops ht fuel replay hh fuel hg
  | .finished, .ready => rw [e, e'] at hs; simp at hs
  | .finished, .afterNone => rw [e, e'] at hs; simp at hs
  | .ready, .finished => rw [e, e'] at hs; simp at hs
  | .ready, .afterNone => rw [e, e'] at hs; simp at hs
  | .afterNone, .finished => rw [e, e'] at hs; simp at hs
  | .afterNone, .ready => rw [e, e'] at hs; simp at hs

/-- Requests that differ only in the dictionary order of mixtures. -/
structure RSim (r s : Req K) : Prop where
  heap : ∀ i, (r.heap i).rows.Perm (s.heap i).rows ∧ (r.heap i).strict = (s.heap i).strict ∧
    (r.heap i).chunkSize = (s.heap i).chunkSize
  mix : r.mix = s.mix
  target : r.target = s.target
  fuel : r.fuel = s.fuel

/-- C09. Two histories of requests whose mixtures assign the same rows to the same keys but list them in
different dictionary orders produce the same answers: same chunk contents, ids, modes; the mixtures
attached to the chunks have the same items. -/
theorem c09_dictionary_order_irrelevant (ht : ops.Total) (replay : Bool) (index : Dict K Entries) (order : List K)
    (h1 h2 : List (Req K)) (hs : List.Forall₂ RSim h1 h2) (hok : ∀ r ∈ h1, HeapOk r.heap) :
    List.Forall₂ OutSim ((Gen.init index order).play ops replay h1).2 ((Gen.init index order).play ops replay h2).2 := by
  suffices H : ∀ g h : Gen K, GSim g h → List.Forall₂ OutSim (g.play ops replay h1).2 (h.play ops replay h2).2 from
    H _ _ ⟨rfl, rfl, rfl, rfl, rfl, rfl, rfl, trivial, rfl, rfl, rfl⟩
  induction hs with
  | nil => intro g h _; exact List.Forall₂.nil
  | @cons r s rs ss hrs _ ih =>
    intro g h hg
    rw [Gen.play, Gen.play]
    have hh : HSim r.heap s.heap := fun i =>
      ⟨DSim.of_perm (hok r (by simp) i) (hrs.heap i).1, (hrs.heap i).2.1, (hrs.heap i).2.2⟩
    have := send_sim ops ht r.fuel replay hh hg r.mix r.target
    rw [← hrs.fuel, ← hrs.mix, ← hrs.target]
    exact List.Forall₂.cons this.2 (ih (fun r hr => hok r (by simp [hr])) _ _ this.1)

example : (Ex.bestMix.rows.Perm [(1, 3), (2, 2)] ∧ Ex.bestMix.rows ≠ [(1, 3), (2, 2)]) ∧ Ex.ops.Total ∧
    ((Gen.init Ex.index Ex.order).play Ex.ops false [Ex.req Ex.bestMix 0, Ex.req Ex.bestMix 1]).2.map Ex.see =
    ((Gen.init Ex.index Ex.order).play Ex.ops false
      [Ex.req ⟨[(1, 3), (2, 2)], false, 5⟩ 0, Ex.req ⟨[(1, 3), (2, 2)], false, 5⟩ 1]).2.map Ex.see := by
  refine ⟨by decide, ⟨?_, ?_, ?_⟩, by decide +kernel⟩
  · intro a b; simp [Ex.ops]; omega
  · intro a b c; simp [Ex.ops]; omega
  · intro a b; simp [Ex.ops]; omega

end Mixtera
