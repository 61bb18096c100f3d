import Verif.Lemmas.Gen

/-!
From single iterations of the generator loop to requests and histories.
-/

set_option linter.unusedSectionVars false

namespace Mixtera

variable {K : Type} [DecidableEq K]

/-- What one iteration of the generator loop with mixture `v` does. -/
structure StepSpec (ops : KeyOps K) (v : MixView K) (g g' : Gen K) (o : Option (Out K)) : Prop where
  rel : GenRel g g' (Out.samples? o)
  inv : GenInv g'
  base : g'.base = g.base
  target : g'.target = g.target
  susp : o = none → g'.susp = g.susp
  chunk : ∀ c, o = some (.chunk c) → g'.susp = .ready ∧
    ((v.rows ≠ [] ∧ MixChunk ops g.iters v c g'.iters) ∨ (v.rows = [] ∧ ArbChunk g.order g.iters v c g'.iters))
  none : o = some .none → v.rows ≠ [] ∧ ∃ att, AttemptSpec ops g.iters v att false ∧ g'.iters = att.iters
  stop : o = some .stop → (∀ p, unread p g'.iters = unread p g.iters) ∧
    (10 < g.noSuccess ∨ v.rows = [] ∧ ∀ k ∈ g.order, samples (itOf g'.iters k) = [])
  raised : ∀ e, o = some (.raised e) → v.rows ≠ [] →
    e = .zeroDivision ∧ v.strict = false ∧ ∃ k ∈ v.rows.keys, v.rows.get? k = some 0

theorem step_spec (ops : KeyOps K) (fuel : Nat) (replay : Bool) (heap : Nat → MixView K) (hh : HeapOk heap)
    (g : Gen K) (hg : GenInv g) {g' : Gen K} {o : Option (Out K)}
    (h : g.step ops fuel replay heap = (g', o)) : StepSpec ops (heap g.base) g g' o := by
  unfold Gen.step at h
  split at h
  · rename_i hns
    simp only [Prod.mk.injEq] at h
    obtain ⟨rfl, rfl⟩ := h
    have r : GenRel g { g with susp := .finished } [] := GenRel.refl _ _ rfl rfl
    exact ⟨r, r.inv hg hg.empty, rfl, rfl, by simp, by simp, by simp, fun _ => ⟨fun _ => rfl, Or.inl hns⟩, by simp⟩
  · dsimp only at h
    split at h
    · rename_i hr
      obtain ⟨h1, h2, h3, h4, h5, h6, h7, h8⟩ := stepArbitrary_spec fuel replay (heap g.base) g hg h
      exact ⟨h1, h2, h3, h4, h5, fun c hc => ⟨(h6 c hc).2, Or.inr ⟨hr, (h6 c hc).1⟩⟩, fun h => absurd h h7,
        fun h => ⟨(h8 h).1, Or.inr ⟨hr, (h8 h).2⟩⟩, fun _ _ h => absurd hr h⟩
    · rename_i hr
      obtain ⟨h1, h2, h3, h4, h5, h6, h7, h8, h9⟩ := stepMixture_spec ops replay (heap g.base) g hg (hh _) h
      exact ⟨h1, h2, h3, h4, h5, fun c hc => ⟨(h6 c hc).2, Or.inl ⟨hr, (h6 c hc).1⟩⟩, fun h => ⟨hr, h7 h⟩,
        fun h => absurd h h9, fun e he _ => h8 e he⟩

/-- When the next chunk is the wanted one, one iteration answers the request. -/
theorem step_answers (ops : KeyOps K) (fuel : Nat) (replay : Bool) (heap : Nat → MixView K) (g : Gen K)
    (h : g.cur = g.target) : (g.step ops fuel replay heap).2 ≠ none := by
  unfold Gen.step
  split
  · simp
  · dsimp only
    split
    · unfold stepArbitrary
      dsimp only
      split
      · simp
      · simp
      · rw [if_pos]
        · split <;> simp
        · split <;> exact h
    · unfold stepMixture
      dsimp only
      split
      · simp
      · rw [if_pos]
        · simp
        · split <;> split <;> exact h
      · simp

theorem run_spec (ops : KeyOps K) (fuel : Nat) (replay : Bool) (heap : Nat → MixView K) (hh : HeapOk heap)
    (n : Nat) (g : Gen K) (hg : GenInv g) {g' : Gen K} {o : Out K}
    (h : g.run ops fuel replay heap n = (g', o)) :
    (o = .raised .outOfFuel ∧ GenRel g g' [] ∧ GenInv g' ∧ g'.susp = .finished) ∨
    ∃ g1, GenRel g g1 [] ∧ GenInv g1 ∧ g1.base = g.base ∧ g1.target = g.target ∧ g1.susp = g.susp ∧
      (g.cur = g.target → g1 = g) ∧
      g1.step ops fuel replay heap = (g', some o) ∧ StepSpec ops (heap g.base) g1 g' (some o) := by
  induction n generalizing g with
  | zero =>
    simp only [Gen.run, Prod.mk.injEq] at h
    obtain ⟨rfl, rfl⟩ := h
    have r : GenRel g { g with susp := .finished } [] := GenRel.refl _ _ rfl rfl
    exact Or.inl ⟨rfl, r, r.inv hg hg.empty, rfl⟩
  | succ n ih =>
    rw [Gen.run] at h
    split at h
    · rename_i g2 o2 hs
      simp only [Prod.mk.injEq] at h
      obtain ⟨rfl, rfl⟩ := h
      exact Or.inr ⟨g, GenRel.refl _ _ rfl rfl, hg, rfl, rfl, rfl, fun _ => rfl, hs, step_spec ops fuel replay heap hh g hg hs⟩
    · rename_i g2 hs
      have sp := step_spec ops fuel replay heap hh g hg hs
      rcases ih g2 sp.inv h with ⟨h1, h2, h3, h4⟩ | ⟨g1, h1, h2, h3, h4, h5, h6, h7, h8⟩
      · exact Or.inl ⟨h1, sp.rel.trans h2, h3, h4⟩
      · refine Or.inr ⟨g1, sp.rel.trans h1, h2, h3.trans sp.base, h4.trans sp.target, h5.trans (sp.susp rfl), ?_, h7, ?_⟩
        · intro hc
          have := step_answers ops fuel replay heap g hc
          rw [hs] at this
          exact absurd rfl this
        · rw [← sp.base]; exact h8

/-- What one request does. -/
theorem send_spec (ops : KeyOps K) (replay : Bool) (g : Gen K) (hg : GenInv g) (r : Req K)
    (hh : HeapOk r.heap) {g' : Gen K} {o : Out K}
    (h : g.send ops r.fuel replay r.heap r.mix r.target = (g', o)) :
    (g.susp = .finished ∧ o = .stop ∧ g' = g) ∨
    (o = .raised .outOfFuel ∧ GenRel g g' [] ∧ GenInv g' ∧ g'.susp = .finished) ∨
    ∃ g1, GenRel g g1 [] ∧ GenInv g1 ∧ (g.cur = g.effTarget r → g1.iters = g.iters ∧ g1.noSuccess = g.noSuccess) ∧
      StepSpec ops (g.eff r) g1 g' (some o) := by
  unfold Gen.send at h
  split at h
  · rename_i hs
    simp only [Prod.mk.injEq] at h
    exact Or.inl ⟨hs, h.2.symm, h.1.symm⟩
  · rename_i hs
    right
    have hrel : GenRel g { g with base := r.mix, target := r.target } [] := GenRel.refl _ _ rfl rfl
    rcases run_spec ops r.fuel replay r.heap hh r.fuel _ (hrel.inv hg hg.empty) h with
      ⟨h1, h2, h3, h4⟩ | ⟨g1, h1, h2, h3, h4, h5, h6, h7, h8⟩
    · exact Or.inl ⟨h1, hrel.trans h2, h3, h4⟩
    · refine Or.inr ⟨g1, hrel.trans h1, h2, ?_, ?_⟩
      · intro hc
        have hc' : g.cur = r.target := by simpa [Gen.effTarget, hs] using hc
        have := h6 hc'
        rw [this]; exact ⟨rfl, rfl⟩
      · simpa [Gen.eff, hs] using h8
  · rename_i hs
    right
    rcases run_spec ops r.fuel replay r.heap hh r.fuel g hg h with
      ⟨h1, h2, h3, h4⟩ | ⟨g1, h1, h2, h3, h4, h5, h6, h7, h8⟩
    · exact Or.inl ⟨h1, h2, h3, h4⟩
    · refine Or.inr ⟨g1, h1, h2, ?_, ?_⟩
      · intro hc
        have hc' : g.cur = g.target := by simpa [Gen.effTarget, hs] using hc
        have := h6 hc'
        rw [this]; exact ⟨rfl, rfl⟩
      · simpa [Gen.eff, hs] using h8

theorem send_rel (ops : KeyOps K) (replay : Bool) (g : Gen K) (hg : GenInv g) (r : Req K)
    (hh : HeapOk r.heap) {g' : Gen K} {o : Out K}
    (h : g.send ops r.fuel replay r.heap r.mix r.target = (g', o)) :
    GenRel g g' o.samples ∧ GenInv g' := by
  rcases send_spec ops replay g hg r hh h with ⟨_, rfl, rfl⟩ | ⟨rfl, h1, h2, _⟩ | ⟨g1, h1, h2, _, h3⟩
  · exact ⟨GenRel.refl _ _ rfl rfl, hg⟩
  · exact ⟨h1, h2⟩
  · exact ⟨h1.trans h3.rel, h3.inv⟩

theorem play_rel (ops : KeyOps K) (replay : Bool) (g : Gen K) (hg : GenInv g) (rs : List (Req K))
    (hh : ∀ r ∈ rs, HeapOk r.heap) :
    GenRel g (g.play ops replay rs).1 ((g.play ops replay rs).2.flatMap Out.samples) ∧
    GenInv (g.play ops replay rs).1 := by
  induction rs generalizing g with
  | nil => exact ⟨GenRel.refl _ _ rfl rfl, hg⟩
  | cons r rs ih =>
    rw [Gen.play]
    match h : g.send ops r.fuel replay r.heap r.mix r.target with
    | (g1, o) =>
      have h1 := send_rel ops replay g hg r (hh r (by simp)) h
      have h2 := ih g1 h1.2 (fun r' hr' => hh r' (by simp [hr']))
      exact ⟨h1.1.trans h2.1, h2.2⟩

/-! ### The initial state -/

theorem itOf_init {index : Dict K Entries} {order : List K} (k : K) (hk : k ∈ order) :
    itOf (Gen.init index order).iters k = flattenSorted ((index.get? k).getD []) := by
  unfold itOf Gen.init
  dsimp only
  induction order with
  | nil => simp at hk
  | cons a order ih =>
    rw [List.map_cons, Dict.get?_cons]
    by_cases h : a = k
    · subst h; simp
    · rw [if_neg h]
      apply ih
      simpa [Ne.symm h] using hk

theorem itOf_init_none {index : Dict K Entries} {order : List K} (k : K) (hk : k ∉ order) :
    itOf (Gen.init index order).iters k = [] := by
  have : (Gen.init index order).iters.get? k = none := by
    rw [Dict.get?_eq_none_iff]
    simpa [Gen.init, Dict.keys] using hk
  simp [itOf, this]

theorem genInv_init {index : Dict K Entries} {order : List K} (h : IndexOk index order) :
    GenInv (Gen.init index order) where
  keys := by simp [Gen.init, Dict.keys, Function.comp_def]
  nodup := h.order.nodup_iff.mpr h.keys
  empty := ⟨by simp [Gen.init], by simp [Gen.init], by simp [Gen.init]⟩

theorem samples_eq_flatMap (l : List Seg) : samples l = l.flatMap Seg.samples := rfl

/-- The flattened component stands for the same positions as the nested dictionary. -/
theorem flattenSorted_perm (e : Entries) : (samples (flattenSorted e)).Perm (entriesSamples e) := by
  unfold flattenSorted entriesSamples samples
  rw [List.flatMap_assoc]
  refine ((sortBy_perm _ e).flatMap_right _).trans ?_
  apply List.Perm.flatMap_left
  rintro ⟨d, files⟩ _
  dsimp only
  rw [List.flatMap_assoc]
  refine ((sortBy_perm _ files).flatMap_right _).trans ?_
  apply List.Perm.flatMap_left
  rintro ⟨f, rs⟩ _
  simp [List.flatMap_map]

/-- At the beginning exactly the query's result set is unread. -/
theorem init_unread {index : Dict K Entries} {order : List K} (h : IndexOk index order) :
    (allUnread (Gen.init index order).iters).Perm (contentSamples index) := by
  have e1 : allUnread (Gen.init index order).iters =
      order.flatMap fun k => samples (flattenSorted ((index.get? k).getD [])) := by
    simp [allUnread, Gen.init, List.flatMap_map]
  have e2 : contentSamples index = index.keys.flatMap fun k => entriesSamples ((index.get? k).getD []) := by
    unfold contentSamples Dict.keys
    rw [List.flatMap_map]
    apply List.flatMap_congr
    rintro ⟨k, e⟩ hk
    rw [Dict.get?_of_mem h.keys hk]; rfl
  rw [e1, e2]
  refine (h.order.flatMap_right _).trans ?_
  apply List.Perm.flatMap_left
  intro k _
  exact flattenSorted_perm _

end Mixtera
