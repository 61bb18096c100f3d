import Mathlib.Data.Nat.ModEq
import Verif.Props.Chunks

/-!
# C07: iterating without a mixture

`arbReqs` are the requests of one consumer that iterates a query result with `ArbitraryMixture`
(chunk indices 0, 1, 2, ...; the chunk size may even change between requests).

Termination only holds when the number of property combinations is odd: see
`c07_endless_loop`, a reachable state in which the real loop never ends.
-/

set_option linter.unusedSectionVars false

namespace Mixtera

variable {K : Type} [DecidableEq K]

/-- `ArbitraryMixture(chunk_size)` (/repo/mixtera/core/query/mixture/arbitrary_mixture.py:6-14). -/
def arbView (size : Nat) : MixView K := ⟨[], true, size⟩

/-- The requests of one consumer, starting at chunk index `t`. -/
def arbReqs (fuel : Nat) : Nat → List Nat → List (Req K)
  | _, [] => []
  | t, s :: ss => ⟨fun _ => arbView s, 0, t, fuel⟩ :: arbReqs fuel (t + 1) ss

theorem arbView_ok (size : Nat) : HeapOk (fun _ => (arbView size : MixView K)) := fun _ => by
  simp [arbView, Dict.keys]

/-- The state of a generator that only ever served `arbReqs`. -/
structure ArbInv (g : Gen K) (t : Nat) : Prop where
  inv : GenInv g
  susp : g.susp = .ready
  cur : g.cur = t
  ns : g.noSuccess = 0

theorem stepArbitrary_fields (fuel : Nat) (replay : Bool) (v : MixView K) (g g' : Gen K) (c : RChunk K)
    (h : stepArbitrary fuel replay v g = (g', some (.chunk c))) :
    g'.cur = g.cur + 1 ∧ g'.noSuccess = g.noSuccess := by
  unfold stepArbitrary at h
  dsimp only at h
  generalize hg1 : (if (g.prev.isSome || g.cur == 0) = true then
      ({ g with
        mixtureId := g.mixtureId + 1
        prev := Option.none
        log := if replay = true then g.log else g.log ++ [(g.cur, v)] } : Gen K)
    else g) = g1 at h
  have i1 : g1.cur = g.cur := by rw [← hg1]; split <;> rfl
  have i2 : g1.noSuccess = g.noSuccess := by rw [← hg1]; split <;> rfl
  split at h
  · simp at h
  · simp at h
  · split at h
    · split at h
      · simp at h
      · simp only [Prod.mk.injEq] at h
        obtain ⟨rfl, _⟩ := h
        exact ⟨by dsimp only; rw [i1], by dsimp only; rw [i2]⟩
    · simp at h

theorem stepArbitrary_stop (fuel : Nat) (replay : Bool) (v : MixView K) (g g' : Gen K)
    (h : stepArbitrary fuel replay v g = (g', some .stop)) : g'.susp = .finished := by
  unfold stepArbitrary at h
  dsimp only at h
  generalize hg1 : (if (g.prev.isSome || g.cur == 0) = true then
      ({ g with
        mixtureId := g.mixtureId + 1
        prev := Option.none
        log := if replay = true then g.log else g.log ++ [(g.cur, v)] } : Gen K)
    else g) = g1 at h
  split at h
  · simp at h
  · simp only [Prod.mk.injEq] at h
    rw [← h.1]
  · split at h
    · split at h <;> simp at h
    · simp at h

/-- One request of the arbitrary iteration. -/
theorem arb_request (ops : KeyOps K) (replay : Bool) {g : Gen K} {t : Nat} (hg : ArbInv g t) (fuel size : Nat)
    {g' : Gen K} {o : Out K} (h : g.send ops fuel replay (fun _ => arbView size) 0 t = (g', o)) :
    (∃ e, o = .raised e) ∨
    (o = .stop ∧ g'.susp = .finished ∧ allUnread g.iters = []) ∨
    ∃ c, o = .chunk c ∧ ArbInv g' (t + 1) ∧ g'.order = g.order ∧
      (∀ p, unread p g'.iters + (contentSamples c.content).count p = unread p g.iters) ∧
      ∃ key, c.content.keys = [key] ∧ key ∈ g.order ∧
        (contentSamples c.content).length = min size (samples (itOf g.iters key)).length ∧
        samples (itOf g.iters key) ≠ [] := by
  unfold Gen.send at h
  rw [hg.susp] at h
  dsimp only at h
  cases fuel with
  | zero =>
    simp only [Gen.run, Prod.mk.injEq] at h
    exact Or.inl ⟨_, h.2.symm⟩
  | succ fuel =>
    set g0 : Gen K := { g with susp := .ready, base := 0, target := t } with hg0
    have hgi0 : GenInv g0 := ⟨hg.inv.keys, hg.inv.nodup, hg.inv.empty⟩
    have hstep : g0.step ops (fuel + 1) replay (fun _ => arbView size) =
        stepArbitrary (fuel + 1) replay (arbView size) g0 := by
      unfold Gen.step
      have : ¬ g0.noSuccess > 10 := by rw [show g0.noSuccess = 0 from hg.ns]; omega
      rw [if_neg this]
      simp [arbView]
    have hans := step_answers ops (fuel + 1) replay (fun _ => arbView size) g0 (show g.cur = t from hg.cur)
    rw [Gen.run] at h
    rw [hstep] at h hans
    match hs : stepArbitrary (fuel + 1) replay (arbView size) g0 with
    | (g1, none) => rw [hs] at hans; exact absurd rfl hans
    | (g1, some o1) =>
      rw [hs] at h
      simp only [Prod.mk.injEq] at h
      obtain ⟨rfl, rfl⟩ := h
      obtain ⟨h1, h2, h3, h4, h5, h6, h7, h8⟩ := stepArbitrary_spec (fuel + 1) replay (arbView size) g0 hgi0 hs
      match o1 with
      | .raised e => exact Or.inl ⟨e, rfl⟩
      | .none => exact absurd rfl h7
      | .stop =>
        right; left
        refine ⟨rfl, ?_, ?_⟩
        · exact stepArbitrary_stop _ _ _ _ _ hs
        · obtain ⟨hu, he⟩ := h8 rfl
          apply List.eq_nil_iff_forall_not_mem.mpr
          intro p hp
          have hpos : 0 < unread p g0.iters := (allUnread_eq p g.iters).mp hp
          rw [← hu p] at hpos
          have := (allUnread_eq p _).mpr hpos
          obtain ⟨⟨c, l⟩, hc, hp'⟩ := List.mem_flatMap.mp this
          have hk : c ∈ g0.order := by
            rw [← h1.order, ← h2.keys]; exact List.mem_map_of_mem (f := Prod.fst) hc
          have e := Dict.get?_of_mem (h2.keys ▸ h2.nodup) hc
          have := he c hk
          simp only [itOf, e, Option.getD_some] at this
          simp [this] at hp'
      | .chunk c =>
        right; right
        obtain ⟨hf1, hf2⟩ := stepArbitrary_fields _ _ _ _ _ _ hs
        obtain ⟨ha, hsu⟩ := h6 c rfl
        obtain ⟨key, out, hc, hk, hun, hout, hrest, hne, _⟩ := ha.ex
        refine ⟨c, rfl, ⟨h2, hsu, ?_, ?_⟩, h1.order, ?_, key, ?_, hk, ?_, hne⟩
        · rw [hf1]; show g.cur + 1 = t + 1; rw [hg.cur]
        · rw [hf2]; exact hg.ns
        · intro p; rw [hc, contentSamples_single, count_nestSegs]; exact hun p
        · simp [hc, Dict.keys]
        · rw [hc, contentSamples_single, length_nestSegs, hout, List.length_take]; rfl

theorem play_finished (ops : KeyOps K) (replay : Bool) {g : Gen K} (h : g.susp = .finished) (rs : List (Req K)) :
    (g.play ops replay rs).2 = rs.map fun _ => .stop := by
  induction rs with
  | nil => rfl
  | cons r rs ih =>
    rw [Gen.play]
    have : g.send ops r.fuel replay r.heap r.mix r.target = (g, .stop) := by unfold Gen.send; rw [h]
    rw [this]
    simp [ih]

theorem arb_complete (ops : KeyOps K) (replay : Bool) (fuel : Nat) (sizes : List Nat) (g : Gen K) (t : Nat)
    (hg : ArbInv g t)
    (hstop : Out.stop ∈ (g.play ops replay (arbReqs fuel t sizes)).2)
    (hno : ∀ e, Out.raised e ∉ (g.play ops replay (arbReqs fuel t sizes)).2) :
    ((g.play ops replay (arbReqs fuel t sizes)).2.flatMap Out.samples).Perm (allUnread g.iters) := by
  induction sizes generalizing g t with
  | nil => simp [arbReqs, Gen.play] at hstop
  | cons s ss ih =>
    rw [arbReqs, Gen.play] at hstop hno ⊢
    match h : g.send ops fuel replay (fun _ => arbView s) 0 t with
    | (g1, o) =>
      rw [h] at hstop hno
      dsimp only at hstop hno ⊢
      rcases arb_request ops replay hg fuel s h with ⟨e, rfl⟩ | ⟨rfl, hfin, hnil⟩ | ⟨c, rfl, hg1, _, hun, _⟩
      · exact absurd (by simp) (hno e)
      · rw [hnil, play_finished ops replay hfin]
        have : ∀ rs : List (Req K), (rs.map fun _ => (Out.stop : Out K)).flatMap Out.samples = [] := by
          intro rs; induction rs with
          | nil => rfl
          | cons _ _ ih => simp [Out.samples]
        rw [List.flatMap_cons, this]
        exact List.Perm.refl _
      · have := ih g1 (t + 1) hg1 (by simpa using hstop) (fun e he => hno e (by simp [he]))
        rw [List.flatMap_cons, List.perm_iff_count]
        intro p
        rw [List.count_append, this.count_eq p, count_allUnread, count_allUnread]
        have := hun p
        simp only [Out.samples]
        omega

theorem arbInv_init {index : Dict K Entries} {order : List K} (hi : IndexOk index order) :
    ArbInv (Gen.init index order) 0 := ⟨genInv_init hi, rfl, rfl, rfl⟩

/-- C07 (completeness). If iterating with ArbitraryMixture ends with StopIteration (and no error), then
the delivered chunks together are exactly the query's result set, every sample once. -/
theorem c07_delivers_everything (ops : KeyOps K) (replay : Bool) (index : Dict K Entries) (order : List K)
    (hi : IndexOk index order) (fuel : Nat) (sizes : List Nat)
    (hstop : Out.stop ∈ ((Gen.init index order).play ops replay (arbReqs fuel 0 sizes)).2)
    (hno : ∀ e, Out.raised e ∉ ((Gen.init index order).play ops replay (arbReqs fuel 0 sizes)).2) :
    (((Gen.init index order).play ops replay (arbReqs fuel 0 sizes)).2.flatMap Out.samples).Perm
      (contentSamples index) :=
  (arb_complete ops replay fuel sizes _ 0 (arbInv_init hi) hstop hno).trans (init_unread hi)

/-- C07 (chunk shape). In any history, a chunk obtained without a mixture has exactly one key, a property
combination of the query result; it is not empty when the chunk size is positive; it has at most
`chunk_size` samples and fewer only if that property combination is used up by it. -/
theorem c07_chunk_shape (ops : KeyOps K) (replay : Bool) (index : Dict K Entries) (order : List K)
    (hi : IndexOk index order) (history : List (Req K)) (hh : ∀ r ∈ history, HeapOk r.heap)
    (r : Req K) (hr : HeapOk r.heap) (g g' : Gen K) (c : RChunk K)
    (hg : g = after ops replay index order history)
    (h : g.send ops r.fuel replay r.heap r.mix r.target = (g', .chunk c)) (h0 : (g.eff r).rows = []) :
    ∃ key, c.content.keys = [key] ∧ key ∈ index.keys ∧ c.mixture = none ∧
      (contentSamples c.content).length ≤ (g.eff r).chunkSize ∧
      (0 < (g.eff r).chunkSize → contentSamples c.content ≠ []) ∧
      ((contentSamples c.content).length < (g.eff r).chunkSize → samples (itOf g'.iters key) = []) := by
  have hrel := play_rel ops replay _ (genInv_init hi) history hh
  have hgi : GenInv g := hg ▸ hrel.2
  obtain ⟨g1, h1, _, ⟨hne, _⟩ | ⟨_, hm⟩⟩ := chunk_facts ops replay hgi r hr h
  · exact absurd h0 hne
  · obtain ⟨key, out, hc, hk, hun, hout, hrest, hne, _⟩ := hm.ex
    have hord : g1.order = order := by rw [h1.order, hg]; exact hrel.1.order
    have hlen : (contentSamples c.content).length = min (g.eff r).chunkSize (samples (itOf g1.iters key)).length := by
      rw [hc, contentSamples_single, length_nestSegs, hout, List.length_take]
    have hpos : 0 < (samples (itOf g1.iters key)).length := List.length_pos_iff.mpr hne
    refine ⟨key, by simp [hc, Dict.keys], hi.order.mem_iff.mp (hord ▸ hk), hm.mixture, ?_, ?_, ?_⟩
    · rw [hlen]; exact Nat.min_le_left _ _
    · intro hs hnil
      rw [hnil] at hlen
      simp at hlen
      omega
    · intro hlt
      rw [hrest, List.drop_eq_nil_iff]
      omega

/-! ### Termination -/

/-- The search for a component with data ends when the number of components is odd. -/
theorem probe_exists {n : Nat} (hodd : n % 2 = 1) (idx : Nat) {empty : List Nat} (hn : empty.Nodup)
    (hlen : empty.length < n) : ∃ j, j < n ∧ (idx + 1 + 2 * j) % n ∉ empty := by
  obtain ⟨i, hi, hie⟩ : ∃ i, i < n ∧ i ∉ empty := by
    by_contra hc
    simp only [not_exists, not_and, not_not] at hc
    have hsub : (List.range n) ⊆ empty := fun i hi => hc i (List.mem_range.mp hi)
    have := (List.subperm_of_subset List.nodup_range hsub).length_le
    simp at this
    omega
  have hpos : 0 < n := by omega
  refine ⟨((n + 1) / 2 * (i + n * (idx + 1) - (idx + 1))) % n, Nat.mod_lt _ hpos, ?_⟩
  have key : (idx + 1 + 2 * (((n + 1) / 2 * (i + n * (idx + 1) - (idx + 1))) % n)) % n = i := by
    have hge : idx + 1 ≤ n * (idx + 1) := Nat.le_mul_of_pos_left _ hpos
    have h2 : 2 * ((n + 1) / 2) = n + 1 := by omega
    have e1 : (idx + 1 + 2 * (((n + 1) / 2 * (i + n * (idx + 1) - (idx + 1))) % n)) ≡
        (idx + 1 + 2 * ((n + 1) / 2 * (i + n * (idx + 1) - (idx + 1)))) [MOD n] :=
      Nat.ModEq.add_left _ (Nat.ModEq.mul_left _ (Nat.mod_modEq _ _))
    have e2 : idx + 1 + 2 * ((n + 1) / 2 * (i + n * (idx + 1) - (idx + 1))) =
        i + n * (idx + 1 + (i + n * (idx + 1) - (idx + 1))) := by
      have : 2 * ((n + 1) / 2 * (i + n * (idx + 1) - (idx + 1))) = (n + 1) * (i + n * (idx + 1) - (idx + 1)) := by
        rw [← Nat.mul_assoc, h2]
      rw [this]
      obtain ⟨M, hM⟩ : ∃ M, M = i + n * (idx + 1) - (idx + 1) := ⟨_, rfl⟩
      rw [← hM]
      have e4 : (n + 1) * M = n * M + M := Nat.succ_mul n M
      have e5 : n * (idx + 1 + M) = n * (idx + 1) + n * M := Nat.mul_add _ _ _
      omega
    have e3 : i + n * (idx + 1 + (i + n * (idx + 1) - (idx + 1))) ≡ i [MOD n] := by
      simp [Nat.ModEq]
    have := (e1.trans (e2 ▸ e3 : _ ≡ i [MOD n]))
    rw [Nat.ModEq, Nat.mod_eq_of_lt hi] at this
    exact this
  rw [key]; exact hie

theorem rotate_total (order : List K) (hodd : order.length % 2 = 1) (size fuel idx : Nat) (empty : List Nat)
    (iters : Dict K (List Seg)) (hn : empty.Nodup) (hlt : ∀ i ∈ empty, i < order.length)
    (hf : 1 ≤ fuel ∧ (empty.length < order.length → ∃ j, j < order.length ∧ (idx + 1 + 2 * j) % order.length ∉ empty ∧
      (order.length - empty.length) * (order.length + 1) + j + 1 ≤ fuel)) :
    ∃ res, rotate order size fuel idx empty iters = .ok res := by
  induction fuel generalizing idx empty iters with
  | zero => omega
  | succ fuel ih =>
    rw [rotate]
    by_cases hl : empty.length < order.length
    · rw [if_pos hl]
      dsimp only
      obtain ⟨j, hj, hjn, hjf⟩ := hf.2 hl
      have hge : order.length + 1 ≤ (order.length - empty.length) * (order.length + 1) :=
        Nat.le_mul_of_pos_left _ (by omega)
      by_cases hm : (idx + 1) % order.length ∈ empty
      · rw [if_pos hm]
        apply ih _ _ _ hn hlt
        refine ⟨by omega, fun _ => ?_⟩
        cases j with
        | zero => simp at hjn; exact absurd hm hjn
        | succ j =>
          refine ⟨j, by omega, ?_, by omega⟩
          rw [Nat.mod_add_mod, Nat.add_assoc ((_ : Nat) % _), Nat.mod_add_mod]
          have : idx + 1 + 1 + (1 + 2 * j) = idx + 1 + 2 * (j + 1) := by omega
          rw [this]; exact hjn
      · rw [if_neg hm]
        have hil : (idx + 1) % order.length < order.length := Nat.mod_lt _ (by omega)
        rw [List.getElem?_eq_getElem hil]
        dsimp only
        split
        · have hn' : (empty ++ [(idx + 1) % order.length]).Nodup := by
            rw [List.nodup_append]
            refine ⟨hn, by simp, ?_⟩
            intro a ha b hb
            simp only [List.mem_singleton] at hb
            subst hb
            intro hab; exact hm (hab ▸ ha)
          apply ih _ _ _ hn'
          · intro i hi
            rcases List.mem_append.mp hi with hi | hi
            · exact hlt i hi
            · simp only [List.mem_singleton] at hi; omega
          · refine ⟨by omega, fun hl' => ?_⟩
            obtain ⟨j', hj', hjn'⟩ := probe_exists hodd ((idx + 1) % order.length) hn' hl'
            refine ⟨j', hj', hjn', ?_⟩
            simp only [List.length_append, List.length_singleton] at hl' ⊢
            have : (order.length - empty.length) * (order.length + 1) =
                (order.length - (empty.length + 1)) * (order.length + 1) + (order.length + 1) := by
              rw [← Nat.succ_mul]
              congr 1
              omega
            omega
        · exact ⟨_, rfl⟩
    · rw [if_neg hl]; exact ⟨_, rfl⟩

/-- Enough iterations for one request. -/
def arbFuel (n : Nat) : Nat := n * (n + 1) + n + 1

theorem arb_no_error (ops : KeyOps K) (replay : Bool) {g : Gen K} {t : Nat} (hg : ArbInv g t) (fuel size : Nat)
    (hodd : g.order.length % 2 = 1) (hf : arbFuel g.order.length ≤ fuel) (e : Err) :
    (g.send ops fuel replay (fun _ => arbView size) 0 t).2 ≠ .raised e := by
  intro h
  unfold Gen.send at h
  rw [hg.susp] at h
  dsimp only at h
  obtain ⟨fuel', hfu⟩ : ∃ f, fuel = f + 1 := ⟨fuel - 1, by unfold arbFuel at hf; omega⟩
  set g0 : Gen K := { g with susp := .ready, base := 0, target := t } with hg0
  have hstep : g0.step ops fuel replay (fun _ => arbView size) =
      stepArbitrary fuel replay (arbView size) g0 := by
    unfold Gen.step
    have : ¬ g0.noSuccess > 10 := by rw [show g0.noSuccess = 0 from hg.ns]; omega
    rw [if_neg this]
    simp [arbView]
  have hgi0 : GenInv g0 := ⟨hg.inv.keys, hg.inv.nodup, hg.inv.empty⟩
  have hans := step_answers ops fuel replay (fun _ => arbView size) g0 (show g.cur = t from hg.cur)
  have hrun : g0.run ops fuel replay (fun _ => arbView size) fuel =
      match g0.step ops fuel replay (fun _ => arbView size) with
      | (g', some o) => (g', o)
      | (g', none) => Gen.run ops fuel replay (fun _ => arbView size) fuel' g' := by
    conv_lhs => rw [hfu]
    rw [Gen.run, ← hfu]
    rfl
  rw [hrun, hstep] at h
  rw [hstep] at hans
  obtain ⟨⟨idx', empty', iters', r⟩, hr⟩ := rotate_total g0.order hodd size fuel g0.keyIdx g0.emptyIdx g0.iters
    hgi0.empty.nodup hgi0.empty.lt ⟨by unfold arbFuel at hf; omega, fun hl => by
      obtain ⟨j, hj, hjn⟩ := probe_exists hodd g0.keyIdx hgi0.empty.nodup hl
      refine ⟨j, hj, hjn, ?_⟩
      have hj : j < g0.order.length := hj
      have : (g0.order.length - g0.emptyIdx.length) * (g0.order.length + 1) ≤ g0.order.length * (g0.order.length + 1) :=
        Nat.mul_le_mul_right _ (Nat.sub_le _ _)
      have hf' : g0.order.length * (g0.order.length + 1) + g0.order.length + 1 ≤ fuel := hf
      omega⟩
  have sp := rotate_spec _ _ _ _ _ _ hgi0.keys hgi0.empty hr
  unfold stepArbitrary at h hans
  dsimp only at h hans
  generalize hg1 : (if (g0.prev.isSome || g0.cur == 0) = true then
      ({ g0 with
        mixtureId := g0.mixtureId + 1
        prev := Option.none
        log := if replay = true then g0.log else g0.log ++ [(g0.cur, arbView size)] } : Gen K)
    else g0) = g1 at h hans
  have i1 : g1.iters = g0.iters := by rw [← hg1]; split <;> rfl
  have i2 : g1.order = g0.order := by rw [← hg1]; split <;> rfl
  have i3 : g1.emptyIdx = g0.emptyIdx := by rw [← hg1]; split <;> rfl
  have i4 : g1.keyIdx = g0.keyIdx := by rw [← hg1]; split <;> rfl
  have hr' : rotate g1.order (arbView size : MixView K).chunkSize fuel g1.keyIdx g1.emptyIdx g1.iters =
      .ok (idx', empty', iters', r) := by rw [i1, i2, i3, i4]; exact hr
  rw [hr'] at h hans
  cases r with
  | none => simp at h
  | some out =>
    obtain ⟨key, hkey, _⟩ := sp.some out rfl
    dsimp only at h hans
    by_cases ht : g1.cur = g1.target
    · rw [if_pos ht, show g1.order[idx']? = some key from i2 ▸ hkey] at h
      simp at h
    · rw [if_neg ht] at hans
      simp at hans

theorem arb_stops (ops : KeyOps K) (replay : Bool) (fuel : Nat) (sizes : List Nat) (g : Gen K) (t : Nat)
    (hg : ArbInv g t) (hodd : g.order.length % 2 = 1) (hf : arbFuel g.order.length ≤ fuel)
    (hpos : ∀ s ∈ sizes, 0 < s) :
    (∀ e, Out.raised e ∉ (g.play ops replay (arbReqs fuel t sizes)).2) ∧
    ((allUnread g.iters).length < sizes.length → Out.stop ∈ (g.play ops replay (arbReqs fuel t sizes)).2) := by
  induction sizes generalizing g t with
  | nil => simp [arbReqs, Gen.play]
  | cons s ss ih =>
    rw [arbReqs, Gen.play]
    match h : g.send ops fuel replay (fun _ => arbView s) 0 t with
    | (g1, o) =>
      have hne := arb_no_error ops replay hg fuel s hodd hf
      rw [h] at hne
      dsimp only
      rcases arb_request ops replay hg fuel s h with ⟨e, rfl⟩ | ⟨rfl, hfin, hnil⟩ | ⟨c, rfl, hg1, hord, hun, key, _, _, hlen, hkne⟩
      · exact absurd rfl (hne e)
      · rw [play_finished ops replay hfin]
        exact ⟨by intro e he; simp at he, fun _ => by simp⟩
      · obtain ⟨ih1, ih2⟩ := ih g1 (t + 1) hg1 (by rw [hord]; exact hodd) (by rw [hord]; exact hf)
          (fun s hs => hpos s (by simp [hs]))
        refine ⟨fun e he => ih1 e (by simpa using he), fun hl => ?_⟩
        have hperm : (allUnread g1.iters ++ contentSamples c.content).Perm (allUnread g.iters) := by
          rw [List.perm_iff_count]
          intro p
          rw [List.count_append, count_allUnread, count_allUnread]
          exact hun p
        have hl2 := hperm.length_eq
        rw [List.length_append, hlen] at hl2
        have h1 : 0 < (samples (itOf g.iters key)).length := List.length_pos_iff.mpr hkne
        have h2 := hpos s (by simp)
        have : Out.stop ∈ (g1.play ops replay (arbReqs fuel (t + 1) ss)).2 := by
          apply ih2
          simp only [List.length_cons] at hl
          omega
        simp [this]

/-- C07 (termination, partial: only for an odd number of property combinations). Iterating with any
positive chunk sizes ends after at most as many chunks as there are samples, without error, having
delivered every sample exactly once. What is missing: an even number of combinations, where the claim is
false (`c07_endless_loop`). -/
theorem c07_terminates_partial (ops : KeyOps K) (replay : Bool) (index : Dict K Entries) (order : List K)
    (hi : IndexOk index order) (hodd : order.length % 2 = 1) (fuel : Nat) (hf : arbFuel order.length ≤ fuel)
    (sizes : List Nat) (hpos : ∀ s ∈ sizes, 0 < s) (hlen : (contentSamples index).length < sizes.length) :
    Out.stop ∈ ((Gen.init index order).play ops replay (arbReqs fuel 0 sizes)).2 ∧
    (∀ e, Out.raised e ∉ ((Gen.init index order).play ops replay (arbReqs fuel 0 sizes)).2) ∧
    (((Gen.init index order).play ops replay (arbReqs fuel 0 sizes)).2.flatMap Out.samples).Perm
      (contentSamples index) := by
  obtain ⟨h1, h2⟩ := arb_stops ops replay fuel sizes (Gen.init index order) 0 (arbInv_init hi) hodd hf hpos
  have h3 := h2 (by rw [(init_unread hi).length_eq]; exact hlen)
  exact ⟨h3, h1, c07_delivers_everything ops replay index order hi fuel sizes h3 h1⟩

example : Ex.order.length % 2 = 1 ∧ ((Gen.init Ex.index Ex.order).play Ex.ops false
      (arbReqs 30 0 [4, 4, 4, 4, 4, 4])).2.map Ex.see =
    [some [(11, [(0, 0, 0), (0, 0, 1), (0, 0, 2), (0, 0, 5)])], some [(1, [(0, 0, 3), (0, 0, 4)])],
     some [(2, [(0, 1, 0), (0, 1, 1), (0, 1, 2), (0, 1, 3)])], some [(11, [(0, 0, 6)])],
     some [(2, [(0, 1, 4), (0, 1, 5), (0, 1, 6), (0, 1, 7)])], some [(2, [(0, 1, 8), (0, 1, 9)])]] := by
  decide +kernel

/-! ### The counterexample for two property combinations -/

/-- Two property combinations: the first with three samples, the second with one. -/
def loopIndex : Dict Nat Entries := [(1, [(0, [(0, [(0, 3)])])]), (2, [(0, [(1, [(0, 1)])])])]

theorem rotate_loops (fuel : Nat) (iters : Dict Nat (List Seg)) :
    rotate [1, 2] 1 fuel 0 [1] iters = .error .outOfFuel := by
  induction fuel with
  | zero => rfl
  | succ n ih => simp [rotate, ih]

/-- C07 is violated by the code: with two property combinations, after three chunks of size one, the
request for the fourth chunk never returns (no number of loop iterations suffices), although one sample
is still undelivered. query_result.py:514-519: the key index advances by two past an empty key. -/
theorem c07_endless_loop :
    IndexOk loopIndex [1, 2] ∧
    let g := after Ex.ops false loopIndex [1, 2] (arbReqs 10 0 [1, 1, 1])
    ((Gen.init loopIndex [1, 2]).play Ex.ops false (arbReqs 10 0 [1, 1, 1])).2.map Ex.see =
      [some [(2, [(0, 1, 0)])], some [(1, [(0, 0, 0)])], some [(1, [(0, 0, 1)])]] ∧
    allUnread g.iters = [(0, 0, 2)] ∧
    ∀ fuel, (g.send Ex.ops fuel false (fun _ => arbView 1) 0 3).2 matches .raised .outOfFuel := by
  refine ⟨⟨by decide, by decide, ?_, ?_⟩, ?_⟩
  · intro k e h
    simp only [loopIndex, List.mem_cons, Prod.mk.injEq, List.not_mem_nil, or_false] at h
    rcases h with ⟨_, rfl⟩ | ⟨_, rfl⟩ <;> decide
  · intro k e h d fs h2
    simp only [loopIndex, List.mem_cons, Prod.mk.injEq, List.not_mem_nil, or_false] at h
    rcases h with ⟨_, rfl⟩ | ⟨_, rfl⟩ <;>
      (simp only [List.mem_cons, Prod.mk.injEq, List.not_mem_nil, or_false] at h2; obtain ⟨_, rfl⟩ := h2; decide)
  · intro g
    refine ⟨by decide +kernel, by decide +kernel, ?_⟩
    have f1 : g.order = [1, 2] := by decide +kernel
    have f2 : g.keyIdx = 0 := by decide +kernel
    have f3 : g.emptyIdx = [1] := by decide +kernel
    have f4 : g.susp = .ready := by decide +kernel
    have f5 : g.noSuccess = 0 := by decide +kernel
    have f6 : g.cur = 3 := by decide +kernel
    have f7 : g.prev = none := by decide +kernel
    intro fuel
    cases fuel with
    | zero => simp [Gen.send, f4, Gen.run]
    | succ fuel =>
      simp only [Gen.send, f4, Gen.run, Gen.step, f5, arbView, stepArbitrary, f6, f7, f1, f2, f3, Option.isSome_none,
        Bool.false_or, gt_iff_lt, Nat.not_lt_zero, if_false, if_true]
      simp [f1, f2, f3, rotate_loops]

end Mixtera
