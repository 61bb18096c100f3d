import Verif.Props.Arbitrary
import Verif.Props.Schedule

/-!
# C07: iterating without a mixture ends for every query result exactly if the number of property combinations is odd

`c07_terminates_partial` proves termination for an odd number; here every even number gets a query result on which the
iteration never ends, so that the parity is exactly the right condition.
-/

set_option linter.unusedSectionVars false

namespace Mixtera

section

variable {K : Type} [DecidableEq K]

/-- One iteration without mixture, by the result of the search for a component. -/
theorem stepArbitrary_of_rotate (fuel : Nat) (replay : Bool) (v : MixView K) (g : Gen K) (hc : g.cur = g.target) :
    (∀ e, rotate g.order v.chunkSize fuel g.keyIdx g.emptyIdx g.iters = .error e →
      (stepArbitrary fuel replay v g).2 = some (.raised e)) ∧
    ∀ idx empty iters out key, rotate g.order v.chunkSize fuel g.keyIdx g.emptyIdx g.iters = .ok (idx, empty, iters, some out) →
      g.order[idx]? = some key → ∃ g' c, stepArbitrary fuel replay v g = (g', some (.chunk c)) ∧
        g'.order = g.order ∧ g'.keyIdx = idx ∧ g'.emptyIdx = empty ∧ g'.iters = iters := by
  unfold stepArbitrary
  dsimp only
  generalize hg1 : (if (g.prev.isSome || g.cur == 0) = true then
      ({ g with
        mixtureId := g.mixtureId + 1
        prev := Option.none
        log := if replay = true then g.log else g.log ++ [(g.cur, v)] } : Gen K)
    else g) = g1
  have i1 : g1.iters = g.iters := by rw [← hg1]; split <;> rfl
  have i2 : g1.order = g.order := by rw [← hg1]; split <;> rfl
  have i3 : g1.emptyIdx = g.emptyIdx := by rw [← hg1]; split <;> rfl
  have i4 : g1.keyIdx = g.keyIdx := by rw [← hg1]; split <;> rfl
  have i5 : g1.cur = g1.target := by rw [← hg1]; split <;> exact hc
  rw [i1, i2, i3, i4]
  constructor
  · intro e he
    rw [he]
  · intro idx empty iters out key he hk
    rw [he]
    simp only [if_pos i5, i2, hk]
    exact ⟨_, _, rfl, rfl, rfl, rfl, rfl⟩

theorem arb_send_step (ops : KeyOps K) (replay : Bool) {g : Gen K} {t : Nat} (hg : ArbInv g t) (fuel size : Nat)
    {g' : Gen K} {o : Out K}
    (h : stepArbitrary (fuel + 1) replay (arbView size) { g with base := 0, target := t } = (g', some o)) :
    g.send ops (fuel + 1) replay (fun _ => arbView size) 0 t = (g', o) := by
  have hns : ¬ (10 < g.noSuccess) := by rw [hg.ns]; omega
  unfold Gen.send
  rw [hg.susp]
  simp only [Gen.run, Gen.step]
  rw [if_neg hns, if_pos (show (arbView size : MixView K).rows = [] from rfl)]
  have he := hg.susp
  cases g
  subst he
  rw [h]

/-- One request without mixture whose search for a component succeeds. -/
theorem arb_send_chunk (ops : KeyOps K) (replay : Bool) {g : Gen K} {t : Nat} (hg : ArbInv g t) (fuel size : Nat)
    {idx : Nat} {empty : List Nat} {iters : Dict K (List Seg)} {out : List Seg} {key : K}
    (hr : rotate g.order size (fuel + 1) g.keyIdx g.emptyIdx g.iters = .ok (idx, empty, iters, some out))
    (hk : g.order[idx]? = some key) :
    ∃ g' c, g.send ops (fuel + 1) replay (fun _ => arbView size) 0 t = (g', .chunk c) ∧ ArbInv g' (t + 1) ∧
      g'.order = g.order ∧ g'.keyIdx = idx ∧ g'.emptyIdx = empty ∧ g'.iters = iters := by
  obtain ⟨g', c, h1, h2⟩ := (stepArbitrary_of_rotate (fuel + 1) replay (arbView size) { g with base := 0, target := t } hg.cur).2
    idx empty iters out key hr hk
  have h1 := arb_send_step ops replay hg fuel size h1
  rcases arb_request ops replay hg (fuel + 1) size h1 with ⟨e, h⟩ | ⟨h, _⟩ | ⟨c', h, h3, _⟩
  · cases h
  · cases h
  · exact ⟨g', c, h1, h3, h2⟩

/-- One request without mixture whose search for a component fails. -/
theorem arb_send_raised (ops : KeyOps K) (replay : Bool) {g : Gen K} {t : Nat} (hg : ArbInv g t) (fuel size : Nat) {e : Err}
    (hr : rotate g.order size (fuel + 1) g.keyIdx g.emptyIdx g.iters = .error e) :
    (g.send ops (fuel + 1) replay (fun _ => arbView size) 0 t).2 = .raised e := by
  have h1 := (stepArbitrary_of_rotate (fuel + 1) replay (arbView size) { g with base := 0, target := t } hg.cur).1 e hr
  rw [arb_send_step ops replay hg fuel size (Prod.ext rfl h1)]

/-- The next component has data. -/
theorem rotate_hit (order : List K) (size fuel idx : Nat) (empty : List Nat) (iters : Dict K (List Seg)) {j : Nat} {key : K}
    (hl : empty.length < order.length) (hj : (idx + 1) % order.length = j) (hn : j ∉ empty) (hk : order[j]? = some key)
    (hs : samples (itOf iters key) ≠ []) :
    ∃ out rest, rotate order size (fuel + 1) idx empty iters = .ok (j, empty, iters.set key rest, some out) ∧
      samples rest = (samples (itOf iters key)).drop size := by
  rcases h : send size (itOf iters key) with _ | ⟨out, rest⟩
  · exact absurd (send_none h) hs
  · refine ⟨out, rest, ?_, (send_some h).2.2⟩
    rw [rotate, if_pos hl]
    simp only [hj, if_neg hn, hk]
    rw [show send size ((iters.get? key).getD []) = some (out, rest) from h]

/-- The next component turns out to be exhausted. -/
theorem rotate_miss (order : List K) (size fuel idx : Nat) (empty : List Nat) (iters : Dict K (List Seg)) {j : Nat} {key : K}
    (hl : empty.length < order.length) (hj : (idx + 1) % order.length = j) (hn : j ∉ empty) (hk : order[j]? = some key)
    (hs : samples (itOf iters key) = []) :
    rotate order size (fuel + 1) idx empty iters = rotate order size fuel j (empty ++ [j]) (iters.set key []) := by
  rw [rotate, if_pos hl]
  simp only [hj, if_neg hn, hk]
  rw [show send size ((iters.get? key).getD []) = none from send_eq_none_iff.mpr hs]

/-- For an even number of components, the search never ends once all components at odd positions are known to be exhausted, a
component at an even position is not, and the search starts at an even position. -/
theorem rotate_endless (order : List K) (size : Nat) (hev : order.length % 2 = 0) (empty : List Nat)
    (hl : empty.length < order.length) (hodd : ∀ j, j < order.length → j % 2 = 1 → j ∈ empty) (fuel : Nat) :
    ∀ (idx : Nat) (iters : Dict K (List Seg)), idx % 2 = 0 → rotate order size fuel idx empty iters = .error .outOfFuel := by
  have hpos : 0 < order.length := by omega
  have hpar : ∀ m, m % order.length % 2 = m % 2 := by
    intro m
    exact Nat.mod_mod_of_dvd m (Nat.dvd_of_mod_eq_zero hev)
  induction fuel with
  | zero => intro idx iters _; rfl
  | succ fuel ih =>
    intro idx iters hi
    rw [rotate, if_pos hl]
    have hm : (idx + 1) % order.length ∈ empty := hodd _ (Nat.mod_lt _ hpos) (by rw [hpar]; omega)
    simp only [if_pos hm]
    refine ih _ _ ?_
    rw [hpar]
    have := hpar (idx + 1)
    omega

end

/-! ## The query results -/

/-- `n` property combinations with one sample each, but three for the first. -/
def evenIndex (n : Nat) : Dict Nat Entries := (List.range n).map fun k => (k, [(0, [(k, [(0, if k = 0 then 3 else 1)])])])

theorem evenIndex_keys (n : Nat) : (evenIndex n).keys = List.range n := by
  simp [evenIndex, Dict.keys, Function.comp_def]

theorem evenIndex_ok (n : Nat) : IndexOk (evenIndex n) (List.range n) := by
  refine ⟨by rw [evenIndex_keys]; exact List.nodup_range, by rw [evenIndex_keys], ?_, ?_⟩
  · intro k e h
    obtain ⟨x, _, hx⟩ := List.mem_map.mp h
    cases hx
    simp [Dict.keys]
  · intro k e h d fs h2
    obtain ⟨x, _, hx⟩ := List.mem_map.mp h
    cases hx
    simp only [List.mem_cons, Prod.mk.injEq, List.not_mem_nil, or_false] at h2
    obtain ⟨_, rfl⟩ := h2
    simp [Dict.keys]

/-- How many samples a component still has. -/
def leftOf (g : Gen Nat) (k : Nat) : Nat := (samples (itOf g.iters k)).length

theorem evenIndex_left {n k : Nat} (hk : k < n) : leftOf (Gen.init (evenIndex n) (List.range n)) k = if k = 0 then 3 else 1 := by
  have h1 : (evenIndex n).get? k = some [(0, [(k, [(0, if k = 0 then 3 else 1)])])] := by
    refine Dict.get?_of_mem (by rw [evenIndex_keys]; exact List.nodup_range) ?_
    exact List.mem_map.mpr ⟨k, List.mem_range.mpr hk, rfl⟩
  have h2 : (Gen.init (evenIndex n) (List.range n)).iters.get? k =
      some (flattenSorted [(0, [(k, [(0, if k = 0 then 3 else 1)])])]) := by
    refine Dict.get?_of_mem ?_ ?_
    · simp only [Gen.init, Dict.keys, List.map_map, Function.comp_def, List.map_id']
      exact List.nodup_range
    · simp only [Gen.init]
      refine List.mem_map.mpr ⟨k, List.mem_range.mpr hk, ?_⟩
      rw [h1]; rfl
  unfold leftOf itOf
  rw [h2]
  split <;> simp [flattenSorted, sortBy, insertBy, samples]

/-- The state after `m` chunks. -/
structure EvenInv (n : Nat) (m : Nat) (g : Gen Nat) : Prop where
  inv : ArbInv g m
  order : g.order = List.range n
  empty : g.emptyIdx = []
  idx : g.keyIdx = m % n
  left : ∀ k, k < n → leftOf g k = (if k = 0 then (if m < n then 3 else 2) else (if k ≤ m then 0 else 1))

/-- As long as every component has been visited at most once, the next one has data. -/
theorem even_next (ops : KeyOps Nat) (replay : Bool) {n m : Nat} (hm : m < n) {g : Gen Nat} (h : EvenInv n m g) (fuel : Nat) :
    ∃ g' c, g.send ops (fuel + 1) replay (fun _ => arbView 1) 0 m = (g', .chunk c) ∧ EvenInv n (m + 1) g' := by
  have hlen : g.order.length = n := by rw [h.order]; simp
  have hj : (m + 1) % n < n := Nat.mod_lt _ (by omega)
  have hmod : m % n = m := Nat.mod_eq_of_lt hm
  have hkey : g.order[(m + 1) % n]? = some ((m + 1) % n) := by rw [h.order, List.getElem?_range hj]
  have hcase : (m + 1 < n ∧ (m + 1) % n = m + 1) ∨ (m + 1 = n ∧ (m + 1) % n = 0) := by
    rcases Nat.lt_or_ge (m + 1) n with h | h
    · exact Or.inl ⟨h, Nat.mod_eq_of_lt h⟩
    · have : m + 1 = n := by omega
      exact Or.inr ⟨this, by rw [this]; exact Nat.mod_self n⟩
  have hleft := h.left _ hj
  have hne : samples (itOf g.iters ((m + 1) % n)) ≠ [] := by
    intro h0
    unfold leftOf at hleft
    rw [h0, List.length_nil] at hleft
    rcases hcase with ⟨h1, h2⟩ | ⟨h1, h2⟩ <;> rw [h2] at hleft <;> (repeat' split at hleft) <;> omega
  obtain ⟨out, rest, hr, hrest⟩ := rotate_hit g.order 1 fuel g.keyIdx g.emptyIdx g.iters (j := (m + 1) % n)
    (by rw [h.empty, hlen]; simp; omega) (by rw [h.idx, hlen, hmod]) (by rw [h.empty]; simp) hkey hne
  obtain ⟨g', c, h1, h2, h3, h4, h5, h6⟩ := arb_send_chunk ops replay h.inv fuel 1 hr hkey
  refine ⟨g', c, h1, h2, h3.trans h.order, h5.trans h.empty, h4, ?_⟩
  intro k hk
  have hold := h.left k hk
  unfold leftOf at hold hleft ⊢
  rw [h6, itOf_set]
  by_cases hkj : (m + 1) % n = k
  · rw [if_pos hkj, hrest, List.length_drop, hleft]
    rcases hcase with ⟨h1, h2⟩ | ⟨h1, h2⟩ <;> rw [h2] at hkj ⊢ <;> subst hkj <;> (repeat' split) <;> omega
  · rw [if_neg hkj, hold]
    rcases hcase with ⟨h1, h2⟩ | ⟨h1, h2⟩ <;> rw [h2] at hkj <;> (repeat' split) <;> omega

/-- The search that finds all components but the first to be exhausted. -/
theorem even_search (n size fuel : Nat) (iters : Dict Nat (List Seg)) : ∀ (d i : Nat), i + d + 1 = n →
    (∀ k, 0 < k → k < n → samples (itOf iters k) = []) → samples (itOf iters 0) ≠ [] →
    ∀ (iters' : Dict Nat (List Seg)), (∀ k, samples (itOf iters' k) = samples (itOf iters k)) →
    ∃ out iters'', rotate (List.range n) size (fuel + d + 1) i (List.range' 1 i) iters' =
        .ok (0, List.range' 1 (n - 1), iters'', some out) := by
  intro d
  induction d with
  | zero =>
    intro i hi hz h0 iters' he
    obtain ⟨out, rest, hr, _⟩ := rotate_hit (List.range n) size fuel i (List.range' 1 i) iters' (j := 0) (key := 0)
      (by simp; omega) (by rw [List.length_range, show i + 1 = n by omega]; exact Nat.mod_self n)
      (by simp) (by rw [List.getElem?_range (by omega)]) (by rw [he]; exact h0)
    exact ⟨out, _, by rw [show n - 1 = i by omega]; exact hr⟩
  | succ d ih =>
    intro i hi hz h0 iters' he
    have hmiss := rotate_miss (List.range n) size (fuel + d + 1) i (List.range' 1 i) iters' (j := i + 1) (key := i + 1)
      (by simp; omega) (by rw [List.length_range]; exact Nat.mod_eq_of_lt (by omega))
      (by simp; omega) (by rw [List.getElem?_range (by omega)]) (by rw [he]; exact hz (i + 1) (by omega) (by omega))
    rw [show fuel + (d + 1) + 1 = fuel + d + 1 + 1 by omega, hmiss]
    have hr : List.range' 1 i ++ [i + 1] = List.range' 1 (i + 1) := by
      rw [List.range'_concat]; simp [Nat.add_comm]
    rw [hr]
    refine ih (i + 1) (by omega) hz h0 _ ?_
    intro k
    rw [itOf_set]
    split
    · rename_i hk
      subst hk
      rw [hz (i + 1) (by omega) (by omega)]; rfl
    · exact he k

/-- From `m` chunks on: the rest of the first round, one more chunk of the first component, and then the endless search. -/
theorem even_run (ops : KeyOps Nat) (replay : Bool) (n : Nat) (hn : 0 < n) (hev : n % 2 = 0) (fuel : Nat) (hf : n ≤ fuel) :
    ∀ (d m : Nat), m + d = n → ∀ g, EvenInv n m g →
      ∃ cs : List (RChunk Nat), cs.length = d + 1 ∧
        (g.play ops replay (arbReqs fuel m (List.replicate (d + 2) 1))).2 = cs.map .chunk ++ [.raised .outOfFuel] := by
  intro d
  induction d with
  | zero =>
    intro m hm g h
    obtain rfl : m = n := by omega
    have hlen : g.order.length = m := by rw [h.order]; simp
    obtain ⟨f, rfl⟩ : ∃ f, fuel = f + (m - 1) + 1 := ⟨fuel - m, by omega⟩
    have h0 : samples (itOf g.iters 0) ≠ [] := by
      intro h0
      have := h.left 0 hn
      unfold leftOf at this
      rw [h0] at this
      simp at this
    have hz : ∀ k, 0 < k → k < m → samples (itOf g.iters k) = [] := by
      intro k h1 h2
      have := h.left k h2
      rw [if_neg (by omega), if_pos (by omega)] at this
      exact List.length_eq_zero_iff.mp this
    obtain ⟨out, iters, hr⟩ := even_search m 1 f g.iters (m - 1) 0 (by omega) hz h0 g.iters (fun _ => rfl)
    have hidx : g.keyIdx = 0 := by rw [h.idx]; exact Nat.mod_self m
    have hr' : rotate g.order 1 (f + (m - 1) + 1) g.keyIdx g.emptyIdx g.iters = .ok (0, List.range' 1 (m - 1), iters, some out) := by
      rw [h.order, hidx, h.empty]; exact hr
    obtain ⟨g', c, h1, h2, h3, h4, h5, h6⟩ := arb_send_chunk ops replay h.inv (f + (m - 1)) 1 (key := 0) hr'
      (by rw [h.order, List.getElem?_range hn])
    have hlen' : g'.order.length = m := by rw [h3, hlen]
    have hend := rotate_endless g'.order 1 (by rw [hlen']; exact hev) g'.emptyIdx (by rw [h5, hlen']; simp; omega)
      (by
        intro j hj ho
        rw [h5, List.mem_range'_1]
        rw [hlen'] at hj
        omega) (f + (m - 1) + 1) g'.keyIdx g'.iters (by rw [h4])
    have h7 := arb_send_raised ops replay h2 (f + (m - 1)) 1 hend
    refine ⟨[c], rfl, ?_⟩
    simp only [List.replicate, arbReqs, Gen.play, h1, h7, List.map_cons, List.map_nil, List.singleton_append]
  | succ d ih =>
    intro m hm g h
    obtain ⟨f, rfl⟩ : ∃ f, fuel = f + 1 := ⟨fuel - 1, by omega⟩
    obtain ⟨g', c, h1, h2⟩ := even_next ops replay (show m < n by omega) h f
    obtain ⟨cs, h3, h4⟩ := ih (m + 1) (by omega) g' h2
    refine ⟨c :: cs, by simp [h3], ?_⟩
    rw [show d + 1 + 2 = (d + 2) + 1 by omega, List.replicate_succ, arbReqs, Gen.play]
    simp only [h1, h4, List.map_cons, List.cons_append]

theorem evenIndex_total (n : Nat) (hn : 0 < n) : (contentSamples (evenIndex n)).length = n + 2 := by
  have h : ∀ m, (contentSamples (evenIndex (m + 1))).length = m + 1 + 2 := by
    intro m
    induction m with
    | zero => decide
    | succ m ih =>
      have hs : evenIndex (m + 1 + 1) = evenIndex (m + 1) ++ [(m + 1, [(0, [(m + 1, [(0, 1)])])])] := by
        unfold evenIndex
        rw [List.range_succ, List.map_append]
        rfl
      have hc : ∀ a b : Dict Nat Entries, contentSamples (a ++ b) = contentSamples a ++ contentSamples b := by
        intro a b; unfold contentSamples; exact List.flatMap_append
      rw [hs, hc, List.length_append, ih]
      rfl
  obtain ⟨m, rfl⟩ : ∃ k, n = k + 1 := ⟨n - 1, by omega⟩
  exact h m

/-- **C07** (every even number). For every even number of property combinations there is a query result on which iterating with
chunks of size one never ends: after one chunk more than there are combinations the next request does not return, whatever
number of loop iterations is allowed, although a sample is still undelivered. -/
theorem c07_endless_every_even (ops : KeyOps Nat) (replay : Bool) (n : Nat) (hn : 0 < n) (hev : n % 2 = 0) :
    ∃ (index : Dict Nat Entries) (order : List Nat), IndexOk index order ∧ order.length = n ∧
      (contentSamples index).length = n + 2 ∧
      ∀ fuel, n ≤ fuel → ∃ cs : List (RChunk Nat), cs.length = n + 1 ∧
        ((Gen.init index order).play ops replay (arbReqs fuel 0 (List.replicate (n + 2) 1))).2 =
          cs.map .chunk ++ [.raised .outOfFuel] := by
  refine ⟨evenIndex n, List.range n, evenIndex_ok n, by simp, evenIndex_total n hn, fun fuel hf => ?_⟩
  refine even_run ops replay n hn hev fuel hf n 0 (by omega) _ ⟨arbInv_init (evenIndex_ok n), rfl, rfl, ?_, ?_⟩
  · exact (Nat.zero_mod n).symm
  · intro k hk
    rw [evenIndex_left hk]
    by_cases h0 : k = 0
    · rw [if_pos h0, if_pos h0, if_pos hn]
    · rw [if_neg h0, if_neg h0, if_neg (by omega)]

/-- Iterating with chunks of positive size ends: some number of loop iterations per request suffices for a `StopIteration` without
error within as many requests as there are samples, and one. -/
def IterationEnds (ops : KeyOps Nat) (index : Dict Nat Entries) (order : List Nat) : Prop :=
  ∀ sizes : List Nat, (∀ s ∈ sizes, 0 < s) → (contentSamples index).length < sizes.length →
    ∃ enough, ∀ fuel, enough ≤ fuel →
      Out.stop ∈ ((Gen.init index order).play ops false (arbReqs fuel 0 sizes)).2 ∧
      ∀ e, Out.raised e ∉ ((Gen.init index order).play ops false (arbReqs fuel 0 sizes)).2

/-- **C07** (exactly the odd numbers). Iterating without a mixture ends for every query result with `n` property combinations if
and only if `n` is odd or zero. -/
theorem c07_ends_iff_odd (ops : KeyOps Nat) (n : Nat) :
    (∀ index order, IndexOk index order → order.length = n → IterationEnds ops index order) ↔ n = 0 ∨ n % 2 = 1 := by
  constructor
  · intro h
    by_contra hc
    have hc' : 0 < n ∧ n % 2 = 0 := by omega
    obtain ⟨index, order, h1, h2, h3, h4⟩ := c07_endless_every_even ops false n hc'.1 hc'.2
    obtain ⟨F, hF⟩ := h index order h1 h2 (List.replicate (n + 3) 1) (fun s hs => by rw [List.eq_of_mem_replicate hs]; exact Nat.one_pos)
      (by rw [h3]; simp)
    obtain ⟨cs, _, h6⟩ := h4 (max F n) (by omega)
    have h7 := (hF (max F n) (by omega)).2 .outOfFuel
    apply h7
    have hsplit : ∀ (a b : List Nat) (t : Nat), (arbReqs (max F n) t (a ++ b) : List (Req Nat)) =
        arbReqs (max F n) t a ++ arbReqs (max F n) (t + a.length) b := by
      intro a b
      induction a with
      | nil => intro t; simp [arbReqs]
      | cons x a ih => intro t; simp only [List.cons_append, arbReqs, ih, List.length_cons, Nat.add_assoc, Nat.add_comm 1]
    rw [show n + 3 = (n + 2) + 1 by omega, List.replicate_add, hsplit, play_append]
    simp [h6]
  · intro hn index order hi hlen sizes hpos htot
    rcases hn with rfl | hodd
    · have ho : order = [] := List.length_eq_zero_iff.mp hlen
      subst ho
      refine ⟨1, fun fuel hf => ?_⟩
      obtain ⟨f, rfl⟩ : ∃ f, fuel = f + 1 := ⟨fuel - 1, by omega⟩
      cases sizes with
      | nil => simp at htot
      | cons s sizes =>
        have hfirst : ((Gen.init index []).send ops (f + 1) false (fun _ => arbView s) 0 0).2 = .stop ∧
            ((Gen.init index []).send ops (f + 1) false (fun _ => arbView s) 0 0).1.susp = .finished := ⟨rfl, rfl⟩
        rw [arbReqs, Gen.play]
        simp only [hfirst.1, play_finished ops false hfirst.2]
        simp
    · refine ⟨arbFuel order.length, fun fuel hf => ?_⟩
      have := c07_terminates_partial ops false index order hi (by rw [hlen]; exact hodd) fuel hf sizes hpos htot
      exact ⟨this.1, this.2.1⟩

/-- Both kinds of numbers of combinations occur: the running example has three, `loopIndex` two. -/
example : IndexOk (evenIndex 2) (List.range 2) ∧ Ex.order.length % 2 = 1 := ⟨evenIndex_ok 2, by decide⟩

end Mixtera
