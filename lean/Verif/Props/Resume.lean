import Verif.Props.Checkpoint

/-!
# C20: resuming from a checkpoint
-/

set_option linter.unusedSectionVars false

namespace Mixtera

variable {σ ι C : Type}

/-! ### Specification -/

/-- What a query result returns for a sequence of requests (`none`) and operations (`some i`). -/
def Source.trace (S : Source σ ι C) : σ → List (Option ι) → List (Fetch C)
  | _, [] => []
  | s, none :: os => (S.fetch s).2 :: S.trace (S.fetch s).1 os
  | s, some i :: os => S.trace (S.poke i s) os

/-- Two query results that cannot be told apart from now on. -/
def SrcEq (S : Source σ ι C) (a b : σ) : Prop := ∀ os, S.trace a os = S.trace b os

/-- The last chunk a worker of a node received, given the answers so far and what was known before. -/
def lastReceived (before : DReq → Option C) (as : List (DReq × Ans C)) (r : DReq) : Option C :=
  (received as r).getLast?.or (before r)

/-- The distributors that can exist: fresh ones, after requests and operations on the query result, and restored
from checkpoints, any number of times. `last r` is the last chunk that `r` received since the last restart. -/
inductive Reached (S : Source σ ι C) (skip : Nat → C → C) (G N W : Nat) : Dist σ C → (DReq → Option C) → Prop
  | init (src : σ) (d : Dist σ C) (workers : Nat) (hW : W = effWorkers workers) (h : Dist.init G N workers src = .ok d) :
      Reached S skip G N W d (fun _ => none)
  | ops (d : Dist σ C) (last : DReq → Option C) (h : Reached S skip G N W d last) (os : List (DOp ι))
      (ho : ∀ o ∈ os, o.Valid G N W) : Reached S skip G N W (d.run S os).1 (lastReceived last (d.run S os).2)
  | restore (d : Dist σ C) (last : DReq → Option C) (h : Reached S skip G N W d last) (ha : d.aligned = true)
      (status : Nat → Nat → Option Nat) (saved : Saved C) (hs : d.persist skip status = .ok saved) (src : σ) :
      Reached S skip G N W (saved.restore src) (fun _ => none)

/-- What a resumed job should see: every worker of every node first gets its chunk `again` (if it had one);
apart from that the requests are answered as the uninterrupted distributor `d` would have answered them. -/
def resumed (S : Source σ ι C) : Dist σ C → (DReq → Option C) → List (DOp ι) → List (DReq × Ans C)
  | _, _, [] => []
  | d, again, .poke i :: os => resumed S (d.op S (.poke i)).1 again os
  | d, again, .ask r :: os =>
    match again r with
    | some c => (r, .chunk c) :: resumed S d (fun r' => if r' = r then none else again r') os
    | none => (r, (d.nextChunkFor S r).2) :: resumed S (d.nextChunkFor S r).1 again os

/-! ### The query result -/

theorem SrcEq.fetch {S : Source σ ι C} {a b : σ} (h : SrcEq S a b) :
    (S.fetch a).2 = (S.fetch b).2 ∧ SrcEq S (S.fetch a).1 (S.fetch b).1 := by
  constructor
  · have := h [none]
    simpa [Source.trace] using this
  · intro os
    have := h (none :: os)
    simp only [Source.trace, List.cons.injEq] at this
    exact this.2

theorem SrcEq.poke {S : Source σ ι C} {a b : σ} (h : SrcEq S a b) (i : ι) : SrcEq S (S.poke i a) (S.poke i b) := by
  intro os
  exact h (some i :: os)

/-! ### The persisting loop -/

variable {skip : Nat → C → C} {status : Nat → Nat → Option Nat}

open Classical in
structure AdjInv (skip : Nat → C → C) (status : Nat → Nat → Option Nat) (G N W : Nat) (d : Dist σ C) (p : Nat → Nat → Nat)
    (done : List DReq) (t : Saved C) : Prop where
  groups : t.groups = G
  nodes : t.nodes = N
  workers : t.workers = W
  next : ∀ g n w, t.next g n w = if (⟨g, n, w⟩ : DReq) ∈ done then w + W * (p g w - 1) else d.next g n w
  cacheNodup : ∀ g, (t.cache g).keys.Nodup
  usageNodup : ∀ g, (t.usage g).keys.Nodup
  cache : ∀ g w j, w < W → (t.cache g).get? (w + W * j) =
    if (∃ n, (⟨g, n, w⟩ : DReq) ∈ done) ∧ p g w = j + 1 then ((d.cache g).get? (w + W * j)).map (skip ((status g w).getD 0))
    else (d.cache g).get? (w + W * j)
  usage : ∀ g w j, w < W → (t.usage g).get? (w + W * j) =
    if (∃ n, (⟨g, n, w⟩ : DReq) ∈ done) ∧ p g w = j + 1 then some 0 else (d.usage g).get? (w + W * j)
  found : ∀ g n w, (⟨g, n, w⟩ : DReq) ∈ done → 0 < p g w →
    (∃ c, (d.cache g).get? (w + W * (p g w - 1)) = some c) ∧ ∃ k, status g w = some k

theorem adjust_inv {G N W : Nat} {d : Dist σ C} {p : Nat → Nat → Nat} {done : List DReq} {t t' : Saved C}
    (hskip : ∀ k c, skip k (skip k c) = skip k c)
    (h : AdjInv skip status G N W d p done t) (r : DReq) (hw : r.worker < W) (hr : r ∉ done)
    (hp : d.next r.group r.node r.worker = r.worker + W * p r.group r.worker)
    (ht : t.adjust skip status r = .ok t') : AdjInv skip status G N W d p (done ++ [r]) t' := by
  obtain ⟨rg, rn, rw'⟩ := r
  dsimp only at hw hp
  have hcur : t.next rg rn rw' = rw' + W * p rg rw' := by rw [h.next, if_neg hr, hp]
  unfold Saved.adjust at ht
  dsimp only at ht
  rw [hcur, h.workers] at ht
  by_cases hp0 : p rg rw' = 0
  · rw [if_neg (by rw [hp0]; simp; omega)] at ht
    simp only [Except.ok.injEq] at ht
    subst ht
    refine ⟨h.groups, h.nodes, h.workers, ?_, h.cacheNodup, h.usageNodup, ?_, ?_, ?_⟩
    · intro g n w
      rw [h.next]
      by_cases e : (⟨g, n, w⟩ : DReq) = ⟨rg, rn, rw'⟩
      · simp only [DReq.mk.injEq] at e
        obtain ⟨rfl, rfl, rfl⟩ := e
        rw [if_neg hr, if_pos (by simp), hp, hp0]
      · simp [e]
    · intro g w j hw'
      rw [h.cache g w j hw']
      by_cases e : g = rg ∧ w = rw'
      · obtain ⟨rfl, rfl⟩ := e
        rw [if_neg (by omega), if_neg (by omega)]
      · have : (∃ n, (⟨g, n, w⟩ : DReq) ∈ done ++ [⟨rg, rn, rw'⟩]) ↔ ∃ n, (⟨g, n, w⟩ : DReq) ∈ done := by
          constructor
          · rintro ⟨n, hn⟩
            simp only [List.mem_append, List.mem_singleton, DReq.mk.injEq] at hn
            rcases hn with hn | hn
            · exact ⟨n, hn⟩
            · exact absurd ⟨hn.1, hn.2.2⟩ e
          · rintro ⟨n, hn⟩; exact ⟨n, by simp [hn]⟩
        rw [this]
    · intro g w j hw'
      rw [h.usage g w j hw']
      by_cases e : g = rg ∧ w = rw'
      · obtain ⟨rfl, rfl⟩ := e
        rw [if_neg (by omega), if_neg (by omega)]
      · have : (∃ n, (⟨g, n, w⟩ : DReq) ∈ done ++ [⟨rg, rn, rw'⟩]) ↔ ∃ n, (⟨g, n, w⟩ : DReq) ∈ done := by
          constructor
          · rintro ⟨n, hn⟩
            simp only [List.mem_append, List.mem_singleton, DReq.mk.injEq] at hn
            rcases hn with hn | hn
            · exact ⟨n, hn⟩
            · exact absurd ⟨hn.1, hn.2.2⟩ e
          · rintro ⟨n, hn⟩; exact ⟨n, by simp [hn]⟩
        rw [this]
    · intro g n w hm hpos
      simp only [List.mem_append, List.mem_singleton, DReq.mk.injEq] at hm
      rcases hm with hm | ⟨rfl, rfl, rfl⟩
      · exact h.found g n w hm hpos
      · omega
  · obtain ⟨q, hq⟩ : ∃ q, p rg rw' = q + 1 := ⟨p rg rw' - 1, by omega⟩
    have hid : rw' + W * p rg rw' - W = rw' + W * q := by rw [hq, Nat.mul_add]; omega
    rw [if_pos (by rw [hq, Nat.mul_add]; omega), hid] at ht
    have hdup : ∀ x : Option C, (x.map (skip ((status rg rw').getD 0))).map (skip ((status rg rw').getD 0)) =
        x.map (skip ((status rg rw').getD 0)) := by
      intro x; cases x with
      | none => rfl
      | some c => simp [hskip]
    cases hc : (t.cache rg).get? (rw' + W * q) with
    | none => rw [hc] at ht; simp at ht
    | some c =>
      cases hst : status rg rw' with
      | none => rw [hc, hst] at ht; simp at ht
      | some k =>
        rw [hc, hst] at ht
        simp only [Except.ok.injEq] at ht
        subst ht
        rw [hst] at hdup
        simp only [Option.getD_some] at hdup
        have hcd := h.cache rg rw' q hw
        rw [hst] at hcd
        simp only [Option.getD_some] at hcd
        -- the entry in the original cache
        have hsk : some (skip k c) = ((d.cache rg).get? (rw' + W * q)).map (skip k) := by
          rw [hc] at hcd
          split at hcd
          · rw [← hdup, ← hcd]; rfl
          · rw [← hcd]; rfl
        have hfound : ∃ c, (d.cache rg).get? (rw' + W * q) = some c := by
          cases hh : (d.cache rg).get? (rw' + W * q) with
          | none => rw [hh] at hsk; simp at hsk
          | some c => exact ⟨c, rfl⟩
        have hex : ∀ g w, ¬ (g = rg ∧ w = rw') →
            ((∃ n, (⟨g, n, w⟩ : DReq) ∈ done ++ [⟨rg, rn, rw'⟩]) ↔ ∃ n, (⟨g, n, w⟩ : DReq) ∈ done) := by
          intro g w e
          constructor
          · rintro ⟨n, hn⟩
            simp only [List.mem_append, List.mem_singleton, DReq.mk.injEq] at hn
            rcases hn with hn | hn
            · exact ⟨n, hn⟩
            · exact absurd ⟨hn.1, hn.2.2⟩ e
          · rintro ⟨n, hn⟩; exact ⟨n, by simp [hn]⟩
        refine ⟨h.groups, h.nodes, rfl, ?_, ?_, ?_, ?_, ?_, ?_⟩
        · intro g n w
          dsimp only
          by_cases e : (⟨g, n, w⟩ : DReq) = ⟨rg, rn, rw'⟩
          · simp only [DReq.mk.injEq] at e
            obtain ⟨rfl, rfl, rfl⟩ := e
            rw [if_pos ⟨rfl, rfl, rfl⟩, if_pos (by simp), hq, Nat.add_sub_cancel]
          · rw [if_neg (by simpa using e), h.next]
            simp [e]
        · intro g; dsimp only; split
          · exact Dict.nodup_keys_upsert (h.cacheNodup _) _ _
          · exact h.cacheNodup g
        · intro g; dsimp only; split
          · exact Dict.nodup_keys_upsert (h.usageNodup _) _ _
          · exact h.usageNodup g
        · intro g w j hw'
          dsimp only
          by_cases e : g = rg ∧ w = rw'
          · obtain ⟨rfl, rfl⟩ := e
            rw [if_pos rfl, Dict.get?_set]
            by_cases ej : q = j
            · subst ej
              rw [if_pos rfl, if_pos ⟨⟨rn, by simp⟩, hq⟩, hst, Option.getD_some]
              exact hsk
            · rw [if_neg (fun e => ej (id_inj hw hw e).2), if_neg (by omega), h.cache g w j hw', if_neg (by omega)]
          · rw [hex g w e, ← h.cache g w j hw']
            by_cases hg : g = rg
            · rw [if_pos hg, Dict.get?_set, if_neg]
              intro e'
              exact e ⟨hg, (id_inj hw hw' e').1.symm⟩
            · rw [if_neg hg]
        · intro g w j hw'
          dsimp only
          by_cases e : g = rg ∧ w = rw'
          · obtain ⟨rfl, rfl⟩ := e
            rw [if_pos rfl, Dict.get?_set]
            by_cases ej : q = j
            · subst ej
              rw [if_pos rfl, if_pos ⟨⟨rn, by simp⟩, hq⟩]
            · rw [if_neg (fun e => ej (id_inj hw hw e).2), if_neg (by omega), h.usage g w j hw', if_neg (by omega)]
          · rw [hex g w e, ← h.usage g w j hw']
            by_cases hg : g = rg
            · rw [if_pos hg, Dict.get?_set, if_neg]
              intro e'
              exact e ⟨hg, (id_inj hw hw' e').1.symm⟩
            · rw [if_neg hg]
        · intro g n w hm hpos
          simp only [List.mem_append, List.mem_singleton, DReq.mk.injEq] at hm
          rcases hm with hm | ⟨rfl, rfl, rfl⟩
          · exact h.found g n w hm hpos
          · rw [hq, Nat.add_sub_cancel]
            exact ⟨hfound, k, hst⟩

theorem adjustAll_inv {G N W : Nat} {d : Dist σ C} {p : Nat → Nat → Nat} (hskip : ∀ k c, skip k (skip k c) = skip k c)
    (rs : List DReq) : ∀ (done : List DReq) (t t' : Saved C), AdjInv skip status G N W d p done t →
    (∀ r ∈ rs, r.worker < W ∧ d.next r.group r.node r.worker = r.worker + W * p r.group r.worker) →
    (done ++ rs).Nodup → Saved.adjustAll skip status rs t = .ok t' → AdjInv skip status G N W d p (done ++ rs) t' := by
  induction rs with
  | nil =>
    intro done t t' h _ _ ht
    simp only [Saved.adjustAll, Except.ok.injEq] at ht
    subst ht
    simpa using h
  | cons r rs ih =>
    intro done t t' h hv hnd ht
    rw [Saved.adjustAll] at ht
    cases hadj : t.adjust skip status r with
    | error e => rw [hadj] at ht; simp at ht
    | ok t1 =>
      rw [hadj] at ht
      dsimp only at ht
      have hr : r ∉ done := by
        intro hm
        exact (List.nodup_append.mp hnd).2.2 r hm r (by simp) rfl
      have h1 := adjust_inv hskip h r (hv r (by simp)).1 hr (hv r (by simp)).2 hadj
      have := ih (done ++ [r]) t1 t' h1 (fun r h => hv r (by simp [h])) (by simpa using hnd) ht
      simpa using this

theorem mem_allIds (G N W : Nat) (r : DReq) : r ∈ allIds G N W ↔ r.group < G ∧ r.node < N ∧ r.worker < W := by
  obtain ⟨g, n, w⟩ := r
  simp only [allIds, List.mem_flatMap, List.mem_range, List.mem_map, DReq.mk.injEq]
  constructor
  · rintro ⟨g', hg, n', hn, w', hw, rfl, rfl, rfl⟩; exact ⟨hg, hn, hw⟩
  · rintro ⟨hg, hn, hw⟩; exact ⟨g, hg, n, hn, w, hw, rfl, rfl, rfl⟩

theorem nodup_allIds (G N W : Nat) : (allIds G N W).Nodup := by
  unfold allIds
  rw [List.nodup_flatMap]
  constructor
  · intro g _
    rw [List.nodup_flatMap]
    constructor
    · intro n _
      exact List.Nodup.map (fun a b h => by simpa using h) List.nodup_range
    · refine List.Nodup.pairwise_of_forall_ne List.nodup_range ?_
      intro a _ b _ hab
      rw [Function.onFun, List.disjoint_left]
      intro x hx hy
      simp only [List.mem_map] at hx hy
      obtain ⟨_, _, rfl⟩ := hx
      obtain ⟨_, _, h⟩ := hy
      simp at h
      exact hab h.1.symm
  · refine List.Nodup.pairwise_of_forall_ne List.nodup_range ?_
    intro a _ b _ hab
    rw [Function.onFun, List.disjoint_left]
    intro x hx hy
    simp only [List.mem_flatMap, List.mem_map] at hx hy
    obtain ⟨_, _, _, _, rfl⟩ := hx
    obtain ⟨_, _, _, _, h⟩ := hy
    simp at h
    exact hab h.1.symm


/-! ### The invariant of all reachable distributors -/

/-- Besides the refinement: what is known about unread chunks and about the last chunks received. -/
structure Life (G N W : Nat) (d : Dist σ C) (s : SDist σ C) (last : DReq → Option C) : Prop where
  rel : DRel G N W d s
  top : ∀ g w, g < G → w < W → (∃ n < N, s.pos g n w = (s.stream g w).length) ∨
    ((∀ n < N, s.pos g n w + 1 = (s.stream g w).length) ∧ ∀ n < N, last ⟨g, n, w⟩ = none)
  lastSome : ∀ g n w c, n < N → w < W → last ⟨g, n, w⟩ = some c →
    0 < s.pos g n w ∧ (s.stream g w)[s.pos g n w - 1]? = some c
  lastNone : ∀ g n w, g < G → n < N → w < W → last ⟨g, n, w⟩ = none → 0 < s.pos g n w →
    (d.cache g).get? (w + W * (s.pos g n w - 1)) = none

theorem lastReceived_nil (last : DReq → Option C) : lastReceived last [] = last := by
  funext r; simp [lastReceived, received]

theorem lastReceived_append (last : DReq → Option C) (a b : List (DReq × Ans C)) :
    lastReceived last (a ++ b) = lastReceived (lastReceived last a) b := by
  funext r
  simp only [lastReceived, received_append]
  rw [List.getLast?_append]
  cases (received b r).getLast? <;> simp

theorem lastReceived_chunk (last : DReq → Option C) (r r' : DReq) (c : C) :
    lastReceived last [(r, .chunk c)] r' = if r' = r then some c else last r' := by
  by_cases e : r' = r
  · subst e; simp [lastReceived, received]
  · rw [if_neg e, lastReceived, received_other _ _ _ (fun h => e h.symm)]; simp

theorem lastReceived_other (last : DReq → Option C) (r : DReq) (a : Ans C) (h : ∀ c, a ≠ .chunk c) :
    lastReceived last [(r, a)] = last := by
  funext r'
  cases a with
  | chunk c => exact absurd rfl (h c)
  | stop => by_cases e : r = r' <;> simp [lastReceived, received, e]
  | raised x => by_cases e : r = r' <;> simp [lastReceived, received, e]

/-- A delivery adds nothing to the cache. -/
theorem deliver_cache (d : Dist σ C) (r : DReq) (id : Nat) (c : C) (hnd : ∀ g, (d.cache g).keys.Nodup) (g x : Nat)
    (h : (d.cache g).get? x = none) : ((d.deliver r id c).1.cache g).get? x = none := by
  unfold Dist.deliver
  split
  · exact h
  · dsimp only
    split
    · have hpop : ((if g = r.group then (d.cache r.group).pop (id - d.workers) else d.cache g)).get? x = none := by
        split
        · rename_i e
          rw [Dict.get?_pop (hnd _)]
          split
          · rfl
          · rw [← e]; exact h
        · exact h
      split
      · exact hpop
      · exact hpop
    · exact h

/-- A request adds at most its own chunk to the cache. -/
theorem next_cache (S : Source σ ι C) (d : Dist σ C) (r : DReq) (hnd : ∀ g, (d.cache g).keys.Nodup) (g x : Nat)
    (h : (d.cache g).get? x = none) (hx : ¬ (g = r.group ∧ x = d.next r.group r.node r.worker)) :
    ((d.nextChunkFor S r).1.cache g).get? x = none := by
  unfold Dist.nextChunkFor
  split
  · dsimp only
    split
    · exact deliver_cache d r _ _ hnd g x h
    · split
      · apply deliver_cache
        · intro g'; dsimp only; split
          · exact Dict.nodup_keys_upsert (hnd _) _ _
          · exact hnd _
        · dsimp only
          split
          · rename_i e
            rw [Dict.get?_set, if_neg]
            · exact h
            · intro e'; exact hx ⟨e, e'.symm⟩
          · exact h
      · exact h
      · exact h
  · exact h

theorem life_next (S : Source σ ι C) {G N W : Nat} {d : Dist σ C} {s : SDist σ C} {last : DReq → Option C}
    (h : Life G N W d s last) (r : DReq) (hg : r.group < G) (hn : r.node < N) (hw : r.worker < W) :
    Life G N W (d.nextChunkFor S r).1 (s.next S r).1 (lastReceived last [(r, (d.nextChunkFor S r).2)]) := by
  obtain ⟨ha, hrel⟩ := next_rel S h.rel r hg hn hw
  have hcache := next_cache S d r h.rel.cacheNodup
  rw [ha]
  obtain ⟨g0, n0, w0⟩ := r
  dsimp only at hg hn hw
  have hnext := h.rel.next g0 n0 w0
  have hle := h.rel.posLe g0 n0 w0
  -- the cases of the specification
  cases hst : (s.stream g0 w0)[s.pos g0 n0 w0]? with
  | some c =>
    have hlt := (List.getElem?_eq_some_iff.mp hst).1
    have hs : s.next S ⟨g0, n0, w0⟩ = ({ s with pos := upd3 s.pos ⟨g0, n0, w0⟩ (s.pos g0 n0 w0 + 1) }, .chunk c) := by
      unfold SDist.next
      dsimp only
      rw [hst]
    rw [hs] at hrel ⊢
    dsimp only at hrel ⊢
    refine ⟨hrel, ?_, ?_, ?_⟩
    · intro g w hg' hw'
      by_cases e : g = g0 ∧ w = w0
      · obtain ⟨rfl, rfl⟩ := e
        left
        rcases h.top g w hg' hw' with ⟨n, hn', he⟩ | ⟨hall, _⟩
        · refine ⟨n, hn', ?_⟩
          simp only [upd3]
          rw [if_neg]
          · exact he
          · rintro ⟨_, rfl, _⟩; omega
        · refine ⟨n0, hn, ?_⟩
          simp only [upd3, and_self, if_true]
          exact hall n0 hn
      · have hne : ∀ n, ¬ (g = g0 ∧ n = n0 ∧ w = w0) := fun n h => e ⟨h.1, h.2.2⟩
        simp only [upd3, hne, if_false]
        rcases h.top g w hg' hw' with hh | ⟨h1, h2⟩
        · exact Or.inl hh
        · refine Or.inr ⟨h1, fun n hn' => ?_⟩
          rw [lastReceived_chunk, if_neg (by simp only [DReq.mk.injEq]; exact hne n)]
          exact h2 n hn'
    · intro g n w c' hn' hw' hl
      rw [lastReceived_chunk] at hl
      simp only [DReq.mk.injEq] at hl
      simp only [upd3]
      by_cases e : g = g0 ∧ n = n0 ∧ w = w0
      · rw [if_pos e] at hl ⊢
        obtain ⟨rfl, rfl, rfl⟩ := e
        refine ⟨by omega, ?_⟩
        rw [Nat.add_sub_cancel, hst, hl]
      · rw [if_neg e] at hl ⊢
        exact h.lastSome g n w c' hn' hw' hl
    · intro g n w hg' hn' hw' hl hpos
      rw [lastReceived_chunk] at hl
      simp only [DReq.mk.injEq] at hl
      simp only [upd3] at hpos ⊢
      by_cases e : g = g0 ∧ n = n0 ∧ w = w0
      · rw [if_pos e] at hl; simp at hl
      · rw [if_neg e] at hl hpos ⊢
        apply hcache _ _ (h.lastNone g n w hg' hn' hw' hl hpos)
        rintro ⟨rfl, e2⟩
        rw [hnext] at e2
        obtain ⟨rfl, e3⟩ := id_inj hw' hw e2
        rcases h.top g w hg hw with ⟨m, hm, he⟩ | ⟨hall, _⟩
        · have := h.rel.avail g w _ n0 hw hn (Nat.le_refl _) hlt
          rw [← e3] at this
          rw [h.lastNone g n w hg' hn' hw' hl hpos] at this
          obtain ⟨_, hh⟩ := this
          simp at hh
        · have h1 := hall n hn'
          have h2 := hall n0 hn
          omega
  | none =>
    have hge := List.getElem?_eq_none_iff.mp hst
    match hf : S.fetch s.src with
    | (t, .stop) =>
      have hs : s.next S ⟨g0, n0, w0⟩ = ({ s with src := t }, .stop) := by
        unfold SDist.next; dsimp only; rw [hst, hf]
      rw [hs] at hrel ⊢
      rw [lastReceived_other _ _ _ (by simp)]
      refine ⟨hrel, h.top, h.lastSome, ?_⟩
      intro g n w hg' hn' hw' hl hpos
      apply hcache _ _ (h.lastNone g n w hg' hn' hw' hl hpos)
      rintro ⟨rfl, e2⟩
      rw [hnext] at e2
      obtain ⟨rfl, e3⟩ := id_inj hw' hw e2
      have := h.rel.posLe g n w
      dsimp only at hpos
      omega
    | (t, .raised e) =>
      have hs : s.next S ⟨g0, n0, w0⟩ = ({ s with src := t }, .raised e) := by
        unfold SDist.next; dsimp only; rw [hst, hf]
      rw [hs] at hrel ⊢
      rw [lastReceived_other _ _ _ (by simp)]
      refine ⟨hrel, h.top, h.lastSome, ?_⟩
      intro g n w hg' hn' hw' hl hpos
      apply hcache _ _ (h.lastNone g n w hg' hn' hw' hl hpos)
      rintro ⟨rfl, e2⟩
      rw [hnext] at e2
      obtain ⟨rfl, e3⟩ := id_inj hw' hw e2
      have := h.rel.posLe g n w
      dsimp only at hpos
      omega
    | (t, .chunk c) =>
      have hs : s.next S ⟨g0, n0, w0⟩ = (SDist.mk t (upd2 s.stream g0 w0 (s.stream g0 w0 ++ [c]))
          (upd3 s.pos ⟨g0, n0, w0⟩ (s.pos g0 n0 w0 + 1)), .chunk c) := by
        unfold SDist.next; dsimp only; rw [hst, hf]
      have hlen : s.pos g0 n0 w0 = (s.stream g0 w0).length := by omega
      rw [hs] at hrel ⊢
      dsimp only at hrel ⊢
      refine ⟨hrel, ?_, ?_, ?_⟩
      · intro g w hg' hw'
        by_cases e : g = g0 ∧ w = w0
        · obtain ⟨rfl, rfl⟩ := e
          left
          refine ⟨n0, hn, ?_⟩
          simp only [upd3, upd2, and_self, if_true, List.length_append, List.length_cons, List.length_nil]
          omega
        · have hne : ∀ n, ¬ (g = g0 ∧ n = n0 ∧ w = w0) := fun n h => e ⟨h.1, h.2.2⟩
          simp only [upd3, upd2, hne, e, if_false]
          rcases h.top g w hg' hw' with hh | ⟨h1, h2⟩
          · exact Or.inl hh
          · refine Or.inr ⟨h1, fun n hn' => ?_⟩
            rw [lastReceived_chunk, if_neg (by simp only [DReq.mk.injEq]; exact hne n)]
            exact h2 n hn'
      · intro g n w c' hn' hw' hl
        rw [lastReceived_chunk] at hl
        simp only [DReq.mk.injEq] at hl
        simp only [upd3, upd2]
        by_cases e : g = g0 ∧ n = n0 ∧ w = w0
        · rw [if_pos e] at hl ⊢
          obtain ⟨rfl, rfl, rfl⟩ := e
          refine ⟨by omega, ?_⟩
          rw [if_pos ⟨rfl, rfl⟩, Nat.add_sub_cancel, hlen, ← hl]
          simp
        · rw [if_neg e] at hl ⊢
          obtain ⟨h1, h2⟩ := h.lastSome g n w c' hn' hw' hl
          refine ⟨h1, ?_⟩
          split
          · rename_i e2
            obtain ⟨rfl, rfl⟩ := e2
            rw [List.getElem?_append_left (List.getElem?_eq_some_iff.mp h2).1]
            exact h2
          · exact h2
      · intro g n w hg' hn' hw' hl hpos
        rw [lastReceived_chunk] at hl
        simp only [DReq.mk.injEq] at hl
        simp only [upd3] at hpos ⊢
        by_cases e : g = g0 ∧ n = n0 ∧ w = w0
        · rw [if_pos e] at hl; simp at hl
        · rw [if_neg e] at hl hpos ⊢
          apply hcache _ _ (h.lastNone g n w hg' hn' hw' hl hpos)
          rintro ⟨rfl, e2⟩
          rw [hnext] at e2
          obtain ⟨rfl, e3⟩ := id_inj hw' hw e2
          have := h.rel.posLe g n w
          omega

theorem life_run (S : Source σ ι C) {G N W : Nat} (os : List (DOp ι)) (ho : ∀ o ∈ os, o.Valid G N W) {d : Dist σ C}
    {s : SDist σ C} {last : DReq → Option C} (h : Life G N W d s last) :
    Life G N W (d.run S os).1 (s.run S os).1 (lastReceived last (d.run S os).2) := by
  induction os generalizing d s last with
  | nil => rw [Dist.run, SDist.run, lastReceived_nil]; exact h
  | cons o os ih =>
    have ho' : ∀ o ∈ os, o.Valid G N W := fun o h' => ho o (by simp [h'])
    have hv := ho o (by simp)
    rw [Dist.run, SDist.run]
    dsimp only
    match o with
    | .poke i =>
      have h2 : Life G N W { d with src := S.poke i d.src } { s with src := S.poke i s.src } last :=
        ⟨{ h.rel with src := by dsimp only; rw [h.rel.src] }, h.top, h.lastSome, h.lastNone⟩
      have := ih ho' h2
      simpa [Dist.op, SDist.op] using this
    | .ask r =>
      have h2 := life_next S h r hv.1 hv.2.1 hv.2.2
      have := ih ho' h2
      simp only [Dist.op, SDist.op, Option.toList_some]
      rw [lastReceived_append]
      exact this

/-- The specification state after a restore. -/
def rewind (skip : Nat → C → C) (status : Nat → Nat → Option Nat) (G N W : Nat) (src : σ) (s : SDist σ C) : SDist σ C :=
  { src := src
    stream := fun g w => if g < G ∧ w < W ∧ 0 < s.pos g 0 w then
      (s.stream g w).modify (s.pos g 0 w - 1) (skip ((status g w).getD 0)) else s.stream g w
    pos := fun g n w => if g < G ∧ n < N ∧ w < W then s.pos g n w - 1 else s.pos g n w }

theorem aligned_pos {G N W : Nat} {d : Dist σ C} {s : SDist σ C} (h : DRel G N W d s) (ha : d.aligned = true) :
    ∀ g n w, g < G → n < N → w < W → s.pos g n w = s.pos g 0 w := by
  intro g n w hg hn hw
  unfold Dist.aligned at ha
  rw [h.groups, h.nodes, h.workers] at ha
  simp only [List.all_eq_true, List.mem_range, beq_iff_eq] at ha
  have := ha g hg w hw n hn
  rw [h.next, h.next] at this
  exact Nat.eq_of_mul_eq_mul_left h.wpos (by omega)

theorem life_restore {G N W : Nat} {d : Dist σ C} {s : SDist σ C} {last : DReq → Option C}
    (hskip : ∀ k c, skip k (skip k c) = skip k c) (hN : 0 < N)
    (h : Life G N W d s last) (ha : d.aligned = true) {saved : Saved C} (hs : d.persist skip status = .ok saved) (src : σ) :
    Life G N W (saved.restore src) (rewind skip status G N W src s) (fun _ => none) ∧
    ∀ g n w, g < G → n < N → w < W →
      (last ⟨g, n, w⟩ = none ∧ s.pos g n w = 0 ∨
        ∃ c k, last ⟨g, n, w⟩ = some c ∧ status g w = some k ∧ 0 < s.pos g n w ∧
          (s.stream g w).length = s.pos g n w ∧ (s.stream g w)[s.pos g n w - 1]? = some c) := by
  have hal := aligned_pos h.rel ha
  have hinit : AdjInv skip status G N W d (fun g w => s.pos g 0 w) []
      { groups := d.groups, nodes := d.nodes, workers := d.workers, cache := d.cache, usage := d.usage, next := d.next } :=
    ⟨h.rel.groups, h.rel.nodes, h.rel.workers, by simp, h.rel.cacheNodup, h.rel.usageNodup, by simp, by simp, by simp⟩
  unfold Dist.persist at hs
  have hI := adjustAll_inv hskip _ [] _ _ hinit (by
    intro r hr
    rw [h.rel.groups, h.rel.nodes, h.rel.workers, mem_allIds] at hr
    refine ⟨hr.2.2, ?_⟩
    rw [h.rel.next, hal _ _ _ hr.1 hr.2.1 hr.2.2]) (by simpa using nodup_allIds _ _ _) hs
  rw [h.rel.groups, h.rel.nodes, h.rel.workers, List.nil_append] at hI
  have hmem : ∀ g n w, (⟨g, n, w⟩ : DReq) ∈ allIds G N W ↔ g < G ∧ n < N ∧ w < W := fun g n w => mem_allIds G N W ⟨g, n, w⟩
  have hexm : ∀ g w, (∃ n, (⟨g, n, w⟩ : DReq) ∈ allIds G N W) ↔ g < G ∧ w < W := by
    intro g w
    constructor
    · rintro ⟨n, hn⟩; rw [hmem] at hn; exact ⟨hn.1, hn.2.2⟩
    · rintro ⟨hg, hw⟩; exact ⟨0, (hmem g 0 w).mpr ⟨hg, hN, hw⟩⟩
  -- the moved workers
  have hmoved : ∀ g w, g < G → w < W → 0 < s.pos g 0 w → (s.stream g w).length = s.pos g 0 w ∧
      (∃ c, (d.cache g).get? (w + W * (s.pos g 0 w - 1)) = some c) ∧ ∃ k, status g w = some k := by
    intro g w hg hw hp
    obtain ⟨⟨c, hc⟩, hk⟩ := hI.found g 0 w ((hmem g 0 w).mpr ⟨hg, hN, hw⟩) hp
    refine ⟨?_, ⟨c, hc⟩, hk⟩
    rcases h.top g w hg hw with ⟨n, hn, he⟩ | ⟨_, hnone⟩
    · rw [← he, hal g n w hg hn hw]
    · have := h.lastNone g 0 w hg hN hw (hnone 0 hN) hp
      rw [this] at hc
      simp at hc
  have honly : ∀ g w j c, g < G → w < W → (d.cache g).get? (w + W * j) = some c → s.pos g 0 w ≤ j + 1 := by
    intro g w j c hg hw hc
    obtain ⟨n, hn, hb⟩ := h.rel.bound g w j c hw hc
    rw [hal g n w hg hn hw] at hb
    exact hb
  constructor
  · refine ⟨?_, ?_, by simp, ?_⟩
    · refine DRel.mk hI.groups hI.nodes hI.workers h.rel.wpos rfl ?_ ?_ hI.cacheNodup hI.usageNodup ?_ ?_ ?_ ?_
      · intro g n w
        simp only [Saved.restore, rewind]
        rw [hI.next]
        simp only [hmem]
        split
        · rename_i e
          rw [hal g n w e.1 e.2.1 e.2.2]
        · exact h.rel.next g n w
      · intro g n w
        have := h.rel.posLe g n w
        simp only [rewind]
        have hl : (if g < G ∧ w < W ∧ 0 < s.pos g 0 w then (s.stream g w).modify (s.pos g 0 w - 1) (skip ((status g w).getD 0))
            else s.stream g w).length = (s.stream g w).length := by split <;> simp
        rw [hl]
        split <;> omega
      · intro g w j c hw hc
        simp only [Saved.restore] at hc
        rw [hI.cache g w j hw] at hc
        simp only [hexm] at hc
        simp only [rewind]
        by_cases hg : g < G
        · by_cases hp : 0 < s.pos g 0 w
          · rw [if_pos ⟨hg, hw, hp⟩]
            obtain ⟨hlen, ⟨c0, hc0⟩, _⟩ := hmoved g w hg hw hp
            by_cases ej : s.pos g 0 w = j + 1
            · rw [if_pos ⟨⟨hg, hw⟩, ej⟩] at hc
              rw [Option.map_eq_some_iff] at hc
              obtain ⟨c1, hc1, rfl⟩ := hc
              have := h.rel.value g w j c1 hw hc1
              rw [ej, Nat.add_sub_cancel, List.getElem?_modify, this]
              simp
            · rw [if_neg (fun e => ej e.2)] at hc
              have h1 := honly g w j c hg hw hc
              have h2 := (List.getElem?_eq_some_iff.mp (h.rel.value g w j c hw hc)).1
              omega
          · rw [if_neg (fun e => hp e.2.2)]
            rw [if_neg (by omega)] at hc
            exact h.rel.value g w j c hw hc
        · rw [if_neg (fun e => hg e.1.1)] at hc
          rw [if_neg (fun e => hg e.1)]
          exact h.rel.value g w j c hw hc
      · intro g w j n hw hn hp hl
        simp only [rewind] at hp hl
        simp only [Saved.restore]
        rw [hI.cache g w j hw]
        simp only [hexm]
        by_cases hg : g < G
        · rw [if_pos ⟨hg, hn, hw⟩, hal g n w hg hn hw] at hp
          by_cases hp0 : 0 < s.pos g 0 w
          · rw [if_pos ⟨hg, hw, hp0⟩, List.length_modify] at hl
            obtain ⟨hlen, ⟨c0, hc0⟩, _⟩ := hmoved g w hg hw hp0
            have ej : s.pos g 0 w = j + 1 := by omega
            rw [if_pos ⟨⟨hg, hw⟩, ej⟩]
            rw [ej, Nat.add_sub_cancel] at hc0
            rw [hc0]
            exact ⟨_, rfl⟩
          · rw [if_neg (fun e => hp0 e.2.2)] at hl
            rw [if_neg (by omega)]
            exact h.rel.avail g w j n hw hn (by rw [hal g n w hg hn hw]; omega) hl
        · rw [if_neg (fun e => hg e.1)] at hp hl
          rw [if_neg (fun e => hg e.1.1)]
          exact h.rel.avail g w j n hw hn hp hl
      · intro g w j c hw hc
        simp only [Saved.restore] at hc
        rw [hI.cache g w j hw] at hc
        have hc' : ∃ c', (d.cache g).get? (w + W * j) = some c' := by
          split at hc
          · rw [Option.map_eq_some_iff] at hc
            obtain ⟨c1, hc1, _⟩ := hc
            exact ⟨c1, hc1⟩
          · exact ⟨c, hc⟩
        obtain ⟨c', hc'⟩ := hc'
        obtain ⟨n, hn, hb⟩ := h.rel.bound g w j c' hw hc'
        refine ⟨n, hn, ?_⟩
        simp only [rewind]
        split <;> omega
      · intro g w j c hw hc
        simp only [Saved.restore] at hc ⊢
        rw [hI.cache g w j hw] at hc
        rw [hI.usage g w j hw]
        simp only [hexm] at hc ⊢
        by_cases hg : g < G
        · by_cases ej : s.pos g 0 w = j + 1
          · rw [if_pos ⟨⟨hg, hw⟩, ej⟩]
            congr 1
            symm
            unfold readers
            rw [List.countP_eq_zero]
            intro n hn
            rw [List.mem_range] at hn
            simp only [decide_eq_true_eq]
            simp only [rewind]
            rw [if_pos ⟨hg, hn, hw⟩, hal g n w hg hn hw]
            omega
          · rw [if_neg (fun e => ej e.2)] at hc ⊢
            rw [h.rel.usage g w j c hw hc]
            congr 1
            have h1 := honly g w j c hg hw hc
            unfold readers
            apply List.countP_congr
            intro n hn
            rw [List.mem_range] at hn
            simp only [decide_eq_true_eq]
            simp only [rewind]
            rw [if_pos ⟨hg, hn, hw⟩, hal g n w hg hn hw]
            omega
        · rw [if_neg (fun e => hg e.1.1)] at hc ⊢
          rw [h.rel.usage g w j c hw hc]
          congr 1
          unfold readers
          apply List.countP_congr
          intro n hn
          simp only [decide_eq_true_eq]
          simp only [rewind]
          rw [if_neg (fun e => hg e.1)]
    · intro g w hg hw
      by_cases hp : 0 < s.pos g 0 w
      · right
        refine ⟨fun n hn => ?_, by simp⟩
        simp only [rewind]
        rw [if_pos ⟨hg, hn, hw⟩, if_pos ⟨hg, hw, hp⟩, List.length_modify, (hmoved g w hg hw hp).1, hal g n w hg hn hw]
        omega
      · simp only [rewind]
        simp only [hp, and_false, if_false]
        rcases h.top g w hg hw with ⟨n, hn, he⟩ | ⟨hall, _⟩
        · left
          refine ⟨n, hn, ?_⟩
          rw [if_pos ⟨hg, hn, hw⟩, ← he, hal g n w hg hn hw]
          omega
        · right
          refine ⟨fun n hn => ?_, by simp⟩
          rw [if_pos ⟨hg, hn, hw⟩, ← hall n hn, hal g n w hg hn hw]
          omega
    · intro g n w hg hn hw _ hpos
      simp only [rewind] at hpos ⊢
      rw [if_pos ⟨hg, hn, hw⟩, hal g n w hg hn hw] at hpos ⊢
      simp only [Saved.restore]
      rw [hI.cache g w _ hw]
      simp only [hexm]
      rw [if_neg (by omega)]
      cases hc : (d.cache g).get? (w + W * (s.pos g 0 w - 1 - 1)) with
      | none => rfl
      | some c =>
        have := honly g w _ c hg hw hc
        omega
  · intro g n w hg hn hw
    by_cases hp : 0 < s.pos g 0 w
    · right
      obtain ⟨hlen, ⟨c0, hc0⟩, k, hk⟩ := hmoved g w hg hw hp
      rw [hal g n w hg hn hw]
      cases hl : last ⟨g, n, w⟩ with
      | none =>
        have := h.lastNone g n w hg hn hw hl (by rw [hal g n w hg hn hw]; exact hp)
        rw [hal g n w hg hn hw, hc0] at this
        simp at this
      | some c =>
        have := (h.lastSome g n w c hn hw hl).2
        rw [hal g n w hg hn hw] at this
        exact ⟨c, k, rfl, hk, hp, hlen, this⟩
    · left
      rw [hal g n w hg hn hw]
      refine ⟨?_, by omega⟩
      cases hl : last ⟨g, n, w⟩ with
      | none => rfl
      | some c =>
        have := (h.lastSome g n w c hn hw hl).1
        rw [hal g n w hg hn hw] at this
        omega


theorem reached_life (S : Source σ ι C) (skip : Nat → C → C) (hskip : ∀ k c, skip k (skip k c) = skip k c) {G N W : Nat} (hN : 0 < N)
    {d : Dist σ C} {last : DReq → Option C} (h : Reached S skip G N W d last) : ∃ s, Life G N W d s last := by
  induction h with
  | init src d workers hW h =>
    subst hW
    refine ⟨SDist.init src, init_rel G N workers src h, ?_, by simp, ?_⟩
    · intro g w _ _; exact Or.inl ⟨0, hN, rfl⟩
    · intro g n w _ _ _ _ hp; simp [SDist.init] at hp
  | ops d last _ os ho ih =>
    obtain ⟨s, hs⟩ := ih
    exact ⟨_, life_run S os ho hs⟩
  | restore d last _ ha status saved hs src ih =>
    obtain ⟨s, h⟩ := ih
    exact ⟨_, (life_restore hskip hN h ha hs src).1⟩

/-! ### The resumed run -/

structure Sim (S : Source σ ι C) (G N W : Nat) (base : Nat → Nat → Nat) (again : DReq → Option C) (s1 s2 : SDist σ C) : Prop where
  src : SrcEq S s1.src s2.src
  len : ∀ g w, (s1.stream g w).length = (s2.stream g w).length
  same : ∀ g w j, base g w ≤ j → (s1.stream g w)[j]? = (s2.stream g w)[j]?
  base : ∀ g n w, g < G → n < N → w < W → base g w ≤ s1.pos g n w
  repeated : ∀ g n w c, g < G → n < N → w < W → again ⟨g, n, w⟩ = some c →
    s1.pos g n w = s2.pos g n w + 1 ∧ (s2.stream g w)[s2.pos g n w]? = some c
  level : ∀ g n w, g < G → n < N → w < W → again ⟨g, n, w⟩ = none → s1.pos g n w = s2.pos g n w

theorem upd3_self {α : Type} (f : Nat → Nat → Nat → α) (g n w : Nat) (x : α) : upd3 f ⟨g, n, w⟩ x g n w = x := by
  simp [upd3]

theorem resumed_sim (S : Source σ ι C) {G N W : Nat} {base : Nat → Nat → Nat} (os : List (DOp ι))
    (ho : ∀ o ∈ os, o.Valid G N W) : ∀ (d : Dist σ C) (again : DReq → Option C) (s1 s2 : SDist σ C), DRel G N W d s1 →
    Sim S G N W base again s1 s2 → (s2.run S os).2 = resumed S d again os := by
  induction os with
  | nil => intro d again s1 s2 _ _; rw [SDist.run, resumed]
  | cons o os ih =>
    intro d again s1 s2 hd h
    have ho' : ∀ o ∈ os, o.Valid G N W := fun o h' => ho o (by simp [h'])
    have hv := ho o (by simp)
    rw [SDist.run]
    dsimp only
    match o with
    | .poke i =>
      rw [resumed]
      have h2 : DRel G N W { d with src := S.poke i d.src } { s1 with src := S.poke i s1.src } :=
        { hd with src := by dsimp only; rw [hd.src] }
      have h3 : Sim S G N W base again { s1 with src := S.poke i s1.src } { s2 with src := S.poke i s2.src } :=
        ⟨h.src.poke i, h.len, h.same, h.base, h.repeated, h.level⟩
      have := ih ho' _ again _ _ h2 h3
      simpa [SDist.op, Dist.op] using this
    | .ask ⟨g0, n0, w0⟩ =>
      obtain ⟨hg, hn, hw⟩ := hv
      dsimp only at hg hn hw
      rw [resumed]
      simp only [SDist.op, Option.toList_some, List.singleton_append]
      cases hag : again ⟨g0, n0, w0⟩ with
      | some c =>
        obtain ⟨hp, hc⟩ := h.repeated g0 n0 w0 c hg hn hw hag
        have hs : s2.next S ⟨g0, n0, w0⟩ = ({ s2 with pos := upd3 s2.pos ⟨g0, n0, w0⟩ (s2.pos g0 n0 w0 + 1) }, .chunk c) := by
          unfold SDist.next; dsimp only; rw [hc]
        rw [hs]
        dsimp only
        congr 1
        refine ih ho' d _ s1 _ hd ⟨h.src, h.len, h.same, h.base, ?_, ?_⟩
        · intro g n w c' hg' hn' hw' hcc
          dsimp only at hcc ⊢
          by_cases e : (⟨g, n, w⟩ : DReq) = ⟨g0, n0, w0⟩
          · rw [if_pos e] at hcc; simp at hcc
          · rw [if_neg e] at hcc
            simp only [upd3]
            rw [if_neg (by simpa using e)]
            exact h.repeated g n w c' hg' hn' hw' hcc
        · intro g n w hg' hn' hw' hcc
          dsimp only at hcc ⊢
          simp only [upd3]
          by_cases e : (⟨g, n, w⟩ : DReq) = ⟨g0, n0, w0⟩
          · simp only [DReq.mk.injEq] at e
            obtain ⟨rfl, rfl, rfl⟩ := e
            rw [if_pos ⟨rfl, rfl, rfl⟩]
            exact hp
          · rw [if_neg e] at hcc
            rw [if_neg (by simpa using e)]
            exact h.level g n w hg' hn' hw' hcc
      | none =>
        have hp := h.level g0 n0 w0 hg hn hw hag
        have hb := h.base g0 n0 w0 hg hn hw
        have hstr := h.same g0 w0 _ hb
        obtain ⟨hans, hrel⟩ := next_rel S hd ⟨g0, n0, w0⟩ hg hn hw
        dsimp only
        rw [hans]
        suffices H : (s2.next S ⟨g0, n0, w0⟩).2 = (s1.next S ⟨g0, n0, w0⟩).2 ∧
            Sim S G N W base again (s1.next S ⟨g0, n0, w0⟩).1 (s2.next S ⟨g0, n0, w0⟩).1 by
          rw [H.1, ih ho' _ again _ _ hrel H.2]
        obtain ⟨hf1, hf2⟩ := h.src.fetch
        have hother : ∀ {p1 p2 : Nat → Nat → Nat → Nat}, p1 = upd3 s1.pos ⟨g0, n0, w0⟩ (s1.pos g0 n0 w0 + 1) →
            p2 = upd3 s2.pos ⟨g0, n0, w0⟩ (s2.pos g0 n0 w0 + 1) →
            (∀ g n w, g < G → n < N → w < W → base g w ≤ p1 g n w) ∧
            (∀ g n w c, g < G → n < N → w < W → again ⟨g, n, w⟩ = some c → p1 g n w = p2 g n w + 1 ∧ p2 g n w = s2.pos g n w) ∧
            (∀ g n w, g < G → n < N → w < W → again ⟨g, n, w⟩ = none → p1 g n w = p2 g n w) := by
          rintro p1 p2 rfl rfl
          refine ⟨?_, ?_, ?_⟩
          · intro g n w hg' hn' hw'
            have := h.base g n w hg' hn' hw'
            simp only [upd3]
            split
            · rename_i e; obtain ⟨rfl, rfl, rfl⟩ := e; omega
            · exact this
          · intro g n w c hg' hn' hw' hcc
            have := (h.repeated g n w c hg' hn' hw' hcc).1
            simp only [upd3]
            split
            · rename_i e; obtain ⟨rfl, rfl, rfl⟩ := e; rw [hag] at hcc; simp at hcc
            · exact ⟨this, rfl⟩
          · intro g n w hg' hn' hw' hcc
            have := h.level g n w hg' hn' hw' hcc
            simp only [upd3]
            split
            · rw [hp]
            · exact this
        unfold SDist.next
        dsimp only
        rw [← hp, ← hstr]
        cases hst : (s1.stream g0 w0)[s1.pos g0 n0 w0]? with
        | some c =>
          dsimp only
          obtain ⟨a1, a2, a3⟩ := hother rfl rfl
          rw [← hp] at a2 a3
          refine ⟨rfl, h.src, h.len, h.same, a1, ?_, a3⟩
          intro g n w c hg' hn' hw' hcc
          obtain ⟨b1, b2⟩ := a2 g n w c hg' hn' hw' hcc
          refine ⟨b1, ?_⟩
          dsimp only
          rw [b2]
          exact (h.repeated g n w c hg' hn' hw' hcc).2
        | none =>
          dsimp only
          rcases h1 : S.fetch s1.src with ⟨t1, f1⟩
          rcases h2 : S.fetch s2.src with ⟨t2, f2⟩
          rw [h1, h2] at hf1 hf2
          dsimp only at hf1 hf2
          subst hf1
          cases f1 with
          | stop => exact ⟨rfl, hf2, h.len, h.same, h.base, h.repeated, h.level⟩
          | raised e => exact ⟨rfl, hf2, h.len, h.same, h.base, h.repeated, h.level⟩
          | chunk c =>
            dsimp only
            obtain ⟨a1, a2, a3⟩ := hother rfl rfl
            rw [← hp] at a2 a3
            refine ⟨rfl, hf2, ?_, ?_, a1, ?_, a3⟩
            · intro g w
              simp only [upd2]
              split
              · simp [h.len]
              · exact h.len g w
            · intro g w j hj
              simp only [upd2]
              split
              · rename_i e
                obtain ⟨rfl, rfl⟩ := e
                rw [List.getElem?_append, List.getElem?_append, h.len, h.same g w j hj]
              · exact h.same g w j hj
            · intro g n w c' hg' hn' hw' hcc
              obtain ⟨b1, b2⟩ := a2 g n w c' hg' hn' hw' hcc
              have h3 := (h.repeated g n w c' hg' hn' hw' hcc).2
              refine ⟨b1, ?_⟩
              dsimp only
              rw [b2]
              simp only [upd2]
              split
              · rename_i e
                obtain ⟨rfl, rfl⟩ := e
                rw [List.getElem?_append_left (List.getElem?_eq_some_iff.mp h3).1]
                exact h3
              · exact h3

/-- C20. For every distributor that can exist - after any requests, any operations on the query result and any
number of earlier restarts - in a state in which a checkpoint is allowed: the distributor restored from the
checkpoint answers every later sequence of requests as follows. Each worker of each node first gets again the last
chunk it had received, with the reported number of samples marked to be skipped; all other requests are answered
as the uninterrupted distributor answers them. The query result must continue as the original one (C13). -/
theorem c20_resume (S : Source σ ι C) (skip : Nat → C → C) (hskip : ∀ k c, skip k (skip k c) = skip k c)
    (groups nodes workers : Nat) (hN : 0 < nodes) (d : Dist σ C) (last : DReq → Option C)
    (hd : Reached S skip groups nodes workers d last) (ha : d.aligned = true) (status : Nat → Nat → Option Nat)
    (saved : Saved C) (hs : d.persist skip status = .ok saved) (src : σ) (hsrc : SrcEq S d.src src)
    (later : List (DOp ι)) (hl : ∀ o ∈ later, o.Valid groups nodes workers) :
    ((saved.restore src).run S later).2 =
      resumed S d (fun r => (last r).map (skip ((status r.group r.worker).getD 0))) later := by
  obtain ⟨s, hlife⟩ := reached_life S skip hskip hN hd
  obtain ⟨hrest, hlast⟩ := life_restore hskip hN hlife ha hs src
  have hal := aligned_pos hlife.rel ha
  rw [(run_rel S later hl hrest.rel).1]
  refine resumed_sim S (base := fun g w => if g < groups ∧ w < workers then s.pos g 0 w else (s.stream g w).length) later hl d _ s _
    hlife.rel ⟨?_, ?_, ?_, ?_, ?_, ?_⟩
  · simp only [rewind]; rw [← hlife.rel.src]; exact hsrc
  · intro g w; simp only [rewind]; split <;> simp
  · intro g w j hj
    simp only [rewind]
    split
    · rename_i e
      rw [if_pos ⟨e.1, e.2.1⟩] at hj
      rw [List.getElem?_modify]
      have : s.pos g 0 w - 1 ≠ j := by omega
      simp [this]
    · rfl
  · intro g n w hg hn hw
    rw [if_pos ⟨hg, hw⟩, hal g n w hg hn hw]
  · intro g n w c hg hn hw hc
    rw [Option.map_eq_some_iff] at hc
    obtain ⟨c0, hc0, rfl⟩ := hc
    rcases hlast g n w hg hn hw with ⟨h1, _⟩ | ⟨c1, k, h1, h2, h3, h4, h5⟩
    · rw [h1] at hc0; simp at hc0
    · rw [h1] at hc0
      simp only [Option.some.injEq] at hc0
      subst hc0
      simp only [rewind]
      rw [if_pos ⟨hg, hn, hw⟩]
      refine ⟨by omega, ?_⟩
      have h0 := hal g n w hg hn hw
      rw [if_pos ⟨hg, hw, by omega⟩, ← h0, List.getElem?_modify, h5]
      simp
  · intro g n w hg hn hw hc
    rw [Option.map_eq_none_iff] at hc
    rcases hlast g n w hg hn hw with ⟨_, h2⟩ | ⟨c1, k, h1, _⟩
    · simp only [rewind]
      rw [if_pos ⟨hg, hn, hw⟩, h2]
    · rw [h1] at hc; simp at hc

/-- C20 (the number of samples skipped) is the largest number that any node of the group reported for that worker. -/
theorem c20_skip_is_largest_report (statuses : Dict (Nat × Nat) (List Nat)) (g w k : Nat) :
    maxStatus statuses g w = some k ↔
      (∃ n l, ((g, n), l) ∈ statuses ∧ l[w]? = some k) ∧ ∀ n l x, ((g, n), l) ∈ statuses → l[w]? = some x → x ≤ k := by
  unfold maxStatus
  rw [List.max?_eq_some_iff]
  simp only [List.mem_filterMap]
  constructor
  · rintro ⟨⟨⟨⟨g', n⟩, l⟩, hm, hx⟩, hall⟩
    dsimp only at hx
    split at hx
    · rename_i e; subst e
      refine ⟨⟨n, l, hm, hx⟩, ?_⟩
      intro n' l' x hm' hx'
      exact hall x ⟨((g', n'), l'), hm', by simpa using hx'⟩
    · simp at hx
  · rintro ⟨⟨n, l, hm, hx⟩, hall⟩
    refine ⟨⟨((g, n), l), hm, by simpa using hx⟩, ?_⟩
    rintro x ⟨⟨⟨g', n'⟩, l'⟩, hm', hx'⟩
    dsimp only at hx'
    split at hx'
    · rename_i e; subst e
      exact hall n' l' x hm' hx'
    · simp at hx'


/-! ### When a checkpoint can be written -/

/-- A delivery removes at most the predecessor of the delivered chunk, and only if all nodes have read the latter. -/
theorem deliver_keeps {N W : Nat} {d : Dist σ C} (hN : d.nodes = N) (hW : d.workers = W) (hnd : ∀ g, (d.cache g).keys.Nodup)
    (r : DReq) (id : Nat) {u : Nat} (c : C) (hu : (d.usage r.group).get? id = some u) (g x : Nat) (c' : C)
    (h : (d.cache g).get? x = some c') (hx : ¬ (g = r.group ∧ x = id - W ∧ W ≤ id ∧ N ≤ u + 1)) :
    ((d.deliver r id c).1.cache g).get? x = some c' := by
  unfold Dist.deliver
  rw [hu]
  dsimp only
  rw [hN, hW]
  split
  · rename_i hc
    have hpop : ((if g = r.group then (d.cache r.group).pop (id - W) else d.cache g)).get? x = some c' := by
      split
      · rename_i e
        rw [Dict.get?_pop (hnd _), if_neg]
        · rw [← e]; exact h
        · intro e'; exact hx ⟨e, e'.symm, hc.2.1, hc.1⟩
      · exact h
    split
    · exact hpop
    · exact hpop
  · exact h

theorem next_keeps (S : Source σ ι C) {G N W : Nat} {d : Dist σ C} {s : SDist σ C} (h : DRel G N W d s) (r : DReq)
    (hn : r.node < N) (hw : r.worker < W) (g w j : Nat) (c' : C) (hw' : w < W)
    (hc : (d.cache g).get? (w + W * j) = some c')
    (hx : g = r.group → w = r.worker → j + 1 = s.pos r.group r.node r.worker →
      ∃ n < N, upd3 s.pos r (s.pos r.group r.node r.worker + 1) r.group n r.worker ≤ s.pos r.group r.node r.worker) :
    ((d.nextChunkFor S r).1.cache g).get? (w + W * j) = some c' := by
  generalize hk : s.pos r.group r.node r.worker = k at hx
  have hid : d.next r.group r.node r.worker = r.worker + W * k := by rw [h.next, hk]
  have hrs := readers_same (N := N) hk hn
  have hnot : ∀ u, u = readers N s.pos r.group r.worker k →
      ¬ (g = r.group ∧ w + W * j = r.worker + W * k - W ∧ W ≤ r.worker + W * k ∧ N ≤ u + 1) := by
    rintro u rfl ⟨e1, e2, e3, e4⟩
    have hk1 : 1 ≤ k := by
      rcases Nat.eq_zero_or_pos k with e | e
      · subst e; simp at e3; omega
      · exact e
    obtain ⟨m, rfl⟩ : ∃ m, k = m + 1 := ⟨k - 1, by omega⟩
    have e5 : w + W * j = r.worker + W * m := by
      rw [e2, Nat.mul_add]; omega
    obtain ⟨e6, e7⟩ := id_inj hw' hw e5
    obtain ⟨n, hn', hle⟩ := hx e1 e6 (by omega)
    rw [← hrs] at e4
    have := readers_all e4 n hn'
    omega
  unfold Dist.nextChunkFor
  split
  · dsimp only
    rw [hid]
    cases hcc : (d.cache r.group).get? (r.worker + W * k) with
    | some c =>
      dsimp only
      have hu := h.usage r.group r.worker k c hw hcc
      exact deliver_keeps h.nodes h.workers h.cacheNodup r _ c hu g _ c' hc (hnot _ rfl)
    | none =>
      dsimp only
      have hlen : (s.stream r.group r.worker).length ≤ k := by
        by_contra hlt
        obtain ⟨c, h1⟩ := h.avail r.group r.worker k r.node hw hn (by omega) (by omega)
        rw [hcc] at h1; simp at h1
      have hz : readers N s.pos r.group r.worker k = 0 := by
        unfold readers
        rw [List.countP_eq_zero]
        intro n _
        have := h.posLe r.group n r.worker
        simp only [decide_eq_true_eq]
        omega
      split
      · rename_i t c _
        refine deliver_keeps (N := N) (W := W) (u := 0) ?_ ?_ ?_ r _ c ?_ g _ c' ?_ (hnot _ hz.symm)
        · exact h.nodes
        · exact h.workers
        · intro g'; dsimp only; split
          · exact Dict.nodup_keys_upsert (h.cacheNodup _) _ _
          · exact h.cacheNodup _
        · dsimp only
          rw [if_pos rfl, Dict.get?_set, if_pos rfl]
        · dsimp only
          split
          · rename_i e
            subst e
            rw [Dict.get?_set, if_neg]
            · exact hc
            · intro e'; rw [← e', hcc] at hc; simp at hc
          · exact hc
      · exact hc
      · exact hc
  · exact hc

/-- The last chunk a worker received is still in the cache. -/
def Held (G N W : Nat) (d : Dist σ C) (s : SDist σ C) (last : DReq → Option C) : Prop :=
  ∀ g n w c, g < G → n < N → w < W → last ⟨g, n, w⟩ = some c →
    ∃ c', (d.cache g).get? (w + W * (s.pos g n w - 1)) = some c'

theorem spec_next_pos (S : Source σ ι C) (s : SDist σ C) (r : DReq) :
    (s.next S r).1.pos = (match (s.next S r).2 with | .chunk _ => upd3 s.pos r (s.pos r.group r.node r.worker + 1) | _ => s.pos) := by
  unfold SDist.next
  dsimp only
  split
  · rfl
  · split <;> rfl

theorem deliver_holds {N W : Nat} {d : Dist σ C} (hN : d.nodes = N) (hW : d.workers = W) (hWp : 0 < W)
    (hnd : ∀ g, (d.cache g).keys.Nodup) (r : DReq) (id : Nat) {u : Nat} (c : C) (hu : (d.usage r.group).get? id = some u)
    (h : (d.cache r.group).get? id = some c) : ((d.deliver r id c).1.cache r.group).get? id = some c := by
  apply deliver_keeps hN hW hnd r id c hu _ _ _ h
  rintro ⟨_, e, e2, _⟩
  omega

theorem next_holds (S : Source σ ι C) {G N W : Nat} {d : Dist σ C} {s : SDist σ C} (h : DRel G N W d s) (r : DReq)
    (hn : r.node < N) (hw : r.worker < W) (c : C) (ha : (d.nextChunkFor S r).2 = .chunk c) :
    ∃ c', ((d.nextChunkFor S r).1.cache r.group).get? (d.next r.group r.node r.worker) = some c' := by
  have hid := h.next r.group r.node r.worker
  unfold Dist.nextChunkFor at ha ⊢
  split at ha
  · rename_i hv
    rw [if_pos hv]
    dsimp only at ha ⊢
    rw [hid] at ha ⊢
    cases hcc : (d.cache r.group).get? (r.worker + W * s.pos r.group r.node r.worker) with
    | some c0 =>
      dsimp only
      have hu := h.usage r.group r.worker _ c0 hw hcc
      exact ⟨c0, deliver_holds h.nodes h.workers h.wpos h.cacheNodup r _ c0 hu hcc⟩
    | none =>
      rw [hcc] at ha
      dsimp only at ha ⊢
      rcases hf : S.fetch d.src with ⟨t, f⟩
      rw [hf] at ha
      cases f with
      | stop => simp at ha
      | raised e => simp at ha
      | chunk c0 =>
        dsimp only
        refine ⟨c0, ?_⟩
        refine deliver_holds (N := N) (W := W) (u := 0) ?_ ?_ h.wpos ?_ r _ c0 ?_ ?_
        · exact h.nodes
        · exact h.workers
        · intro g'; dsimp only; split
          · exact Dict.nodup_keys_upsert (h.cacheNodup _) _ _
          · exact h.cacheNodup _
        · dsimp only
          rw [if_pos rfl, Dict.get?_set, if_pos rfl]
        · dsimp only
          rw [if_pos rfl, Dict.get?_set, if_pos rfl]
  · simp at ha

theorem next_no_chunk_cache (S : Source σ ι C) {G N W : Nat} {d : Dist σ C} {s : SDist σ C} (h : DRel G N W d s) (r : DReq)
    (hn : r.node < N) (hw : r.worker < W) (ha : ∀ c, (s.next S r).2 ≠ .chunk c) : (d.nextChunkFor S r).1.cache = d.cache := by
  unfold Dist.nextChunkFor
  split
  · dsimp only
    rw [h.next]
    have hst : (s.stream r.group r.worker)[s.pos r.group r.node r.worker]? = none := by
      cases hst : (s.stream r.group r.worker)[s.pos r.group r.node r.worker]? with
      | none => rfl
      | some c =>
        refine absurd ?_ (ha c)
        unfold SDist.next; dsimp only; rw [hst]
    cases hcc : (d.cache r.group).get? (r.worker + W * s.pos r.group r.node r.worker) with
    | some c0 => have := h.value _ _ _ _ hw hcc; rw [hst] at this; simp at this
    | none =>
      dsimp only
      rcases hf : S.fetch d.src with ⟨t, f⟩
      cases f with
      | stop => rfl
      | raised e => rfl
      | chunk c0 =>
        refine absurd ?_ (ha c0)
        unfold SDist.next; dsimp only; rw [hst, ← h.src, hf]
  · rfl

theorem held_next (S : Source σ ι C) {G N W : Nat} {d : Dist σ C} {s : SDist σ C} {last : DReq → Option C}
    (h : Life G N W d s last) (hh : Held G N W d s last) (r : DReq) (hg : r.group < G) (hn : r.node < N) (hw : r.worker < W) :
    Held G N W (d.nextChunkFor S r).1 (s.next S r).1 (lastReceived last [(r, (d.nextChunkFor S r).2)]) := by
  obtain ⟨ha, hrel⟩ := next_rel S h.rel r hg hn hw
  have hpos := spec_next_pos S s r
  have hsome := (life_next S h r hg hn hw).lastSome
  rw [ha] at hsome ⊢
  intro g n w c hg' hn' hw' hl
  obtain ⟨hp0, hstr⟩ := hsome g n w c hn' hw' hl
  -- is it the requesting worker?
  by_cases e : (⟨g, n, w⟩ : DReq) = r ∧ ∃ c0, (s.next S r).2 = .chunk c0
  · obtain ⟨e, c0, hc0⟩ := e
    subst e
    rw [hc0] at hpos
    rw [hpos]
    dsimp only
    rw [upd3_self, Nat.add_sub_cancel]
    have := next_holds S h.rel ⟨g, n, w⟩ hn hw c0 (ha.trans hc0)
    rwa [h.rel.next] at this
  · by_cases hch : ∃ c0, (s.next S r).2 = .chunk c0
    · obtain ⟨c0, hans⟩ := hch
      have hne : (⟨g, n, w⟩ : DReq) ≠ r := fun e' => e ⟨e', c0, hans⟩
      have hne' : ¬ (g = r.group ∧ n = r.node ∧ w = r.worker) := by
        rintro ⟨e1, e2, e3⟩
        exact hne (by cases r; simp_all)
      rw [hans] at hl hpos
      rw [lastReceived_chunk, if_neg hne] at hl
      have hp1 : (s.next S r).1.pos g n w = s.pos g n w := by
        rw [hpos]
        simp only [upd3]
        rw [if_neg hne']
      obtain ⟨c', hc'⟩ := hh g n w c hg' hn' hw' hl
      have hp2 := (h.lastSome g n w c hn' hw' hl).1
      rw [hp1]
      refine ⟨c', next_keeps S h.rel r hn hw g w _ c' hw' hc' ?_⟩
      intro e1 e2 e3
      refine ⟨n, hn', ?_⟩
      subst e1; subst e2
      rw [upd3, if_neg hne']
      omega
    · push Not at hch
      rw [next_no_chunk_cache S h.rel r hn hw hch]
      rw [lastReceived_other _ _ _ hch] at hl
      have hp1 : (s.next S r).1.pos = s.pos := by
        rw [hpos]
        cases hans : (s.next S r).2 with
        | chunk c0 => exact absurd hans (hch c0)
        | stop => rfl
        | raised x => rfl
      rw [hp1]
      exact hh g n w c hg' hn' hw' hl

theorem held_run (S : Source σ ι C) {G N W : Nat} (os : List (DOp ι)) (ho : ∀ o ∈ os, o.Valid G N W) {d : Dist σ C}
    {s : SDist σ C} {last : DReq → Option C} (h : Life G N W d s last) (hh : Held G N W d s last) :
    Held G N W (d.run S os).1 (s.run S os).1 (lastReceived last (d.run S os).2) := by
  induction os generalizing d s last with
  | nil => rw [Dist.run, SDist.run, lastReceived_nil]; exact hh
  | cons o os ih =>
    have ho' : ∀ o ∈ os, o.Valid G N W := fun o h' => ho o (by simp [h'])
    have hv := ho o (by simp)
    rw [Dist.run, SDist.run]
    dsimp only
    match o with
    | .poke i =>
      have h2 : Life G N W { d with src := S.poke i d.src } { s with src := S.poke i s.src } last :=
        ⟨{ h.rel with src := by dsimp only; rw [h.rel.src] }, h.top, h.lastSome, h.lastNone⟩
      have := ih ho' h2 hh
      simpa [Dist.op, SDist.op] using this
    | .ask r =>
      have h2 := life_next S h r hv.1 hv.2.1 hv.2.2
      have := ih ho' h2 (held_next S h hh r hv.1 hv.2.1 hv.2.2)
      simp only [Dist.op, SDist.op, Option.toList_some]
      rw [lastReceived_append]
      exact this

theorem reached_held (S : Source σ ι C) (skip : Nat → C → C) (hskip : ∀ k c, skip k (skip k c) = skip k c) {G N W : Nat} (hN : 0 < N)
    {d : Dist σ C} {last : DReq → Option C} (h : Reached S skip G N W d last) :
    ∃ s, Life G N W d s last ∧ Held G N W d s last := by
  induction h with
  | init src d workers hW h =>
    subst hW
    refine ⟨SDist.init src, ⟨init_rel G N workers src h, ?_, by simp, ?_⟩, by simp [Held]⟩
    · intro g w _ _; exact Or.inl ⟨0, hN, rfl⟩
    · intro g n w _ _ _ _ hp; simp [SDist.init] at hp
  | ops d last _ os ho ih =>
    obtain ⟨s, hs, hh⟩ := ih
    exact ⟨_, life_run S os ho hs, held_run S os ho hs hh⟩
  | restore d last _ ha status saved hs src ih =>
    obtain ⟨s, h, _⟩ := ih
    exact ⟨_, (life_restore hskip hN h ha hs src).1, by simp [Held]⟩

theorem adjustAll_ok {G N W : Nat} {d : Dist σ C} {p : Nat → Nat → Nat} (hskip : ∀ k c, skip k (skip k c) = skip k c)
    (rs : List DReq) : ∀ (done : List DReq) (t : Saved C), AdjInv skip status G N W d p done t →
    (∀ r ∈ rs, r.worker < W ∧ d.next r.group r.node r.worker = r.worker + W * p r.group r.worker ∧
      (0 < p r.group r.worker → (∃ c, (d.cache r.group).get? (r.worker + W * (p r.group r.worker - 1)) = some c) ∧
        ∃ k, status r.group r.worker = some k)) →
    (done ++ rs).Nodup → ∃ t', Saved.adjustAll skip status rs t = .ok t' := by
  induction rs with
  | nil => intro done t h _ _; exact ⟨t, rfl⟩
  | cons r rs ih =>
    intro done t h hv hnd
    rw [Saved.adjustAll]
    have hr : r ∉ done := by
      intro hm
      exact (List.nodup_append.mp hnd).2.2 r hm r (by simp) rfl
    obtain ⟨h1, h2, h3⟩ := hv r (by simp)
    have hok : ∃ t1, t.adjust skip status r = .ok t1 := by
      obtain ⟨rg, rn, rw'⟩ := r
      dsimp only at h1 h2 h3
      unfold Saved.adjust
      dsimp only
      rw [h.next, if_neg hr, h2, h.workers]
      split
      · rename_i hge
        have hp : 0 < p rg rw' := by
          rcases Nat.eq_zero_or_pos (p rg rw') with e | e
          · rw [e] at hge; simp at hge; omega
          · exact e
        obtain ⟨⟨c, hc⟩, k, hk⟩ := h3 hp
        obtain ⟨q, hq⟩ : ∃ q, p rg rw' = q + 1 := ⟨p rg rw' - 1, by omega⟩
        have hid : rw' + W * p rg rw' - W = rw' + W * q := by rw [hq, Nat.mul_add]; omega
        rw [hq, Nat.add_sub_cancel] at hc
        rw [hid, h.cache rg rw' q h1, hc, hk]
        split
        · exact ⟨_, rfl⟩
        · rename_i hno
          exfalso
          by_cases hcond : (∃ n, (⟨rg, n, rw'⟩ : DReq) ∈ done) ∧ p rg rw' = q + 1
          · exact hno (skip k c) k (by rw [if_pos hcond]; rfl) rfl
          · exact hno c k (by rw [if_neg hcond]) rfl
      · exact ⟨_, rfl⟩
    obtain ⟨t1, ht1⟩ := hok
    rw [ht1]
    have hI := adjust_inv hskip h r h1 hr h2 ht1
    exact ih (done ++ [r]) t1 hI (fun r h => hv r (by simp [h])) (by simpa using hnd)

/-- C20 (checkpoints can be written). If all nodes of a group are at the same chunk and report all their workers,
the checkpoint is written - provided that every worker has received a chunk since the last restart, or has not
started at all. -/
theorem c20_checkpoint_succeeds (S : Source σ ι C) (skip : Nat → C → C) (hskip : ∀ k c, skip k (skip k c) = skip k c)
    (groups nodes workers : Nat) (hN : 0 < nodes) (d : Dist σ C) (last : DReq → Option C)
    (hd : Reached S skip groups nodes workers d last) (ha : d.aligned = true) (status : Nat → Nat → Option Nat)
    (hst : ∀ g w, g < groups → w < workers → ∃ k, status g w = some k)
    (hlast : ∀ r : DReq, r.group < groups → r.node < nodes → r.worker < workers →
      (last r).isSome ∨ d.next r.group r.node r.worker = r.worker) : ∃ saved, d.persist skip status = .ok saved := by
  obtain ⟨s, h, hh⟩ := reached_held S skip hskip hN hd
  have hal := aligned_pos h.rel ha
  have hinit : AdjInv skip status groups nodes workers d (fun g w => s.pos g 0 w) []
      { groups := d.groups, nodes := d.nodes, workers := d.workers, cache := d.cache, usage := d.usage, next := d.next } :=
    ⟨h.rel.groups, h.rel.nodes, h.rel.workers, by simp, h.rel.cacheNodup, h.rel.usageNodup, by simp, by simp, by simp⟩
  unfold Dist.persist
  refine adjustAll_ok hskip _ [] _ hinit ?_ (by simpa using nodup_allIds _ _ _)
  intro r hr
  rw [h.rel.groups, h.rel.nodes, h.rel.workers, mem_allIds] at hr
  obtain ⟨g, n, w⟩ := r
  obtain ⟨hg, hn, hw⟩ := hr
  dsimp only at hg hn hw ⊢
  refine ⟨hw, by rw [h.rel.next, hal _ _ _ hg hn hw], fun hp => ⟨?_, hst g w hg hw⟩⟩
  rw [← hal g n w hg hn hw] at hp ⊢
  rcases hlast ⟨g, n, w⟩ hg hn hw with hl | hl
  · obtain ⟨c, hc⟩ := Option.isSome_iff_exists.mp hl
    exact hh g n w c hg hn hw hc
  · dsimp only at hl
    rw [h.rel.next] at hl
    have : workers * s.pos g n w = 0 := by omega
    rcases Nat.mul_eq_zero.mp this with e | e
    · omega
    · omega

/-! ### Concrete cases -/

/-- Chunks are (number, samples to skip); fetching never ends. -/
def exSrc2 : Source Nat Unit (Nat × Nat) :=
  { fetch := fun s => (s + 1, .chunk (s, 0))
    poke := fun _ s => s + 100 }

def exSkip : Nat → Nat × Nat → Nat × Nat := fun k c => (c.1, k)

def exDist2 : Dist Nat (Nat × Nat) :=
  { groups := 1, nodes := 2, workers := 2, src := 0, cache := fun _ => [], usage := fun _ => [], next := fun _ _ w => w }

/-- Worker 0 of both nodes reads two chunks, worker 1 one, in different orders. -/
def exOps2 : List (DOp Unit) :=
  [.ask ⟨0, 0, 0⟩, .ask ⟨0, 1, 0⟩, .ask ⟨0, 1, 0⟩, .ask ⟨0, 0, 1⟩, .ask ⟨0, 0, 0⟩, .ask ⟨0, 1, 1⟩]

def exStatus : Nat → Nat → Option Nat := maxStatus [((0, 0), [3, 7]), ((0, 1), [4, 6])]

def exLater : List (DOp Unit) :=
  [.ask ⟨0, 1, 0⟩, .ask ⟨0, 0, 0⟩, .ask ⟨0, 0, 0⟩, .poke (), .ask ⟨0, 0, 1⟩, .ask ⟨0, 0, 1⟩]

/-- A checkpoint is written, and the resumed distributor repeats chunk 1 from sample 4 and chunk 2 from sample 7. -/
example : Reached exSrc2 exSkip 1 2 2 (exDist2.run exSrc2 exOps2).1 (lastReceived (fun _ => none) (exDist2.run exSrc2 exOps2).2) ∧
    (exDist2.run exSrc2 exOps2).1.aligned = true ∧
    ∃ saved, (exDist2.run exSrc2 exOps2).1.persist exSkip exStatus = .ok saved ∧
      received ((saved.restore 3).run exSrc2 exLater).2 ⟨0, 0, 0⟩ = [(1, 4), (3, 0)] ∧
      received ((saved.restore 3).run exSrc2 exLater).2 ⟨0, 0, 1⟩ = [(2, 7), (104, 0)] := by
  refine ⟨Reached.ops exDist2 _ (Reached.init 0 exDist2 2 rfl rfl) exOps2 (by decide), by decide, _, rfl, by decide, by decide⟩

/-- A checkpoint taken after a restart but before the workers have asked for a chunk fails: the chunk before the
one to be repeated is no longer in the cache. This is why `c20_checkpoint_succeeds` needs its last hypothesis. -/
theorem c20_checkpoint_after_restart_fails : ∃ saved, (exDist2.run exSrc2 exOps2).1.persist exSkip exStatus = .ok saved ∧
    (saved.restore 3 : Dist Nat (Nat × Nat)).aligned = true ∧
    (saved.restore 3 : Dist Nat (Nat × Nat)).persist exSkip exStatus = .error .keyError := by
  refine ⟨_, rfl, ?_, ?_⟩
  · decide
  · rfl

end Mixtera
