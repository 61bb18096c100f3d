import Verif.Spec.Distributor
import Verif.Lemmas.Dict

/-!
# The distributor refines its specification
-/

set_option linter.unusedSectionVars false

namespace Mixtera

variable {σ ι C : Type}

/-- Number of nodes that have read chunk number `j` of worker `w`. -/
def readers (N : Nat) (pos : Nat → Nat → Nat → Nat) (g w j : Nat) : Nat :=
  (List.range N).countP fun n => decide (j < pos g n w)

/-- The distributor `d` implements the specification state `s`. -/
structure DRel (G N W : Nat) (d : Dist σ C) (s : SDist σ C) : Prop where
  groups : d.groups = G
  nodes : d.nodes = N
  workers : d.workers = W
  wpos : 0 < W
  src : d.src = s.src
  next : ∀ g n w, d.next g n w = w + W * s.pos g n w
  posLe : ∀ g n w, s.pos g n w ≤ (s.stream g w).length
  cacheNodup : ∀ g, (d.cache g).keys.Nodup
  usageNodup : ∀ g, (d.usage g).keys.Nodup
  value : ∀ g w j c, w < W → (d.cache g).get? (w + W * j) = some c → (s.stream g w)[j]? = some c
  avail : ∀ g w j n, w < W → n < N → s.pos g n w ≤ j → j < (s.stream g w).length →
    ∃ c, (d.cache g).get? (w + W * j) = some c
  bound : ∀ g w j c, w < W → (d.cache g).get? (w + W * j) = some c → ∃ n < N, s.pos g n w ≤ j + 1
  usage : ∀ g w j c, w < W → (d.cache g).get? (w + W * j) = some c →
    (d.usage g).get? (w + W * j) = some (readers N s.pos g w j)

theorem id_inj {W w w' j j' : Nat} (hw : w < W) (hw' : w' < W) (h : w + W * j = w' + W * j') : w = w' ∧ j = j' := by
  have h1 : (w + W * j) % W = w := by rw [Nat.add_mul_mod_self_left, Nat.mod_eq_of_lt hw]
  have h2 : (w' + W * j') % W = w' := by rw [Nat.add_mul_mod_self_left, Nat.mod_eq_of_lt hw']
  have : w = w' := by rw [← h1, h, h2]
  subst this
  refine ⟨rfl, ?_⟩
  have : W * j = W * j' := by omega
  exact Nat.eq_of_mul_eq_mul_left (by omega) this

theorem readers_other {N : Nat} {pos : Nat → Nat → Nat → Nat} {r : DReq} {k g w j : Nat}
    (hk : pos r.group r.node r.worker = k) (h : ¬ (g = r.group ∧ w = r.worker ∧ j = k)) :
    readers N (upd3 pos r (k + 1)) g w j = readers N pos g w j := by
  unfold readers
  apply List.countP_congr
  intro n _
  rw [decide_eq_true_eq, decide_eq_true_eq]
  simp only [upd3]
  split
  · rename_i hc
    obtain ⟨rfl, rfl, rfl⟩ := hc
    rw [hk]
    have : j ≠ k := fun e => h ⟨rfl, rfl, e⟩
    omega
  · exact Iff.rfl

theorem countP_flip {l : List Nat} (hl : l.Nodup) {x : Nat} (hx : x ∈ l) {p q : Nat → Bool} (hp : p x = false) (hq : q x = true)
    (h : ∀ y, y ≠ x → q y = p y) : l.countP q = l.countP p + 1 := by
  induction l with
  | nil => simp at hx
  | cons a l ih =>
    rw [List.nodup_cons] at hl
    rw [List.countP_cons, List.countP_cons]
    by_cases ha : a = x
    · subst ha
      have : l.countP q = l.countP p := by
        apply List.countP_congr
        intro y hy
        rw [h y (fun e => hl.1 (e ▸ hy))]
      rw [this, hp, hq]; simp
    · rw [ih hl.2 (by rcases List.mem_cons.mp hx with e | e; exact absurd e.symm ha; exact e), h a ha]
      omega

theorem readers_same {N : Nat} {pos : Nat → Nat → Nat → Nat} {r : DReq} {k : Nat}
    (hk : pos r.group r.node r.worker = k) (hn : r.node < N) :
    readers N (upd3 pos r (k + 1)) r.group r.worker k = readers N pos r.group r.worker k + 1 := by
  unfold readers
  apply countP_flip List.nodup_range (List.mem_range.mpr hn)
  · simp [hk]
  · simp [upd3]
  · intro y hy
    simp [upd3, hy]

theorem readers_le (N : Nat) (pos : Nat → Nat → Nat → Nat) (g w j : Nat) : readers N pos g w j ≤ N := by
  have := List.countP_le_length (p := fun n => decide (j < pos g n w)) (l := List.range N)
  simpa [readers] using this

theorem readers_all {N : Nat} {pos : Nat → Nat → Nat → Nat} {g w j : Nat} (h : readers N pos g w j ≥ N) :
    ∀ n < N, j < pos g n w := by
  have e : readers N pos g w j = (List.range N).length := by
    have := readers_le N pos g w j; simp; omega
  unfold readers at e
  rw [List.countP_eq_length] at e
  intro n hn
  simpa using e n (List.mem_range.mpr hn)

theorem readers_some {N : Nat} {pos : Nat → Nat → Nat → Nat} {g w j : Nat} (h : readers N pos g w j < N) :
    ∃ n < N, pos g n w ≤ j := by
  by_contra hc
  push Not at hc
  have : readers N pos g w j = (List.range N).length := by
    unfold readers
    rw [List.countP_eq_length]
    intro n hn
    simpa using hc n (List.mem_range.mp hn)
  simp at this
  omega

/-- The end of a request whose chunk is cached. -/
theorem deliver_rel {G N W : Nat} {d : Dist σ C} {s : SDist σ C} (h : DRel G N W d s) (r : DReq)
    (hn : r.node < N) (hw : r.worker < W) {k : Nat} (hk : s.pos r.group r.node r.worker = k) {c : C}
    (hc : (d.cache r.group).get? (r.worker + W * k) = some c) :
    (d.deliver r (r.worker + W * k) c).2 = .chunk c ∧
    DRel G N W (d.deliver r (r.worker + W * k) c).1 { s with pos := upd3 s.pos r (k + 1) } := by
  have hu := h.usage r.group r.worker k c hw hc
  have hlen : k < (s.stream r.group r.worker).length := by
    have := h.value _ _ _ _ hw hc
    exact (List.getElem?_eq_some_iff.mp this).1
  unfold Dist.deliver
  rw [hu]
  dsimp only
  have hrs := readers_same hk hn
  have hnext : ∀ g n w, (if g = r.group ∧ n = r.node ∧ w = r.worker then r.worker + W * k + d.workers else d.next g n w) =
      w + W * (upd3 s.pos r (k + 1)) g n w := by
    intro g n w
    simp only [upd3]
    split
    · rename_i e
      rw [e.2.2, h.workers, Nat.mul_add, Nat.mul_one, Nat.add_assoc]
    · exact h.next g n w
  have hposLe : ∀ g n w, (upd3 s.pos r (k + 1)) g n w ≤ (s.stream g w).length := by
    intro g n w
    simp only [upd3]
    split
    · rename_i e
      rw [e.1, e.2.2]; omega
    · exact h.posLe g n w
  have hmono : ∀ g n w, s.pos g n w ≤ (upd3 s.pos r (k + 1)) g n w := by
    intro g n w
    simp only [upd3]
    split
    · rename_i e; rw [e.1, e.2.1, e.2.2, hk]; omega
    · exact Nat.le_refl _
  have husage : ∀ g w j c', w < W → (d.cache g).get? (w + W * j) = some c' →
      (if g = r.group then (d.usage r.group).set (r.worker + W * k) (readers N s.pos r.group r.worker k + 1)
        else d.usage g).get? (w + W * j) = some (readers N (upd3 s.pos r (k + 1)) g w j) := by
    intro g w j c' hw' hc'
    by_cases hg : g = r.group
    · rw [if_pos hg, Dict.get?_set]
      split
      · rename_i e
        obtain ⟨rfl, rfl⟩ := id_inj hw hw' e
        rw [hg, hrs]
      · rename_i e
        rw [readers_other hk (by rintro ⟨_, rfl, rfl⟩; exact e rfl), ← h.usage g w j c' hw' hc', hg]
    · rw [if_neg hg, readers_other hk (fun e => hg e.1)]
      exact h.usage g w j c' hw' hc'
  split
  · rename_i hdel
    obtain ⟨hall, hge, hhas⟩ := hdel
    rw [h.nodes] at hall
    rw [h.workers] at hge hhas ⊢
    have hk1 : 1 ≤ k := by
      rcases Nat.eq_zero_or_pos k with e | e
      · subst e; simp at hge; omega
      · exact e
    have hid : r.worker + W * k - W = r.worker + W * (k - 1) := by
      obtain ⟨m, rfl⟩ : ∃ m, k = m + 1 := ⟨k - 1, by omega⟩
      rw [Nat.mul_add]; simp only [Nat.mul_one, Nat.add_sub_cancel]; omega
    rw [hid] at hhas ⊢
    rw [Dict.has, Option.isSome_iff_exists] at hhas
    obtain ⟨c0, hc0⟩ := hhas
    have hu0 := husage r.group r.worker (k - 1) c0 hw hc0
    rw [if_pos rfl] at hu0
    rw [if_pos (by rw [Dict.has, hu0]; rfl)]
    refine ⟨rfl, ?_⟩
    rw [← hrs] at hall
    have hallp := readers_all hall
    have hcache : ∀ g w j, w < W →
        (if g = r.group then (d.cache r.group).pop (r.worker + W * (k - 1)) else d.cache g).get? (w + W * j) =
          if g = r.group ∧ w = r.worker ∧ j = k - 1 then none else (d.cache g).get? (w + W * j) := by
      intro g w j hw'
      by_cases hg : g = r.group
      · rw [if_pos hg, Dict.get?_pop (h.cacheNodup _)]
        subst hg
        by_cases e : r.worker + W * (k - 1) = w + W * j
        · rw [if_pos e]
          obtain ⟨e1, e2⟩ := id_inj hw hw' e
          rw [if_pos ⟨rfl, e1.symm, e2.symm⟩]
        · rw [if_neg e, if_neg]
          rintro ⟨_, rfl, rfl⟩; exact e rfl
      · rw [if_neg hg, if_neg (fun e => hg e.1)]
    exact {
      groups := h.groups
      nodes := h.nodes
      workers := rfl
      wpos := h.wpos
      src := h.src
      next := by intro g n w; have := hnext g n w; rw [h.workers] at this; exact this
      posLe := hposLe
      cacheNodup := by
        intro g
        dsimp only
        split
        · exact Dict.nodup_keys_pop (h.cacheNodup _) _
        · exact h.cacheNodup g
      usageNodup := by
        intro g
        dsimp only
        split
        · exact Dict.nodup_keys_pop (Dict.nodup_keys_upsert (h.usageNodup _) _ _) _
        · exact h.usageNodup g
      value := by
        intro g w j c' hw' hc'
        dsimp only at hc' ⊢
        rw [hcache g w j hw'] at hc'
        split at hc'
        · simp at hc'
        · exact h.value g w j c' hw' hc'
      avail := by
        intro g w j n hw' hn' hp hl
        dsimp only at hp hl ⊢
        rw [hcache g w j hw']
        split
        · rename_i e
          obtain ⟨rfl, rfl, rfl⟩ := e
          have := hallp n hn'
          omega
        · exact h.avail g w j n hw' hn' (Nat.le_trans (hmono g n w) hp) hl
      bound := by
        intro g w j c' hw' hc'
        dsimp only at hc' ⊢
        rw [hcache g w j hw'] at hc'
        split at hc'
        · simp at hc'
        · rename_i hne
          obtain ⟨n, hn', hb⟩ := h.bound g w j c' hw' hc'
          by_cases e : g = r.group ∧ n = r.node ∧ w = r.worker
          · obtain ⟨rfl, rfl, rfl⟩ := e
            refine ⟨r.node, hn', ?_⟩
            simp only [upd3]
            rw [if_pos ⟨trivial, trivial, trivial⟩]
            rw [hk] at hb
            have : j ≠ k - 1 := fun e => hne ⟨rfl, rfl, e⟩
            omega
          · refine ⟨n, hn', ?_⟩
            simp only [upd3]
            rw [if_neg e]; exact hb
      usage := by
        intro g w j c' hw' hc'
        dsimp only at hc' ⊢
        rw [hcache g w j hw'] at hc'
        split at hc'
        · simp at hc'
        · rename_i hne
          have := husage g w j c' hw' hc'
          by_cases hg : g = r.group
          · rw [if_pos hg] at this ⊢
            have hnd : ((d.usage r.group).set (r.worker + W * k) (readers N s.pos r.group r.worker k + 1)).keys.Nodup :=
              Dict.nodup_keys_upsert (h.usageNodup _) _ _
            rw [Dict.get?_pop hnd, if_neg]
            · exact this
            · intro e
              obtain ⟨e1, e2⟩ := id_inj hw hw' e
              exact hne ⟨hg, e1.symm, e2.symm⟩
          · rw [if_neg hg] at this ⊢
            rw [if_neg hg]
            exact this }
  · rename_i hdel
    refine ⟨rfl, ?_⟩
    exact {
      groups := h.groups
      nodes := h.nodes
      workers := h.workers
      wpos := h.wpos
      src := h.src
      next := hnext
      posLe := hposLe
      cacheNodup := h.cacheNodup
      usageNodup := by
        intro g
        dsimp only
        split
        · exact Dict.nodup_keys_upsert (h.usageNodup _) _ _
        · exact h.usageNodup g
      value := h.value
      avail := fun g w j n hw' hn' hp hl => h.avail g w j n hw' hn' (Nat.le_trans (hmono g n w) hp) hl
      bound := by
        intro g w j c' hw' hc'
        obtain ⟨n, hn', hb⟩ := h.bound g w j c' hw' hc'
        by_cases e : g = r.group ∧ n = r.node ∧ w = r.worker ∧ j + 1 = k
        · -- the node leaves; somebody else is still there
          obtain ⟨rfl, rfl, rfl, hj⟩ := e
          have hlt : readers N (upd3 s.pos r (k + 1)) r.group r.worker k < N := by
            rw [hrs]
            rw [h.nodes] at hdel
            by_contra hge
            apply hdel
            have hid : r.worker + W * k - W = r.worker + W * j := by
              rw [← hj, Nat.mul_add]; omega
            refine ⟨by omega, ?_, ?_⟩
            · rw [h.workers, ← hj, Nat.mul_add]; omega
            · rw [h.workers, hid, Dict.has, hc']; rfl
          obtain ⟨n', hn', hle⟩ := readers_some hlt
          exact ⟨n', hn', by dsimp only; omega⟩
        · refine ⟨n, hn', ?_⟩
          simp only [upd3]
          split
          · rename_i e2
            obtain ⟨rfl, rfl, rfl⟩ := e2
            rw [hk] at hb
            have : j + 1 ≠ k := fun e3 => e ⟨rfl, rfl, rfl, e3⟩
            omega
          · exact hb
      usage := husage }

/-- A request. -/
theorem next_rel (S : Source σ ι C) {G N W : Nat} {d : Dist σ C} {s : SDist σ C} (h : DRel G N W d s) (r : DReq)
    (hg : r.group < G) (hn : r.node < N) (hw : r.worker < W) :
    (d.nextChunkFor S r).2 = (s.next S r).2 ∧ DRel G N W (d.nextChunkFor S r).1 (s.next S r).1 := by
  unfold Dist.nextChunkFor SDist.next
  rw [if_pos ⟨h.groups ▸ hg, h.nodes ▸ hn, h.workers ▸ hw⟩]
  dsimp only
  generalize hk : s.pos r.group r.node r.worker = k
  have hid : d.next r.group r.node r.worker = r.worker + W * k := by rw [h.next, hk]
  rw [hid]
  cases hst : (s.stream r.group r.worker)[k]? with
  | some c =>
    have hlt := (List.getElem?_eq_some_iff.mp hst).1
    obtain ⟨c', hc'⟩ := h.avail r.group r.worker k r.node hw hn (by omega) hlt
    have := h.value _ _ _ _ hw hc'
    rw [hst] at this
    simp only [Option.some.injEq] at this
    subst this
    rw [hc']
    exact deliver_rel h r hn hw hk hc'
  | none =>
    have hlen : (s.stream r.group r.worker).length = k := by
      have h1 := h.posLe r.group r.node r.worker
      have h2 := List.getElem?_eq_none_iff.mp hst
      omega
    have hnc : (d.cache r.group).get? (r.worker + W * k) = none := by
      cases hc : (d.cache r.group).get? (r.worker + W * k) with
      | none => rfl
      | some c => have := h.value _ _ _ _ hw hc; rw [hst] at this; simp at this
    rw [hnc]
    dsimp only
    rw [h.src]
    match hf : S.fetch s.src with
    | (t, .stop) =>
      dsimp only
      exact ⟨rfl, { h with src := rfl }⟩
    | (t, .raised e) =>
      dsimp only
      exact ⟨rfl, { h with src := rfl }⟩
    | (t, .chunk c) =>
      dsimp only
      have hz : readers N s.pos r.group r.worker k = 0 := by
        unfold readers
        rw [List.countP_eq_zero]
        intro n _
        have := h.posLe r.group n r.worker
        simp only [decide_eq_true_eq]
        omega
      have hcache : ∀ g w j, w < W →
          (if g = r.group then (d.cache g).set (r.worker + W * k) c else d.cache g).get? (w + W * j) =
            if g = r.group ∧ w = r.worker ∧ j = k then some c else (d.cache g).get? (w + W * j) := by
        intro g w j hw'
        by_cases hgg : g = r.group
        · rw [if_pos hgg, Dict.get?_set]
          by_cases e : r.worker + W * k = w + W * j
          · obtain ⟨e1, e2⟩ := id_inj hw hw' e
            rw [if_pos e, if_pos ⟨hgg, e1.symm, e2.symm⟩]
          · rw [if_neg e, if_neg]
            rintro ⟨_, rfl, rfl⟩; exact e rfl
        · rw [if_neg hgg, if_neg (fun e => hgg e.1)]
      have hstream : ∀ g w, (upd2 s.stream r.group r.worker (s.stream r.group r.worker ++ [c])) g w =
          s.stream g w ++ (if g = r.group ∧ w = r.worker then [c] else []) := by
        intro g w
        simp only [upd2]
        split
        · rename_i e; rw [e.1, e.2]
        · simp
      have h1 : DRel G N W
          { d with
            src := t
            cache := fun g => if g = r.group then (d.cache g).set (r.worker + W * k) c else d.cache g
            usage := fun g => if g = r.group then (d.usage g).set (r.worker + W * k) 0 else d.usage g }
          { src := t
            stream := upd2 s.stream r.group r.worker (s.stream r.group r.worker ++ [c])
            pos := s.pos } := {
        groups := h.groups
        nodes := h.nodes
        workers := h.workers
        wpos := h.wpos
        src := rfl
        next := h.next
        posLe := by
          intro g n w
          dsimp only
          rw [hstream, List.length_append]
          have := h.posLe g n w
          omega
        cacheNodup := by
          intro g
          dsimp only
          split
          · exact Dict.nodup_keys_upsert (h.cacheNodup _) _ _
          · exact h.cacheNodup g
        usageNodup := by
          intro g
          dsimp only
          split
          · exact Dict.nodup_keys_upsert (h.usageNodup _) _ _
          · exact h.usageNodup g
        value := by
          intro g w j c' hw' hc'
          dsimp only at hc' ⊢
          rw [hcache g w j hw'] at hc'
          rw [hstream]
          split at hc'
          · rename_i e
            obtain ⟨rfl, rfl, rfl⟩ := e
            simp only [Option.some.injEq] at hc'
            subst hc'
            rw [if_pos ⟨rfl, rfl⟩, ← hlen]
            simp
          · have := h.value g w j c' hw' hc'
            rw [List.getElem?_append_left (List.getElem?_eq_some_iff.mp this).1]
            exact this
        avail := by
          intro g w j n hw' hn' hp hl
          dsimp only at hp hl ⊢
          rw [hcache g w j hw']
          split
          · exact ⟨c, rfl⟩
          · rename_i e
            apply h.avail g w j n hw' hn' hp
            rw [hstream, List.length_append] at hl
            split at hl
            · rename_i e2
              obtain ⟨rfl, rfl⟩ := e2
              have : j ≠ k := fun e3 => e ⟨rfl, rfl, e3⟩
              simp only [List.length_cons, List.length_nil] at hl
              omega
            · simpa using hl
        bound := by
          intro g w j c' hw' hc'
          dsimp only at hc' ⊢
          rw [hcache g w j hw'] at hc'
          split at hc'
          · rename_i e
            obtain ⟨rfl, rfl, rfl⟩ := e
            exact ⟨r.node, hn, by omega⟩
          · exact h.bound g w j c' hw' hc'
        usage := by
          intro g w j c' hw' hc'
          dsimp only at hc' ⊢
          rw [hcache g w j hw'] at hc'
          split at hc'
          · rename_i e
            obtain ⟨rfl, rfl, rfl⟩ := e
            rw [if_pos rfl, Dict.get?_set, if_pos rfl, hz]
          · rename_i e
            by_cases hgg : g = r.group
            · rw [if_pos hgg, Dict.get?_set, if_neg]
              · exact h.usage g w j c' hw' hc'
              · intro e2
                obtain ⟨e3, e4⟩ := id_inj hw hw' e2
                exact e ⟨hgg, e3.symm, e4.symm⟩
            · rw [if_neg hgg]
              exact h.usage g w j c' hw' hc' }
      exact deliver_rel h1 r hn hw hk (by
        dsimp only
        rw [hcache r.group r.worker k hw, if_pos ⟨rfl, rfl, rfl⟩])

theorem run_rel (S : Source σ ι C) {G N W : Nat} (os : List (DOp ι)) (ho : ∀ o ∈ os, o.Valid G N W) {d : Dist σ C}
    {s : SDist σ C} (h : DRel G N W d s) :
    (d.run S os).2 = (s.run S os).2 ∧ DRel G N W (d.run S os).1 (s.run S os).1 := by
  induction os generalizing d s with
  | nil => exact ⟨rfl, h⟩
  | cons o os ih =>
    rw [Dist.run, SDist.run]
    dsimp only
    have hv := ho o (by simp)
    have ho' : ∀ o ∈ os, o.Valid G N W := fun o h' => ho o (by simp [h'])
    match o with
    | .ask r =>
      obtain ⟨h1, h2⟩ := next_rel S h r hv.1 hv.2.1 hv.2.2
      obtain ⟨h3, h4⟩ := ih ho' h2
      simp only [Dist.op, SDist.op, h1, h3]
      exact ⟨trivial, h4⟩
    | .poke i =>
      have h2 : DRel G N W { d with src := S.poke i d.src } { s with src := S.poke i s.src } :=
        { h with src := by dsimp only; rw [h.src] }
      obtain ⟨h3, h4⟩ := ih ho' h2
      simp only [Dist.op, SDist.op, h3]
      exact ⟨trivial, h4⟩

theorem init_rel (G N W : Nat) (src : σ) {d : Dist σ C} (h : Dist.init G N W src = .ok d) :
    DRel G N (if W > 0 then W else 1) d (SDist.init src) := by
  unfold Dist.init at h
  split at h
  · simp at h
  · simp only [Except.ok.injEq] at h
    subst h
    exact {
      groups := rfl
      nodes := rfl
      workers := rfl
      wpos := by split <;> omega
      src := rfl
      next := fun _ _ _ => rfl
      posLe := fun _ _ _ => Nat.le_refl _
      cacheNodup := fun _ => List.nodup_nil
      usageNodup := fun _ => List.nodup_nil
      value := by intro g w j c _ hc; simp [Dict.get?] at hc
      avail := by intro g w j n _ _ _ hl; simp [SDist.init] at hl
      bound := by intro g w j c _ hc; simp [Dict.get?] at hc
      usage := by intro g w j c _ hc; simp [Dict.get?] at hc }

end Mixtera
