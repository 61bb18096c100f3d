import Verif.Props.Session
import Verif.Props.Schedule

/-!
# C13: restoring a cached query result continues where it stopped
-/

set_option linter.unusedSectionVars false

namespace Mixtera

variable {K : Type} [DecidableEq K]

/-! ### Vocabulary -/

/-- The mixtures with which the chunks of a history were requested, in order. -/
def Sess.views (ops : KeyOps K) (fuel : Nat) : Sess K → List (SOp K) → List (MixView K)
  | _, [] => []
  | s, o :: os =>
    (match o with
      | .next => [s.heap s.mixRef]
      | .update _ _ => []
      | .feedback _ => []) ++ Sess.views ops fuel (s.op ops fuel o).1 os

/-- The change from mixture `u` to `v` is one the query result notices: different rows. -/
def visible (u v : MixView K) : Bool := if v.rows = [] then u.rows ≠ [] else !dictEq u.rows v.rows

/-- Every change of mixture in a list of used mixtures is noticed, i.e. the mixtures never differ only in
the mode (strict / best effort) or, without mixture keys, only in the chunk size. -/
def Noticed : List (MixView K) → Prop
  | u :: v :: vs => (visible u v = false → u = v) ∧ Noticed (v :: vs)
  | _ => True

/-! ### One request of a history without `None` -/

/-- A generator state without the received pair and the log. -/
def Gen.core (g : Gen K) : Gen K := { g with base := 0, target := 0, log := [] }

/-- Is the mixture logged by the next iteration? -/
def isLogged (prev : Option (Dict K Nat)) (cur : Nat) (v : MixView K) : Bool :=
  if v.rows = [] then prev.isSome || cur == 0
  else match prev with
    | none => true
    | some p => !dictEq p v.rows

/-- One iteration as a function of the generator's core and the mixture. -/
def ask (ops : KeyOps K) (fuel : Nat) (v : MixView K) (g : Gen K) : Gen K × Option (Out K) :=
  let r := Gen.step ops fuel true (fun _ => v) { g with base := 0, target := g.cur, log := [] }
  (r.1.core, r.2)

theorem step_ask (ops : KeyOps K) (fuel : Nat) (replay : Bool) (heap : Nat → MixView K) (g : Gen K)
    (ht : g.target = g.cur) (hns : g.noSuccess = 0) :
    (g.step ops fuel replay heap).2 = (ask ops fuel (heap g.base) g.core).2 ∧
    (g.step ops fuel replay heap).1.core = (ask ops fuel (heap g.base) g.core).1 ∧
    (g.step ops fuel replay heap).1.log =
      g.log ++ (if !replay && isLogged g.prev g.cur (heap g.base) then [(g.cur, heap g.base)] else []) := by
  obtain ⟨order, iters, cur, mid, kidx, eidx, ns, prev, susp, base, target, log⟩ := g
  dsimp only at ht hns
  subst ht hns
  unfold ask Gen.core
  dsimp only
  unfold Gen.step
  dsimp only
  simp only [gt_iff_lt, Nat.not_lt_zero, if_false]
  by_cases hr : (heap base).rows = []
  · simp only [if_pos hr]
    unfold stepArbitrary isLogged
    dsimp only
    rw [if_pos hr]
    by_cases hp : (prev.isSome || target == 0) = true
    · simp only [if_pos hp, hp]
      rcases hx : rotate order (heap base).chunkSize fuel kidx eidx iters with e | ⟨a, b, c, (_ | d)⟩
      · cases replay <;> simp [hx]
      · cases replay <;> simp [hx]
      · cases hy : order[a]? <;> cases replay <;> simp [hx, hy]
    · simp only [if_neg hp]
      have hp' : (prev.isSome || target == 0) = false := by simpa using hp
      simp only [hp', Bool.and_false]
      rcases hx : rotate order (heap base).chunkSize fuel kidx eidx iters with e | ⟨a, b, c, (_ | d)⟩
      · simp [hx]
      · simp [hx]
      · cases hy : order[a]? <;> simp [hx, hy]
  · simp only [if_neg hr]
    unfold stepMixture isLogged
    dsimp only
    rw [if_neg hr]
    cases prev with
    | none =>
      dsimp only
      simp only [if_true]
      rcases hx : attempt ops iters (heap base) with e | ⟨a, (_ | _)⟩ <;> cases replay <;> simp [hx]
    | some p =>
      dsimp only
      by_cases hd : (!dictEq p (heap base).rows) = true
      · simp only [if_pos hd, hd]
        rcases hx : attempt ops iters (heap base) with e | ⟨a, (_ | _)⟩ <;> cases replay <;> simp [hx]
      · simp only [if_neg hd]
        have hd' : (!dictEq p (heap base).rows) = false := by simpa using hd
        simp only [hd', Bool.and_false]
        rcases hx : attempt ops iters (heap base) with e | ⟨a, (_ | _)⟩ <;> simp [hx]

theorem ask_some (ops : KeyOps K) (fuel : Nat) (v : MixView K) (g : Gen K) : ∃ o, (ask ops fuel v g).2 = some o := by
  have := step_answers ops fuel true (fun _ => v) { g with base := 0, target := g.cur, log := [] } rfl
  exact Option.ne_none_iff_exists'.mp this

/-- Facts about one iteration that delivers a chunk. -/
theorem ask_facts (ops : KeyOps K) (fuel : Nat) (v : MixView K) (g : Gen K) (hs : g.susp = .ready) (hns : g.noSuccess = 0) :
    (ask ops fuel v g).1.mixtureId = g.mixtureId + (if isLogged g.prev g.cur v then 1 else 0) ∧
    (ask ops fuel v g).1.prev = (if v.rows = [] then none else if isLogged g.prev g.cur v then some v.rows else g.prev) ∧
    ∀ c, (ask ops fuel v g).2 = some (.chunk c) →
      (ask ops fuel v g).1.susp = .ready ∧ (ask ops fuel v g).1.noSuccess = 0 ∧ (ask ops fuel v g).1.cur = g.cur + 1 := by
  obtain ⟨order, iters, cur, mid, kidx, eidx, ns, prev, susp, base, target, log⟩ := g
  dsimp only at hs hns
  subst hs hns
  unfold ask Gen.core
  dsimp only
  unfold Gen.step
  dsimp only
  simp only [gt_iff_lt, Nat.not_lt_zero, if_false]
  by_cases hr : v.rows = []
  · simp only [if_pos hr]
    unfold stepArbitrary isLogged
    dsimp only
    rw [if_pos hr]
    by_cases hp : (prev.isSome || cur == 0) = true
    · simp only [if_pos hp, hp]
      rcases hx : rotate order v.chunkSize fuel kidx eidx iters with e | ⟨a, b, c, (_ | d)⟩
      · simp [hx]
      · simp [hx]
      · cases hy : order[a]? <;> simp [hx, hy]
    · simp only [if_neg hp]
      have hp' : prev = none := by
        cases prev <;> simp at hp ⊢
      subst hp'
      rcases hx : rotate order v.chunkSize fuel kidx eidx iters with e | ⟨a, b, c, (_ | d)⟩
      · simp
      · simp
      · cases hy : order[a]? <;> simp [hy]
  · simp only [if_neg hr]
    unfold stepMixture isLogged
    dsimp only
    simp only [if_neg hr]
    cases prev with
    | none =>
      dsimp only
      simp only [if_true]
      rcases hx : attempt ops iters v with e | ⟨a, (_ | _)⟩ <;> simp [hx]
    | some p =>
      dsimp only
      by_cases hd : (!dictEq p v.rows) = true
      · simp only [hd]
        rcases hx : attempt ops iters v with e | ⟨a, (_ | _)⟩ <;> simp [hx]
      · simp only [if_neg hd]
        rcases hx : attempt ops iters v with e | ⟨a, (_ | _)⟩ <;> simp

/-! ### Histories of chunks -/

/-- The generator's core after chunks with the mixtures `vs`. -/
def askAll (ops : KeyOps K) (fuel : Nat) (g : Gen K) (vs : List (MixView K)) : Gen K :=
  vs.foldl (fun g v => (ask ops fuel v g).1) g

/-- Is mixture `v` new compared with the previously used one? -/
def isNew (last : Option (MixView K)) (v : MixView K) : Bool :=
  match last with
  | none => true
  | some u => visible u v

/-- The generator's memory of the previous mixture. -/
def PrevOk (last : Option (MixView K)) (prev : Option (Dict K Nat)) : Prop :=
  match last with
  | none => prev = none
  | some u => if u.rows = [] then prev = none else ∃ p, prev = some p ∧ DSim p u.rows

theorem isLogged_isNew {last : Option (MixView K)} {prev : Option (Dict K Nat)} (hp : PrevOk last prev) (cur : Nat)
    (hc : cur = 0 ↔ last = none) (v : MixView K) (hv : v.rows.keys.Nodup) : isLogged prev cur v = isNew last v := by
  cases last with
  | none =>
    simp only [PrevOk] at hp
    have : cur = 0 := hc.mpr rfl
    simp [isLogged, isNew, hp, this]
  | some u =>
    have hc0 : cur ≠ 0 := by simp [hc]
    simp only [PrevOk] at hp
    unfold isLogged isNew visible
    dsimp only
    split at hp
    · rename_i hu
      subst hp
      split
      · simp [hu, hc0]
      · rename_i hr
        rw [hu]
        cases hvr : v.rows with
        | nil => exact absurd hvr hr
        | cons a l => simp [dictEq]
    · rename_i hu
      obtain ⟨p, rfl, hd⟩ := hp
      split
      · simp [hu]
      · simp only
        rw [dictEq_sim hd (DSim.mk hv hv fun _ => rfl)]

theorem prevOk_next {last : Option (MixView K)} {prev : Option (Dict K Nat)} (hp : PrevOk last prev) (v : MixView K)
    (hv : v.rows.keys.Nodup) :
    PrevOk (some v) (if v.rows = [] then none else if isNew last v then some v.rows else prev) := by
  unfold PrevOk
  dsimp only
  by_cases hr : v.rows = []
  · simp [hr]
  · simp only [if_neg hr]
    by_cases hn : isNew last v = true
    · exact ⟨v.rows, by simp [hn], ⟨hv, hv, fun _ => rfl⟩⟩
    · rw [if_neg hn]
      cases last with
      | none => simp [isNew] at hn
      | some u =>
        simp only [isNew, visible, if_neg hr, Bool.not_eq_true', Bool.not_eq_false] at hn
        simp only [PrevOk] at hp
        split at hp
        · rename_i hu
          rw [hu] at hn
          cases hvr : v.rows with
          | nil => exact absurd hvr hr
          | cons a l => rw [hvr] at hn; simp [dictEq] at hn
        · obtain ⟨p, rfl, hd⟩ := hp
          have := (dictEq_iff hd.right hv).mp hn
          exact ⟨p, rfl, ⟨hd.left, hv, fun k => (hd.get k).trans (this k)⟩⟩

/-- A query result that so far has delivered chunks with the mixtures `vs` and nothing else. -/
structure NF (ops : KeyOps K) (fuel : Nat) (index : Dict K Entries) (order : List K) (vs : List (MixView K))
    (s : Sess K) : Prop where
  idxEq : s.index = index
  ordEq : s.order = order
  fresh : s.gen.isNone = vs.isEmpty
  ok : (s.gen.isNone && s.numReturns != 0) = false
  susp : s.theGen.susp = .ready
  ns : s.theGen.noSuccess = 0
  cur : s.theGen.cur = vs.length
  idx : s.idx = vs.length
  num : s.numReturns = vs.length
  log : s.theGen.log = s.log
  core : s.theGen.core = askAll ops fuel (Gen.init index order).core vs
  prev : PrevOk vs.getLast? s.theGen.prev
  heap : HeapOk s.heap

/-- The state after `next`, given the generator's answer. -/
def Sess.after (ops : KeyOps K) (s : Sess K) (r : Gen K × Out K) : Sess K :=
  { s with
    gen := some r.1
    idx := match r.2 with
      | .none => s.idx
      | _ => s.idx + 1
    numReturns := s.numReturns + 1
    log := r.1.log
    keyIds := if r.1.mixtureId = s.theGen.mixtureId then s.keyIds
      else updateKeyIds ops (s.heap s.mixRef).rows.keys s.index.keys s.keyIds }

theorem next_after (ops : KeyOps K) (fuel : Nat) (s : Sess K) (h : (s.gen.isNone && s.numReturns != 0) = false) :
    s.next ops fuel = (s.after ops (s.theGen.send ops fuel s.isReplay s.heap s.mixRef s.idx),
      (s.theGen.send ops fuel s.isReplay s.heap s.mixRef s.idx).2) := by
  unfold Sess.next
  rw [h, if_neg (by simp)]
  rfl

theorem nf_next (ops : KeyOps K) (fuel : Nat) (hf : 0 < fuel) {index : Dict K Entries} {order : List K}
    {vs : List (MixView K)} {s : Sess K} (h : NF ops fuel index order vs s) :
    let v := s.heap s.mixRef
    some (s.next ops fuel).2 = (ask ops fuel v (askAll ops fuel (Gen.init index order).core vs)).2 ∧
    (∀ c, (s.next ops fuel).2 = .chunk c → NF ops fuel index order (vs ++ [v]) (s.next ops fuel).1) ∧
    (s.next ops fuel).1.log = s.log ++ (if !s.isReplay && isNew vs.getLast? v then [(vs.length, v)] else []) ∧
    (s.next ops fuel).1.keyIds =
      (if isNew vs.getLast? v then updateKeyIds ops v.rows.keys s.index.keys s.keyIds else s.keyIds) ∧
    (s.next ops fuel).1.heap = s.heap ∧ (s.next ops fuel).1.mixRef = s.mixRef ∧
    (s.next ops fuel).1.isReplay = s.isReplay ∧ (s.next ops fuel).1.stopOnNone = s.stopOnNone := by
  intro v
  obtain ⟨f, hfu⟩ : ∃ f, fuel = f + 1 := ⟨fuel - 1, by omega⟩
  have hv : v.rows.keys.Nodup := h.heap _
  have hsend : s.theGen.send ops fuel s.isReplay s.heap s.mixRef s.idx =
      Gen.run ops fuel s.isReplay s.heap (f + 1) { s.theGen with base := s.mixRef, target := s.idx } := by
    rw [send_ready _ _ _ _ _ _ h.susp, ← hfu]
  have hcur : s.theGen.cur = s.idx := h.cur.trans h.idx.symm
  obtain ⟨e1, e2, e3⟩ := step_ask ops fuel s.isReplay s.heap { s.theGen with base := s.mixRef, target := s.idx }
    hcur.symm h.ns
  have hcore : Gen.core { s.theGen with base := s.mixRef, target := s.idx } = s.theGen.core := rfl
  rw [hcore, h.core] at e1 e2
  obtain ⟨o, ho⟩ := ask_some ops fuel v (askAll ops fuel (Gen.init index order).core vs)
  have hrun : Gen.run ops fuel s.isReplay s.heap (f + 1) { s.theGen with base := s.mixRef, target := s.idx } =
      ((Gen.step ops fuel s.isReplay s.heap { s.theGen with base := s.mixRef, target := s.idx }).1, o) := by
    rw [Gen.run]
    have e1' : (Gen.step ops fuel s.isReplay s.heap { s.theGen with base := s.mixRef, target := s.idx }).2 = some o :=
      e1.trans ho
    match hst : Gen.step ops fuel s.isReplay s.heap { s.theGen with base := s.mixRef, target := s.idx } with
    | (g', some o') => rw [hst] at e1'; simp only [Option.some.injEq] at e1'; rw [e1']
    | (g', none) => rw [hst] at e1'; simp at e1'
  rw [hrun] at hsend
  generalize hG : (Gen.step ops fuel s.isReplay s.heap { s.theGen with base := s.mixRef, target := s.idx }).1 = g' at hsend e2 e3
  have hl : isLogged s.theGen.prev s.theGen.cur v = isNew vs.getLast? v := by
    refine isLogged_isNew h.prev _ ?_ v hv
    rw [h.cur, List.getLast?_eq_none_iff, List.length_eq_zero_iff]
  have hcs : s.theGen.core.susp = .ready := h.susp
  have hcn : s.theGen.core.noSuccess = 0 := h.ns
  have hfa := ask_facts ops fuel v s.theGen.core hcs hcn
  rw [h.core] at hfa
  have hpc : (askAll ops fuel (Gen.init index order).core vs).prev = s.theGen.prev := by rw [← h.core]; rfl
  have hcc : (askAll ops fuel (Gen.init index order).core vs).cur = s.theGen.cur := by rw [← h.core]; rfl
  have hmc : (askAll ops fuel (Gen.init index order).core vs).mixtureId = s.theGen.mixtureId := by rw [← h.core]; rfl
  rw [hpc, hcc, hmc, hl] at hfa
  rw [← e2] at hfa
  obtain ⟨f1, f2, f3⟩ := hfa
  have f1' : g'.mixtureId = s.theGen.mixtureId + (if isNew vs.getLast? v then 1 else 0) := f1
  have hnext : s.next ops fuel = (s.after ops (g', o), o) := by
    rw [next_after ops fuel s h.ok, hsend]
  rw [hnext]
  dsimp only [Sess.after]
  have e3' : g'.log = s.log ++ (if !s.isReplay && isNew vs.getLast? v then [(vs.length, v)] else []) := by
    rw [e3, ← hl]
    show s.theGen.log ++ _ = _
    rw [h.log]
    show s.log ++ (if (!s.isReplay && isLogged s.theGen.prev s.theGen.cur v) = true then [(s.theGen.cur, v)] else []) = _
    rw [h.cur]
  refine ⟨ho.symm, ?_, e3', ?_, rfl, rfl, rfl, rfl⟩
  · intro c hc
    subst hc
    obtain ⟨g1, g2, g3⟩ := f3 c ho
    exact {
      idxEq := h.idxEq
      ordEq := h.ordEq
      fresh := by simp
      ok := rfl
      susp := g1
      ns := g2
      cur := by
        show g'.cur = _
        have : g'.cur = s.theGen.cur + 1 := g3
        rw [this, h.cur]; simp
      idx := by simp [h.idx]
      num := by simp [h.num]
      log := rfl
      core := by
        show g'.core = _
        rw [e2]; simp [askAll]; rfl
      prev := by
        rw [List.getLast?_append]
        show PrevOk (some v) g'.prev
        have : g'.prev = (if v.rows = [] then none else if isNew vs.getLast? v then some v.rows else s.theGen.prev) := f2
        rw [this]
        exact prevOk_next h.prev v hv
      heap := h.heap }
  · rw [f1']
    by_cases hn : isNew vs.getLast? v = true
    · simp [hn, v]
    · simp [hn]

/-- The mixture log of a history of chunks. -/
def logOf : Option (MixView K) → Nat → List (MixView K) → List (Nat × MixView K)
  | _, _, [] => []
  | last, i, v :: vs => (if isNew last v then [(i, v)] else []) ++ logOf (some v) (i + 1) vs

theorem logOf_snoc (last : Option (MixView K)) (i : Nat) (vs : List (MixView K)) (v : MixView K) :
    logOf last i (vs ++ [v]) =
      logOf last i vs ++ (if isNew (vs.getLast?.or last) v then [(i + vs.length, v)] else []) := by
  induction vs generalizing last i with
  | nil => simp [logOf]
  | cons u vs ih =>
    rw [List.cons_append, logOf, ih, logOf, List.append_assoc]
    have : (u :: vs).getLast?.or last = vs.getLast?.or (some u) := by
      rw [List.getLast?_cons]
      cases vs.getLast? <;> rfl
    rw [this]
    simp only [List.length_cons]
    rw [show i + 1 + vs.length = i + (vs.length + 1) by omega]

theorem logOf_idx (last : Option (MixView K)) (i : Nat) (vs : List (MixView K)) :
    ∀ e ∈ logOf last i vs, i ≤ e.1 := by
  induction vs generalizing last i with
  | nil => simp [logOf]
  | cons u vs ih =>
    intro e he
    rw [logOf, List.mem_append] at he
    rcases he with he | he
    · split at he
      · simp at he; simp [he]
      · simp at he
    · have := ih _ _ e he; omega

/-- Every one of the requests with mixtures `vs` is answered by a chunk. -/
def AllChunks (ops : KeyOps K) (fuel : Nat) : Gen K → List (MixView K) → Prop
  | _, [] => True
  | g, v :: vs => (∃ c, (ask ops fuel v g).2 = some (.chunk c)) ∧ AllChunks ops fuel (ask ops fuel v g).1 vs

theorem allChunks_snoc (ops : KeyOps K) (fuel : Nat) (g : Gen K) (vs : List (MixView K)) (v : MixView K) :
    AllChunks ops fuel g (vs ++ [v]) ↔
      AllChunks ops fuel g vs ∧ ∃ c, (ask ops fuel v (askAll ops fuel g vs)).2 = some (.chunk c) := by
  induction vs generalizing g with
  | nil => simp [AllChunks, askAll]
  | cons u vs ih =>
    rw [List.cons_append, AllChunks, AllChunks, ih]
    simp only [askAll, List.foldl_cons]
    tauto

/-- The life of the original query result. -/
structure Orig (ops : KeyOps K) (fuel : Nat) (index : Dict K Entries) (order : List K) (vs : List (MixView K))
    (s : Sess K) : Prop where
  nf : NF ops fuel index order vs s
  replay : s.isReplay = false
  log : s.log = logOf none 0 vs
  ids : KeyIdInv s
  keys : ∀ v ∈ vs, ∀ k ∈ v.rows.keys, k ∈ s.keyIds.keys
  chunks : AllChunks ops fuel (Gen.init index order).core vs
  vsOk : ∀ v ∈ vs, v.rows.keys.Nodup

theorem orig_fresh (ops : KeyOps K) (fuel : Nat) (index : Dict K Entries) (order : List K) (b : Bool) (ref : Nat)
    (v : MixView K) (hv : v.rows.keys.Nodup) : Orig ops fuel index order [] (Sess.fresh ops index order b ref v) where
  nf := { idxEq := rfl, ordEq := rfl, fresh := rfl, ok := rfl, susp := rfl, ns := rfl, cur := rfl, idx := rfl, num := rfl,
          log := rfl, core := rfl, prev := rfl, heap := fun _ => hv }
  replay := rfl
  log := rfl
  ids := (keyIdInv_fresh ops index order b ref v).1
  keys := by simp
  chunks := trivial
  vsOk := by simp

theorem keys_mono {m m' : Dict K Nat} (h : ∀ k i, m.get? k = some i → m'.get? k = some i) (k : K) (hk : k ∈ m.keys) :
    k ∈ m'.keys := by
  rw [Dict.mem_keys_iff] at hk ⊢
  obtain ⟨i, hi⟩ := hk
  exact ⟨i, h k i hi⟩

theorem orig_next (ops : KeyOps K) (fuel : Nat) (hf : 0 < fuel) {index : Dict K Entries} {order : List K}
    {vs : List (MixView K)} {s : Sess K} (h : Orig ops fuel index order vs s) {c : RChunk K}
    (hc : (s.next ops fuel).2 = .chunk c) :
    Orig ops fuel index order (vs ++ [s.heap s.mixRef]) (s.next ops fuel).1 := by
  obtain ⟨h1, h2, h3, h4, h5, h6, h7, h8⟩ := nf_next ops fuel hf h.nf
  have hv : (s.heap s.mixRef).rows.keys.Nodup := h.nf.heap _
  obtain ⟨i1, i2⟩ := keyIds_op ops fuel s h.ids .next
  exact {
    nf := h2 c hc
    replay := h7.trans h.replay
    log := by
      rw [h3, h.log, logOf_snoc, h.replay]
      simp
    ids := i1
    keys := by
      intro v hvm k hk
      rw [List.mem_append, List.mem_singleton] at hvm
      rcases hvm with hvm | rfl
      · exact keys_mono i2 k (h.keys v hvm k hk)
      · rw [h4]
        split
        · exact ((updateKeyIds_spec ops _ s.index.keys s.keyIds h.ids.ok).2.2 k).mpr (Or.inl hk)
        · rename_i hn
          cases hl : vs.getLast? with
          | none => rw [hl] at hn; simp [isNew] at hn
          | some u =>
            have hu : u ∈ vs := List.mem_of_getLast? hl
            rw [hl] at hn
            simp only [isNew, visible] at hn
            split at hn
            · rename_i hr; rw [hr] at hk; simp [Dict.keys] at hk
            · simp only [Bool.not_eq_true', Bool.not_eq_false] at hn
              have := DSim.mk (h.vsOk u hu) hv ((dictEq_iff (h.vsOk u hu) hv).mp hn)
              exact h.keys u hu k (this.keysPerm.mem_iff.mpr hk)
    chunks := by
      rw [allChunks_snoc]
      exact ⟨h.chunks, c, by rw [← h1, hc]⟩
    vsOk := by
      intro v hvm
      rw [List.mem_append, List.mem_singleton] at hvm
      rcases hvm with hvm | rfl
      · exact h.vsOk v hvm
      · exact hv }

theorem nf_update {ops : KeyOps K} {fuel : Nat} {index : Dict K Entries} {order : List K} {vs : List (MixView K)}
    {s : Sess K} (h : NF ops fuel index order vs s) (ref : Nat) (v : MixView K) (hv : v.rows.keys.Nodup) :
    NF ops fuel index order vs (s.update ops ref v) where
  idxEq := h.idxEq
  ordEq := h.ordEq
  fresh := h.fresh
  ok := h.ok
  susp := h.susp
  ns := h.ns
  cur := h.cur
  idx := h.idx
  num := h.num
  log := h.log
  core := h.core
  prev := h.prev
  heap := by
    intro i
    simp only [Sess.update]
    split
    · exact hv
    · exact h.heap i

theorem orig_run (ops : KeyOps K) (fuel : Nat) (hf : 0 < fuel) {index : Dict K Entries} {order : List K}
    (os : List (SOp K)) (ho : ∀ o ∈ os, o.Ok) {vs : List (MixView K)} {s : Sess K}
    (h : Orig ops fuel index order vs s) (hc : ∀ o ∈ (s.run ops fuel os).2, o.isChunk = true) :
    Orig ops fuel index order (vs ++ s.views ops fuel os) (s.run ops fuel os).1 := by
  induction os generalizing s vs with
  | nil => simpa [Sess.run, Sess.views] using h
  | cons o os ih =>
    rw [Sess.run] at hc ⊢
    rw [Sess.views.eq_def]
    dsimp only at hc ⊢
    have hc' : ∀ o' ∈ ((s.op ops fuel o).1.run ops fuel os).2, o'.isChunk = true :=
      fun o' ho' => hc o' (List.mem_append_right _ ho')
    have ho' : ∀ o' ∈ os, o'.Ok := fun o' h' => ho o' (by simp [h'])
    have hok := ho o (by simp)
    obtain ⟨i1, i2⟩ := keyIds_op ops fuel s h.ids o
    match o with
    | .update ref v =>
      have := ih ho' (vs := vs) (s := s.update ops ref v) {
        nf := nf_update h.nf ref v hok
        replay := h.replay
        log := h.log
        ids := i1
        keys := fun v hv k hk => keys_mono i2 k (h.keys v hv k hk)
        chunks := h.chunks
        vsOk := h.vsOk } hc'
      simpa [Sess.op] using this
    | .feedback v =>
      have hh : HeapOk (s.feedback v).heap := by
        intro i
        simp only [Sess.feedback]
        split
        · exact hok
        · exact h.nf.heap i
      have := ih ho' (vs := vs) (s := s.feedback v) {
        nf := ⟨h.nf.idxEq, h.nf.ordEq, h.nf.fresh, h.nf.ok, h.nf.susp, h.nf.ns, h.nf.cur, h.nf.idx, h.nf.num, h.nf.log, h.nf.core,
          h.nf.prev, hh⟩
        replay := h.replay
        log := h.log
        ids := i1
        keys := fun v hv k hk => keys_mono i2 k (h.keys v hv k hk)
        chunks := h.chunks
        vsOk := h.vsOk } hc'
      simpa [Sess.op] using this
    | .next =>
      have hch : (s.next ops fuel).2.isChunk = true := hc _ (List.mem_append_left _ (by simp [Sess.op]))
      match hn : (s.next ops fuel).2, hch with
      | .chunk c, _ =>
        have := ih ho' (orig_next ops fuel hf h hn) hc'
        simpa [Sess.op] using this

/-! ### Replay -/

theorem assignIds_noop (ks : List K) (n : Nat) (m : Dict K Nat) (h : ∀ k ∈ ks, k ∈ m.keys) : assignIds ks n m = m := by
  induction ks with
  | nil => rfl
  | cons k ks ih =>
    rw [assignIds, if_pos ((has_iff m k).mpr (h k (by simp)))]
    exact ih fun k' hk' => h k' (by simp [hk'])

theorem updateKeyIds_noop (ops : KeyOps K) (rows index : List K) (m : Dict K Nat) (h1 : ∀ k ∈ rows, k ∈ m.keys)
    (h2 : ∀ k ∈ index, k ∈ m.keys) : updateKeyIds ops rows index m = m := by
  unfold updateKeyIds
  split
  · apply assignIds_noop
    intro k hk
    rw [(sort_perm ops _).mem_iff, List.mem_append] at hk
    exact hk.elim (h1 k) (h2 k)
  · apply assignIds_noop
    intro k hk
    rw [(sort_perm ops _).mem_iff] at hk
    exact h1 k hk

theorem replayLoop_ok (ops : KeyOps K) (fuel : Nat) (hf : 0 < fuel) {index : Dict K Entries} {order : List K} (ref : Nat)
    (ids : Dict K Nat) (log : List (Nat × MixView K)) (son : Bool) (hidx : ∀ k ∈ index.keys, k ∈ ids.keys)
    (ws : List (MixView K)) : ∀ (vs : List (MixView K)) (u : MixView K) (s : Sess K),
    NF ops fuel index order vs s → s.isReplay = true → s.mixRef = ref → s.heap s.mixRef = u →
    s.keyIds = ids → s.log = log → s.stopOnNone = son →
    (∀ w ∈ ws, w.rows.keys.Nodup ∧ ∀ k ∈ w.rows.keys, k ∈ ids.keys) →
    Noticed (u :: ws) → AllChunks ops fuel (askAll ops fuel (Gen.init index order).core vs) ws →
    ∃ s', replayLoop ops fuel ref vs.length ws.length (logOf (some u) vs.length ws) s = .ok s' ∧
      NF ops fuel index order (vs ++ ws) s' ∧ s'.isReplay = true ∧ s'.mixRef = ref ∧
      s'.heap s'.mixRef = (u :: ws).getLast (by simp) ∧ s'.keyIds = ids ∧ s'.log = log ∧ s'.stopOnNone = son := by
  induction ws with
  | nil =>
    intro vs u s h1 h2 h3 h4 h5 h6 h7 _ _ _
    exact ⟨s, rfl, by simpa using h1, h2, h3, by simpa using h4, h5, h6, h7⟩
  | cons w ws ih =>
    intro vs u s h1 h2 h3 h4 h5 h6 h7 hw hno hch
    obtain ⟨⟨c, hc⟩, hch'⟩ := hch
    obtain ⟨hwn, hwk⟩ := hw w (by simp)
    obtain ⟨hno1, hno2⟩ := hno
    -- the state in which the request is made
    have key : ∃ t rest, s.due ops ref vs.length (logOf (some u) vs.length (w :: ws)) = (t, rest) ∧ rest = logOf (some w) (vs.length + 1) ws ∧
        NF ops fuel index order vs t ∧ t.isReplay = true ∧ t.mixRef = ref ∧ t.heap t.mixRef = w ∧ t.keyIds = ids ∧
        t.log = log ∧ t.stopOnNone = son := by
      rw [logOf]
      by_cases hnew : isNew (some u) w = true
      · refine ⟨s.update ops ref w, logOf (some w) (vs.length + 1) ws, by simp [hnew, Sess.due], rfl, nf_update h1 ref w hwn,
          h2, rfl, by simp [Sess.update], ?_, h6, h7⟩
        show updateKeyIds ops w.rows.keys s.index.keys s.keyIds = ids
        rw [h5]
        exact updateKeyIds_noop ops _ _ _ hwk (by rw [h1.idxEq]; exact hidx)
      · have huw : u = w := hno1 (by simpa [isNew] using hnew)
        refine ⟨s, logOf (some w) (vs.length + 1) ws, ?_, rfl, h1, h2, h3, by rw [h4, huw], h5, h6, h7⟩
        rw [if_neg hnew, List.nil_append]
        cases hl : logOf (some w) (vs.length + 1) ws with
        | nil => rfl
        | cons e l =>
          have := logOf_idx (some w) (vs.length + 1) ws e (by rw [hl]; simp)
          obtain ⟨c', v'⟩ := e
          dsimp only at this
          rw [Sess.due, if_neg (by omega)]
    obtain ⟨t, rest, ht, hrest, t1, t2, t3, t4, t5, t6, t7⟩ := key
    obtain ⟨n1, n2, n3, n4, n5, n6, n7, n8⟩ := nf_next ops fuel hf t1
    have hout : (t.next ops fuel).2 = .chunk c := by
      rw [t4, hc] at n1
      simpa using n1
    have hnf := n2 c hout
    rw [t4] at hnf n3 n4
    have hln : (vs ++ [w]).length = vs.length + 1 := by simp
    have hw' : ∀ w' ∈ ws, w'.rows.keys.Nodup ∧ ∀ k ∈ w'.rows.keys, k ∈ ids.keys := fun w' h' => hw w' (by simp [h'])
    obtain ⟨s', r1, r2, r3⟩ := ih (vs ++ [w]) w (t.next ops fuel).1 hnf (n7.trans t2) (n6.trans t3)
      (by rw [n5, n6, t4]) (by
        rw [n4, t5]
        split
        · exact updateKeyIds_noop ops _ _ _ hwk (by rw [t1.idxEq]; exact hidx)
        · rfl) (by rw [n3, t2, t6]; simp) (n8.trans t7) hw' hno2
      (by rw [askAll, List.foldl_append]; exact hch')
    refine ⟨s', ?_, by simpa using r2, by simpa using r3⟩
    rw [List.length_cons, replayLoop.eq_def]
    dsimp only
    rw [ht]
    dsimp only
    match hnx : t.next ops fuel with
    | (s1, o) =>
      rw [hnx] at hout r1
      dsimp only at hout
      subst hout
      dsimp only
      rw [hln] at r1
      rw [hrest]
      exact r1

/-! ### The continuation -/

theorem step_heap (ops : KeyOps K) (fuel : Nat) (replay : Bool) {a b : Nat → MixView K} (g : Gen K)
    (h : a g.base = b g.base) : g.step ops fuel replay a = g.step ops fuel replay b := by
  unfold Gen.step
  rw [h]

theorem run_heap (ops : KeyOps K) (fuel : Nat) (replay : Bool) {a b : Nat → MixView K} (n : Nat) (g : Gen K)
    (h : a g.base = b g.base) : Gen.run ops fuel replay a n g = Gen.run ops fuel replay b n g := by
  induction n generalizing g with
  | zero => rfl
  | succ n ih =>
    rw [Gen.run, Gen.run, step_heap ops fuel replay g h]
    match hst : g.step ops fuel replay b with
    | (g', some o) => rfl
    | (g', none) =>
      apply ih
      rw [step_base ops fuel replay b g hst]
      exact h

theorem run_base (ops : KeyOps K) (fuel : Nat) (replay : Bool) (a : Nat → MixView K) (n : Nat) (g : Gen K) :
    (Gen.run ops fuel replay a n g).1.base = g.base := by
  induction n generalizing g with
  | zero => rfl
  | succ n ih =>
    rw [Gen.run]
    match hst : g.step ops fuel replay a with
    | (g', some o) => exact step_base ops fuel replay a g hst
    | (g', none) =>
      dsimp only
      rw [ih]
      exact step_base ops fuel replay a g hst

/-- A generator state without the received pair. -/
def Gen.bare (g : Gen K) : Gen K := { g with base := 0, target := 0 }

/-- Two query results that cannot be told apart; `T` are the mixture objects both know. -/
structure Alike (T : Nat → Prop) (s t : Sess K) : Prop where
  index : s.index = t.index
  order : s.order = t.order
  son : s.stopOnNone = t.stopOnNone
  mixRef : s.mixRef = t.mixRef
  mixT : T s.mixRef
  heap : ∀ r, T r → s.heap r = t.heap r
  fresh : s.gen.isNone = t.gen.isNone
  gen : s.theGen.bare = t.theGen.bare
  pair : s.theGen.susp = .afterNone → s.theGen = t.theGen ∧ T s.theGen.base
  idx : s.idx = t.idx
  num : s.numReturns = t.numReturns
  replay : s.isReplay = t.isReplay
  log : s.log = t.log
  ids : s.keyIds = t.keyIds

theorem alike_send (ops : KeyOps K) (fuel : Nat) {T : Nat → Prop} {s t : Sess K} (h : Alike T s t) :
    (s.theGen.send ops fuel s.isReplay s.heap s.mixRef s.idx).1.bare =
      (t.theGen.send ops fuel t.isReplay t.heap t.mixRef t.idx).1.bare ∧
    (s.theGen.send ops fuel s.isReplay s.heap s.mixRef s.idx).2 =
      (t.theGen.send ops fuel t.isReplay t.heap t.mixRef t.idx).2 ∧
    ((s.theGen.send ops fuel s.isReplay s.heap s.mixRef s.idx).1.susp = .afterNone →
      (s.theGen.send ops fuel s.isReplay s.heap s.mixRef s.idx).1 =
        (t.theGen.send ops fuel t.isReplay t.heap t.mixRef t.idx).1 ∧
      T (s.theGen.send ops fuel s.isReplay s.heap s.mixRef s.idx).1.base) := by
  have hg := h.gen
  have hp := h.pair
  rw [h.replay, h.mixRef, h.idx]
  have hT : T t.mixRef := h.mixRef ▸ h.mixT
  generalize s.theGen = g at hg hp ⊢
  generalize t.theGen = g2 at hg hp ⊢
  have hsusp : g.susp = g2.susp := (congrArg Gen.susp hg : g.bare.susp = g2.bare.susp)
  match hs : g.susp with
  | .finished =>
    have hs2 : g2.susp = .finished := hsusp ▸ hs
    have e : ∀ (x : Gen K) (hp : Nat → MixView K), x.susp = .finished →
        x.send ops fuel t.isReplay hp t.mixRef t.idx = (x, .stop) := by
      intro x hp hx; unfold Gen.send; rw [hx]
    rw [e g _ hs, e g2 _ hs2]
    exact ⟨hg, rfl, fun hc => by simp [hs] at hc⟩
  | .ready =>
    rw [send_ready _ _ _ _ _ _ hs, send_ready _ _ _ _ _ _ (hsusp ▸ hs)]
    have e : ({ g with base := t.mixRef, target := t.idx } : Gen K) = { g2 with base := t.mixRef, target := t.idx } := by
      have := congrArg (fun x : Gen K => { x with base := t.mixRef, target := t.idx }) hg
      exact this
    rw [e, run_heap ops fuel t.isReplay fuel _ (show s.heap t.mixRef = t.heap t.mixRef from h.heap _ hT)]
    refine ⟨rfl, rfl, fun _ => ⟨rfl, ?_⟩⟩
    rw [run_base]
    exact hT
  | .afterNone =>
    obtain ⟨e, hb⟩ := hp hs
    subst e
    have e : ∀ (hp : Nat → MixView K),
        g.send ops fuel t.isReplay hp t.mixRef t.idx = Gen.run ops fuel t.isReplay hp fuel g := by
      intro hp; unfold Gen.send; rw [hs]
    rw [e, e, run_heap ops fuel t.isReplay fuel g (h.heap _ hb)]
    refine ⟨rfl, rfl, fun _ => ⟨rfl, ?_⟩⟩
    rw [run_base]
    exact hb

theorem alike_next (ops : KeyOps K) (fuel : Nat) {T : Nat → Prop} {s t : Sess K} (h : Alike T s t) :
    (s.next ops fuel).2 = (t.next ops fuel).2 ∧ Alike T (s.next ops fuel).1 (t.next ops fuel).1 := by
  cases hc : (s.gen.isNone && s.numReturns != 0) with
  | true =>
    have hc' : (t.gen.isNone && t.numReturns != 0) = true := by rw [← h.fresh, ← h.num]; exact hc
    have e : ∀ x : Sess K, (x.gen.isNone && x.numReturns != 0) = true →
        x.next ops fuel = ({ x with idx := x.idx + 1 }, .raised .assertion) := by
      intro x hx; unfold Sess.next; rw [hx, if_pos rfl]
    rw [e s hc, e t hc']
    exact ⟨rfl, { h with idx := by simp [h.idx] }⟩
  | false =>
    have hc' : (t.gen.isNone && t.numReturns != 0) = false := by rw [← h.fresh, ← h.num]; exact hc
    rw [next_after ops fuel s hc, next_after ops fuel t hc']
    obtain ⟨a1, a2, a3⟩ := alike_send ops fuel h
    generalize s.theGen.send ops fuel s.isReplay s.heap s.mixRef s.idx = x at a1 a2 a3
    generalize t.theGen.send ops fuel t.isReplay t.heap t.mixRef t.idx = y at a1 a2 a3
    have hm : x.1.mixtureId = y.1.mixtureId := (congrArg Gen.mixtureId a1 : x.1.bare.mixtureId = y.1.bare.mixtureId)
    have hm0 : s.theGen.mixtureId = t.theGen.mixtureId := (congrArg Gen.mixtureId h.gen : s.theGen.bare.mixtureId = t.theGen.bare.mixtureId)
    refine ⟨a2, ?_⟩
    exact {
      index := h.index
      order := h.order
      son := h.son
      mixRef := h.mixRef
      mixT := h.mixT
      heap := h.heap
      fresh := rfl
      gen := a1
      pair := a3
      idx := by simp only [Sess.after]; rw [a2, h.idx]
      num := by simp only [Sess.after]; rw [h.num]
      replay := h.replay
      log := (congrArg Gen.log a1 : x.1.bare.log = y.1.bare.log)
      ids := by
        simp only [Sess.after]
        rw [hm, hm0, h.ids, h.index, h.heap _ h.mixT, h.mixRef] }

theorem alike_run (ops : KeyOps K) (fuel : Nat) (os : List (SOp K)) {T : Nat → Prop} {s t : Sess K} (h : Alike T s t) :
    (s.run ops fuel os).2 = (t.run ops fuel os).2 ∧
    (s.run ops fuel os).1.keyIds = (t.run ops fuel os).1.keyIds ∧
    (s.run ops fuel os).1.log = (t.run ops fuel os).1.log := by
  induction os generalizing s t T with
  | nil => exact ⟨rfl, h.ids, h.log⟩
  | cons o os ih =>
    rw [Sess.run.eq_def, Sess.run.eq_def]
    dsimp only
    match o with
    | .update ref v =>
      have h' : Alike (fun r => r = ref ∨ T r) (s.update ops ref v) (t.update ops ref v) :=
        ⟨h.index, h.order, h.son, rfl, Or.inl rfl, (by
            intro r hr
            simp only [Sess.update]
            split
            · rfl
            · rename_i hne; exact h.heap r (hr.resolve_left hne)), h.fresh, h.gen,
          fun hs => ⟨(h.pair hs).1, Or.inr (h.pair hs).2⟩, h.idx, h.num, h.replay, h.log, (by
            simp only [Sess.update]; rw [h.index, h.ids])⟩
      have := ih h'
      simpa [Sess.op] using this
    | .feedback v =>
      have h' : Alike T (s.feedback v) (t.feedback v) :=
        ⟨h.index, h.order, h.son, h.mixRef, h.mixT, (by
            intro r hr
            simp only [Sess.feedback]
            rw [h.mixRef]
            split
            · rfl
            · exact h.heap r hr), h.fresh, h.gen, h.pair, h.idx, h.num, h.replay, h.log, h.ids⟩
      have := ih h'
      simpa [Sess.op] using this
    | .next =>
      obtain ⟨h1, h2⟩ := alike_next ops fuel h
      obtain ⟨i1, i2, i3⟩ := ih h2
      simp only [Sess.op, h1, i1, Option.toList_some]
      exact ⟨trivial, i2, i3⟩

theorem visible_self (u : MixView K) (hu : u.rows.keys.Nodup) : visible u u = false := by
  unfold visible
  split
  · rename_i h; simp [h]
  · simp [(dictEq_iff hu hu).mpr fun _ => rfl]

/-- Storing and restoring a query result that has delivered only chunks gives one that cannot be told apart from it. -/
theorem restore_alike (ops : KeyOps K) (fuel : Nat) (hf : 0 < fuel) (index : Dict K Entries)
    (order : List K) (stopOnNone : Bool) (ref0 : Nat) (v0 : MixView K) (hv0 : v0.rows.keys.Nodup)
    (history : List (SOp K)) (hh : ∀ o ∈ history, o.Ok) (s0 s : Sess K)
    (hs0 : s0 = Sess.fresh ops index order stopOnNone ref0 v0) (hs : s = (s0.run ops fuel history).1)
    (hchunks : ∀ o ∈ (s0.run ops fuel history).2, o.isChunk = true)
    (hnoticed : Noticed (s0.views ops fuel history))
    (hlast : ∀ v ∈ (s0.views ops fuel history).getLast?, s.heap s.mixRef = v) :
    ∃ r, fromCache ops fuel s.mixRef s.toCache = .ok r ∧ Alike (fun x => x = s.mixRef) r s := by
  subst hs0
  have ho := orig_run ops fuel hf history hh (orig_fresh ops fuel index order stopOnNone ref0 v0 hv0) hchunks
  rw [← hs, List.nil_append] at ho
  generalize (Sess.fresh ops index order stopOnNone ref0 v0).views ops fuel history = vs at ho hnoticed hlast
  clear hchunks hs hh hv0 history v0 ref0 stopOnNone
  have hnf := ho.nf
  -- the freshly loaded object
  generalize hr0 : (Sess.mk s.index s.order s.stopOnNone (fun _ => s.heap s.mixRef) s.mixRef none 0 0 s.isReplay s.log
    s.keyIds : Sess K) = r0
  have hfc : fromCache ops fuel s.mixRef s.toCache = Sess.replay ops fuel s.mixRef s.numReturns r0 := by
    rw [← hr0]; rfl
  cases vs with
  | nil =>
    refine ⟨r0, ?_, ?_⟩
    · rw [hfc]; unfold Sess.replay; rw [hnf.num]; simp
    · rw [← hr0]
      have hgn : s.theGen.core = (Gen.init index order).core := hnf.core
      cases hsg : s.gen with
      | none =>
        exact {
          index := rfl, order := rfl, son := rfl, mixRef := rfl, mixT := rfl
          heap := by rintro r rfl; rfl
          fresh := by simp [hsg]
          gen := by simp [Sess.theGen, hsg]
          pair := by intro h; simp [Sess.theGen, Gen.init] at h
          idx := hnf.idx.symm, num := hnf.num.symm, replay := rfl, log := rfl, ids := rfl }
      | some g => have := hnf.fresh; simp [hsg] at this
  | cons u ws =>
    have hu : u.rows.keys.Nodup := ho.vsOk u (by simp)
    have hlog : s.log = (0, u) :: logOf (some u) 1 ws := by
      rw [ho.log]; simp [logOf, isNew]
    have hloop : logOf (some u) 0 (u :: ws) = logOf (some u) 1 ws := by
      simp [logOf, isNew, visible_self u hu]
    have hn : s.numReturns = (u :: ws).length := hnf.num
    have hidx : ∀ k ∈ index.keys, k ∈ s.keyIds.keys := by rw [← hnf.idxEq]; exact ho.ids.index
    have hkeys : updateKeyIds ops u.rows.keys s.index.keys s.keyIds = s.keyIds :=
      updateKeyIds_noop ops _ _ _ (ho.keys u (by simp)) (by rw [hnf.idxEq]; exact hidx)
    have hstart : NF ops fuel index order [] (({ r0 with isReplay := true } : Sess K).update ops s.mixRef u) := by
      rw [← hr0]
      exact {
        idxEq := hnf.idxEq, ordEq := hnf.ordEq, fresh := rfl, ok := rfl, susp := rfl, ns := rfl, cur := rfl, idx := rfl
        num := rfl, log := rfl
        core := by
          simp only [Sess.update, Sess.theGen, askAll, List.foldl_nil, hnf.idxEq, hnf.ordEq]; rfl
        prev := rfl
        heap := by
          intro i
          simp only [Sess.update]
          split
          · exact hu
          · exact hnf.heap _ }
    obtain ⟨r, l1, l2, l3, l4, l5, l6, l7, l8⟩ := replayLoop_ok ops fuel hf s.mixRef s.keyIds s.log s.stopOnNone hidx
      (u :: ws) [] u _ hstart rfl rfl (by simp [Sess.update]) (by rw [← hr0]; exact hkeys) (by rw [← hr0]; rfl)
      (by rw [← hr0]; rfl) (fun w hw => ⟨ho.vsOk w hw, ho.keys w hw⟩) ⟨fun _ => rfl, hnoticed⟩ ho.chunks
    rw [List.nil_append] at l2
    refine ⟨{ r with isReplay := false }, ?_, ?_⟩
    · rw [hfc]
      unfold Sess.replay
      have hrl : r0.log = (0, u) :: logOf (some u) 1 ws := by rw [← hr0]; exact hlog
      rw [hn, if_neg (by simp)]
      rw [List.length_nil, hloop] at l1
      split
      · rename_i hl; rw [hrl] at hl; simp at hl
      · rename_i x v rest hl
        rw [hrl] at hl
        simp only [List.cons.injEq, Prod.mk.injEq] at hl
        obtain ⟨⟨_, rfl⟩, rfl⟩ := hl
        rw [l1]
        dsimp only
        rw [if_pos ⟨l2.num, l2.idx⟩]
    · have hcore : r.theGen.core = s.theGen.core := l2.core.trans hnf.core.symm
      have hlogs : r.theGen.log = s.theGen.log := by rw [l2.log, hnf.log, l7]
      have htg : ({ r with isReplay := false } : Sess K).theGen = r.theGen := rfl
      exact {
        index := l2.idxEq.trans hnf.idxEq.symm
        order := l2.ordEq.trans hnf.ordEq.symm
        son := l8
        mixRef := l4
        mixT := l4
        heap := by
          rintro x rfl
          have : s.heap s.mixRef = (u :: ws).getLast (by simp) := hlast _ (by rw [List.getLast?_eq_getLast_of_ne_nil]; rfl)
          rw [this]
          rw [l4] at l5
          show r.heap s.mixRef = _
          rw [l5]
          simp
        fresh := l2.fresh.trans hnf.fresh.symm
        gen := by
          rw [htg]
          have := congrArg (fun x : Gen K => { x with log := s.theGen.log }) hcore
          simp only [Gen.core] at this
          unfold Gen.bare
          rw [hlogs]
          exact this
        pair := by rw [htg, l2.susp]; simp
        idx := l2.idx.trans hnf.idx.symm
        num := l2.num.trans hnf.num.symm
        replay := ho.replay.symm
        log := l7
        ids := l6 }

/-- C13. A query result that has delivered only chunks so far is stored and restored; then, whatever happens
later (updates, feedback, requests, also unserved ones), the restored query result gives the same answers, the
same key ids and the same log as the original. Missing: (1) histories with an unserved request (`None`),
(2) changes of the mixture that the row counts do not show, (3) an update after the last chunk. In these cases
the claim is false: see the three theorems below. -/
theorem c13_restore_continues_partial (ops : KeyOps K) (fuel : Nat) (hf : 0 < fuel) (index : Dict K Entries)
    (order : List K) (stopOnNone : Bool) (ref0 : Nat) (v0 : MixView K) (hv0 : v0.rows.keys.Nodup)
    (history : List (SOp K)) (hh : ∀ o ∈ history, o.Ok) (s0 s : Sess K)
    (hs0 : s0 = Sess.fresh ops index order stopOnNone ref0 v0) (hs : s = (s0.run ops fuel history).1)
    (hchunks : ∀ o ∈ (s0.run ops fuel history).2, o.isChunk = true)
    (hnoticed : Noticed (s0.views ops fuel history))
    (hlast : ∀ v ∈ (s0.views ops fuel history).getLast?, s.heap s.mixRef = v) :
    ∃ r, fromCache ops fuel s.mixRef s.toCache = .ok r ∧ ∀ later : List (SOp K),
      (r.run ops fuel later).2 = (s.run ops fuel later).2 ∧
      (r.run ops fuel later).1.keyIds = (s.run ops fuel later).1.keyIds ∧
      (r.run ops fuel later).1.log = (s.run ops fuel later).1.log := by
  obtain ⟨r, h1, h2⟩ := restore_alike ops fuel hf index order stopOnNone ref0 v0 hv0 history hh s0 s hs0 hs hchunks hnoticed
    hlast
  exact ⟨r, h1, fun later => alike_run ops fuel later h2⟩

/-- Chunks with two mixtures, stored and restored: the theorem applies, and the continuation (with a further
update) is a chunk and then an unserved request. -/
example : let s0 := Sess.fresh Ex.ops Ex.index Ex.order false 0 Ex.strictMix
    let history := [.next, .update 1 ⟨[(2, 1)], true, 1⟩, .next]
    let s := (s0.run Ex.ops 20 history).1
    (∀ o ∈ (s0.run Ex.ops 20 history).2, o.isChunk = true) ∧
    (s0.views Ex.ops 20 history).map (·.rows) = [[(1, 3), (2, 2)], [(2, 1)]] ∧
    (s.heap s.mixRef).rows = [(2, 1)] ∧
    (s.run Ex.ops 20 [.next, .update 2 Ex.strictMix, .next, .next]).2.map Out.seen =
      [.chunk [(2, [(0, 1, 3)])], .chunk [(1, [(0, 0, 1), (0, 0, 2), (0, 0, 5)]), (2, [(0, 1, 4), (0, 1, 5)])], .none] := by
  decide +kernel

/-- The answers after a restore, or the exception raised by it. -/
def afterRestore (s : Sess Nat) (later : List (SOp Nat)) : Except Err (List Seen) :=
  match fromCache Ex.ops 20 s.mixRef s.toCache with
  | .ok r => .ok ((r.run Ex.ops 20 later).2.map Out.seen)
  | .error e => .error e

instance : DecidableEq (Except Err (List Seen)) := fun a b =>
  match a, b with
  | .ok x, .ok y => if h : x = y then isTrue (by rw [h]) else isFalse (by simp [h])
  | .error x, .error y => if h : x = y then isTrue (by rw [h]) else isFalse (by simp [h])
  | .ok _, .error _ => isFalse (by simp)
  | .error _, .ok _ => isFalse (by simp)

/-- C13 fails after an unserved request: the original continues to answer `None`, the stored copy cannot be
loaded (with `stop_on_none`, RuntimeError; without it, AssertionError: the counters disagree). -/
theorem c13_restore_fails_after_none :
    let s := fun b => ((Sess.fresh Ex.ops Ex.index Ex.order b 0 ⟨[(1, 100)], true, 100⟩).run Ex.ops 20 [.next]).1
    ((s true).run Ex.ops 20 [.next]).2.map Out.seen = [.none] ∧
    afterRestore (s true) [.next] = .error .runtimeError ∧ afterRestore (s false) [.next] = .error .assertion := by
  decide +kernel

/-- C13 fails if an update changed only the mode or, without mixture, the chunk size: such an update is not
logged, so replay takes the chunks with the wrong mixture and afterwards delivers samples a second time (here
(0, 1, 1)) or loses samples. -/
theorem c13_restore_diverges_unnoticed :
    let s := ((Sess.fresh Ex.ops Ex.index [2, 11, 1] false 0 ⟨[], true, 1⟩).run Ex.ops 20
      [.next, .update 1 ⟨[], true, 2⟩, .next, .next]).1
    ((Sess.fresh Ex.ops Ex.index [2, 11, 1] false 0 ⟨[], true, 1⟩).run Ex.ops 20
      [.next, .update 1 ⟨[], true, 2⟩, .next, .next]).2.map Out.seen =
        [.chunk [(11, [(0, 0, 0)])], .chunk [(1, [(0, 0, 3), (0, 0, 4)])], .chunk [(2, [(0, 1, 0), (0, 1, 1)])]] ∧
    (s.run Ex.ops 20 [.next, .next]).2.map Out.seen =
      [.chunk [(11, [(0, 0, 1), (0, 0, 2)])], .chunk [(2, [(0, 1, 2), (0, 1, 3)])]] ∧
    afterRestore s [.next, .next] = .ok [.chunk [(11, [(0, 0, 1)])], .chunk [(1, [(0, 0, 4)])]] := by
  decide +kernel

/-- C13 fails for an update after the last chunk: the restored query result goes on with the older mixture. -/
theorem c13_restore_loses_pending_update :
    let s := ((Sess.fresh Ex.ops Ex.index Ex.order false 0 Ex.strictMix).run Ex.ops 20
      [.next, .update 1 ⟨[(2, 1)], true, 1⟩]).1
    (s.run Ex.ops 20 [.next]).2.map Out.seen = [.chunk [(2, [(0, 1, 2)])]] ∧
    afterRestore s [.next] =
      .ok [.chunk [(1, [(0, 0, 1), (0, 0, 2), (0, 0, 5)]), (2, [(0, 1, 2), (0, 1, 3)])]] := by
  decide +kernel

/-! ### C14: keys in chunks have ids -/

theorem arb_next_keys (ops : KeyOps K) (fuel : Nat) {index : Dict K Entries} {order : List K} {last : Option (Out K)}
    {s s' : Sess K} (h : SessInv index order last s) (hl : last ≠ some .none) {c : RChunk K}
    (hn : s.next ops fuel = (s', .chunk c)) (h0 : (s.heap s.mixRef).rows = []) : ∀ k ∈ c.content.keys, k ∈ order := by
  cases hc : (s.gen.isNone && s.numReturns != 0) with
  | true =>
    unfold Sess.next at hn
    rw [hc, if_pos rfl] at hn
    simp at hn
  | false =>
    obtain ⟨_, e2⟩ := theGen_next ops fuel s hc
    rw [hn] at e2
    match hsend : s.theGen.send ops fuel s.isReplay s.heap s.mixRef s.idx with
    | (g', o) =>
      rw [hsend] at e2
      simp only at e2
      subst e2
      have hr : HeapOk (Req.mk s.heap s.mixRef s.idx fuel).heap := h.heap
      have heff : s.theGen.eff ⟨s.heap, s.mixRef, s.idx, fuel⟩ = s.heap s.mixRef := by
        unfold Gen.eff
        rw [if_neg (fun hs => hl (h.susp hs))]
      obtain ⟨g1, hrel, _, hcase⟩ := chunk_facts ops s.isReplay h.gen ⟨s.heap, s.mixRef, s.idx, fuel⟩ hr hsend
      rw [heff] at hcase
      obtain ⟨d, hd⟩ := h.rel
      rcases hcase with ⟨hne, _⟩ | ⟨_, hm⟩
      · exact absurd h0 hne
      · obtain ⟨key, out, hcc, hk, _⟩ := hm.ex
        rw [hrel.order, hd.order] at hk
        intro k hk'
        rw [hcc] at hk'
        simp only [Dict.keys, List.map_cons, List.map_nil, List.mem_singleton] at hk'
        rw [hk']
        exact hk

/-- C14 (chunks). In a history of chunks, every key of every chunk has an id in the map shipped with it. -/
theorem c14_chunk_keys_have_ids_partial (ops : KeyOps K) (fuel : Nat) (hf : 0 < fuel) (index : Dict K Entries)
    (order : List K) (hi : IndexOk index order) (stopOnNone : Bool) (ref0 : Nat) (v0 : MixView K)
    (hv0 : v0.rows.keys.Nodup) (history : List (SOp K)) (hh : ∀ o ∈ history, o.Ok) (s0 s s' : Sess K)
    (hs0 : s0 = Sess.fresh ops index order stopOnNone ref0 v0) (hs : s = (s0.run ops fuel history).1)
    (hchunks : ∀ o ∈ (s0.run ops fuel history).2, o.isChunk = true) (c : RChunk K)
    (hn : s.next ops fuel = (s', .chunk c)) : ∀ k ∈ c.content.keys, k ∈ s'.keyIds.keys := by
  subst hs0
  have ho := orig_run ops fuel hf history hh (orig_fresh ops fuel index order stopOnNone ref0 v0 hv0) hchunks
  rw [← hs, List.nil_append] at ho
  have h := sessInv_run ops fuel history hh (sessInv_fresh ops hi stopOnNone ref0 v0 hv0)
  rw [← hs, Option.or_none] at h
  have hn2 : (s.next ops fuel).2 = .chunk c := by rw [hn]
  have ho' := orig_next ops fuel hf ho hn2
  have hcm := composed_next ops fuel h (by
    intro e
    have := hchunks _ (List.mem_of_getLast? e)
    simp [Out.isChunk] at this) hn
  rw [hn] at ho'
  dsimp only at ho'
  intro k hk
  unfold ComposedBy at hcm
  split at hcm
  · rename_i h0
    have hm := arb_next_keys ops fuel h (by
      intro e
      have := hchunks _ (List.mem_of_getLast? e)
      simp [Out.isChunk] at this) hn h0 k hk
    apply ho'.ids.index
    rw [ho'.nf.idxEq]
    exact hi.order.mem_iff.mp hm
  · exact ho'.keys _ (by simp) k (hcm.2.1 k hk)

/-- The keys a user can know of: those of the index and of all mixtures given so far; feedback brings no others. -/
def FeedbackKnown (known : List K) : List (SOp K) → Prop
  | [] => True
  | .update _ v :: os => FeedbackKnown (known ++ v.rows.keys) os
  | .feedback v :: os => (∀ k ∈ v.rows.keys, k ∈ known) ∧ FeedbackKnown known os
  | .next :: os => FeedbackKnown known os

theorem heapKeys_run (ops : KeyOps K) (fuel : Nat) : ∀ (os : List (SOp K)) (s : Sess K) (known : List K), KeyIdInv s →
    (∀ k ∈ known, k ∈ s.keyIds.keys) → (∀ r, ∀ k ∈ (s.heap r).rows.keys, k ∈ s.keyIds.keys) → FeedbackKnown known os →
    (∀ r, ∀ k ∈ ((s.run ops fuel os).1.heap r).rows.keys, k ∈ (s.run ops fuel os).1.keyIds.keys) ∧
      KeyIdInv (s.run ops fuel os).1
  | [], s, known, hid, _, hh, _ => ⟨hh, hid⟩
  | o :: os, s, known, hid, hk, hh, hf => by
    obtain ⟨h1, h2⟩ := keyIds_op ops fuel s hid o
    have hmono : ∀ k ∈ s.keyIds.keys, k ∈ (s.op ops fuel o).1.keyIds.keys := by
      intro k hk
      cases hg : s.keyIds.get? k with
      | none => exact absurd hk ((Dict.get?_eq_none_iff _ _).mp hg)
      | some i =>
        by_contra hne
        rw [← Dict.get?_eq_none_iff, h2 k i hg] at hne
        simp at hne
    rw [Sess.run]
    dsimp only
    match o with
    | .update ref v =>
      have hv : ∀ k ∈ v.rows.keys, k ∈ (s.update ops ref v).keyIds.keys := fun k hk =>
        ((updateKeyIds_spec ops v.rows.keys s.index.keys s.keyIds hid.ok).2.2 k).mpr (Or.inl hk)
      refine heapKeys_run ops fuel os _ (known ++ v.rows.keys) h1 (fun k hk' => ?_) (fun r k hk' => ?_) hf
      · rcases List.mem_append.mp hk' with h | h
        · exact hmono k (hk k h)
        · exact hv k h
      · simp only [Sess.op, Sess.update] at hk'
        split at hk'
        · exact hv k hk'
        · exact hmono k (hh r k hk')
    | .feedback v =>
      refine heapKeys_run ops fuel os _ known h1 (fun k hk' => hmono k (hk k hk')) (fun r k hk' => ?_) hf.2
      simp only [Sess.op, Sess.feedback] at hk'
      split at hk'
      · exact hmono k (hk k (hf.1 k hk'))
      · exact hmono k (hh r k hk')
    | .next =>
      refine heapKeys_run ops fuel os _ known h1 (fun k hk' => hmono k (hk k hk')) (fun r k hk' => ?_) hf
      have e : (s.next ops fuel).1.heap = s.heap := by unfold Sess.next; split <;> rfl
      simp only [Sess.op, e] at hk'
      exact hmono k (hh r k hk')

/-- C14 (chunks, all histories). Also after unserved requests: as long as feedback only changes the weights of known
keys (as the dynamic mixing algorithms do), every key of every chunk has an id. With feedback that brings new keys (a
mixture schedule) this fails after an unserved request, see `c14_key_without_id`. -/
theorem c14_chunk_keys_known_partial (ops : KeyOps K) (fuel : Nat) (index : Dict K Entries) (order : List K)
    (hi : IndexOk index order) (stopOnNone : Bool) (ref0 : Nat) (v0 : MixView K) (hv0 : v0.rows.keys.Nodup)
    (history : List (SOp K)) (hh : ∀ o ∈ history, o.Ok) (hknown : FeedbackKnown (index.keys ++ v0.rows.keys) history)
    (s s' : Sess K) (hs : s = ((Sess.fresh ops index order stopOnNone ref0 v0).run ops fuel history).1)
    (c : RChunk K) (hn : s.next ops fuel = (s', .chunk c)) : ∀ k ∈ c.content.keys, k ∈ s'.keyIds.keys := by
  obtain ⟨hf1, hf2⟩ := keyIdInv_fresh ops index order stopOnNone ref0 v0
  obtain ⟨hheap, hid⟩ := heapKeys_run ops fuel history _ _ hf1 (fun k hk => by
    rcases List.mem_append.mp hk with h | h
    · exact hf1.index k h
    · exact hf2 k h) (fun r k hk => hf2 k hk) hknown
  have h := sessInv_run ops fuel history hh (sessInv_fresh ops hi stopOnNone ref0 v0 hv0)
  rw [← hs] at hheap hid h
  have hmono : ∀ k ∈ s.keyIds.keys, k ∈ s'.keyIds.keys := by
    intro k hk
    have h2 := (keyIds_op ops fuel s hid .next).2
    simp only [Sess.op, hn] at h2
    cases hg : s.keyIds.get? k with
    | none => exact absurd hk ((Dict.get?_eq_none_iff _ _).mp hg)
    | some i =>
      by_contra hne
      rw [← Dict.get?_eq_none_iff, h2 k i hg] at hne
      simp at hne
  cases hc : (s.gen.isNone && s.numReturns != 0) with
  | true =>
    unfold Sess.next at hn
    rw [hc, if_pos rfl] at hn
    simp at hn
  | false =>
    obtain ⟨_, e2⟩ := theGen_next ops fuel s hc
    rw [hn] at e2
    match hsend : s.theGen.send ops fuel s.isReplay s.heap s.mixRef s.idx with
    | (g', o) =>
      rw [hsend] at e2
      simp only at e2
      subst e2
      have hr : HeapOk (Req.mk s.heap s.mixRef s.idx fuel).heap := h.heap
      obtain ⟨g1, hrel, _, hcase⟩ := chunk_facts ops s.isReplay h.gen ⟨s.heap, s.mixRef, s.idx, fuel⟩ hr hsend
      obtain ⟨d, hd⟩ := h.rel
      intro k hk
      refine hmono k ?_
      rcases hcase with ⟨hne, hm⟩ | ⟨_, hm⟩
      · obtain ⟨att, hsp, hcc, -⟩ := hm.ex
        have := (mix_chunk_keys hsp hcc).1 k hk
        unfold Gen.eff at this
        split at this <;> exact hheap _ k this
      · obtain ⟨key, out, hcc, hk2, _⟩ := hm.ex
        rw [hrel.order, hd.order] at hk2
        rw [hcc] at hk
        simp only [Dict.keys, List.map_cons, List.map_nil, List.mem_singleton] at hk
        rw [hk]
        apply hid.index
        rw [h.idxEq]
        exact hi.order.mem_iff.mp hk2

/-- C14 fails after an unserved request if feedback (for example of a mixture schedule) moves the mixture to new keys
and the user then gives another mixture: the generator still works with the old mixture object, but ids are assigned for
the new one, so the chunk contains a key without an id. -/
theorem c14_key_without_id :
    let index : Dict Nat Entries := [(11, [(0, [(0, [(0, 3)])])]), (12, [(0, [(1, [(0, 10)])])])]
    let s := ((Sess.fresh Ex.ops index [11, 12] false 0 ⟨[(1, 100)], true, 100⟩).run Ex.ops 20
      [.next, .feedback ⟨[(2, 2)], true, 2⟩, .update 1 ⟨[(1, 1)], true, 1⟩]).1
    (s.next Ex.ops 20).2.seen = .chunk [(2, [(0, 1, 0), (0, 1, 1)])] ∧
      (s.next Ex.ops 20).1.keyIds = [(1, 0), (11, 1), (12, 2)] := by
  decide +kernel

/-- A history with an unserved request in which feedback only changes weights. -/
example : let h : List (SOp Nat) := [.next, .feedback ⟨[(2, 2)], true, 2⟩]
    FeedbackKnown (Ex.index.keys ++ [1]) h ∧
    ((Sess.fresh Ex.ops Ex.index Ex.order false 0 ⟨[(1, 100)], true, 100⟩).run Ex.ops 20 (h ++ [.next])).2.map Out.seen =
      [.none, .chunk [(2, [(0, 1, 0), (0, 1, 1)])]] := by
  refine ⟨⟨by decide +kernel, trivial⟩, by decide +kernel⟩

end Mixtera
