import Verif.Model.LogRestore
import Verif.Props.MixtureLog
import Verif.Props.Restore

/-!
# C88: the mixture log on disk over crashes and restores
-/

set_option linter.unusedSectionVars false

namespace Mixtera

variable {K : Type} [DecidableEq K]

/-! ## Vocabulary -/

/-- Mixture objects without rows (`ArbitraryMixture`) stay what they are: `fixed r = some v` if object `r` is one, and has view `v`. -/
def Still (fixed : Nat → Option (MixView K)) : Nat → List (SOp K) → Prop
  | _, [] => True
  | _, .update ref v :: os => (if v.rows = [] then fixed ref = some v else fixed ref = none) ∧ Still fixed ref os
  | cur, .feedback v :: os => (if v.rows = [] then fixed cur = some v else fixed cur = none) ∧ Still fixed cur os
  | cur, .next :: os => Still fixed cur os

/-! ## What a request writes -/

theorem next_dir (ops : KeyOps K) (str : K → String) (fuel : Nat) (s : LogSess K) :
    (s.next ops str fuel).1.dir = writeAll s.dir (s.writes ops str fuel) := by
  unfold LogSess.writes LogSess.next LogSess.dir writeAll
  dsimp only
  generalize s.sess.next ops fuel = r
  obtain ⟨s', o⟩ := r
  dsimp only
  by_cases h : (s'.theGen.mixtureId == s.sess.theGen.mixtureId) = true
  · cases o <;> simp [h, LogWrite.after]
  · cases o <;> simp [h, LogWrite.after]

theorem writeAll_append (d : LogDir) (a b : List LogWrite) : writeAll d (a ++ b) = writeAll (writeAll d a) b :=
  List.foldl_append ..

/-! ## Replay and replay with its writes -/

theorem replayWrites_sess (ops : KeyOps K) (str : K → String) (fuel ref : Nat) (n : Nat) : ∀ (i : Nat)
    (pending : List (Nat × MixView K)) (s : LogSess K),
    (replayWrites ops str fuel ref i n pending s).2.map LogSess.sess = replayLoop ops fuel ref i n pending s.sess := by
  induction n with
  | zero => intro i pending s; rfl
  | succ n ih =>
    intro i pending s
    unfold replayWrites replayLoop
    dsimp only
    have hn : ∀ t : LogSess K, t.next ops str fuel = ((t.next ops str fuel).1, (t.sess.next ops fuel).2) := fun t => rfl
    have hs : ∀ t : LogSess K, (t.next ops str fuel).1.sess = (t.sess.next ops fuel).1 := fun t => rfl
    rw [hn]
    have hs' := hs { s with sess := (s.sess.due ops ref i pending).1 }
    dsimp only at hs' ⊢
    match hx : (s.sess.due ops ref i pending).1.next ops fuel with
    | (s1, o) =>
      rw [hx] at hs'
      cases o with
      | chunk c => dsimp only; rw [ih, hs']
      | none =>
        dsimp only
        rw [hs']
        split
        · rfl
        · dsimp only; rw [ih, hs']
      | stop => rfl
      | raised e => rfl

theorem replayWrites_dir (ops : KeyOps K) (str : K → String) (fuel ref : Nat) (n : Nat) : ∀ (i : Nat)
    (pending : List (Nat × MixView K)) (s s' : LogSess K),
    (replayWrites ops str fuel ref i n pending s).2 = .ok s' →
    s'.dir = writeAll s.dir (replayWrites ops str fuel ref i n pending s).1 := by
  induction n with
  | zero =>
    intro i pending s s' h
    injection h with h
    subst h; rfl
  | succ n ih =>
    intro i pending s s'
    unfold replayWrites
    dsimp only
    have hd := next_dir ops str fuel { s with sess := (s.sess.due ops ref i pending).1 }
    have hd0 : ({ s with sess := (s.sess.due ops ref i pending).1 } : LogSess K).dir = s.dir := rfl
    rw [hd0] at hd
    match hx : ({ s with sess := (s.sess.due ops ref i pending).1 } : LogSess K).next ops str fuel with
    | (s1, o) =>
      rw [hx] at hd
      cases o with
      | chunk c =>
        dsimp only
        intro h
        rw [writeAll_append, ← hd]
        exact ih _ _ _ _ h
      | none =>
        dsimp only
        by_cases hb : s1.sess.stopOnNone = true
        · simp only [if_pos hb]; intro h; cases h
        · simp only [if_neg hb]
          intro h
          rw [writeAll_append, ← hd]
          exact ih _ _ _ _ h
      | stop => dsimp only; intro h; cases h
      | raised e => dsimp only; intro h; cases h

/-! ## What a replay writes -/

/-- The writes of a replay of chunks with the mixtures `ws` from number `i` on. -/
def writesOf (str : K → String) (log : List (Nat × MixView K)) : Option (MixView K) → Nat → List (MixView K) → List LogWrite
  | _, _, [] => []
  | last, i, w :: ws => (if isNew last w then [.mix (persistLog str log (i + 1))] else []) ++ .idx i :: writesOf str log (some w) (i + 1) ws

theorem nf_mixtureId (ops : KeyOps K) (fuel : Nat) {index : Dict K Entries} {order : List K} {vs : List (MixView K)} {v : MixView K}
    {s s' : Sess K} (h : NF ops fuel index order vs s) (h' : NF ops fuel index order (vs ++ [v]) s') (hv : v.rows.keys.Nodup) :
    s'.theGen.mixtureId = s.theGen.mixtureId + (if isNew vs.getLast? v then 1 else 0) := by
  have e1 : s'.theGen.core.mixtureId = _ := congrArg Gen.mixtureId h'.core
  have e2 : s.theGen.core.mixtureId = _ := congrArg Gen.mixtureId h.core
  have hl : isLogged s.theGen.prev s.theGen.cur v = isNew vs.getLast? v := by
    refine isLogged_isNew h.prev _ ?_ v hv
    rw [h.cur, List.getLast?_eq_none_iff, List.length_eq_zero_iff]
  have hfa := (ask_facts ops fuel v s.theGen.core h.susp h.ns).1
  have hh : isLogged s.theGen.core.prev s.theGen.core.cur v = isNew vs.getLast? v := hl
  rw [hh, h.core] at hfa
  show s'.theGen.core.mixtureId = s.theGen.core.mixtureId + _
  rw [e1, e2, ← hfa]
  simp [askAll]

theorem step_target (ops : KeyOps K) (fuel : Nat) (replay : Bool) (heap : Nat → MixView K) (g : Gen K) :
    (g.step ops fuel replay heap).1.target = g.target := by
  unfold Gen.step
  split
  · rfl
  · dsimp only
    split
    · unfold stepArbitrary
      dsimp only
      repeat' split
      all_goals rfl
    · rw [stepMixture_eq]
      have h1 : (mixNoticed replay (heap g.base) g).target = g.target := by
        unfold mixNoticed
        split <;> rfl
      rw [← h1]
      generalize mixNoticed replay (heap g.base) g = g1
      unfold mixTail
      split
      · rfl
      · split <;> rfl
      · rfl

theorem run_target (ops : KeyOps K) (fuel : Nat) (replay : Bool) (a : Nat → MixView K) (n : Nat) (g : Gen K) :
    (Gen.run ops fuel replay a n g).1.target = g.target := by
  induction n generalizing g with
  | zero => rfl
  | succ n ih =>
    rw [Gen.run]
    have hst := step_target ops fuel replay a g
    match hx : g.step ops fuel replay a with
    | (g', some o) => rw [hx] at hst; exact hst
    | (g', none) =>
      dsimp only
      rw [ih]
      rw [hx] at hst; exact hst

/-- After a request, the generator works with the mixture and the index of the request. -/
theorem nf_target (ops : KeyOps K) (fuel : Nat) {index : Dict K Entries} {order : List K} {vs : List (MixView K)}
    {s : Sess K} (h : NF ops fuel index order vs s) :
    (s.next ops fuel).1.theGen.target = vs.length ∧ (s.next ops fuel).1.theGen.base = s.mixRef := by
  rw [next_after ops fuel s h.ok, send_ready _ _ _ _ _ _ h.susp]
  show (Gen.run ops fuel s.isReplay s.heap fuel _).1.target = _ ∧ (Gen.run ops fuel s.isReplay s.heap fuel _).1.base = _
  rw [run_target, run_base]
  exact ⟨h.idx, rfl⟩

theorem resolved_copies (s : LogSess K) (log : List (Nat × MixView K)) (h : s.log = log.map fun e => (e.1, .copy e.2)) :
    s.resolved = log := by
  unfold LogSess.resolved
  rw [h, List.map_map]
  simp [Function.comp_def, Logged.view]

/-- One request of a replay. -/
theorem replay_step (ops : KeyOps K) (str : K → String) (fuel : Nat) (hf : 0 < fuel) {index : Dict K Entries} {order : List K}
    {vs : List (MixView K)} {w : MixView K} {log : List (Nat × MixView K)} {t : LogSess K} {c : RChunk K}
    (h : NF ops fuel index order vs t.sess) (hr : t.sess.isReplay = true) (hw : t.sess.heap t.sess.mixRef = w)
    (hc : (t.next ops str fuel).2 = .chunk c) (hl : t.log = log.map fun e => (e.1, .copy e.2)) :
    (t.next ops str fuel).1.log = t.log ∧
    t.writes ops str fuel = (if isNew vs.getLast? w then [.mix (persistLog str log (vs.length + 1))] else []) ++ [.idx vs.length] := by
  obtain ⟨n1, n2, n3, n4, n5, n6, n7, n8⟩ := nf_next ops fuel hf h
  have hc' : (t.sess.next ops fuel).2 = .chunk c := hc
  have hnf := n2 c hc'
  rw [hw] at hnf n3
  have hnod : w.rows.keys.Nodup := by rw [← hw]; exact h.heap _
  have hid := nf_mixtureId ops fuel h hnf hnod
  have htg := (nf_target ops fuel h).1
  have hlog : (t.sess.next ops fuel).1.log.drop t.sess.log.length = [] := by rw [n3, hr]; simp
  have e1 : (t.next ops str fuel).1.log = t.log := by
    unfold LogSess.next
    dsimp only
    rw [hlog]; simp
  refine ⟨e1, ?_⟩
  have hres : ({ (t.next ops str fuel).1 with mixFile := t.mixFile, idxFile := t.idxFile } : LogSess K).resolved = log :=
    resolved_copies _ _ (by show (t.next ops str fuel).1.log = _; rw [e1, hl])
  have e2 : (t.next ops str fuel).1.mixFile =
      if !((t.sess.next ops fuel).1.theGen.mixtureId == t.sess.theGen.mixtureId) then some (persistLog str log (t.sess.idx + 1))
      else t.mixFile := by
    rw [← hres]
    rfl
  have e3 : (t.next ops str fuel).1.idxFile = some vs.length := by
    unfold LogSess.next
    dsimp only
    rw [hc', htg]
  unfold LogSess.writes
  dsimp only
  rw [hc, e3, e2]
  have e4 : (t.next ops str fuel).1.sess = (t.sess.next ops fuel).1 := rfl
  rw [e4, hid, h.idx]
  by_cases hn : isNew vs.getLast? w = true
  · simp [hn]
  · simp [hn]

/-- A replay of chunks, with what it writes. -/
theorem replayWrites_ok (ops : KeyOps K) (str : K → String) (fuel : Nat) (hf : 0 < fuel) {index : Dict K Entries} {order : List K}
    (ref : Nat) (ids : Dict K Nat) (log : List (Nat × MixView K)) (hidx : ∀ k ∈ index.keys, k ∈ ids.keys)
    (ws : List (MixView K)) : ∀ (vs : List (MixView K)) (u : MixView K) (s : LogSess K),
    NF ops fuel index order vs s.sess → s.sess.isReplay = true → s.sess.mixRef = ref → s.sess.heap s.sess.mixRef = u →
    s.sess.keyIds = ids → s.log = log.map (fun e => (e.1, .copy e.2)) →
    (∀ w ∈ ws, w.rows.keys.Nodup ∧ ∀ k ∈ w.rows.keys, k ∈ ids.keys) →
    Noticed (u :: ws) → AllChunks ops fuel (askAll ops fuel (Gen.init index order).core vs) ws →
    ∃ s', replayWrites ops str fuel ref vs.length ws.length (logOf (some u) vs.length ws) s =
        (writesOf str log vs.getLast? vs.length ws, .ok s') ∧ s'.log = s.log ∧
      NF ops fuel index order (vs ++ ws) s'.sess ∧ s'.sess.isReplay = true ∧
      (ws ≠ [] → s'.sess.theGen.base = ref) := by
  induction ws with
  | nil =>
    intro vs u s h1 h2 h3 h4 h5 h6 _ _ _
    exact ⟨s, rfl, rfl, by simpa using h1, h2, by simp⟩
  | cons w ws ih =>
    intro vs u s h1 h2 h3 h4 h5 h6 hw hno hch
    obtain ⟨⟨c, hc⟩, hch'⟩ := hch
    obtain ⟨hwn, hwk⟩ := hw w (by simp)
    obtain ⟨hno1, hno2⟩ := hno
    have key : ∃ t rest, s.sess.due ops ref vs.length (logOf (some u) vs.length (w :: ws)) = (t, rest) ∧
        rest = logOf (some w) (vs.length + 1) ws ∧
        NF ops fuel index order vs t ∧ t.isReplay = true ∧ t.mixRef = ref ∧ t.heap t.mixRef = w ∧ t.keyIds = ids := by
      rw [logOf]
      by_cases hnew : isNew (some u) w = true
      · refine ⟨s.sess.update ops ref w, logOf (some w) (vs.length + 1) ws, by simp [hnew, Sess.due], rfl, nf_update h1 ref w hwn,
          h2, rfl, by simp [Sess.update], ?_⟩
        show updateKeyIds ops w.rows.keys s.sess.index.keys s.sess.keyIds = ids
        rw [h5]
        exact updateKeyIds_noop ops _ _ _ hwk (by rw [h1.idxEq]; exact hidx)
      · have huw : u = w := hno1 (by simpa [isNew] using hnew)
        refine ⟨s.sess, logOf (some w) (vs.length + 1) ws, ?_, rfl, h1, h2, h3, by rw [h4, huw], h5⟩
        rw [if_neg hnew, List.nil_append]
        cases hl : logOf (some w) (vs.length + 1) ws with
        | nil => rfl
        | cons e l =>
          have := logOf_idx (some w) (vs.length + 1) ws e (by rw [hl]; simp)
          obtain ⟨c', v'⟩ := e
          dsimp only at this
          rw [Sess.due, if_neg (by omega)]
    obtain ⟨t, rest, ht, hrest, t1, t2, t3, t4, t5⟩ := key
    obtain ⟨n1, n2, n3, n4, n5, n6, n7, n8⟩ := nf_next ops fuel hf t1
    have hout : (t.next ops fuel).2 = .chunk c := by
      rw [t4, hc] at n1
      simpa using n1
    have hnf := n2 c hout
    rw [t4] at hnf n3 n4
    have hln : (vs ++ [w]).length = vs.length + 1 := by simp
    have hw' : ∀ w' ∈ ws, w'.rows.keys.Nodup ∧ ∀ k ∈ w'.rows.keys, k ∈ ids.keys := fun w' h' => hw w' (by simp [h'])
    obtain ⟨p1, p2⟩ := replay_step ops str fuel hf (t := { s with sess := t }) (w := w) (log := log) (c := c) t1 t2 t4 hout h6
    obtain ⟨s', r1, r2, r3, r4, r5⟩ := ih (vs ++ [w]) w (({ s with sess := t } : LogSess K).next ops str fuel).1 hnf (n7.trans t2)
      (n6.trans t3)
      (by show (t.next ops fuel).1.heap (t.next ops fuel).1.mixRef = w; rw [n5, n6, t4]) (by
        show (t.next ops fuel).1.keyIds = ids
        rw [n4, t5]
        split
        · exact updateKeyIds_noop ops _ _ _ hwk (by rw [t1.idxEq]; exact hidx)
        · rfl) (by rw [p1]; exact h6) hw' hno2
      (by rw [askAll, List.foldl_append]; exact hch')
    refine ⟨s', ?_, r2.trans p1, by simpa using r3, r4, fun _ => ?_⟩
    · rw [List.length_cons]
      unfold replayWrites
      dsimp only
      rw [ht]
      dsimp only
      have hnx : ({ s with sess := t } : LogSess K).next ops str fuel =
          ((({ s with sess := t } : LogSess K).next ops str fuel).1, .chunk c) := Prod.ext rfl hout
      rw [hnx]
      dsimp only
      rw [hrest, p2]
      rw [hln] at r1
      rw [r1]
      simp [writesOf]
    · by_cases hws : ws = []
      · subst hws
        have e : s' = (({ s with sess := t } : LogSess K).next ops str fuel).1 := by
          have := congrArg Prod.snd r1
          simp [replayWrites] at this
          exact this.symm
        rw [e]
        exact ((nf_target ops fuel t1).2).trans t3
      · exact r5 hws

theorem writeAll_writesOf (str : K → String) (log : List (Nat × MixView K)) (ws : List (MixView K)) :
    ∀ (last : Option (MixView K)) (i : Nat) (d : LogDir),
    (writeAll d (writesOf str log last i ws)).mix =
      (match (logOf last i ws).getLast? with
        | none => d.mix
        | some e => .text (persistLog str log (e.1 + 1))) ∧
    (ws ≠ [] → (writeAll d (writesOf str log last i ws)).idx = .text (i + ws.length - 1)) := by
  induction ws with
  | nil => intro last i d; exact ⟨rfl, by simp⟩
  | cons w ws ih =>
    intro last i d
    rw [writesOf, writeAll_append, logOf]
    generalize hd1 : writeAll d (if isNew last w then [.mix (persistLog str log (i + 1))] else []) = d1
    have hd1m : d1.mix = if isNew last w then .text (persistLog str log (i + 1)) else d.mix := by
      rw [← hd1]
      by_cases hn : isNew last w = true
      · simp [hn, writeAll, LogWrite.after]
      · simp [hn, writeAll]
    obtain ⟨h1, h2⟩ := ih (some w) (i + 1) { d1 with idx := .text i }
    have e : writeAll d1 (.idx i :: writesOf str log (some w) (i + 1) ws) =
        writeAll { d1 with idx := .text i } (writesOf str log (some w) (i + 1) ws) := rfl
    rw [e]
    constructor
    · rw [h1, List.getLast?_append]
      cases hl : (logOf (some w) (i + 1) ws).getLast? with
      | some e => rfl
      | none =>
        show d1.mix = _
        rw [hd1m]
        by_cases hn : isNew last w = true
        · simp [hn]
        · simp [hn]
    · intro _
      by_cases hws : ws = []
      · subst hws; simp [writesOf, writeAll]
      · rw [h2 hws]
        congr 1
        simp only [List.length_cons]
        omega

/-- At a crash point of a replay. -/
theorem crash_writesOf (str : K → String) (log : List (Nat × MixView K)) (ws : List (MixView K)) :
    ∀ (last : Option (MixView K)) (i : Nat) (d : LogDir), ∀ t ∈ crashDirs d (writesOf str log last i ws),
    (t.mix = d.mix ∨ t.mix = .torn ∨ ∃ e ∈ logOf last i ws, t.mix = .text (persistLog str log (e.1 + 1))) ∧
    (t.idx = d.idx ∨ t.idx = .torn ∨ ∃ j, i ≤ j ∧ j < i + ws.length ∧ t.idx = .text j) := by
  induction ws with
  | nil =>
    intro last i d t ht
    simp only [writesOf, crashDirs, List.mem_singleton] at ht
    subst ht; exact ⟨.inl rfl, .inl rfl⟩
  | cons w ws ih =>
    intro last i d t ht
    have hidx : ∀ d' : LogDir, ∀ t ∈ crashDirs d' (.idx i :: writesOf str log (some w) (i + 1) ws),
        (t.mix = d'.mix ∨ t.mix = .torn ∨ ∃ e ∈ logOf (some w) (i + 1) ws, t.mix = .text (persistLog str log (e.1 + 1))) ∧
        (t.idx = d'.idx ∨ t.idx = .torn ∨ ∃ j, i ≤ j ∧ j < i + (w :: ws).length ∧ t.idx = .text j) := by
      intro d' t ht
      simp only [crashDirs, List.mem_cons] at ht
      rcases ht with rfl | rfl | ht
      · exact ⟨.inl rfl, .inl rfl⟩
      · exact ⟨.inl rfl, .inr (.inl rfl)⟩
      · obtain ⟨h1, h2⟩ := ih (some w) (i + 1) _ t ht
        refine ⟨h1, ?_⟩
        rcases h2 with h2 | h2 | ⟨j, h3, h4, h5⟩
        · exact .inr (.inr ⟨i, le_rfl, by simp, h2⟩)
        · exact .inr (.inl h2)
        · exact .inr (.inr ⟨j, by omega, by simp only [List.length_cons]; omega, h5⟩)
    rw [writesOf] at ht
    by_cases hn : isNew last w = true
    · rw [if_pos hn] at ht
      simp only [List.singleton_append, crashDirs, List.mem_cons] at ht
      have hL : logOf last i (w :: ws) = (i, w) :: logOf (some w) (i + 1) ws := by rw [logOf, if_pos hn]; rfl
      rw [hL]
      have fin : ∀ d' : LogDir, d'.idx = d.idx → (d'.mix = .text (persistLog str log (i + 1))) →
          t ∈ crashDirs d' (.idx i :: writesOf str log (some w) (i + 1) ws) → _ := fun d' hd1 hd2 ht' => by
        obtain ⟨h1, h2⟩ := hidx d' t ht'
        rw [hd1] at h2
        rw [hd2] at h1
        refine (⟨?_, h2⟩ : (t.mix = d.mix ∨ t.mix = .torn ∨ ∃ e ∈ (i, w) :: logOf (some w) (i + 1) ws,
          t.mix = .text (persistLog str log (e.1 + 1))) ∧ _)
        rcases h1 with h1 | h1 | ⟨e, he, h1⟩
        · exact .inr (.inr ⟨(i, w), by simp, h1⟩)
        · exact .inr (.inl h1)
        · exact .inr (.inr ⟨e, List.mem_cons_of_mem _ he, h1⟩)
      rcases ht with rfl | rfl | ht
      · exact ⟨.inl rfl, .inl rfl⟩
      · exact ⟨.inr (.inl rfl), .inl rfl⟩
      · exact fin (LogWrite.after d (.mix (persistLog str log (i + 1)))) rfl rfl (by simpa [crashDirs] using ht)
    · rw [if_neg hn, List.nil_append] at ht
      have hL : logOf last i (w :: ws) = logOf (some w) (i + 1) ws := by rw [logOf, if_neg hn]; rfl
      rw [hL]
      exact hidx d t ht

/-- Restoring a query result that has delivered only chunks: what it writes, and its state. -/
theorem restoreLog_ok (ops : KeyOps K) (str : K → String) (fuel : Nat) (hf : 0 < fuel) {index : Dict K Entries} {order : List K}
    {vs : List (MixView K)} {s : Sess K} (ho : Orig ops fuel index order vs s) (hnoticed : Noticed vs) :
    ∃ r, restoreLog ops str fuel s.mixRef s.toCache = (writesOf str s.log none 0 vs, .ok r) ∧
      r.log = s.log.map (fun e => (e.1, .copy e.2)) ∧ NF ops fuel index order vs r.sess ∧ r.sess.isReplay = false ∧
      (vs ≠ [] → r.sess.theGen.base = s.mixRef) := by
  have hnf := ho.nf
  generalize hr0 : (Sess.mk s.index s.order s.stopOnNone (fun _ => s.heap s.mixRef) s.mixRef none 0 0 s.isReplay s.log
    s.keyIds : Sess K) = r0
  generalize hR0 : (LogSess.mk r0 (s.log.map fun e => (e.1, .copy e.2)) none none : LogSess K) = R0
  have hRl : R0.log = s.log.map fun e => (e.1, .copy e.2) := by rw [← hR0]
  have hRs : R0.sess = r0 := by rw [← hR0]
  have hfc : restoreLog ops str fuel s.mixRef s.toCache = LogSess.replay ops str fuel s.mixRef s.numReturns R0 := by
    rw [← hR0, ← hr0]; rfl
  have hstart : NF ops fuel index order [] r0 := by
    rw [← hr0]
    exact {
      idxEq := hnf.idxEq, ordEq := hnf.ordEq, fresh := rfl, ok := rfl, susp := rfl, ns := rfl, cur := rfl, idx := rfl
      num := rfl, log := rfl
      core := by
        simp only [Sess.theGen, askAll, List.foldl_nil, hnf.idxEq, hnf.ordEq]; rfl
      prev := rfl
      heap := fun i => hnf.heap _ }
  cases vs with
  | nil =>
    refine ⟨R0, ?_, hRl, by rw [hRs]; exact hstart, ?_, by simp⟩
    · rw [hfc]; unfold LogSess.replay; rw [hnf.num]; simp [writesOf]
    · rw [hRs, ← hr0]; exact ho.replay
  | cons u ws =>
    have hu : u.rows.keys.Nodup := ho.vsOk u (by simp)
    have hlog : s.log = (0, u) :: logOf (some u) 1 ws := by
      rw [ho.log]; simp [logOf, isNew]
    have hloop : logOf (some u) 0 (u :: ws) = logOf (some u) 1 ws := by
      simp [logOf, isNew, visible_self u hu]
    have hn : s.numReturns = (u :: ws).length := hnf.num
    have hidx : ∀ k ∈ index.keys, k ∈ s.keyIds.keys := by rw [← hnf.idxEq]; exact ho.ids.index
    have hkeys : updateKeyIds ops u.rows.keys s.index.keys s.keyIds = s.keyIds :=
      updateKeyIds_noop ops _ _ _ (ho.keys u (by simp)) (by rw [hnf.idxEq]; exact hidx)
    have hst' : NF ops fuel index order [] { r0 with isReplay := true } := {
      idxEq := hstart.idxEq, ordEq := hstart.ordEq, fresh := hstart.fresh, ok := hstart.ok, susp := hstart.susp, ns := hstart.ns
      cur := hstart.cur, idx := hstart.idx, num := hstart.num, log := hstart.log, core := hstart.core, prev := hstart.prev
      heap := hstart.heap }
    obtain ⟨r, l1, l2, l3, l4, l5⟩ := replayWrites_ok ops str fuel hf s.mixRef s.keyIds s.log hidx
      (u :: ws) [] u { R0 with sess := ({ r0 with isReplay := true } : Sess K).update ops s.mixRef u } (nf_update hst' _ _ hu)
      rfl rfl (by simp [Sess.update]) (by rw [← hr0]; exact hkeys) hRl
      (fun w hw => ⟨ho.vsOk w hw, ho.keys w hw⟩) ⟨fun _ => rfl, hnoticed⟩ ho.chunks
    rw [List.nil_append] at l3
    refine ⟨{ r with sess := { r.sess with isReplay := false } }, ?_, l2.trans hRl, {
      idxEq := l3.idxEq, ordEq := l3.ordEq, fresh := l3.fresh, ok := l3.ok, susp := l3.susp, ns := l3.ns
      cur := l3.cur, idx := l3.idx, num := l3.num, log := l3.log, core := l3.core, prev := l3.prev
      heap := l3.heap }, rfl, fun _ => l5 (by simp)⟩
    rw [hfc]
    unfold LogSess.replay
    have hrl : R0.sess.log = (0, u) :: logOf (some u) 1 ws := by rw [hRs, ← hr0]; exact hlog
    rw [hn, if_neg (by simp)]
    rw [List.length_nil, hloop] at l1
    split
    · rename_i hl; rw [hrl] at hl; simp at hl
    · rename_i x v rest hl
      rw [hrl] at hl
      simp only [List.cons.injEq, Prod.mk.injEq] at hl
      obtain ⟨⟨_, rfl⟩, rfl⟩ := hl
      dsimp only
      rw [hRs, l1]
      dsimp only
      rw [if_pos ⟨l3.num, l3.idx⟩]
      rfl

theorem replay_sess (ops : KeyOps K) (str : K → String) (fuel ref n : Nat) (s : LogSess K) :
    (LogSess.replay ops str fuel ref n s).2.map LogSess.sess = Sess.replay ops fuel ref n s.sess := by
  obtain ⟨⟨index, order, son, heap, mixRef, gen, idx, num, rep, log, ids⟩, l, mf, xf⟩ := s
  unfold LogSess.replay Sess.replay
  by_cases h : n < 1
  · simp only [if_pos h]; rfl
  · simp only [if_neg h]
    cases log with
    | nil => rfl
    | cons e rest =>
      obtain ⟨i, v⟩ := e
      dsimp only
      generalize hX : (LogSess.mk (Sess.update ops (Sess.mk index order son heap mixRef gen idx num true ((i, v) :: rest) ids) ref v)
        l mf xf : LogSess K) = X
      have := replayWrites_sess ops str fuel ref n 0 rest X
      have hXs : X.sess = Sess.update ops (Sess.mk index order son heap mixRef gen idx num true ((i, v) :: rest) ids) ref v := by
        rw [← hX]
      rw [← hXs, ← this]
      cases (replayWrites ops str fuel ref 0 n rest X).2 with
      | error e => rfl
      | ok s' =>
        dsimp only [Except.map]
        by_cases hc : s'.sess.numReturns = n ∧ s'.sess.idx = n
        · simp only [if_pos hc]
        · simp only [if_neg hc]

theorem restoreLog_sess (ops : KeyOps K) (str : K → String) (fuel ref : Nat) (c : Cached K) :
    (restoreLog ops str fuel ref c).2.map LogSess.sess = fromCache ops fuel ref c := replay_sess ..

theorem replay_dir (ops : KeyOps K) (str : K → String) (fuel ref n : Nat) (s r : LogSess K) (W : List LogWrite)
    (h : LogSess.replay ops str fuel ref n s = (W, .ok r)) : r.dir = writeAll s.dir W := by
  obtain ⟨⟨index, order, son, heap, mixRef, gen, idx, num, rep, log, ids⟩, l, mf, xf⟩ := s
  unfold LogSess.replay at h
  by_cases hn : n < 1
  · rw [if_pos hn] at h
    injection h with h1 h2
    injection h2 with h2
    subst h1 h2; rfl
  · rw [if_neg hn] at h
    cases log with
    | nil => injection h with h1 h2; cases h2
    | cons e rest =>
      obtain ⟨i, v⟩ := e
      dsimp only at h
      generalize hX : (LogSess.mk (Sess.update ops (Sess.mk index order son heap mixRef gen idx num true ((i, v) :: rest) ids) ref v)
        l mf xf : LogSess K) = X at h
      injection h with h1 h2
      have hd := replayWrites_dir ops str fuel ref n 0 rest X
      rw [h1] at hd
      cases hx : (replayWrites ops str fuel ref 0 n rest X).2 with
      | error e => rw [hx] at h2; cases h2
      | ok s' =>
        rw [hx] at h2
        dsimp only at h2
        by_cases hc : s'.sess.numReturns = n ∧ s'.sess.idx = n
        · rw [if_pos hc] at h2
          injection h2 with h2
          subst h2
          have := hd s' hx
          rw [← hX] at this
          exact this
        · rw [if_neg hc] at h2; cases h2

theorem restoreLog_dir (ops : KeyOps K) (str : K → String) (fuel ref : Nat) (c : Cached K) (W : List LogWrite) (r : LogSess K)
    (h : restoreLog ops str fuel ref c = (W, .ok r)) : r.dir = writeAll {} W := replay_dir ops str fuel ref _ _ r W h

/-! ## The log holds references to mixtures without rows -/

def FixedOk (fixed : Nat → Option (MixView K)) (v : MixView K) (r : Nat) : Prop :=
  if v.rows = [] then fixed r = some v else fixed r = none

theorem fixedOk_iff {fixed : Nat → Option (MixView K)} {v : MixView K} {r : Nat} (h : FixedOk fixed v r) :
    v.rows = [] ↔ fixed r ≠ none := by
  unfold FixedOk at h
  split at h
  · rename_i hr; simp [hr, h]
  · rename_i hr; simp [hr, h]

theorem still_steady {fixed : Nat → Option (MixView K)} (os : List (SOp K)) : ∀ cur, Still fixed cur os →
    Steady (fun r => fixed r ≠ none) cur os := by
  induction os with
  | nil => intro cur _; trivial
  | cons o os ih =>
    intro cur h
    cases o with
    | update ref v => exact ⟨fixedOk_iff h.1, ih _ h.2⟩
    | feedback v => exact ⟨fixedOk_iff h.1, ih _ h.2⟩
    | next => exact ih _ h

/-- Every entry of the log is a copy, or a reference to a mixture that is what it was. -/
structure StillInv (fixed : Nat → Option (MixView K)) (s : LogSess K) : Prop where
  cur : FixedOk fixed (s.sess.heap s.sess.mixRef) s.sess.mixRef
  base : s.sess.gen.isSome = true → FixedOk fixed (s.sess.heap s.sess.theGen.base) s.sess.theGen.base
  ents : List.Forall₂ (fun (a : Nat × Logged K) (b : Nat × MixView K) => a.1 = b.1 ∧
    (a.2 = .copy b.2 ∨ ∃ r, a.2 = .ref r ∧ fixed r = some b.2 ∧ s.sess.heap r = b.2)) s.log s.sess.log

theorem StillInv.resolved {fixed : Nat → Option (MixView K)} {s : LogSess K} (h : StillInv fixed s) : s.resolved = s.sess.log := by
  unfold LogSess.resolved
  have := h.ents
  generalize s.log = l at this ⊢
  generalize s.sess.log = l' at this ⊢
  induction this with
  | nil => rfl
  | cons h _ ih =>
    obtain ⟨h1, h2⟩ := h
    rw [List.map_cons, ih]
    congr 1
    rcases h2 with h2 | ⟨r, h2, _, h3⟩
    · rw [h1, h2]; rfl
    · rw [h1, h2]; simp only [Logged.view, h3]

theorem stillInv_set {fixed : Nat → Option (MixView K)} {s : LogSess K} (h : StillInv fixed s) (ref : Nat) (v : MixView K)
    (hv : FixedOk fixed v ref) (sess : Sess K) (h1 : sess.heap = fun i => if i = ref then v else s.sess.heap i) (h2 : sess.mixRef = ref)
    (h3 : sess.log = s.sess.log) (h4 : sess.gen = s.sess.gen) (h5 : sess.theGen = s.sess.theGen) :
    StillInv fixed { s with sess := sess } where
  cur := by
    show FixedOk fixed (sess.heap sess.mixRef) sess.mixRef
    rw [h1, h2]
    simp only [if_true]
    exact hv
  base := by
    intro hs
    show FixedOk fixed (sess.heap sess.theGen.base) sess.theGen.base
    rw [h1, h5]
    dsimp only
    split
    · rename_i e; rw [e]; exact hv
    · exact h.base (by rw [← h4]; exact hs)
  ents := by
    show List.Forall₂ _ s.log sess.log
    rw [h3]
    refine h.ents.imp ?_
    rintro a b ⟨g1, g2 | ⟨r, g2, g3, g4⟩⟩
    · exact ⟨g1, .inl g2⟩
    · refine ⟨g1, .inr ⟨r, g2, g3, ?_⟩⟩
      show sess.heap r = b.2
      rw [h1]
      dsimp only
      split
      · rename_i e
        subst e
        unfold FixedOk at hv
        split at hv
        · rw [g3] at hv; injection hv with hv; exact hv.symm
        · rw [g3] at hv; cases hv
      · exact g4

theorem stillInv_run (ops : KeyOps K) (str : K → String) (fuel : Nat) {fixed : Nat → Option (MixView K)} (os : List (SOp K))
    (ho : ∀ o ∈ os, o.Ok) : ∀ {vs : List (MixView K)} {s : LogSess K}, LogInv vs s.sess → StillInv fixed s →
    Still fixed s.sess.mixRef os → StillInv fixed (s.run ops str fuel os).1 := by
  induction os with
  | nil => intro vs s _ h _; exact h
  | cons o os ih =>
    intro vs s hI h hst
    have ih := fun {vs : List (MixView K)} {s : LogSess K} => ih (fun o' ho' => ho o' (by simp [ho'])) (vs := vs) (s := s)
    have hok := ho o (by simp)
    cases o with
    | update ref v =>
      exact ih (s := { s with sess := s.sess.update ops ref v }) (logInv_update ops hI ref v hok)
        (stillInv_set h ref v hst.1 (s.sess.update ops ref v) rfl rfl rfl rfl rfl) hst.2
    | feedback v =>
      exact ih (s := { s with sess := s.sess.feedback v }) (logInv_feedback hI v hok)
        (stillInv_set h s.sess.mixRef v hst.1 (s.sess.feedback v) rfl rfl rfl rfl rfl) hst.2
    | next =>
      have hN := logInv_next ops fuel hI
      simp only [LogSess.run, LogSess.op]
      have hr : (s.next ops str fuel).1.sess.mixRef = s.sess.mixRef := hN.keep.2.1
      have hS : StillInv fixed (s.next ops str fuel).1 := by
        unfold LogSess.next
        dsimp only
        generalize s.sess.theGen.eff ⟨s.sess.heap, s.sess.mixRef, s.sess.idx, fuel⟩ = v at hN ⊢
        generalize s.sess.next ops fuel = r at hN ⊢
        obtain ⟨s', o⟩ := r
        dsimp only at hN ⊢
        obtain ⟨⟨k1, k2, k3⟩, hinv, hlog, hchunk, hbase, hsome, hobj, hlast⟩ := hN
        have hb : FixedOk fixed (s'.heap s'.theGen.base) s'.theGen.base := by
          rw [k1]
          rcases hbase with ⟨e, hs⟩ | e
          · rw [e]; exact h.base hs
          · rw [e]; exact h.cur
        refine { cur := by show FixedOk fixed (s'.heap s'.mixRef) s'.mixRef; rw [k1, k2]; exact h.cur, base := fun _ => hb, ents := ?_ }
        show List.Forall₂ _ (s.log ++ (s'.log.drop s.sess.log.length).map (logEntry s'.theGen.base)) s'.log
        rcases hlog with ⟨e, _⟩ | ⟨e, _⟩
        · rw [e, List.drop_length, List.map_nil, List.append_nil, k1]; exact h.ents
        · have hne : s'.log ≠ s.sess.log := by
            rw [e]; intro hx; have := congrArg List.length hx; simp at this
          rw [e, List.drop_left, List.map_singleton]
          refine List.rel_append (by rw [k1]; exact h.ents) (List.Forall₂.cons ⟨rfl, ?_⟩ List.Forall₂.nil)
          unfold logEntry
          dsimp only
          have hv : s'.heap s'.theGen.base = v := by rw [k1]; exact hobj hne
          split
          · rename_i hrows
            unfold FixedOk at hb
            rw [hv, if_pos hrows] at hb
            exact .inr ⟨_, rfl, hb, hv⟩
          · exact .inl rfl
      rcases hN.inv with ⟨_, hinv⟩ | ⟨_, hinv⟩
      · exact ih hinv hS (by rw [hr]; exact hst)
      · exact ih hinv hS (by rw [hr]; exact hst)

/-! ## Theorems -/

/-- The situation of the theorems: a query result with a log directory whose answers so far are all chunks (and which meets the
conditions of C13 under which it can be restored), and whose mixture objects without rows stay what they are. -/
structure Stopped (ops : KeyOps K) (str : K → String) (fuel : Nat) (index : Dict K Entries) (order : List K) (b : Bool) (ref : Nat)
    (v0 : MixView K) (history : List (SOp K)) (fixed : Nat → Option (MixView K)) (s : LogSess K) : Prop where
  fuelPos : 0 < fuel
  start : v0.rows.keys.Nodup
  ok : ∀ o ∈ history, o.Ok
  isS : s = ((LogSess.fresh ops index order b ref v0).run ops str fuel history).1
  chunks : ∀ o ∈ ((LogSess.fresh ops index order b ref v0).run ops str fuel history).2, o.isChunk = true
  noticed : Noticed ((Sess.fresh ops index order b ref v0).views ops fuel history)
  last : ∀ v ∈ ((Sess.fresh ops index order b ref v0).views ops fuel history).getLast?, s.sess.heap s.sess.mixRef = v
  first : if v0.rows = [] then fixed ref = some v0 else fixed ref = none
  still : Still fixed ref history

/-- What is known in this situation. -/
theorem stopped_facts {ops : KeyOps K} {str : K → String} {fuel : Nat} {index : Dict K Entries} {order : List K} {b : Bool} {ref : Nat}
    {v0 : MixView K} {history : List (SOp K)} {fixed : Nat → Option (MixView K)} {s : LogSess K}
    (h : Stopped ops str fuel index order b ref v0 history fixed s) :
    ∃ vs us, Orig ops fuel index order vs s.sess ∧ Noticed vs ∧ FileInv str (fun r => fixed r ≠ none) us s ∧ us.length = vs.length ∧
      s.toCache = s.sess.toCache ∧ s.sess.mixRef = refAfter ref history ∧
      vs.length = chunksIn ((LogSess.fresh ops index order b ref v0).run ops str fuel history).2 := by
  obtain ⟨hf, hv0, hok, hs, hc, hno, hl, h1, h2⟩ := h
  obtain ⟨e1, e2⟩ := logSess_sess ops str fuel history (LogSess.fresh ops index order b ref v0)
  have e0 : (LogSess.fresh ops index order b ref v0).sess = Sess.fresh ops index order b ref v0 := rfl
  rw [e0] at e1 e2
  have ho := orig_run ops fuel hf history hok (orig_fresh ops fuel index order b ref v0 hv0) (by rw [← e2]; exact hc)
  rw [List.nil_append, ← e1, ← hs] at ho
  obtain ⟨us, g1, g2, _⟩ := fileInv_run ops str fuel history hok
    (fileInv_fresh ops str (fun r => fixed r ≠ none) index order b ref v0 hv0 (fixedOk_iff h1)) (still_steady history ref h2)
  rw [List.nil_append, ← hs] at g1
  have hS := stillInv_run ops str fuel history hok (s := LogSess.fresh ops index order b ref v0)
    (logInv_fresh ops index order b ref v0 hv0) { cur := h1, base := by (intro h; cases h), ents := List.Forall₂.nil } h2
  rw [← hs] at hS
  have hlen : us.length = ((Sess.fresh ops index order b ref v0).views ops fuel history).length := by
    by_cases hus : us = []
    · subst hus
      rcases g1.inv.live with hx | ⟨hx, _⟩
      · rw [ho.nf.susp] at hx; cases hx
      · rw [← hx, ho.nf.cur]
    · rcases g1.inv.live with hx | ⟨hx, _⟩
      · rw [ho.nf.susp] at hx; cases hx
      · rw [← hx, ho.nf.cur]
  refine ⟨_, us, ho, hno, g1, hlen, ?_, ?_, hlen ▸ g2⟩
  · show ({ s.sess.toCache with log := s.resolved } : Cached K) = _
    rw [hS.resolved]; rfl
  · rw [hs, e1, mixRef_run]; rfl

theorem persist_entries (str : K → String) (log : List (Nat × MixView K)) (n m : Nat) :
    (persistLog str log n).entries = (persistLog str log m).entries := rfl

/-- **C88 (partial).** A query result is restored from a checkpoint, in a log directory with any contents (left by the crashed
process, torn files, files of a later time, nothing).  If it had delivered a chunk, `mixture.log` and `chunk.idx` are, when the
restore has finished, exactly what the original wrote until the checkpoint; otherwise nothing is written.  Missing: the conditions of
C13, and schedules mixing entries with and without rows (C80). -/
theorem c88_restored_partial {ops : KeyOps K} {str : K → String} {fuel : Nat} {index : Dict K Entries} {order : List K} {b : Bool}
    {ref : Nat} {v0 : MixView K} {history : List (SOp K)} {fixed : Nat → Option (MixView K)} {s : LogSess K}
    (h : Stopped ops str fuel index order b ref v0 history fixed s) :
    ∃ W r, restoreLog ops str fuel s.sess.mixRef s.toCache = (W, .ok r) ∧
      (chunksIn ((LogSess.fresh ops index order b ref v0).run ops str fuel history).2 = 0 → W = []) ∧
      (0 < chunksIn ((LogSess.fresh ops index order b ref v0).run ops str fuel history).2 →
        ∃ f n, s.mixFile = some f ∧ s.idxFile = some n ∧ ∀ d : LogDir, writeAll d W = { mix := .text f, idx := .text n }) := by
  obtain ⟨vs, us, ho, hno, hF, hlen, hca, _, hn⟩ := stopped_facts h
  obtain ⟨r, h1, h2, h3, h4, h5⟩ := restoreLog_ok ops str fuel h.fuelPos ho hno
  rw [← hn, hca]
  refine ⟨_, r, h1, fun h0 => ?_, fun h0 => ?_⟩
  · rw [List.length_eq_zero_iff.mp h0]; rfl
  · have hne : vs ≠ [] := List.length_pos_iff.mp h0
    have hune : us ≠ [] := by rw [← List.length_pos_iff, hlen]; exact h0
    have hlog : s.sess.log ≠ [] := by
      rw [ho.log]
      cases vs with
      | nil => exact absurd rfl hne
      | cons v vs => simp [logOf, isNew]
    rcases hF.file with ⟨hx, _⟩ | ⟨e, he, hx⟩
    · exact absurd hx hlog
    refine ⟨_, us.length - 1, hx, by rw [hF.idx, if_neg hune], fun d => ?_⟩
    obtain ⟨w1, w2⟩ := writeAll_writesOf str s.sess.log vs none 0 d
    rw [← ho.log, he] at w1
    have w2 := w2 hne
    rw [Nat.zero_add, ← hlen] at w2
    generalize writeAll d (writesOf str s.sess.log none 0 vs) = d' at w1 w2
    obtain ⟨dm, di⟩ := d'
    dsimp only at w1 w2
    rw [w1, w2]

/-- **C88 (partial).** If the restore itself is cut off by a crash, at any point, each of the two files is as it was before, or torn,
or complete; a complete `mixture.log` has all entries of the checkpoint, and a complete `chunk.idx` a number of a chunk delivered before
it.  (So restoring again, after any number of crashed restores, gives the files of `c88_restored_partial`.) -/
theorem c88_restore_crash_partial {ops : KeyOps K} {str : K → String} {fuel : Nat} {index : Dict K Entries} {order : List K} {b : Bool}
    {ref : Nat} {v0 : MixView K} {history : List (SOp K)} {fixed : Nat → Option (MixView K)} {s : LogSess K}
    (h : Stopped ops str fuel index order b ref v0 history fixed s) (d t : LogDir)
    (ht : t ∈ crashDirs d (restoreLog ops str fuel s.sess.mixRef s.toCache).1) :
    (t.mix = d.mix ∨ t.mix = .torn ∨ ∃ f g, s.mixFile = some f ∧ t.mix = .text g ∧ g.entries = f.entries ∧ g.currIdx ≤ f.currIdx) ∧
    (t.idx = d.idx ∨ t.idx = .torn ∨ ∃ n j, s.idxFile = some n ∧ j ≤ n ∧ t.idx = .text j) := by
  obtain ⟨vs, us, ho, hno, hF, hlen, hca, _, hn⟩ := stopped_facts h
  obtain ⟨r, h1, -⟩ := restoreLog_ok ops str fuel h.fuelPos ho hno
  rw [hca, h1] at ht
  obtain ⟨c1, c2⟩ := crash_writesOf str s.sess.log vs none 0 d t ht
  refine ⟨?_, ?_⟩
  · rcases c1 with c1 | c1 | ⟨e, he, c1⟩
    · exact .inl c1
    · exact .inr (.inl c1)
    · rw [← ho.log] at he
      rcases hF.file with ⟨hx, _⟩ | ⟨e', he', hx⟩
      · rw [hx] at he; cases he
      · refine .inr (.inr ⟨_, _, hx, c1, persist_entries .., ?_⟩)
        show e.1 + 1 ≤ e'.1 + 1
        obtain ⟨l, hl⟩ : ∃ l, s.sess.log = l ++ [e'] := by
          rw [List.getLast?_eq_some_iff] at he'
          exact he'
        have hsd := hF.inv.sorted
        rw [hl, List.pairwise_append] at hsd
        rw [hl] at he
        rcases List.mem_append.mp he with he | he
        · have := hsd.2.2 e he e' (by simp)
          omega
        · rw [List.mem_singleton.mp he]
  · rcases c2 with c2 | c2 | ⟨j, _, h3, c2⟩
    · exact .inl c2
    · exact .inr (.inl c2)
    · have hune : us ≠ [] := by rw [← List.length_pos_iff, hlen]; omega
      exact .inr (.inr ⟨_, j, by rw [hF.idx, if_neg hune], by omega, c2⟩)

/-- **C88 (partial).** And whatever happens after the restore, the restored query result gives the same answers as the original would
have given without a crash, and has written the same files. -/
theorem c88_continued_partial {ops : KeyOps K} {str : K → String} {fuel : Nat} {index : Dict K Entries} {order : List K} {b : Bool}
    {ref : Nat} {v0 : MixView K} {history : List (SOp K)} {fixed : Nat → Option (MixView K)} {s : LogSess K}
    (h : Stopped ops str fuel index order b ref v0 history fixed s) (later : List (SOp K)) (hok : ∀ o ∈ later, o.Ok)
    (hst : Still fixed (refAfter ref history) later) :
    ∃ W r, restoreLog ops str fuel s.sess.mixRef s.toCache = (W, .ok r) ∧
      (r.run ops str fuel later).2 = (s.run ops str fuel later).2 ∧
      (r.run ops str fuel later).1.mixFile = (s.run ops str fuel later).1.mixFile ∧
      (r.run ops str fuel later).1.idxFile = (s.run ops str fuel later).1.idxFile := by
  obtain ⟨vs, us, ho, hno, hF, hlen, hca, href, hn⟩ := stopped_facts h
  obtain ⟨r, h1, h2, h3, h4, h5⟩ := restoreLog_ok ops str fuel h.fuelPos ho hno
  obtain ⟨e1, e2⟩ := logSess_sess ops str fuel history (LogSess.fresh ops index order b ref v0)
  have e0 : (LogSess.fresh ops index order b ref v0).sess = Sess.fresh ops index order b ref v0 := rfl
  rw [e0] at e1 e2
  -- the restored session cannot be told apart
  obtain ⟨r', q1, q2⟩ := restore_alike ops fuel h.fuelPos index order b ref v0 h.start history h.ok _ s.sess rfl
    (by rw [h.isS, e1]) (by rw [← e2]; exact h.chunks) h.noticed h.last
  have hr' : r.sess = r' := by
    have := restoreLog_sess ops str fuel s.sess.mixRef s.sess.toCache
    rw [h1, q1] at this
    injection this
  rw [← hr'] at q2
  have hdir := restoreLog_dir ops str fuel _ _ _ _ h1
  have hlogs : r.sess.log = s.sess.log := q2.log
  have hcg : r.sess.theGen.bare = s.sess.theGen.bare := q2.gen
  -- its files
  have hfiles : r.mixFile = s.mixFile ∧ r.idxFile = s.idxFile := by
    obtain ⟨w1, w2⟩ := writeAll_writesOf str s.sess.log vs none 0 {}
    rw [← hdir] at w1 w2
    unfold LogSess.dir at w1 w2
    dsimp only at w1 w2
    by_cases hne : vs = []
    · have hune : us = [] := by rw [← List.length_eq_zero_iff, hlen, hne]; rfl
      subst hne
      have hl : s.sess.log = [] := ho.log
      have hm : s.mixFile = none := by
        rcases hF.file with ⟨_, hx⟩ | ⟨e, he, _⟩
        · exact hx
        · rw [hl] at he; cases he
      have hd : r.dir = {} := hdir
      unfold LogSess.dir at hd
      injection hd with hd1 hd2
      rw [hm, hF.idx, if_pos hune]
      constructor
      · cases hx : r.mixFile with
        | none => rfl
        | some f => rw [hx] at hd1; cases hd1
      · cases hx : r.idxFile with
        | none => rfl
        | some f => rw [hx] at hd2; cases hd2
    · have hune : us ≠ [] := by rw [← List.length_pos_iff, hlen]; exact List.length_pos_iff.mpr hne
      have w2 := w2 hne
      rw [Nat.zero_add, ← hlen] at w2
      rw [← ho.log] at w1
      constructor
      · rcases hF.file with ⟨hx, _⟩ | ⟨e, he, hx⟩
        · rw [ho.log] at hx
          cases vs with
          | nil => exact absurd rfl hne
          | cons v vs => simp [logOf, isNew] at hx
        · rw [he] at w1
          rw [hx]
          cases hy : r.mixFile with
          | none => rw [hy] at w1; cases w1
          | some f => rw [hy] at w1; injection w1 with w1; rw [w1]
      · rw [hF.idx, if_neg hune]
        cases hy : r.idxFile with
        | none => rw [hy] at w2; cases w2
        | some f => rw [hy] at w2; injection w2 with w2; rw [w2]
  have hsusp : r.sess.theGen.susp = .ready := h3.susp
  have hcurR : r.sess.theGen.cur = s.sess.theGen.cur := by
    have := congrArg Gen.cur hcg
    exact this
  have hI : LogInv us r.sess := {
    replay := h4
    heap := h3.heap
    fresh := h3.ok
    glog := h3.log
    told := by rw [hlogs]; exact hF.inv.told
    bound := by rw [hlogs]; exact hF.inv.bound
    sorted := by rw [hlogs]; exact hF.inv.sorted
    live := by
      rcases hF.inv.live with hx | ⟨x1, x2, x3, x4⟩
      · rw [ho.nf.susp] at hx; cases hx
      · refine .inr ⟨hcurR.trans x1, q2.idx.trans x2, (fun h => by rw [hsusp] at h; cases h), ?_⟩
        rw [hlogs]
        have p1 : r.sess.theGen.prev = s.sess.theGen.prev := by
          have := congrArg Gen.prev hcg
          exact this
        have p2 : r.sess.theGen.mixtureId = s.sess.theGen.mixtureId := by
          have := congrArg Gen.mixtureId hcg
          exact this
        unfold Track at x4 ⊢
        generalize lastRows s.sess.log = l at x4 ⊢
        cases l with
        | none =>
          dsimp only at x4 ⊢
          rw [p1, p2, hcurR]
          exact x4
        | some e =>
          dsimp only at x4 ⊢
          rw [p1, p2, hcurR]
          exact x4 }
  have hcurH : r.sess.heap r.sess.mixRef = s.sess.heap s.sess.mixRef := by
    rw [q2.mixRef]; exact q2.heap _ rfl
  have hFr : FileInv str (fun r => fixed r ≠ none) us r := {
    inv := hI
    cur := by rw [hcurH, q2.mixRef]; exact hF.cur
    base := by
      intro hs
      have hne : vs ≠ [] := by
        intro hx
        have := h3.fresh
        rw [hx] at this
        cases hg : r.sess.gen with
        | none => rw [hg] at hs; cases hs
        | some g => rw [hg] at this; simp at this
      rw [h5 hne]
      have : r.sess.heap s.sess.mixRef = s.sess.heap s.sess.mixRef := q2.heap _ rfl
      rw [this]
      exact hF.cur
    stands := by
      rw [h2, hlogs, List.forall₂_map_left_iff, List.forall₂_same]
      exact fun e _ => ⟨rfl, .inl rfl⟩
    file := by rw [hlogs, hfiles.1]; exact hF.file
    idx := by rw [hfiles.2]; exact hF.idx }
  have hsteady := still_steady later _ hst
  obtain ⟨a1, a2⟩ := logSess_sess ops str fuel later s
  obtain ⟨b1, b2⟩ := logSess_sess ops str fuel later r
  obtain ⟨z1, _, z3⟩ := alike_run ops fuel later q2
  have hans : (r.run ops str fuel later).2 = (s.run ops str fuel later).2 := by rw [a2, b2, z1]
  have hlog2 : (r.run ops str fuel later).1.sess.log = (s.run ops str fuel later).1.sess.log := by rw [a1, b1, z3]
  obtain ⟨ws, k1, k2, _⟩ := fileInv_run ops str fuel later hok hF (by rw [href]; exact hsteady)
  obtain ⟨ws', k1', k2', _⟩ := fileInv_run ops str fuel later hok hFr (by rw [q2.mixRef, href]; exact hsteady)
  refine ⟨_, r, by rw [hca]; exact h1, hans, ?_, ?_⟩
  · rcases k1.file with ⟨x1, x2⟩ | ⟨e, x1, x2⟩
    · rcases k1'.file with ⟨y1, y2⟩ | ⟨e', y1, y2⟩
      · rw [x2, y2]
      · rw [hlog2, x1] at y1; cases y1
    · rcases k1'.file with ⟨y1, y2⟩ | ⟨e', y1, y2⟩
      · rw [hlog2] at y1; rw [y1] at x1; cases x1
      · rw [hlog2, x1] at y1
        injection y1 with y1
        subst y1
        rw [x2, y2, hlog2]
  · rw [k1.idx, k1'.idx]
    have hl : ws.length = ws'.length := by rw [k2, k2', hans]
    by_cases hx : us ++ ws = []
    · rw [if_pos hx, if_pos (by rw [← List.length_eq_zero_iff] at hx ⊢; rw [List.length_append] at hx ⊢; omega)]
    · rw [if_neg hx, if_neg (by rw [← List.length_eq_zero_iff] at hx ⊢; rw [List.length_append] at hx ⊢; omega)]
      rw [List.length_append, List.length_append, hl]

/-! ## Crashes in normal operation -/

/-- At a crash point of a request. -/
theorem crash_writes (ops : KeyOps K) (str : K → String) (fuel : Nat) (s : LogSess K) (t : LogDir)
    (ht : t ∈ crashDirs s.dir (s.writes ops str fuel)) :
    (t.mix = s.dir.mix ∨ t.mix = .torn ∧ ((s.next ops str fuel).1.sess.theGen.mixtureId == s.sess.theGen.mixtureId) = false ∨
      t.mix = (s.next ops str fuel).1.dir.mix) ∧
    (t.idx = s.dir.idx ∨ t.mix = (s.next ops str fuel).1.dir.mix ∧ (t.idx = .torn ∨ t.idx = (s.next ops str fuel).1.dir.idx)) := by
  revert ht
  unfold LogSess.writes LogSess.next LogSess.dir
  dsimp only
  generalize s.sess.next ops fuel = r
  obtain ⟨s', o⟩ := r
  dsimp only
  by_cases h : (s'.theGen.mixtureId == s.sess.theGen.mixtureId) = true
  · cases o <;> simp [h, crashDirs, LogWrite.after, LogWrite.during] <;> rintro (rfl | rfl | rfl) <;> simp
  · cases o <;> simp [h, crashDirs, LogWrite.after, LogWrite.during]
    · rintro (rfl | rfl | rfl | rfl | rfl) <;> simp
    all_goals rintro (rfl | rfl | rfl) <;> simp

/-- **C88 (partial).** If the server dies at any point after the delivery of a chunk, between requests or while a request writes the
files, then `mixture.log` is torn, which happens only while a request is adding a mixture to the log, or it says which mixture the
chunk was made with (as in `c80_log_partial`). -/
theorem c88_crash_partial (ops : KeyOps K) (str : K → String) (hstr : Function.Injective str) (fuel : Nat) (index : Dict K Entries)
    (order : List K) (b : Bool) (ref : Nat) (v0 : MixView K) (before later : List (SOp K)) (c : RChunk K) (s t : LogSess K)
    (h : Delivered ops str fuel index order b ref v0 before later c s t) (empty : Nat → Prop) (h0 : v0.rows = [] ↔ empty ref)
    (hst : Steady empty ref (before ++ .next :: later)) (dir : LogDir) (hd : dir ∈ crashDirs t.dir (t.writes ops str fuel)) :
    let answers := ((LogSess.fresh ops index order b ref v0).run ops str fuel before).2
    (dir.mix = .torn ∧ ∃ e, (t.next ops str fuel).1.toCache.log.map Prod.fst = t.toCache.log.map Prod.fst ++ [e]) ∨
    ∃ f d v, dir.mix = .text f ∧ f.Says (chunksIn answers) d ∧ IsText str v.rows d ∧ ComposedBy v c ∧
      (answers.getLast? ≠ some .none → v = s.sess.heap s.sess.mixRef) := by
  intro answers
  obtain ⟨c1, -⟩ := crash_writes ops str fuel t dir hd
  rcases c1 with c1 | ⟨c1, c2⟩ | c1
  · obtain ⟨f, d, v, e1, e2⟩ := c80_log_partial ops str hstr fuel index order b ref v0 before later c s t h empty h0 hst
    refine .inr ⟨f, d, v, ?_, e2⟩
    rw [c1]; unfold LogSess.dir; dsimp only; rw [e1]
  · refine .inl ⟨c1, ?_⟩
    obtain ⟨vs, v, ws, hF, -⟩ := delivered_facts h h0 hst
    have hN := (logInv_next ops fuel hF.inv).log
    have hlen : ∀ x : LogSess K, x.toCache.log.map Prod.fst = x.log.map Prod.fst := by
      intro x
      show x.resolved.map Prod.fst = _
      unfold LogSess.resolved
      rw [List.map_map]; rfl
    rw [hlen, hlen]
    rcases hN with ⟨_, hm⟩ | ⟨hl, _, _⟩
    · have : (t.next ops str fuel).1.sess.theGen.mixtureId = t.sess.theGen.mixtureId := hm
      rw [this] at c2
      simp at c2
    · show ∃ e, ((t.log ++ ((t.sess.next ops fuel).1.log.drop t.sess.log.length).map
        (logEntry (t.sess.next ops fuel).1.theGen.base)).map Prod.fst) = _
      rw [hl, List.drop_left, List.map_singleton, List.map_append]
      exact ⟨_, rfl⟩
  · obtain ⟨hi, hv0, hb, hl, hs, hc, ht⟩ := h
    have hrun := logSess_run_append ops str fuel later [.next] (s.next ops str fuel).1
    obtain ⟨f, d, v, e1, e2⟩ := c80_log_partial ops str hstr fuel index order b ref v0 before (later ++ [.next]) c s
      (t.next ops str fuel).1 ⟨hi, hv0, hb, by
        intro o ho
        rcases List.mem_append.mp ho with ho | ho
        · exact hl o ho
        · rw [List.mem_singleton.mp ho]; trivial, hs, hc, by rw [hrun.1, ← ht]; rfl⟩ empty h0 (by
        rw [show before ++ SOp.next :: (later ++ [.next]) = (before ++ .next :: later) ++ [.next] by simp, steady_append]
        exact ⟨hst, trivial⟩)
    refine .inr ⟨f, d, v, ?_, e2⟩
    rw [c1]; unfold LogSess.dir; dsimp only; rw [e1]

/-- **C88** (`chunk.idx`). If the server dies at any point, `chunk.idx` holds the number of the last chunk delivered, or, while the next
chunk is on its way, it is torn or holds its number; and then `mixture.log` is complete already. -/
theorem c88_crash_idx (ops : KeyOps K) (str : K → String) (fuel : Nat) (index : Dict K Entries) (order : List K) (b : Bool)
    (ref : Nat) (v0 : MixView K) (hv0 : v0.rows.keys.Nodup) (history : List (SOp K)) (hh : ∀ o ∈ history, o.Ok) (dir : LogDir)
    (hd : dir ∈ crashDirs ((LogSess.fresh ops index order b ref v0).run ops str fuel history).1.dir
      (((LogSess.fresh ops index order b ref v0).run ops str fuel history).1.writes ops str fuel)) :
    let r := (LogSess.fresh ops index order b ref v0).run ops str fuel history
    (dir.idx = match (chunksIn r.2) with
      | 0 => .missing
      | n + 1 => .text n) ∨
    (dir.idx = .torn ∨ dir.idx = .text (chunksIn r.2)) ∧ dir.mix ≠ .torn := by
  intro r
  obtain ⟨-, c2⟩ := crash_writes ops str fuel _ dir hd
  obtain ⟨i1, i2⟩ := c80_chunk_idx ops str fuel index order b ref v0 hv0 history hh
  have hold : r.1.dir.idx = match (chunksIn r.2) with
      | 0 => .missing
      | n + 1 => .text n := by
    cases hx : chunksIn r.2 with
    | zero => unfold LogSess.dir; dsimp only; rw [show r.1.idxFile = none from i1 hx]
    | succ n => unfold LogSess.dir; dsimp only; rw [show r.1.idxFile = some n from i2 n hx]
  rcases c2 with c2 | ⟨m, c2⟩
  · exact .inl (c2.trans hold)
  · obtain ⟨j1, j2⟩ := c80_chunk_idx ops str fuel index order b ref v0 hv0 (history ++ [.next]) (by
        intro o ho
        rcases List.mem_append.mp ho with ho | ho
        · exact hh o ho
        · rw [List.mem_singleton.mp ho]; trivial)
    obtain ⟨a1, a2⟩ := logSess_run_append ops str fuel history [.next] (LogSess.fresh ops index order b ref v0)
    rw [a1, a2, chunksIn_append] at j1 j2
    have hm : dir.mix ≠ .torn := by
      rw [m]; unfold LogSess.dir; dsimp only
      split <;> intro hx <;> cases hx
    rcases c2 with c2 | c2
    · exact .inr ⟨.inl c2, hm⟩
    · have hnew : (r.1.next ops str fuel).1.dir.idx = r.1.dir.idx ∨
          (r.1.next ops str fuel).1.dir.idx = .text (chunksIn r.2) := by
        have e : (r.1.run ops str fuel [.next]) = ((r.1.next ops str fuel).1, [(r.1.next ops str fuel).2]) := rfl
        rw [show ((LogSess.fresh ops index order b ref v0).run ops str fuel history).1 = r.1 from rfl, e] at j1 j2
        cases ho : (r.1.next ops str fuel).2 with
        | chunk c =>
          right
          have := j2 (chunksIn r.2) (by rw [ho]; rfl)
          unfold LogSess.dir; dsimp only; rw [this]
        | none =>
          left
          unfold LogSess.next at ho ⊢; dsimp only at ho ⊢; unfold LogSess.dir; dsimp only; rw [ho]
        | stop =>
          left
          unfold LogSess.next at ho ⊢; dsimp only at ho ⊢; unfold LogSess.dir; dsimp only; rw [ho]
        | raised e =>
          left
          unfold LogSess.next at ho ⊢; dsimp only at ho ⊢; unfold LogSess.dir; dsimp only; rw [ho]
      rcases hnew with hx | hx
      · exact .inl ((c2.trans hx).trans hold)
      · exact .inr ⟨.inr (c2.trans hx), hm⟩

/-! ## Examples -/

/-- Three chunks, with a new mixture before the third. -/
def Ex.logHistory : List (SOp Nat) := [.next, .next, .update 1 ⟨[(2, 1)], true, 1⟩, .next]

def Ex.logSess (history : List (SOp Nat)) : LogSess Nat :=
  ((LogSess.fresh Ex.ops Ex.index Ex.order false 0 Ex.strictMix).run Ex.ops Ex.str 20 history).1

instance Ex.decMixView : DecidableEq (MixView Nat) := fun a b =>
  if h : (a.rows : List (Nat × Nat)) = b.rows ∧ a.strict = b.strict ∧ a.chunkSize = b.chunkSize then
    isTrue (by cases a; cases b; simp_all)
  else isFalse (by rintro rfl; exact h ⟨rfl, rfl, rfl⟩)

instance Ex.decEntry : DecidableEq (Nat × List (String × Nat)) := instDecidableEqProd
instance Ex.decShown : DecidableEq (List (Nat × List (String × Nat)) × Nat) := instDecidableEqProd

/-- What is written, readably. -/
def LogWrite.shown : LogWrite → List (Nat × List (String × Nat)) × Nat
  | .mix f => f.shown
  | .idx n => ([], n)

theorem Ex.logViews : (Sess.fresh Ex.ops Ex.index Ex.order false 0 Ex.strictMix).views Ex.ops 20 Ex.logHistory =
    [Ex.strictMix, Ex.strictMix, ⟨[(2, 1)], true, 1⟩] := by
  decide +kernel

/-- The hypotheses of the theorems about restores are met by this history. -/
theorem Ex.log_stopped : Stopped Ex.ops Ex.str 20 Ex.index Ex.order false 0 Ex.strictMix Ex.logHistory (fun _ => none)
    (Ex.logSess Ex.logHistory) where
  fuelPos := by decide
  start := by decide
  ok := by
    intro o ho
    simp only [Ex.logHistory, List.mem_cons, List.not_mem_nil, or_false] at ho
    rcases ho with rfl | rfl | rfl | rfl
    · trivial
    · trivial
    · show (Dict.keys [(2, 1)]).Nodup
      decide
    · trivial
  isS := rfl
  chunks := by decide +kernel
  noticed := by
    rw [Ex.logViews]
    refine ⟨fun _ => rfl, fun h => ?_, trivial⟩
    exact absurd h (by decide +kernel)
  last := by
    rw [Ex.logViews]
    intro v hv
    simp only [List.getLast?_cons_cons, List.getLast?_singleton, Option.mem_def, Option.some.injEq] at hv
    subst hv
    decide +kernel
  first := rfl
  still := ⟨rfl, trivial⟩

/-- Restoring the checkpoint taken there writes `mixture.log` twice, with both mixtures each time (only the number of the current
chunk differs), and `chunk.idx` for every chunk. -/
example : let s := Ex.logSess Ex.logHistory
    let r := restoreLog Ex.ops Ex.str 20 s.sess.mixRef s.toCache
    r.1.map LogWrite.shown = [([(0, [("1", 3), ("2", 2)]), (2, [("2", 1)])], 1), ([], 0), ([], 1),
      ([(0, [("1", 3), ("2", 2)]), (2, [("2", 1)])], 3), ([], 2)] ∧
    s.mixFile.map LogFile.shown = some ([(0, [("1", 3), ("2", 2)]), (2, [("2", 1)])], 3) ∧ s.idxFile = some 2 := by
  decide +kernel

/-- The hypotheses of `c88_crash_partial` are met by the first chunk of this history. -/
example : ∃ c, Delivered Ex.ops Ex.str 20 Ex.index Ex.order false 0 Ex.strictMix [] [.next, .update 1 ⟨[(2, 1)], true, 1⟩] c
      (Ex.logSess []) (Ex.logSess [.next, .next, .update 1 ⟨[(2, 1)], true, 1⟩]) ∧
    Steady (fun _ => False) 0 ([] ++ .next :: [.next, .update 1 ⟨[(2, 1)], true, 1⟩]) ∧ (Ex.strictMix.rows = [] ↔ False) := by
  have hc : ((Ex.logSess []).next Ex.ops Ex.str 20).2.isChunk = true := by decide +kernel
  cases ho : ((Ex.logSess []).next Ex.ops Ex.str 20).2 with
  | chunk c =>
    refine ⟨c, ⟨Ex.index_ok, by decide, by simp, ?_, rfl, ho, rfl⟩, by simp [Steady], by simp [Ex.strictMix]⟩
    intro o ho
    simp only [List.mem_cons, List.not_mem_nil, or_false] at ho
    rcases ho with rfl | rfl
    · trivial
    · show (Dict.keys [(2, 1)]).Nodup
      decide
  | none => rw [ho] at hc; cases hc
  | stop => rw [ho] at hc; cases hc
  | raised e => rw [ho] at hc; cases hc

/-- **C88, what is lost.** `mixture.log` is overwritten in place: if the server dies while the request for the third chunk adds a mixture
to it, two chunks have been delivered and no file says with which mixtures. -/
theorem c88_log_torn : ∃ dir ∈ crashDirs (Ex.logSess [.next, .next, .update 1 ⟨[(2, 1)], true, 1⟩]).dir
      ((Ex.logSess [.next, .next, .update 1 ⟨[(2, 1)], true, 1⟩]).writes Ex.ops Ex.str 20),
    dir.mix = .torn ∧ dir.idx = .text 1 := by
  have h1 : (Ex.logSess [.next, .next, .update 1 ⟨[(2, 1)], true, 1⟩]).idxFile = some 1 := by decide +kernel
  have h2 : ((Ex.logSess [.next, .next, .update 1 ⟨[(2, 1)], true, 1⟩]).writes Ex.ops Ex.str 20).map LogWrite.shown =
      [([(0, [("1", 3), ("2", 2)]), (2, [("2", 1)])], 3), ([], 2)] := by decide +kernel
  generalize hw : (Ex.logSess [.next, .next, .update 1 ⟨[(2, 1)], true, 1⟩]).writes Ex.ops Ex.str 20 = w at h2 ⊢
  match w, h2 with
  | .mix f :: w, _ =>
    refine ⟨(LogWrite.mix f).during _, List.mem_cons_of_mem _ (List.mem_cons_self ..), rfl, ?_⟩
    unfold LogWrite.during LogSess.dir
    dsimp only
    rw [h1]
  | .idx n :: w, h2 => simp [LogWrite.shown] at h2

end Mixtera
