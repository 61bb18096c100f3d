import Verif.Model.FeedbackRestarts
import Verif.Props.FeedbackRestore
import Mathlib.Tactic.IntervalCases

/-!
# C94: losses over many restarts
-/

set_option linter.unusedSectionVars false

namespace Mixtera.Mixing

variable {K A : Type} [DecidableEq K]

/-! ## Specification -/

/-- The calls that a life amounts to, and those that its latest checkpoint amounts to: a crash takes back what came after it. -/
def rollStep (h : List FbCall × List FbCall) : LEv → List FbCall × List FbCall
  | .call c => (h.1 ++ [c], h.2)
  | .chunk => h
  | .save => (h.1, h.1)
  | .crash => (h.2, h.2)

/-- The same for a life. -/
def rolledBack (life : List LEv) : List FbCall × List FbCall := life.foldl rollStep ([], [])

/-- The mixture when the calls are made without any restart. -/
def uninterrupted (P : MixAlg A) (s : Live K A) (calls : List FbCall) : Live K A := s.run P (calls.map .call)

/-- No checkpoint is taken before the first chunk. -/
def NotEarly (P : MixAlg A) (index : Dict K Entries) (base s : Live K A) (life : List LEv) : Prop :=
  ∀ l1 l2, life = l1 ++ .save :: l2 → (Job.run P index base s l1).q.n ≠ 0

/-! ## The log -/

variable {P : MixAlg A}

/-- Consecutive entries have different rows, and none is empty. -/
structure LogOk (q : LiveQ K A) : Prop where
  rows : ∀ e ∈ q.log, e.dyn.cur.rows ≠ []
  chain : (q.log.map fun e => e.dyn.cur.rows).IsChain fun a b => dictEq a b = false
  prev : q.prev = (q.log.map fun e => e.dyn.cur.rows).getLast?
  zero : q.n = 0 ↔ q.log = []
  alg : ∀ l e, q.log = l ++ [e] → e.alg.isSome = true

theorem dropLastAlg_rows (l : List (LogEntry K A)) : (dropLastAlg l).map (fun e => e.dyn.cur.rows) = l.map fun e => e.dyn.cur.rows := by
  rcases List.eq_nil_or_concat l with rfl | ⟨l, e, rfl⟩
  · rfl
  · rw [List.concat_eq_append, dropLastAlg_append]; simp

theorem logOk_start (s : Live K A) : LogOk (LiveQ.start s) :=
  ⟨by simp [LiveQ.start], by simp [LiveQ.start], rfl, by simp [LiveQ.start], by simp [LiveQ.start]⟩

theorem logOk_on {q : LiveQ K A} (h : LogOk q) (e : QEv K) : LogOk (q.on P e) := by
  cases e with
  | call c => exact ⟨h.rows, h.chain, h.prev, h.zero, h.alg⟩
  | idMap ids => exact ⟨h.rows, h.chain, h.prev, h.zero, h.alg⟩
  | chunk =>
    show LogOk q.chunk
    unfold LiveQ.chunk
    split
    · exact h
    rename_i hne
    split
    · rename_i hnot
      refine ⟨?_, ?_, ?_, by simp, ?_⟩
      · intro e he
        rcases List.mem_append.1 he with he | he
        · have : e.dyn.cur.rows ∈ (dropLastAlg q.log).map fun e => e.dyn.cur.rows := List.mem_map.2 ⟨e, he, rfl⟩
          rw [dropLastAlg_rows] at this
          obtain ⟨e', he', heq⟩ := List.mem_map.1 this
          rw [← heq]; exact h.rows e' he'
        · rw [List.mem_singleton] at he; subst he; exact hne
      · rw [List.map_append, dropLastAlg_rows, List.isChain_append]
        refine ⟨h.chain, by simp, ?_⟩
        intro x hx y hy
        simp only [List.map_cons, List.map_nil, List.head?_cons, Option.mem_def, Option.some.injEq] at hy
        subst hy
        rw [Option.mem_def, ← h.prev] at hx
        rw [hx] at hnot
        simpa [noticed] using hnot
      · simp
      · intro l e he
        have := List.append_inj' he rfl
        have he := this.2
        simp only [List.cons.injEq, and_true] at he
        rw [← he]; rfl
    · rename_i hnot
      refine ⟨h.rows, h.chain, h.prev, ?_, h.alg⟩
      show q.n + 1 = 0 ↔ _
      refine ⟨by simp, fun hl => ?_⟩
      exfalso
      have := h.prev
      rw [show q.log = [] from hl] at this
      rw [this] at hnot
      simp [noticed] at hnot

theorem logOk_run (es : List (QEv K)) {q : LiveQ K A} (h : LogOk q) : LogOk (q.run P es) := by
  induction es generalizing q with
  | nil => exact h
  | cons e es ih => exact ih (logOk_on h e)

/-- What the replay ends with. -/
theorem replayRun_last (index : Dict K Entries) : ∀ (k i : Nat) (m : Live K (Option A)) (prev : Option (Dict K Nat)) (l : List (LogEntry K A)),
    (∀ e ∈ l, Given index e.dyn ∧ i ≤ e.idx ∧ e.idx < i + k) → l.Pairwise (fun a b => a.idx < b.idx) → m.dyn.cur.rows ≠ [] →
    (∀ e ∈ l, e.dyn.cur.rows ≠ []) →
    (m.dyn.cur.rows :: l.map fun e => e.dyn.cur.rows).IsChain (fun a b => dictEq a b = false) → (prev = none ∨ prev = some m.dyn.cur.rows) →
    ∃ x : Live K (Option A), x = (match l.getLast? with | none => m | some e => ⟨e.dyn, e.alg, e.step⟩) ∧
      replayRun index k i m prev l = .ok (x, if k = 0 then prev else some x.dyn.cur.rows) := by
  intro k
  induction k with
  | zero =>
    intro i m prev l hl _ _ _ _ _
    cases l with
    | nil => exact ⟨m, rfl, rfl⟩
    | cons e l => have := (hl e (by simp)).2; omega
  | succ k ih =>
    intro i m prev l hl hp hm hr hch hprev
    have ask : ∀ (m' : Live K (Option A)) (rest : List (LogEntry K A)), due index i m l = .ok (m', rest) → m'.dyn.cur.rows ≠ [] →
        (if noticed prev m'.dyn.cur.rows then some m'.dyn.cur.rows else prev) = some m'.dyn.cur.rows →
        (∀ e ∈ rest, Given index e.dyn ∧ i + 1 ≤ e.idx ∧ e.idx < i + 1 + k) → rest.Pairwise (fun a b => a.idx < b.idx) →
        (∀ e ∈ rest, e.dyn.cur.rows ≠ []) →
        (m'.dyn.cur.rows :: rest.map fun e => e.dyn.cur.rows).IsChain (fun a b => dictEq a b = false) →
        ∃ x : Live K (Option A), x = (match rest.getLast? with | none => m' | some e => ⟨e.dyn, e.alg, e.step⟩) ∧
          replayRun index (k + 1) i m prev l = .ok (x, if k + 1 = 0 then prev else some x.dyn.cur.rows) := by
      intro m' rest hd hne hpr h1 h2 h3 h4
      obtain ⟨x, hx, he⟩ := ih (i + 1) m' (some m'.dyn.cur.rows) rest h1 h2 hne h3 h4 (Or.inr rfl)
      refine ⟨x, hx, ?_⟩
      rw [replayRun, hd]
      dsimp only
      rw [if_neg hne, hpr, he, if_neg (Nat.succ_ne_zero k)]
      split
      · rename_i hk
        subst hk
        cases rest with
        | nil => rw [hx]; rfl
        | cons e rest => have := (h1 e (by simp)).2; omega
      · rfl
    cases l with
    | nil =>
      refine ask m [] rfl hm ?_ (by simp) (by simp) (by simp) (by simp)
      rcases hprev with rfl | rfl
      · simp [noticed]
      · split <;> rfl
    | cons e l =>
      by_cases hi : i = e.idx
      · have hd : due index i m (e :: l) = .ok (⟨e.dyn, e.alg, e.step⟩, l) := by
          rw [due, if_pos hi, install_given (hl e (by simp)).1]
        have hch' := hch
        rw [List.map_cons, List.isChain_cons_cons] at hch'
        obtain ⟨x, hx, he⟩ := ask _ l hd (hr e (by simp)) (by
          rcases hprev with rfl | rfl
          · simp [noticed]
          · rw [if_pos]; simp [noticed, hch'.1]) (by
          intro a ha
          have h1 := (List.pairwise_cons.1 hp).1 a ha
          have h2 := hl a (by simp [ha])
          exact ⟨h2.1, by omega, by omega⟩) (List.pairwise_cons.1 hp).2 (fun a ha => hr a (by simp [ha])) hch'.2
        refine ⟨x, ?_, he⟩
        rw [hx]
        cases hgl : l.getLast? with
        | none => rw [List.getLast?_eq_none_iff] at hgl; subst hgl; rfl
        | some a => simp [List.getLast?_cons, hgl]
      · have hd : due index i m (e :: l) = .ok (m, e :: l) := by rw [due, if_neg hi]
        refine ask m (e :: l) hd hm ?_ ?_ hp hr hch
        · rcases hprev with rfl | rfl
          · simp [noticed]
          · split <;> rfl
        · intro a ha
          have h2 := hl a ha
          refine ⟨h2.1, ?_, by omega⟩
          have h3 := (hl e (by simp)).2.1
          rcases List.mem_cons.1 ha with rfl | ha
          · omega
          · have := (List.pairwise_cons.1 hp).1 a ha
            omega

/-! ## One call on two mixtures -/

/-- What a call does to mixtures that differ in the current mixture and the step only. -/
theorem same_call {d : Dyn K} (hi : d.ids.isSome) (hn : d.informed = true) (alg : A) (x y : BaseMix K) (st st' : Int) (c : FbCall) :
    (handleFeedback P ⟨{ d with cur := x }, alg, st⟩ c).1.alg = (handleFeedback P ⟨{ d with cur := y }, alg, st'⟩ c).1.alg ∧
    ((∃ z, (handleFeedback P ⟨{ d with cur := x }, alg, st⟩ c).1.dyn = { d with cur := z } ∧
        (handleFeedback P ⟨{ d with cur := y }, alg, st'⟩ c).1.dyn = { d with cur := z }) ∨
      ((handleFeedback P ⟨{ d with cur := x }, alg, st⟩ c).1.dyn = { d with cur := x } ∧
        (handleFeedback P ⟨{ d with cur := y }, alg, st'⟩ c).1.dyn = { d with cur := y } ∧
        (c.report = none ∨ (handleFeedback P ⟨{ d with cur := y }, alg, st'⟩ c).2 ≠ none ∨
          ∃ r, c.report = some r ∧ (P.process alg r.losses r.counts r.mixtureId).2 = .ok none))) := by
  cases hc : c.report with
  | none =>
    obtain ⟨a1, a2⟩ := c90_silent (P := P) ⟨{ d with cur := x }, alg, st⟩ c hc
    obtain ⟨b1, b2⟩ := c90_silent (P := P) ⟨{ d with cur := y }, alg, st'⟩ c hc
    exact ⟨by rw [a2, b2], Or.inr ⟨a1, b1, Or.inl rfl⟩⟩
  | some r =>
    obtain ⟨am, a1, a2, a3⟩ := call_report (P := P) (s := ⟨{ d with cur := x }, alg, st⟩) hc hi hn
    obtain ⟨bm, b1, b2, b3⟩ := call_report (P := P) (s := ⟨{ d with cur := y }, alg, st'⟩) hc hi hn
    refine ⟨by rw [a1, b1], ?_⟩
    cases hp : (P.process alg r.losses r.counts r.mixtureId).2 with
    | error e =>
      exact Or.inr ⟨(a2 e hp).1, (b2 e hp).1, Or.inr (Or.inl (by rw [(b2 e hp).2]; simp))⟩
    | ok out =>
      rw [(a3 out hp).1, (b3 out hp).1, (b3 out hp).2]
      cases out with
      | none =>
        have h : ∀ z : BaseMix K, (Dyn.processLosses { d with cur := z } r.mixtureId none).1 = { d with cur := z } := by
          intro z
          unfold Dyn.processLosses
          split
          · rfl
          · split <;> rfl
        exact Or.inr ⟨h x, h y, Or.inr (Or.inr ⟨r, rfl, hp⟩)⟩
      | some w =>
        unfold Dyn.processLosses
        dsimp only
        split
        · exact Or.inr ⟨rfl, rfl, Or.inr (Or.inl (by simp))⟩
        split
        · exact Or.inr ⟨rfl, rfl, Or.inr (Or.inl (by simp))⟩
        split
        · exact Or.inr ⟨rfl, rfl, Or.inr (Or.inl (by simp))⟩
        split
        · exact Or.inr ⟨rfl, rfl, Or.inr (Or.inl (by simp))⟩
        split
        · exact Or.inr ⟨rfl, rfl, Or.inr (Or.inl (by simp))⟩
        · exact Or.inl ⟨_, rfl, rfl⟩

theorem uninterrupted_snoc (s : Live K A) (calls : List FbCall) (c : FbCall) :
    uninterrupted P s (calls ++ [c]) = (handleFeedback P (uninterrupted P s calls) c).1 := by
  unfold uninterrupted Live.run
  rw [List.map_append, List.foldl_append]
  rfl

/-- Calls change nothing of the mixture object but the current mixture. -/
theorem uninterrupted_dyn {s : Live K A} (hi : s.dyn.ids.isSome) (hn : s.dyn.informed = true) (calls : List FbCall) :
    ∃ y, (uninterrupted P s calls).dyn = { s.dyn with cur := y } := by
  induction calls using List.reverseRecOn with
  | nil => exact ⟨s.dyn.cur, rfl⟩
  | append_singleton calls c ih =>
    obtain ⟨y, hy⟩ := ih
    rw [uninterrupted_snoc]
    generalize uninterrupted P s calls = u at hy
    obtain ⟨ud, ua, us⟩ := u
    simp only at hy
    subst hy
    obtain ⟨_, ⟨z, _, h⟩ | ⟨_, h, _⟩⟩ := same_call (P := P) hi hn ua y y us us c
    · exact ⟨z, h⟩
    · exact ⟨y, h⟩

theorem given_calls {index : Dict K Entries} {s : Live K A} (h : Given index s.dyn) (calls : List FbCall) :
    Given index (uninterrupted P s calls).dyn := by
  induction calls using List.reverseRecOn with
  | nil => exact h
  | append_singleton calls c ih => rw [uninterrupted_snoc]; exact (given_on (P := P) ih).1 c

/-! ## The invariant of a job -/

/-- A query result that stands for the given calls. -/
structure Good (P : MixAlg A) (s : Live K A) (calls : List FbCall) (q : LiveQ K A) : Prop where
  alg : q.live.alg = (uninterrupted P s calls).alg
  dyn : ∃ f, f <+: calls ∧ q.live.dyn = (uninterrupted P s f).dyn
  log : ∀ e ∈ q.log, e.idx < q.n ∧ ∃ f, f <+: calls ∧ e.dyn = (uninterrupted P s f).dyn
  incr : q.log.Pairwise fun a b => a.idx < b.idx
  ok : LogOk q

theorem good_start (s : Live K A) : Good P s [] (LiveQ.start s) :=
  ⟨rfl, ⟨[], List.prefix_rfl, rfl⟩, by simp [LiveQ.start], by simp [LiveQ.start], logOk_start s⟩

/-- A call on a query result that stands for some calls. -/
theorem good_both {s : Live K A} (hi : s.dyn.ids.isSome) (hn : s.dyn.informed = true) {calls : List FbCall} {q : LiveQ K A}
    (h : Good P s calls q) (c : FbCall) :
    (handleFeedback P q.live c).1.alg = (uninterrupted P s (calls ++ [c])).alg ∧
    ((handleFeedback P q.live c).1.dyn = (uninterrupted P s (calls ++ [c])).dyn ∨
      ((handleFeedback P q.live c).1.dyn = q.live.dyn ∧ (uninterrupted P s (calls ++ [c])).dyn = (uninterrupted P s calls).dyn ∧
        (c.report = none ∨ (handleFeedback P (uninterrupted P s calls) c).2 ≠ none ∨
          ∃ r, c.report = some r ∧ (P.process (uninterrupted P s calls).alg r.losses r.counts r.mixtureId).2 = .ok none))) := by
  obtain ⟨y, hy⟩ := uninterrupted_dyn (P := P) hi hn calls
  obtain ⟨f, _, hf⟩ := h.dyn
  obtain ⟨x, hx⟩ := uninterrupted_dyn (P := P) hi hn f
  have ha := h.alg
  rw [uninterrupted_snoc]
  rw [hx] at hf
  generalize uninterrupted P s calls = u at hy ha ⊢
  generalize q.live = v at hf ha ⊢
  obtain ⟨ud, ua, us⟩ := u
  obtain ⟨vd, va, vs⟩ := v
  simp only at hy hf ha
  subst hy hf ha
  obtain ⟨h1, ⟨z, h2, h3⟩ | ⟨h2, h3, h4⟩⟩ := same_call (P := P) hi hn va x y vs us c
  · exact ⟨h1, Or.inl (h2.trans h3.symm)⟩
  · exact ⟨h1, Or.inr ⟨h2, h3, h4⟩⟩

theorem good_call {s : Live K A} (hi : s.dyn.ids.isSome) (hn : s.dyn.informed = true) {calls : List FbCall} {q : LiveQ K A}
    (h : Good P s calls q) (c : FbCall) : Good P s (calls ++ [c]) (q.on P (.call c)) := by
  obtain ⟨h1, h2⟩ := good_both hi hn h c
  have hpre : ∀ {f : List FbCall}, f <+: calls → f <+: calls ++ [c] := fun hf => hf.trans (List.prefix_append _ _)
  refine ⟨h1, ?_, ?_, h.incr, logOk_on h.ok _⟩
  · rcases h2 with h2 | ⟨h2, _, _⟩
    · exact ⟨_, List.prefix_rfl, h2⟩
    · obtain ⟨f, hf, hd⟩ := h.dyn
      exact ⟨f, hpre hf, h2.trans hd⟩
  · intro e he
    obtain ⟨a, f, hf, hd⟩ := h.log e he
    exact ⟨a, f, hpre hf, hd⟩

theorem mem_dropLastAlg {l : List (LogEntry K A)} {e : LogEntry K A} (h : e ∈ dropLastAlg l) : ∃ e' ∈ l, e'.idx = e.idx ∧ e'.dyn = e.dyn := by
  rcases List.eq_nil_or_concat l with rfl | ⟨l, a, rfl⟩
  · simp [dropLastAlg] at h
  · rw [List.concat_eq_append, dropLastAlg_append] at h
    rcases List.mem_append.1 h with h | h
    · exact ⟨e, by simp [h], rfl, rfl⟩
    · rw [List.mem_singleton] at h; subst h; exact ⟨a, by simp, rfl, rfl⟩

theorem dropLastAlg_incr {l : List (LogEntry K A)} (h : l.Pairwise fun a b => a.idx < b.idx) :
    (dropLastAlg l).Pairwise fun a b => a.idx < b.idx := by
  rcases List.eq_nil_or_concat l with rfl | ⟨l, a, rfl⟩
  · simp [dropLastAlg]
  · rw [List.concat_eq_append] at h ⊢
    rw [dropLastAlg_append]
    rw [List.pairwise_append] at h ⊢
    exact ⟨h.1, by simp, fun x hx y hy => by rw [List.mem_singleton] at hy; subst hy; exact h.2.2 x hx a (by simp)⟩

theorem good_chunk {s : Live K A} {calls : List FbCall} {q : LiveQ K A} (h : Good P s calls q) : Good P s calls (q.on P .chunk) := by
  have hok := logOk_on (P := P) h.ok .chunk
  change LogOk q.chunk at hok
  show Good P s calls q.chunk
  unfold LiveQ.chunk at hok ⊢
  split at hok
  · rename_i h0; rw [if_pos h0]; exact h
  rename_i h0
  rw [if_neg h0]
  split at hok
  · rename_i hnot
    rw [if_pos hnot]
    refine ⟨h.alg, h.dyn, ?_, ?_, hok⟩
    · intro e he
      rcases List.mem_append.1 he with he | he
      · obtain ⟨e', he', h1, h2⟩ := mem_dropLastAlg he
        obtain ⟨a, f, hf, hd⟩ := h.log e' he'
        exact ⟨by show e.idx < q.n + 1; omega, f, hf, h2.symm.trans hd⟩
      · rw [List.mem_singleton] at he; subst he
        exact ⟨Nat.lt_succ_self _, h.dyn⟩
    · show (dropLastAlg q.log ++ _).Pairwise _
      rw [List.pairwise_append]
      refine ⟨dropLastAlg_incr h.incr, by simp, ?_⟩
      intro a ha b hb
      rw [List.mem_singleton] at hb; subst hb
      obtain ⟨e', he', h1, _⟩ := mem_dropLastAlg ha
      have := (h.log e' he').1
      show a.idx < q.n
      omega
  · rename_i hnot
    rw [if_neg hnot]
    refine ⟨h.alg, h.dyn, ?_, h.incr, hok⟩
    intro e he
    obtain ⟨a, b⟩ := h.log e he
    exact ⟨by show e.idx < q.n + 1; omega, b⟩

theorem withLastAlg_append (a : A) (l : List (LogEntry K A)) (e : LogEntry K A) : withLastAlg a (l ++ [e]) = l ++ [{ e with alg := some a }] := by
  induction l with
  | nil => rfl
  | cons b l ih =>
    cases l with
    | nil => rfl
    | cons c l => rw [List.cons_append, List.cons_append]; show b :: withLastAlg a (c :: l ++ [e]) = _; rw [ih]; rfl

/-- What comes back. -/
theorem restore_good {index : Dict K Entries} {s : Live K A} (hs : Given index s.dyn) (base : Live K A) {calls : List FbCall} {q : LiveQ K A}
    (h : Good P s calls q) (hn : q.n ≠ 0) :
    ∃ q', q.checkpoint.restore index base = .ok q' ∧ Good P s calls q' ∧ q'.n = q.n ∧ q'.prev = q.prev ∧
      some q'.live.dyn.cur.rows = q.prev := by
  have hl : q.log ≠ [] := fun hl => hn (h.ok.zero.2 hl)
  obtain ⟨l, e, hle⟩ : ∃ l e, q.log = l ++ [e] := by
    rcases List.eq_nil_or_concat q.log with h0 | ⟨l, e, h1⟩
    · exact absurd h0 hl
    · exact ⟨l, e, by rw [h1, List.concat_eq_append]⟩
  have hgiven : ∀ x ∈ l ++ [e], Given index x.dyn := by
    intro x hx
    obtain ⟨_, f, _, hd⟩ := h.log x (by rw [hle]; exact hx)
    rw [hd]; exact given_calls hs f
  have hidx : ∀ x ∈ l ++ [e], x.idx < q.n := fun x hx => (h.log x (by rw [hle]; exact hx)).1
  have hrows := h.ok.rows
  have hchain := h.ok.chain
  have hincr := h.incr
  have hprev := h.ok.prev
  rw [hle] at hrows hchain hincr hprev
  have hprev' : q.prev = some e.dyn.cur.rows := by rw [hprev]; simp
  have hlog : withLastAlg q.live.alg q.log = l ++ [{ e with alg := some q.live.alg }] := by rw [hle, withLastAlg_append]
  have hgood : Good P s calls ⟨⟨e.dyn, q.live.alg, e.step⟩, some e.dyn.cur.rows, l ++ [{ e with alg := some q.live.alg }], q.n⟩ := by
    have hmap : (l ++ [({ e with alg := some q.live.alg } : LogEntry K A)]).map (fun e => e.dyn.cur.rows) =
        (l ++ [e]).map fun e => e.dyn.cur.rows := by simp
    refine ⟨h.alg, (h.log e (by rw [hle]; simp)).2, ?_, ?_, ?_, ?_, ?_, ?_, ?_⟩
    · intro x hx
      rcases List.mem_append.1 hx with hx | hx
      · exact h.log x (by rw [hle]; simp [hx])
      · rw [List.mem_singleton] at hx; subst hx
        exact h.log e (by rw [hle]; simp)
    · show (l ++ [_]).Pairwise _
      rw [List.pairwise_append] at hincr ⊢
      exact ⟨hincr.1, by simp, fun x hx y hy => by rw [List.mem_singleton] at hy; subst hy; exact hincr.2.2 x hx e (by simp)⟩
    · intro x hx
      rcases List.mem_append.1 hx with hx | hx
      · exact hrows x (by simp [hx])
      · rw [List.mem_singleton] at hx; subst hx
        exact hrows e (by simp)
    · show ((l ++ [({ e with alg := some q.live.alg } : LogEntry K A)]).map _).IsChain _
      rw [hmap]; exact hchain
    · show _ = ((l ++ [({ e with alg := some q.live.alg } : LogEntry K A)]).map _).getLast?
      rw [hmap, ← hprev, hprev']
    · show q.n = 0 ↔ _
      exact ⟨fun h0 => absurd h0 hn, fun h0 => by simp at h0⟩
    · intro l' e' he'
      have := (List.append_inj' he' rfl).2
      simp only [List.cons.injEq, and_true] at this
      rw [← this]; rfl
  refine ⟨_, ?_, hgood, rfl, hprev'.symm, hprev'.symm⟩
  unfold QChk.restore LiveQ.checkpoint
  dsimp only
  rw [if_neg hn, hlog]
  cases l with
  | nil =>
    rw [List.nil_append]
    simp only
    have hg := hgiven e (by simp)
    rw [install_given (e := { e with alg := some q.live.alg }) hg]
    dsimp only
    obtain ⟨x, hx, he⟩ := replayRun_last index q.n 0 (⟨e.dyn, some q.live.alg, e.step⟩ : Live K (Option A)) none []
      (by simp) (by simp) (hrows e (by simp)) (by simp) (by simp) (Or.inl rfl)
    rw [he, hx, if_neg hn]
    rfl
  | cons a l =>
    rw [List.cons_append] at hrows hchain hincr ⊢
    simp only
    rw [install_given (hgiven a (by simp))]
    dsimp only
    obtain ⟨x, hx, he⟩ := replayRun_last index q.n 0 (⟨a.dyn, a.alg, a.step⟩ : Live K (Option A)) none
      (l ++ [{ e with alg := some q.live.alg }])
      (fun b hb => by
        rcases List.mem_append.1 hb with hb | hb
        · exact ⟨hgiven b (by simp [hb]), Nat.zero_le _, by have := hidx b (by simp [hb]); omega⟩
        · rw [List.mem_singleton] at hb; subst hb
          exact ⟨hgiven e (by simp), Nat.zero_le _, by have := hidx e (by simp); show e.idx < _; omega⟩)
      (by
        have h1 := (List.pairwise_cons.1 hincr).2
        rw [List.pairwise_append] at h1 ⊢
        exact ⟨h1.1, by simp, fun x hx y hy => by rw [List.mem_singleton] at hy; subst hy; exact h1.2.2 x hx e (by simp)⟩)
      (hrows a (by simp))
      (fun b hb => by
        rcases List.mem_append.1 hb with hb | hb
        · exact hrows b (by simp [hb])
        · rw [List.mem_singleton] at hb; subst hb; exact hrows e (by simp))
      (by
        rw [List.map_cons] at hchain
        have hmap : (l ++ [({ e with alg := some q.live.alg } : LogEntry K A)]).map (fun e => e.dyn.cur.rows) =
          (l ++ [e]).map fun e => e.dyn.cur.rows := by simp
        rw [hmap]; exact hchain) (Or.inl rfl)
    rw [he, hx, if_neg hn]
    simp
    done

/-- The invariant of a life. -/
theorem good_life {index : Dict K Entries} {s : Live K A} (base : Live K A) (hs : Given index s.dyn) (hi : s.dyn.ids.isSome)
    (hn : s.dyn.informed = true) (life : List LEv) : NotEarly P index base s life →
    Good P s (rolledBack life).1 (Job.run P index base s life).q ∧
    (((Job.run P index base s life).saved = none ∧ (rolledBack life).2 = []) ∨
      ∃ q0, Good P s (rolledBack life).2 q0 ∧ q0.n ≠ 0 ∧ (Job.run P index base s life).saved = some q0.checkpoint) := by
  induction life using List.reverseRecOn with
  | nil => intro _; exact ⟨good_start s, Or.inl ⟨rfl, rfl⟩⟩
  | append_singleton life e ih =>
    intro hne
    obtain ⟨h1, h2⟩ := ih fun l1 l2 h => hne l1 (l2 ++ [e]) (by rw [h]; simp)
    have hrun : Job.run P index base s (life ++ [e]) = (Job.run P index base s life).on P index base s e := by
      unfold Job.run; rw [List.foldl_append]; rfl
    have hroll : rolledBack (life ++ [e]) = rollStep (rolledBack life) e := by
      unfold rolledBack; rw [List.foldl_append]; rfl
    rw [hrun, hroll]
    cases e with
    | call c => exact ⟨good_call hi hn h1 c, h2⟩
    | chunk => exact ⟨good_chunk h1, h2⟩
    | save => exact ⟨h1, Or.inr ⟨_, h1, hne life [] rfl, rfl⟩⟩
    | crash =>
      rcases h2 with ⟨h2, h3⟩ | ⟨q0, h2, h3, h4⟩
      · have : (Job.run P index base s life).on P index base s .crash = { Job.run P index base s life with q := LiveQ.start s } := by
          simp only [Job.on, h2]
        rw [this]
        show Good P s (rolledBack life).2 _ ∧ (_ ∧ (rolledBack life).2 = [] ∨ _)
        rw [h3]
        exact ⟨good_start s, Or.inl ⟨h2, rfl⟩⟩
      · obtain ⟨q', h5, h6, _⟩ := restore_good hs base h2 h3
        have : (Job.run P index base s life).on P index base s .crash = { Job.run P index base s life with q := q' } := by
          simp only [Job.on, h4, h5]
        rw [this]
        exact ⟨h6, Or.inr ⟨q0, h2, h3, h4⟩⟩

/-! ## Theorems -/

/-- **C94** (what has been learnt, partly). A job whose mixture has been given the index and its key ids (and whose rows list no key
twice) lives any life - calls, chunks, checkpoints, crashes, in any order and any number, but no checkpoint before the first chunk. The
algorithm is then exactly in the state that it has without any restart after the calls that were not taken back; and the mixture is in
the state after the first so and so many of these calls. (Not after all of them: `c94_stale`; and not without the restriction:
`c94_early`.) -/
theorem c94_learnt_partial {index : Dict K Entries} {s : Live K A} (base : Live K A) (hnd : s.dyn.cur.rows.keys.Nodup)
    (hidx : s.dyn.processIndex index = (s.dyn, none)) (hi : s.dyn.ids.isSome) (hn : s.dyn.informed = true) (life : List LEv)
    (hne : NotEarly P index base s life) :
    (Job.run P index base s life).q.live.alg = (uninterrupted P s (rolledBack life).1).alg ∧
    ∃ f, f <+: (rolledBack life).1 ∧ (Job.run P index base s life).q.live.dyn = (uninterrupted P s f).dyn := by
  have h := (good_life base ⟨hnd, hidx⟩ hi hn life hne).1
  exact ⟨h.alg, h.dyn⟩

/-- **C94** (the next report, partly). Then one more call: either the mixture is exactly what it is without any restart, or the call
changes the mixture neither here nor there - it makes no report, or raises an exception, or the algorithm does not decide on a mixture. -/
theorem c94_next_partial {index : Dict K Entries} {s : Live K A} (base : Live K A) (hnd : s.dyn.cur.rows.keys.Nodup)
    (hidx : s.dyn.processIndex index = (s.dyn, none)) (hi : s.dyn.ids.isSome) (hn : s.dyn.informed = true) (life : List LEv)
    (hne : NotEarly P index base s life) (c : FbCall) :
    let j := (Job.run P index base s life).q.live
    let u := uninterrupted P s (rolledBack life).1
    let u' := uninterrupted P s ((rolledBack life).1 ++ [c])
    (Job.run P index base s (life ++ [.call c])).q.live.alg = u'.alg ∧
    ((Job.run P index base s (life ++ [.call c])).q.live.dyn = u'.dyn ∨
      ((Job.run P index base s (life ++ [.call c])).q.live.dyn = j.dyn ∧ u'.dyn = u.dyn ∧
        (c.report = none ∨ (handleFeedback P u c).2 ≠ none ∨
          ∃ r, c.report = some r ∧ (P.process u.alg r.losses r.counts r.mixtureId).2 = .ok none))) := by
  intro j u u'
  have h := (good_life base ⟨hnd, hidx⟩ hi hn life hne).1
  have hrun : (Job.run P index base s (life ++ [.call c])).q.live = (handleFeedback P j c).1 := by
    unfold Job.run; rw [List.foldl_append]; rfl
  rw [hrun]
  exact good_both hi hn h c

/-- **C94** (each report once, partly). A job with the averaging algorithm: after any such life and one more report, the rows are the
rounded shares that the average losses over *all* reports have that were not taken back - none is lost, none counted twice, no matter how
many restarts there were. -/
theorem c94_average_partial {index : Dict K Entries} {ids : Dict K Nat} {s : Live K (Acc ℚ)} (base : Live K (Acc ℚ)) (h : Ready ids s)
    (hnd : s.dyn.cur.rows.keys.Nodup) (hidx : s.dyn.processIndex index = (s.dyn, none)) (life : List LEv)
    (hne : NotEarly averaging index base s life) (c : FbCall) (hc : c.report ≠ none) (hs : Sound ids ((rolledBack life).1.map FbEv.call ++ [FbEv.call (K := K) c]))
    (hsome : ∃ i, 0 < totalCount ((rolledBack life).1.map FbEv.call ++ [FbEv.call (K := K) c]) i) (n : Nat)
    (hlen : ∀ r ∈ heard ((rolledBack life).1.map FbEv.call ++ [FbEv.call (K := K) c]), r.losses.length ≤ n) :
    let es := (rolledBack life).1.map FbEv.call ++ [FbEv.call (K := K) c]
    let rows := (Job.run averaging index base s (life ++ [.call c])).q.live.dyn.cur.rows
    rows.values.sum = s.dyn.chunk ∧
    ∃ share : Dict K ℚ, Rounded s.dyn.chunk share rows ∧
      ∀ k p, share.get? k = some p ↔ ∃ i, ids.get? k = some i ∧ 0 < weight es i ∧ p = weight es i / ∑ j ∈ Finset.range n, weight es j := by
  intro es rows
  have hi : s.dyn.ids.isSome := by rw [h.1]; rfl
  obtain ⟨_, h2⟩ := c94_next_partial base hnd hidx hi h.2.1 life hne c
  have hu' : uninterrupted averaging s ((rolledBack life).1 ++ [c]) = s.run averaging es := by
    unfold uninterrupted; rw [List.map_append]; rfl
  have hids : idsAfter ids es = ids := by
    have : ∀ l : List FbCall, idsAfter ids (l.map (FbEv.call (K := K))) = ids := by
      intro l
      induction l with
      | nil => rfl
      | cons c l ih => exact ih
    have he : es = ((rolledBack life).1 ++ [c]).map (FbEv.call (K := K)) := by rw [List.map_append]; rfl
    rw [he]; exact this _
  obtain ⟨_, _, a3, _, _, share, a6, _, a7⟩ := c90_average h es hs hsome n hlen
  rw [hids] at a7
  have hdyn : (Job.run averaging index base s (life ++ [.call c])).q.live.dyn = (s.run averaging es).dyn := by
    rw [← hu']
    rcases h2 with h2 | ⟨_, _, h3⟩
    · exact h2
    exfalso
    rcases h3 with h3 | h3 | ⟨r, hr, h3⟩
    · exact hc h3
    · exact h3 (c90_accepted h ((rolledBack life).1.map FbEv.call) c hs hc)
    · have hinv := inv_run_live es (inv_ready h) hs
      rw [List.nil_append] at hinv
      have hheard : heard es = heard ((rolledBack life).1.map (FbEv.call (K := K))) ++ [r] := by
        have : ∀ l : List (FbEv K), heard (l ++ [.call c]) = heard l ++ [r] := by
          intro l
          induction l with
          | nil => simp [heard, hr]
          | cons e l ih => cases e <;> simp [heard, ih]
        exact this _
      have hsplit : ∀ (l : List FbCall) (ids : Dict K Nat), Sound ids (l.map (FbEv.call (K := K)) ++ [.call c]) →
          Sound ids (l.map (FbEv.call (K := K))) := by
        intro l
        induction l with
        | nil => intro ids _; exact trivial
        | cons a l ih => intro ids h; exact ⟨h.1, ih _ h.2⟩
      have hpre := inv_run_live ((rolledBack life).1.map FbEv.call) (inv_ready h) (hsplit _ _ hs)
      rw [List.nil_append] at hpre
      have hret := c54_returned (F := ℚ) (heard ((rolledBack life).1.map (FbEv.call (K := K)))) (fun x hx => (hpre.valid x hx).1) r
        (hinv.valid r (by rw [hheard]; simp)).1
      have halg : (uninterrupted averaging s (rolledBack life).1).alg = averageRun (heard ((rolledBack life).1.map (FbEv.call (K := K)))) Acc.init :=
        hpre.alg
      rw [halg] at h3
      change (averageStep _ r.losses r.counts r.mixtureId).2 = _ at h3
      rw [hret, ← hheard] at h3
      have hnone : averageMixture (averageRun (heard es) (Acc.init : Acc ℚ)) = none := by injection h3
      obtain ⟨i, hi'⟩ := hsome
      have h1 := (c54_average (F := ℚ) (heard es) (fun r hr => (hinv.valid r hr).1) (fun r hr => (hinv.valid r hr).2.1)).1.1 hnone i
      rw [(average_totals (heard es) (fun r hr => (hinv.valid r hr).1) i).2] at h1
      change totalCount es i ≤ 0 at h1
      exact absurd hi' (not_lt.2 h1)
  have hrows : rows = (s.run averaging es).dyn.cur.rows := by show (Job.run averaging index base s (life ++ [.call c])).q.live.dyn.cur.rows = _; rw [hdyn]
  rw [hrows]
  exact ⟨a3, share, a6, a7⟩

/-- **C94** (the mixture after a crash, partly). A job is checkpointed, not before the first chunk, and crashes later: the mixture that
the resumed job starts with has the rows of the last chunk before the checkpoint. -/
theorem c94_rows_partial {index : Dict K Entries} {s : Live K A} (base : Live K A) (hnd : s.dyn.cur.rows.keys.Nodup)
    (hidx : s.dyn.processIndex index = (s.dyn, none)) (hi : s.dyn.ids.isSome) (hn : s.dyn.informed = true) (life1 : List LEv)
    (calls : List FbCall) (rest : List LEv) (hsave : ∀ e ∈ rest, e ≠ .save)
    (hne : NotEarly P index base s (life1 ++ .chunk :: calls.map .call ++ [.save]))
    (hans : (Job.run P index base s life1).q.live.dyn.cur.rows ≠ []) :
    SameRows (Job.run P index base s ((life1 ++ .chunk :: calls.map .call ++ [.save]) ++ rest ++ [.crash])).q.live.dyn.cur.rows
      (Job.run P index base s life1).q.live.dyn.cur.rows := by
  have hs : Given index s.dyn := ⟨hnd, hidx⟩
  have happ : ∀ a b : List LEv, Job.run P index base s (a ++ b) = b.foldl (fun j e => j.on P index base s e) (Job.run P index base s a) := by
    intro a b; unfold Job.run; rw [List.foldl_append]
  have hcalls : ∀ (l : List FbCall) (j : Job K A), ((l.map LEv.call).foldl (fun j e => j.on P index base s e) j).q.prev = j.q.prev := by
    intro l
    induction l with
    | nil => intro j; rfl
    | cons c l ih => intro j; exact (ih _).trans rfl
  have hrest : ∀ (l : List LEv) (j : Job K A), (∀ e ∈ l, e ≠ .save) → (l.foldl (fun j e => j.on P index base s e) j).saved = j.saved := by
    intro l
    induction l with
    | nil => intro j _; rfl
    | cons e l ih =>
      intro j h
      refine (ih _ fun x hx => h x (List.mem_cons_of_mem _ hx)).trans ?_
      cases e with
      | call c => rfl
      | chunk => rfl
      | save => exact absurd rfl (h .save (by simp))
      | crash =>
        unfold Job.on
        dsimp only
        split
        · rfl
        · split <;> rfl
  have hg1 : Good P s (rolledBack life1).1 (Job.run P index base s life1).q :=
    (good_life base hs hi hn life1 fun l1 l2 h => hne l1 (l2 ++ .chunk :: calls.map .call ++ [.save]) (by rw [h]; simp)).1
  have hmid := good_life base hs hi hn (life1 ++ .chunk :: calls.map .call) fun l1 l2 h => hne l1 (l2 ++ [.save]) (by rw [h]; simp)
  have hn0 := hne (life1 ++ .chunk :: calls.map .call) [] rfl
  have hprev : ∃ p, (Job.run P index base s (life1 ++ .chunk :: calls.map .call)).q.prev = some p ∧
      SameRows p (Job.run P index base s life1).q.live.dyn.cur.rows := by
    rw [show life1 ++ LEv.chunk :: calls.map LEv.call = (life1 ++ [.chunk]) ++ calls.map .call by simp, happ, hcalls, happ]
    show ∃ p, (LiveQ.chunk (Job.run P index base s life1).q).prev = some p ∧ _
    have hgiv : Given index (Job.run P index base s life1).q.live.dyn := by
      obtain ⟨f, _, hf⟩ := hg1.dyn; rw [hf]; exact given_calls hs f
    have hlog := hg1.log
    have hokp := hg1.ok.prev
    generalize (Job.run P index base s life1).q = q at hans hgiv hlog hokp ⊢
    unfold LiveQ.chunk
    rw [if_neg hans]
    split
    · exact ⟨_, rfl, SameRows.refl _⟩
    · rename_i hnot
      show ∃ p, q.prev = some p ∧ _
      cases hp : q.prev with
      | none => rw [hp] at hnot; simp [noticed] at hnot
      | some p =>
        refine ⟨p, rfl, ?_⟩
        rw [hp] at hnot
        simp only [noticed, Bool.not_eq_true, Bool.not_eq_false'] at hnot
        have hpnd : p.keys.Nodup := by
          rw [hp] at hokp
          have := List.mem_of_getLast? hokp.symm
          obtain ⟨e, he, hee⟩ := List.mem_map.1 this
          obtain ⟨_, f, _, hd⟩ := hlog e he
          rw [← hee, hd]
          exact (given_calls hs f).nodup
        exact (dictEq_iff hpnd hgiv.nodup).1 hnot
  obtain ⟨p, hp, hsame⟩ := hprev
  obtain ⟨q', h5, _, _, _, h6⟩ := restore_good hs base hmid.1 hn0
  have hfin : (Job.run P index base s ((life1 ++ .chunk :: calls.map .call ++ [.save]) ++ rest ++ [.crash])).q = q' := by
    rw [happ, happ]
    have hsv := hrest rest (Job.run P index base s (life1 ++ .chunk :: calls.map .call ++ [.save])) hsave
    rw [happ _ [.save]] at hsv
    change _ = some (Job.run P index base s (life1 ++ .chunk :: calls.map .call)).q.checkpoint at hsv
    rw [happ _ [.save]]
    generalize List.foldl _ _ rest = j at hsv ⊢
    show (Job.on P index base s j .crash).q = q'
    simp only [Job.on, hsv, h5]
  rw [hfin]
  rw [hp] at h6
  injection h6 with h6
  rw [h6]
  exact hsame

/-- **C94** (the number of chunks). A checkpoint that was taken after a chunk can always be restored, and the resumed job goes on counting
where the checkpoint was taken. -/
theorem c94_resumes {index : Dict K Entries} {s : Live K A} (base : Live K A) (hnd : s.dyn.cur.rows.keys.Nodup)
    (hidx : s.dyn.processIndex index = (s.dyn, none)) (hi : s.dyn.ids.isSome) (hn : s.dyn.informed = true) (life : List LEv)
    (hne : NotEarly P index base s (life ++ [.save])) :
    ∃ q, (Job.run P index base s life).q.checkpoint.restore index base = .ok q ∧
      (Job.run P index base s (life ++ [.save, .crash])).q = q ∧ q.n = (Job.run P index base s life).q.n := by
  have h := (good_life base ⟨hnd, hidx⟩ hi hn life fun l1 l2 h => hne l1 (l2 ++ [.save]) (by rw [h]; simp)).1
  obtain ⟨q', h1, _, h2, _⟩ := restore_good ⟨hnd, hidx⟩ base h (hne life [] rfl)
  refine ⟨q', h1, ?_, h2⟩
  unfold Job.run
  rw [List.foldl_append]
  show (Job.on P index base s { Job.run P index base s life with saved := some (Job.run P index base s life).q.checkpoint } .crash).q = q'
  simp only [Job.on, h1]

/-! ## Refutations and concrete cases -/

/-- A call of the first rank. -/
def lCall (steps : Int) (l : List ℚ) (n : List Int) : LEv := .call ⟨0, 0, true, some 0, steps, some l, some n⟩

/-- **C94**, refuted: a report changes the mixture, then a checkpoint is taken before a chunk of the new mixture was handed out, and the
job crashes. The resumed job goes on with the old mixture and the old training step; only the next report puts the mixture right. -/
theorem c94_stale :
    let life := [LEv.chunk, lCall 7 [6, 2] [2, 1], .save, .crash]
    let j := (Job.run averaging [] exTold exTold life).q
    let u := uninterrupted averaging exTold (rolledBack life).1
    NotEarly averaging [] exTold exTold life ∧
    j.live.dyn.cur.rows = [(10, 4), (20, 4)] ∧ u.dyn.cur.rows = [(10, 5), (20, 3)] ∧ (j.live.step, u.step) = (0, 7) := by
  refine ⟨?_, by decide +kernel, by decide +kernel, by decide +kernel⟩
  intro l1 l2 h
  have : l1 = [LEv.chunk, lCall 7 [6, 2] [2, 1]] := by
    match l1, h with
    | [], h => simp at h
    | [_], h => simp [lCall] at h
    | [_, _], h => simp at h; rw [h.1, h.2.1]
    | _ :: _ :: _ :: [], h => simp at h
    | _ :: _ :: _ :: _ :: _, h => simp at h
  rw [this]
  decide +kernel

/-- **C94**, refuted without the restriction: a checkpoint before the first chunk does not say anything about the mixture. The resumed
job gets the one stored with the query result - after `LocalStub.execute_query` (local_stub.py:66-98) that is the one with which the
query was first executed, whoever's job that was - and all reports are lost. -/
theorem c94_early (index : Dict K Entries) (base s : Live K A) (calls : List FbCall) :
    (Job.run P index base s (calls.map .call ++ [.save, .crash])).q = ⟨base, none, [], 0⟩ := by
  have hq : ∀ (l : List FbCall) (j : Job K A), j.q.n = 0 → j.q.log = [] →
      ((l.map LEv.call).foldl (fun j e => j.on P index base s e) j).q.n = 0 ∧
      ((l.map LEv.call).foldl (fun j e => j.on P index base s e) j).q.log = [] := by
    intro l
    induction l with
    | nil => intro j h1 h2; exact ⟨h1, h2⟩
    | cons c l ih => intro j h1 h2; exact ih _ h1 h2
  obtain ⟨h1, h2⟩ := hq calls ⟨LiveQ.start s, none⟩ rfl rfl
  unfold Job.run
  rw [List.foldl_append]
  generalize List.foldl _ _ (calls.map LEv.call) = j at h1 h2
  show (Job.on P index base s { j with saved := some j.q.checkpoint } .crash).q = _
  have h3 : j.q.checkpoint.restore index base = .ok ⟨base, none, [], 0⟩ := by
    unfold QChk.restore LiveQ.checkpoint
    rw [if_pos h1, h2]; rfl
  simp only [Job.on, h3]

/-- A life with two checkpoints and three crashes. -/
def exLife : List LEv :=
  [.crash, .chunk, lCall 1 [6, 2] [2, 1], .chunk, lCall 2 [6, 2] [2, 1], .save, lCall 3 [1, 1] [1, 1], .chunk, .crash,
    lCall 3 [0, 9] [1, 1], .chunk, .save, lCall 4 [5, 5] [1, 1], .crash]

/-- What remains of its five reports: the three that a checkpoint includes. -/
example : (rolledBack exLife).1 = [⟨0, 0, true, some 0, 1, some [6, 2], some [2, 1]⟩, ⟨0, 0, true, some 0, 2, some [6, 2], some [2, 1]⟩,
    ⟨0, 0, true, some 0, 3, some [0, 9], some [1, 1]⟩] := rfl

/-- The job has learnt these three, and hands out chunks accordingly. -/
example : (Job.run averaging [] exTold exTold exLife).q.live.dyn.cur.rows = [(10, 3), (20, 5)] ∧
    (uninterrupted averaging exTold (rolledBack exLife).1).dyn.cur.rows = [(10, 3), (20, 5)] ∧
    (Job.run averaging [] exTold exTold exLife).q.n = 3 := by
  decide +kernel

/-- It takes no checkpoint before the first chunk. -/
theorem exLife_notEarly : NotEarly averaging [] exTold exTold exLife := by
  intro l1 l2 h
  have hlen := congrArg List.length h
  have : l1 = exLife.take 5 ∨ l1 = exLife.take 11 := by
    have ht : l1 = exLife.take l1.length := by rw [h]; simp
    have hg : exLife[l1.length]? = some .save := by rw [h]; simp
    have hb : l1.length < 14 := by
      rw [List.length_append, List.length_cons] at hlen
      have : exLife.length = 14 := rfl
      omega
    rw [ht]
    generalize l1.length = n at hg hb
    interval_cases n <;> simp [exLife, lCall] at hg <;> simp [exLife]
  rcases this with rfl | rfl <;> decide +kernel

/-- The assumptions are met. -/
example : ∃ f, f <+: (rolledBack exLife).1 ∧
    (Job.run averaging [] exTold exTold exLife).q.live.dyn = (uninterrupted averaging exTold f).dyn :=
  (c94_learnt_partial exTold exTold_given.1 exTold_given.2 (by decide +kernel) (by decide +kernel) exLife exLife_notEarly).2

end Mixtera.Mixing
