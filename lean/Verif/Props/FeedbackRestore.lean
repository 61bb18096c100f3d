import Verif.Model.FeedbackRestore
import Verif.Props.Feedback
import Verif.Props.Reorder

/-!
# C91: stored query results and what a dynamic mixing algorithm has learnt
-/

set_option linter.unusedSectionVars false

namespace Mixtera.Mixing

variable {K A : Type} [DecidableEq K]

/-! ## Specification -/

/-- The feedback events of a history: without the chunk requests. -/
def feedbackOf : List (QEv K) → List (FbEv K)
  | [] => []
  | .call c :: es => .call c :: feedbackOf es
  | .idMap ids :: es => .idMap ids :: feedbackOf es
  | .chunk :: es => feedbackOf es

/-- The same rows for the same keys. -/
def SameRows (a b : Dict K Nat) : Prop := ∀ k, a.get? k = b.get? k

/-- The rows of the mixture in force after a history. -/
def rowsAfter (P : MixAlg A) (s : Live K A) (es : List (QEv K)) : Dict K Nat := (s.run P (feedbackOf es)).dyn.cur.rows

/-- A request at this point is answered with a chunk. -/
def Asked (P : MixAlg A) (s : Live K A) (es : List (QEv K)) : Prop :=
  ∃ es1 es2, es = es1 ++ .chunk :: es2 ∧ rowsAfter P s es1 ≠ []

/-- The history is `es1`, then a chunk of the mixture then in force, then `es2`, in which every chunk has the same mixture. -/
structure LastChange (P : MixAlg A) (s : Live K A) (es es1 es2 : List (QEv K)) : Prop where
  split : es = es1 ++ .chunk :: es2
  answered : rowsAfter P s es1 ≠ []
  same : ∀ f1 f2, es2 = f1 ++ .chunk :: f2 → rowsAfter P s (es1 ++ .chunk :: f1) ≠ [] →
    SameRows (rowsAfter P s es1) (rowsAfter P s (es1 ++ .chunk :: f1))
  changed : ∀ f1 f2, es1 = f1 ++ .chunk :: f2 → rowsAfter P s f1 ≠ [] →
    (∀ g1 g2, f2 = g1 ++ .chunk :: g2 → rowsAfter P s (f1 ++ .chunk :: g1) = []) →
    ¬ SameRows (rowsAfter P s f1) (rowsAfter P s es1)

/-! ## Lemmas -/

variable {P : MixAlg A}

theorem feedbackOf_append (a b : List (QEv K)) : feedbackOf (a ++ b) = feedbackOf a ++ feedbackOf b := by
  induction a with
  | nil => rfl
  | cons e a ih => cases e <;> simp [feedbackOf, ih]

theorem addRemainder_nodup (keys : List K) (n : Nat) : ∀ (i : Nat) (d out : Dict K Nat), d.keys.Nodup →
    addRemainder keys n i d = .ok out → out.keys.Nodup := by
  induction n with
  | zero => intro i d out hd h; simp only [addRemainder, Except.ok.injEq] at h; subst h; exact hd
  | succ n ih =>
    intro i d out hd h
    simp only [addRemainder] at h
    split at h
    · cases h
    · exact ih _ _ _ (Dict.nodup_keys_upsert hd _ _) h

theorem staticMixture_nodup {chunk : Nat} {m : Dict K ℚ} {rows : Dict K Nat} (hm : m.keys.Nodup)
    (h : staticMixture chunk m = .ok rows) : rows.keys.Nodup := by
  unfold staticMixture at h
  split at h
  · cases h
  unfold parseUserMixture at h
  split at h
  · cases h
  split at h
  · cases h
  split at h
  · cases h
  · rename_i out he
    split at h
    · cases h
      refine addRemainder_nodup _ _ _ _ _ ?_ he
      have : (floorCounts chunk (m.map fun kv => (kv.1, kv.2 / m.values.sum))).keys = m.keys := by
        simp [floorCounts, Dict.keys, Function.comp_def]
      rw [this]; exact hm
    · cases h

theorem weightMap_nodup (ids : Dict K Nat) (w : List ℚ) : ∀ (i : Nat) (acc m : Dict K ℚ), acc.keys.Nodup →
    weightMap ids i w acc = .ok m → m.keys.Nodup := by
  induction w with
  | nil => intro i acc m ha h; simp only [weightMap, Except.ok.injEq] at h; subst h; exact ha
  | cons x w ih =>
    intro i acc m ha h
    simp only [weightMap] at h
    split at h
    · split at h
      · cases h
      · exact ih _ _ _ (Dict.nodup_keys_upsert ha _ _) h
    · exact ih _ _ _ ha h

/-- The rows list no key twice, and the mixture has been given the index. -/
structure Given (index : Dict K Entries) (d : Dyn K) : Prop where
  nodup : d.cur.rows.keys.Nodup
  index : d.processIndex index = (d, none)

theorem given_processLosses {index : Dict K Entries} {d : Dyn K} (h : Given index d) (m : Int) (out : Option (List ℚ)) :
    Given index (d.processLosses m out).1 := by
  unfold Dyn.processLosses
  split
  · exact h
  split
  · exact h
  split
  · exact h
  split
  · exact h
  split
  · exact h
  split
  · exact h
  · rename_i hw _ _ hs
    exact ⟨staticMixture_nodup (weightMap_nodup _ _ _ _ _ (by simp [Dict.keys]) hw) hs, by
      simp [Dyn.processIndex, BaseMix.processIndex]⟩

theorem given_processIdMap {index : Dict K Entries} {d : Dyn K} (h : Given index d) (ids : Dict K Nat) :
    Given index (d.processIdMap ids).1 := by
  have hcur : (d.processIdMap ids).1.cur = d.cur := by
    unfold Dyn.processIdMap
    dsimp only
    split
    · rfl
    split
    · rfl
    split
    · rfl
    split <;> rfl
  refine ⟨by rw [hcur]; exact h.nodup, ?_⟩
  have := h.index
  unfold Dyn.processIndex at this ⊢
  rw [hcur]
  cases hb : d.cur.processIndex index with
  | error e => rw [hb] at this; simp at this
  | ok b =>
    rw [hb] at this
    simp only [Prod.mk.injEq, and_true] at this ⊢
    have hbb : b = d.cur := by rw [← this]
    rw [hbb, ← hcur]

theorem given_on {index : Dict K Entries} {s : Live K A} (h : Given index s.dyn) :
    (∀ c, Given index (s.on P (.call c)).1.dyn) ∧ ∀ ids, Given index (s.on P (.idMap ids)).1.dyn := by
  constructor
  · intro c
    show Given index (handleFeedback P s c).1.dyn
    unfold handleFeedback
    split
    · exact h
    split
    · exact h
    split
    · exact h
    split
    · exact h
    · unfold Live.feedback
      split
      · unfold Live.processLosses
        split
        · exact h
        split
        · exact h
        · exact given_processLosses h _ _
      · exact h
  · intro ids
    exact given_processIdMap h ids

theorem given_run {index : Dict K Entries} (es : List (QEv K)) : ∀ {s : Live K A}, Given index s.dyn →
    Given index (s.run P (feedbackOf es)).dyn := by
  induction es with
  | nil => intro s h; exact h
  | cons e es ih =>
    intro s h
    cases e with
    | call c => simp only [feedbackOf, run_cons]; exact ih ((given_on h).1 c)
    | idMap ids => simp only [feedbackOf, run_cons]; exact ih ((given_on h).2 ids)
    | chunk => simp only [feedbackOf]; exact ih h

theorem install_given {index : Dict K Entries} {e : LogEntry K A} (h : Given index e.dyn) :
    e.install index = .ok ⟨e.dyn, e.alg, e.step⟩ := by
  unfold LogEntry.install
  rw [h.index]

theorem dropLastAlg_append (l : List (LogEntry K A)) (e : LogEntry K A) :
    dropLastAlg (l ++ [e]) = l ++ [{ e with alg := none }] := by
  induction l with
  | nil => rfl
  | cons a l ih =>
    cases l with
    | nil => rfl
    | cons b l => rw [List.cons_append, List.cons_append]; show a :: dropLastAlg (b :: l ++ [e]) = _; rw [ih]; rfl

/-- What the replay ends with: the last entry, if the entries to come are at increasing places before the end. -/
theorem replayMix_last (index : Dict K Entries) : ∀ (k i : Nat) (m : Live K (Option A)) (l : List (LogEntry K A)),
    (∀ e ∈ l, Given index e.dyn ∧ i ≤ e.idx ∧ e.idx < i + k) → l.Pairwise (fun a b => a.idx < b.idx) →
    replayMix index k i m l = .ok (match l.getLast? with | none => m | some e => ⟨e.dyn, e.alg, e.step⟩) := by
  intro k
  induction k with
  | zero =>
    intro i m l hl _
    cases l with
    | nil => rfl
    | cons e l => have := (hl e (by simp)).2; omega
  | succ k ih =>
    intro i m l hl hp
    cases l with
    | nil => simp only [replayMix]; rw [ih _ _ [] (by simp) (by simp)]
    | cons e l =>
      simp only [replayMix]
      by_cases hi : i = e.idx
      · rw [if_pos hi, install_given (hl e (by simp)).1]
        dsimp only
        rw [ih _ _ l ?_ (List.pairwise_cons.1 hp).2]
        · cases hgl : l.getLast? with
          | none => rw [List.getLast?_eq_none_iff] at hgl; subst hgl; rfl
          | some a => simp [List.getLast?_cons, hgl]
        · intro a ha
          have h1 := (List.pairwise_cons.1 hp).1 a ha
          have h2 := hl a (by simp [ha])
          exact ⟨h2.1, by omega, by omega⟩
      · rw [if_neg hi, ih _ _ (e :: l) ?_ hp]
        intro a ha
        have h2 := hl a ha
        refine ⟨h2.1, ?_, by omega⟩
        have h3 := (hl e (by simp)).2.1
        rcases List.mem_cons.1 ha with rfl | ha
        · omega
        · have := (List.pairwise_cons.1 hp).1 a ha
          omega

theorem dynOf_run (es : List (QEv K)) : ∀ (q : LiveQ K A), (q.run P es).live = q.live.run P (feedbackOf es) := by
  induction es with
  | nil => intro q; rfl
  | cons e es ih =>
    intro q
    show ((q.on P e).run P es).live = _
    rw [ih]
    cases e with
    | call c => rfl
    | idMap ids => rfl
    | chunk =>
      show (LiveQ.chunk q).live.run P _ = _
      unfold LiveQ.chunk
      split
      · rfl
      · split <;> rfl

theorem runq_append (q : LiveQ K A) (es fs : List (QEv K)) : q.run P (es ++ fs) = (q.run P es).run P fs := by
  unfold LiveQ.run; rw [List.foldl_append]

theorem SameRows.refl (a : Dict K Nat) : SameRows a a := fun _ => rfl

/-- The log of a history. -/
structure QInv (P : MixAlg A) (index : Dict K Entries) (s : Live K A) (es : List (QEv K)) (q : LiveQ K A) : Prop where
  live : q.live = s.run P (feedbackOf es)
  given : ∀ e ∈ q.log, Given index e.dyn ∧ e.idx < q.n
  incr : q.log.Pairwise fun a b => a.idx < b.idx
  none : q.n = 0 → q.log = [] ∧ q.prev = Option.none ∧ ¬ Asked P s es
  some : q.n ≠ 0 → ∃ es1 es2, LastChange P s es es1 es2 ∧ q.prev = Option.some (rowsAfter P s es1) ∧
    ∃ l i, q.log = l ++ [⟨i, (s.run P (feedbackOf es1)).dyn, Option.some (s.run P (feedbackOf es1)).alg, (s.run P (feedbackOf es1)).step⟩]

theorem append_chunk_cases {es1 es2 f1 f2 : List (QEv K)} {e : QEv K} (h : es1 ++ [e] = f1 ++ .chunk :: f2) :
    (f2 = [] ∧ e = .chunk ∧ f1 = es1) ∨ ∃ f2', f2 = f2' ++ [e] ∧ es1 = f1 ++ .chunk :: f2' := by
  rcases List.eq_nil_or_concat f2 with rfl | ⟨f2', a, rfl⟩
  · have := List.append_inj' h rfl
    exact Or.inl ⟨rfl, by simpa using this.2, this.1.symm⟩
  · have h' : es1 ++ [e] = (f1 ++ .chunk :: f2') ++ [a] := by simpa using h
    have := List.append_inj' h' rfl
    have hea : e = a := by simpa using this.2
    exact Or.inr ⟨f2', by rw [hea]; simp, this.1⟩

theorem asked_snoc {s : Live K A} {es : List (QEv K)} {e : QEv K} (h : Asked P s (es ++ [e])) :
    Asked P s es ∨ (e = .chunk ∧ rowsAfter P s es ≠ []) := by
  obtain ⟨f1, f2, h1, h2⟩ := h
  rcases append_chunk_cases (es2 := []) h1 with ⟨_, he, hf⟩ | ⟨f2', _, hf⟩
  · exact Or.inr ⟨he, by rw [← hf]; exact h2⟩
  · exact Or.inl ⟨f1, f2', hf, h2⟩

/-- `f1` is the last answered request of `es`, and `es1` an answered one: `f1` is `es1` or later. -/
theorem later_answered {s : Live K A} {es1 es2 f1 f2 : List (QEv K)} (he : es1 ++ QEv.chunk :: es2 = f1 ++ .chunk :: f2)
    (ha : rowsAfter P s es1 ≠ []) (hlater : ∀ g1 g2, f2 = g1 ++ .chunk :: g2 → rowsAfter P s (f1 ++ .chunk :: g1) = []) :
    f1 = es1 ∨ ∃ g1, f1 = es1 ++ .chunk :: g1 ∧ ∃ g2, es2 = g1 ++ .chunk :: g2 := by
  rcases List.append_eq_append_iff.1 he with ⟨a, ha1, ha2⟩ | ⟨a, ha1, ha2⟩
  · cases a with
    | nil => exact Or.inl (by simpa using ha1)
    | cons x a =>
      rw [List.cons_append, List.cons.injEq] at ha2
      obtain ⟨rfl, ha2⟩ := ha2
      exact Or.inr ⟨a, ha1, f2, ha2⟩
  · cases a with
    | nil => exact Or.inl (by simpa using ha1.symm)
    | cons x a =>
      exfalso
      rw [List.cons_append, List.cons.injEq] at ha2
      obtain ⟨rfl, ha2⟩ := ha2
      exact ha (by rw [ha1]; exact hlater a es2 ha2)

theorem last_answered {s : Live K A} (es : List (QEv K)) (h : Asked P s es) :
    ∃ f1 f2, es = f1 ++ .chunk :: f2 ∧ rowsAfter P s f1 ≠ [] ∧
      ∀ g1 g2, f2 = g1 ++ .chunk :: g2 → rowsAfter P s (f1 ++ .chunk :: g1) = [] := by
  induction es using List.reverseRecOn with
  | nil => obtain ⟨a, b, h, _⟩ := h; simp at h
  | append_singleton es e ih =>
    by_cases hl : e = .chunk ∧ rowsAfter P s es ≠ []
    · obtain ⟨rfl, hr⟩ := hl
      exact ⟨es, [], rfl, hr, by simp⟩
    · rcases asked_snoc h with h | h
      · obtain ⟨f1, f2, h1, h2, h3⟩ := ih h
        refine ⟨f1, f2 ++ [e], by rw [h1]; simp, h2, ?_⟩
        intro g1 g2 hg
        rcases append_chunk_cases (es2 := []) hg with ⟨_, he, hg⟩ | ⟨g2', _, hg⟩
        · subst hg
          rw [← h1]
          by_contra hr
          exact hl ⟨he, hr⟩
        · exact h3 g1 g2' hg
      · exact absurd h hl

theorem LastChange.not_before {s : Live K A} {es es1 es2 es1' es2' g : List (QEv K)} (h : LastChange P s es es1 es2)
    (h' : LastChange P s es es1' es2') (hg : es1' = es1 ++ .chunk :: g) : False := by
  have he2 : es2 = g ++ .chunk :: es2' := by
    have := h.split.symm.trans h'.split
    rw [hg] at this
    simpa using this
  obtain ⟨f1, f2, e1, e2, e3⟩ := last_answered (P := P) (s := s) es1' ⟨es1, g, hg, h.answered⟩
  have hch := h'.changed f1 f2 e1 e2 e3
  have hs' : SameRows (rowsAfter P s es1) (rowsAfter P s es1') := by
    have := h.same g es2' he2 (by rw [← hg]; exact h'.answered)
    rwa [← hg] at this
  rcases later_answered (hg.symm.trans e1) h.answered e3 with rfl | ⟨g1, rfl, g2, hg2⟩
  · exact hch hs'
  · have := h.same g1 (g2 ++ .chunk :: es2') (by rw [he2, hg2]; simp) e2
    exact hch fun k => (this k).symm.trans (hs' k)

/-- There is one such moment at most. -/
theorem LastChange.unique {s : Live K A} {es es1 es2 es1' es2' : List (QEv K)} (h : LastChange P s es es1 es2)
    (h' : LastChange P s es es1' es2') : es1 = es1' ∧ es2 = es2' := by
  have he := h.split.symm.trans h'.split
  have : es1 = es1' := by
    rcases List.append_eq_append_iff.1 he with ⟨a, ha1, ha2⟩ | ⟨a, ha1, ha2⟩
    · cases a with
      | nil => simpa using ha1.symm
      | cons x a =>
        rw [List.cons_append, List.cons.injEq] at ha2
        obtain ⟨rfl, ha2⟩ := ha2
        exact (h.not_before h' ha1).elim
    · cases a with
      | nil => simpa using ha1
      | cons x a =>
        rw [List.cons_append, List.cons.injEq] at ha2
        obtain ⟨rfl, ha2⟩ := ha2
        exact (h'.not_before h ha1).elim
  subst this
  exact ⟨rfl, by simpa using he⟩

theorem qinv_run {index : Dict K Entries} {s : Live K A} (hs : Given index s.dyn) (es : List (QEv K)) :
    QInv P index s es ((LiveQ.start s).run P es) := by
  induction es using List.reverseRecOn with
  | nil =>
    refine ⟨rfl, by simp [LiveQ.run, LiveQ.start], by simp [LiveQ.run, LiveQ.start], ?_, fun h => absurd rfl h⟩
    intro _
    refine ⟨rfl, rfl, ?_⟩
    rintro ⟨a, b, h, _⟩
    simp at h
  | append_singleton es e ih =>
    have hlive := dynOf_run (P := P) (es ++ [e]) (LiveQ.start s)
    rw [runq_append] at hlive ⊢
    generalize (LiveQ.start s).run P es = q at ih hlive ⊢
    have quiet : ∀ q', q'.live = s.run P (feedbackOf (es ++ [e])) → q'.prev = q.prev → q'.log = q.log → q'.n = q.n →
        (e = .chunk → rowsAfter P s es = []) → QInv P index s (es ++ [e]) q' := by
      intro q' h1 h2 h3 h4 h5
      refine ⟨h1, by rw [h3, h4]; exact ih.given, by rw [h3]; exact ih.incr, ?_, ?_⟩
      · intro hn
        rw [h4] at hn
        obtain ⟨a, b, c⟩ := ih.none hn
        refine ⟨by rw [h3, a], by rw [h2, b], fun hk => ?_⟩
        rcases asked_snoc hk with hk | ⟨hk, hk'⟩
        · exact c hk
        · exact hk' (h5 hk)
      · intro hn
        rw [h4] at hn
        obtain ⟨es1, es2, hl, hp, hlog⟩ := ih.some hn
        refine ⟨es1, es2 ++ [e], ⟨by rw [hl.split]; simp, hl.answered, ?_, hl.changed⟩, by rw [h2, hp], by rw [h3]; exact hlog⟩
        intro f1 f2 hf hr
        rcases append_chunk_cases (es2 := []) hf with ⟨_, he, hf⟩ | ⟨f2', _, hf⟩
        · subst hf
          rw [← hl.split] at hr
          exact absurd (h5 he) hr
        · exact hl.same f1 f2' hf hr
    cases e with
    | call c => exact quiet _ hlive rfl rfl rfl (by simp)
    | idMap ids => exact quiet _ hlive rfl rfl rfl (by simp)
    | chunk =>
      have hlv : q.live = s.run P (feedbackOf es) := ih.live
      have hrows : q.live.dyn.cur.rows = rowsAfter P s es := by rw [hlv]; rfl
      have hg : Given index q.live.dyn := by rw [hlv]; exact given_run es hs
      have hfb : feedbackOf (es ++ [QEv.chunk]) = feedbackOf es := by rw [feedbackOf_append]; simp [feedbackOf]
      change QInv P index s (es ++ [.chunk]) q.chunk
      change q.chunk.live = _ at hlive
      by_cases h0 : q.live.dyn.cur.rows = []
      · have hq : q.chunk = q := by unfold LiveQ.chunk; rw [if_pos h0]
        rw [hq]
        exact quiet q (by rw [hfb]; exact hlv) rfl rfl rfl fun _ => by rw [← hrows]; exact h0
      · have hne : rowsAfter P s es ≠ [] := by rw [← hrows]; exact h0
        by_cases hnot : noticed q.prev q.live.dyn.cur.rows = true
        · have hq : q.chunk = { q with
              prev := Option.some q.live.dyn.cur.rows
              log := dropLastAlg q.log ++ [⟨q.n, q.live.dyn, Option.some q.live.alg, q.live.step⟩]
              n := q.n + 1 } := by unfold LiveQ.chunk; rw [if_neg h0, if_pos hnot]
          have hdrop : (∀ a ∈ dropLastAlg q.log, Given index a.dyn ∧ a.idx < q.n) ∧
              (dropLastAlg q.log).Pairwise fun a b => a.idx < b.idx := by
            rcases List.eq_nil_or_concat q.log with hl | ⟨l, a, hl⟩
            · rw [hl]; simp [dropLastAlg]
            · have h1 := ih.given
              have h2 := ih.incr
              rw [hl] at h1 h2
              rw [hl, List.concat_eq_append, dropLastAlg_append]
              rw [List.concat_eq_append] at h1 h2
              refine ⟨?_, ?_⟩
              · intro b hb
                rcases List.mem_append.1 hb with hb | hb
                · exact h1 b (List.mem_append_left _ hb)
                · have := h1 a (by simp)
                  rw [List.mem_singleton] at hb
                  subst hb
                  exact this
              · rw [List.pairwise_append] at h2 ⊢
                refine ⟨h2.1, by simp, ?_⟩
                intro x hx y hy
                rw [List.mem_singleton] at hy
                subst hy
                exact h2.2.2 x hx a (by simp)
          rw [hq]
          refine ⟨by rw [hfb]; exact hlv, ?_, ?_, by simp, ?_⟩
          · intro a ha
            rcases List.mem_append.1 ha with ha | ha
            · have := hdrop.1 a ha; exact ⟨this.1, by show a.idx < q.n + 1; omega⟩
            · rw [List.mem_singleton] at ha; subst ha
              exact ⟨hg, by show q.n < q.n + 1; omega⟩
          · show (dropLastAlg q.log ++ _).Pairwise _
            rw [List.pairwise_append]
            refine ⟨hdrop.2, by simp, ?_⟩
            intro a ha b hb
            rw [List.mem_singleton] at hb; subst hb
            exact (hdrop.1 a ha).2
          · intro _
            refine ⟨es, [], ⟨rfl, hne, by simp, ?_⟩, by rw [hrows], dropLastAlg q.log, q.n, by rw [hlv]⟩
            intro f1 f2 hf hr hlater hsame
            by_cases hn : q.n = 0
            · exact (ih.none hn).2.2 ⟨f1, f2, hf, hr⟩
            · obtain ⟨es1, es2, hl, hp, _⟩ := ih.some hn
              rw [hp] at hnot
              have hx : ¬ SameRows (rowsAfter P s es1) (rowsAfter P s es) := by
                intro hsr
                have := (dictEq_iff (given_run (P := P) es1 hs).nodup (given_run (P := P) es hs).nodup).2 hsr
                rw [hrows] at hnot
                simp only [noticed] at hnot
                rw [show dictEq (rowsAfter P s es1) (rowsAfter P s es) = true from this] at hnot
                simp at hnot
              have hf1 := later_answered (hl.split.symm.trans hf) hl.answered hlater
              rcases hf1 with rfl | ⟨g1, rfl, g2, hg2⟩
              · exact hx hsame
              · exact hx fun k => (hl.same g1 g2 hg2 hr k).trans (hsame k)
        · have hq : q.chunk = { q with n := q.n + 1 } := by unfold LiveQ.chunk; rw [if_neg h0, if_neg hnot]
          rw [hq]
          have hn : q.n ≠ 0 := by
            intro hn
            rw [(ih.none hn).2.1] at hnot
            simp [noticed] at hnot
          refine ⟨by rw [hfb]; exact hlv, ?_, ih.incr, by simp, ?_⟩
          · intro a ha
            have := ih.given a ha
            exact ⟨this.1, by show a.idx < q.n + 1; omega⟩
          · intro _
            obtain ⟨es1, es2, hl, hp, hlog⟩ := ih.some hn
            refine ⟨es1, es2 ++ [.chunk], ⟨by rw [hl.split]; simp, hl.answered, ?_, hl.changed⟩, hp, hlog⟩
            intro f1 f2 hf hr
            rcases append_chunk_cases (es2 := []) hf with ⟨_, _, hf⟩ | ⟨f2', _, hf⟩
            · subst hf
              rw [← hl.split]
              rw [hp, hrows] at hnot
              simp only [noticed, Bool.not_eq_true, Bool.not_eq_false'] at hnot
              exact (dictEq_iff (given_run (P := P) es1 hs).nodup (given_run (P := P) es hs).nodup).1 hnot
            · exact hl.same f1 f2' hf hr

/-! ## Theorems -/

/-- **C91** (what comes back). A query result with a mixture that has been given the index (and whose rows list no key twice) goes
through any history of feedback, key ids and chunks, and is stored and loaded. If no chunk was handed out the mixture is the one
before. Otherwise it is - with its algorithm, and the step - the one of the moment when the last chunk *of a new mixture* was
handed out: whatever happened after that is not in it. -/
theorem c91_restored {index : Dict K Entries} {s : Live K A} (hnd : s.dyn.cur.rows.keys.Nodup)
    (hi : s.dyn.processIndex index = (s.dyn, none)) (es : List (QEv K)) :
    let back := ((LiveQ.start s).run P es).restored index
    (¬ Asked P s es → ∃ m, back = .ok ⟨m.dyn, some m.alg, m.step⟩ ∧ m = s.run P (feedbackOf es)) ∧
    (Asked P s es → ∃ es1 es2 m, LastChange P s es es1 es2 ∧ back = .ok ⟨m.dyn, some m.alg, m.step⟩ ∧ m = s.run P (feedbackOf es1)) := by
  intro back
  have hs : Given index s.dyn := ⟨hnd, hi⟩
  have hq := qinv_run (P := P) hs es
  generalize hqq : (LiveQ.start s).run P es = q at hq
  have hback : back = q.restored index := by rw [← hqq]
  by_cases hn : q.n = 0
  · have h1 : back = .ok ⟨q.live.dyn, some q.live.alg, q.live.step⟩ := by rw [hback]; unfold LiveQ.restored; rw [if_pos hn]
    exact ⟨fun _ => ⟨_, h1, hq.live⟩, fun ha => absurd ha (hq.none hn).2.2⟩
  · obtain ⟨es1, es2, hl, hp, l, i, hlog⟩ := hq.some hn
    refine ⟨fun ha => absurd ⟨es1, es2, hl.split, hl.answered⟩ ha, fun _ => ⟨es1, es2, _, hl, ?_, rfl⟩⟩
    rw [hback]
    unfold LiveQ.restored
    rw [if_neg hn]
    have hg := hq.given
    have hinc := hq.incr
    rw [hlog] at hg hinc ⊢
    cases l with
    | nil =>
      rw [List.nil_append]
      simp only
      rw [install_given (hg _ (by simp)).1]
      dsimp only
      rw [replayMix_last index _ _ _ [] (by simp) (by simp)]
      rfl
    | cons e l =>
      rw [List.cons_append]
      simp only
      rw [install_given (hg _ (by simp)).1]
      dsimp only
      refine (replayMix_last index _ _ _ _ ?_ (List.pairwise_cons.1 hinc).2).trans ?_
      rotate_left
      · simp
      · intro a ha
        have := hg a (List.mem_cons_of_mem _ ha)
        exact ⟨this.1, by omega, by omega⟩

/-- **C91** (forgotten). The same in terms of a given history: with `es1` and `es2` as above, whatever is called after loading has
exactly the effect that it would have had if nothing of `es2` had ever been called. -/
theorem c91_forgets {index : Dict K Entries} {s : Live K A} (hnd : s.dyn.cur.rows.keys.Nodup)
    (hi : s.dyn.processIndex index = (s.dyn, none)) {es es1 es2 : List (QEv K)} (hl : LastChange P s es es1 es2) :
    ∃ m : Live K A, ((LiveQ.start s).run P es).restored index = .ok ⟨m.dyn, some m.alg, m.step⟩ ∧
      ∀ fs, m.run P fs = s.run P (feedbackOf es1 ++ fs) := by
  obtain ⟨f1, f2, m, h1, h2, h3⟩ := (c91_restored hnd hi es).2 ⟨es1, es2, hl.split, hl.answered⟩
  obtain ⟨rfl, rfl⟩ := h1.unique hl
  exact ⟨m, h2, fun fs => by rw [h3, run_append]⟩

/-- A call that makes no report. -/
def QuietCall : QEv K → Prop
  | .call c => c.report = none
  | .idMap _ => False
  | .chunk => True

theorem run_quiet (es : List (QEv K)) : ∀ s : Live K A, (∀ e ∈ es, QuietCall e) →
    (s.run P (feedbackOf es)).dyn = s.dyn ∧ (s.run P (feedbackOf es)).alg = s.alg := by
  induction es with
  | nil => intro s _; exact ⟨rfl, rfl⟩
  | cons e es ih =>
    intro s h
    have hrest := fun x hx => h x (List.mem_cons_of_mem _ hx)
    cases e with
    | call c =>
      simp only [feedbackOf, run_cons]
      obtain ⟨a, b⟩ := ih (s.on P (.call c)).1 hrest
      obtain ⟨c1, c2⟩ := c90_silent (P := P) s c (h (.call c) (by simp))
      exact ⟨a.trans c1, b.trans c2⟩
    | idMap ids => exact (h (.idMap ids) (by simp)).elim
    | chunk => exact ih s hrest

/-- **C91** (kept, partly). If since the last chunk of a new mixture no call has made a report and no key ids were announced, the
mixture and its algorithm come back as they were when the checkpoint was written. (Not so in general: `c91_reports_lost`.) -/
theorem c91_kept_partial {index : Dict K Entries} {s : Live K A} (hnd : s.dyn.cur.rows.keys.Nodup)
    (hi : s.dyn.processIndex index = (s.dyn, none)) {es es1 es2 : List (QEv K)} (hl : LastChange P s es es1 es2)
    (hq : ∀ e ∈ es2, QuietCall e) :
    ∃ step, ((LiveQ.start s).run P es).restored index =
      .ok ⟨(s.run P (feedbackOf es)).dyn, some (s.run P (feedbackOf es)).alg, step⟩ := by
  obtain ⟨f1, f2, m, h1, h2, h3⟩ := (c91_restored hnd hi es).2 ⟨es1, es2, hl.split, hl.answered⟩
  obtain ⟨rfl, rfl⟩ := h1.unique hl
  refine ⟨m.step, ?_⟩
  rw [h2, h3]
  obtain ⟨a, b⟩ := run_quiet (P := P) f2 (s.run P (feedbackOf f1)) hq
  rw [hl.split, feedbackOf_append, run_append]
  show _ = Except.ok (⟨((s.run P (feedbackOf f1)).run P (feedbackOf f2)).dyn, some ((s.run P (feedbackOf f1)).run P (feedbackOf f2)).alg, _⟩ : Live K (Option A))
  rw [a, b]

/-- **C91** (the mixture in force). The rows that come back are those of the last chunk that was handed out. -/
theorem c91_rows {index : Dict K Entries} {s : Live K A} (hnd : s.dyn.cur.rows.keys.Nodup)
    (hi : s.dyn.processIndex index = (s.dyn, none)) {f1 f2 : List (QEv K)} (ha : rowsAfter P s f1 ≠ [])
    (hlast : ∀ g1 g2, f2 = g1 ++ .chunk :: g2 → rowsAfter P s (f1 ++ .chunk :: g1) = []) :
    ∃ m : Live K A, ((LiveQ.start s).run P (f1 ++ .chunk :: f2)).restored index = .ok ⟨m.dyn, some m.alg, m.step⟩ ∧
      SameRows m.dyn.cur.rows (rowsAfter P s f1) := by
  obtain ⟨es1, es2, m, h1, h2, h3⟩ := (c91_restored hnd hi (f1 ++ .chunk :: f2)).2 ⟨f1, f2, rfl, ha⟩
  refine ⟨m, h2, ?_⟩
  have hm : m.dyn.cur.rows = rowsAfter P s es1 := by rw [h3]; rfl
  rw [hm]
  rcases later_answered h1.split.symm h1.answered hlast with rfl | ⟨g1, rfl, g2, hg2⟩
  · exact SameRows.refl _
  · exact h1.same g1 g2 hg2 ha

/-- **C91** (averages). A mixture with the averaging algorithm: after loading and further feedback `fs`, the shares of the chunk are the
average losses over the reports of `es1` and `fs` alone. -/
theorem c91_average {index : Dict K Entries} {ids : Dict K Nat} {s : Live K (Acc ℚ)} (h : Ready ids s) (hnd : s.dyn.cur.rows.keys.Nodup)
    (hi : s.dyn.processIndex index = (s.dyn, none)) {es es1 es2 : List (QEv K)} (hl : LastChange averaging s es es1 es2)
    (fs : List (FbEv K)) (hs : Sound ids (feedbackOf es1 ++ fs)) (hsome : ∃ i, 0 < totalCount (feedbackOf es1 ++ fs) i)
    (n : Nat) (hn : ∀ r ∈ heard (feedbackOf es1 ++ fs), r.losses.length ≤ n) :
    ∃ m : Live K (Acc ℚ), ((LiveQ.start s).run averaging es).restored index = .ok ⟨m.dyn, some m.alg, m.step⟩ ∧
      (m.run averaging fs).dyn.cur.rows.values.sum = s.dyn.chunk ∧
      ∃ share : Dict K ℚ, Rounded s.dyn.chunk share (m.run averaging fs).dyn.cur.rows ∧
        ∀ k p, share.get? k = some p ↔ ∃ i, (idsAfter ids (feedbackOf es1 ++ fs)).get? k = some i ∧
          0 < weight (feedbackOf es1 ++ fs) i ∧
          p = weight (feedbackOf es1 ++ fs) i / ∑ j ∈ Finset.range n, weight (feedbackOf es1 ++ fs) j := by
  obtain ⟨m, h1, h2⟩ := c91_forgets hnd hi hl
  refine ⟨m, h1, ?_⟩
  rw [h2 fs]
  obtain ⟨_, _, a3, _, _, share, a6, _, a7⟩ := c90_average h (feedbackOf es1 ++ fs) hs hsome n hn
  exact ⟨a3, share, a6, a7⟩

/-! ## Concrete cases -/

/-- The call of a training loop's first rank. -/
def qCall (steps : Int) (l : List ℚ) (n : List Int) : QEv Nat := .call ⟨0, 0, true, some 0, steps, some l, some n⟩

/-- A chunk of the initial mixture, a report, a chunk of the new mixture; then the same report again and another chunk. -/
def exQuery : List (QEv Nat) := [.chunk, qCall 1 [6, 2] [2, 1], .chunk, qCall 2 [6, 2] [2, 1], .chunk]

theorem exTold_given : exTold.dyn.cur.rows.keys.Nodup ∧ exTold.dyn.processIndex [] = (exTold.dyn, none) := by
  have h : exTold.dyn.cur.inferring = false := by decide +kernel
  exact ⟨by decide +kernel, by simp [Dyn.processIndex, BaseMix.processIndex, h]⟩

theorem exQuery_last : LastChange averaging exTold exQuery [.chunk, qCall 1 [6, 2] [2, 1]] [qCall 2 [6, 2] [2, 1], .chunk] := by
  refine ⟨rfl, by decide +kernel, ?_, ?_⟩
  · intro f1 f2 h _
    have hf : f1 = [qCall 2 [6, 2] [2, 1]] := by
      match f1, h with
      | [], h => simp [qCall] at h
      | [_], h => simp at h; rw [h.1]
      | _ :: _ :: _, h => simp at h
    subst hf
    have h1 : rowsAfter averaging exTold [.chunk, qCall 1 [6, 2] [2, 1]] = [(10, 5), (20, 3)] := by decide +kernel
    have h2 : rowsAfter averaging exTold ([.chunk, qCall 1 [6, 2] [2, 1]] ++ .chunk :: [qCall 2 [6, 2] [2, 1]]) = [(10, 5), (20, 3)] := by
      decide +kernel
    rw [h1, h2]
    exact SameRows.refl _
  · intro f1 f2 h _ _
    have hf : f1 = [] := by
      match f1, h with
      | [], _ => rfl
      | [_], h => simp [qCall] at h
      | _ :: _ :: _, h => simp at h
    subst hf
    have h1 : rowsAfter averaging exTold [] = [(10, 4), (20, 4)] := by decide +kernel
    have h2 : rowsAfter averaging exTold [.chunk, qCall 1 [6, 2] [2, 1]] = [(10, 5), (20, 3)] := by decide +kernel
    rw [h1, h2]
    intro hs
    have := hs 10
    simp [Dict.get?] at this

/-- **C91**, refuted: the query result above is stored and loaded. The mixture in force is the same as before, and yet the next report
gives other rows than it gives without the restart: the second report is lost, and so is its training step. -/
theorem c91_reports_lost : ∃ m : Live Nat (Acc ℚ), ((LiveQ.start exTold).run averaging exQuery).restored [] = .ok ⟨m.dyn, some m.alg, m.step⟩ ∧
    m.dyn.cur.rows = (exTold.run averaging (feedbackOf exQuery)).dyn.cur.rows ∧
    (m.step, (exTold.run averaging (feedbackOf exQuery)).step) = (1, 2) ∧
    (m.run averaging [fbCall 0 0 3 [0, 9] [1, 1]]).dyn.cur.rows = [(10, 2), (20, 6)] ∧
    (exTold.run averaging (feedbackOf exQuery ++ [fbCall 0 0 3 [0, 9] [1, 1]])).dyn.cur.rows = [(10, 3), (20, 5)] := by
  obtain ⟨m, h1, h2⟩ := c91_forgets (P := averaging) (index := []) (s := exTold) exTold_given.1 exTold_given.2 exQuery_last
  refine ⟨m, h1, ?_, ?_, ?_, ?_⟩
  · rw [show m = exTold.run averaging (feedbackOf [.chunk, qCall 1 [6, 2] [2, 1]]) from by simpa [Live.run] using h2 []]
    decide +kernel
  · rw [show m = exTold.run averaging (feedbackOf [.chunk, qCall 1 [6, 2] [2, 1]]) from by simpa [Live.run] using h2 []]
    decide +kernel
  · rw [h2]; decide +kernel
  · decide +kernel

/-- A history to which `c91_kept_partial` applies. -/
example : LastChange averaging exTold [.chunk, .chunk] [] [.chunk] := by
  refine ⟨rfl, by decide +kernel, ?_, by simp⟩
  intro f1 f2 h _
  have hf : f1 = [] := by
    match f1, h with
    | [], _ => rfl
    | _ :: _, h => simp at h
  subst hf
  exact SameRows.refl _

end Mixtera.Mixing
