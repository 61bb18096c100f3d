import Verif.Model.MixtureLog
import Verif.Model.Mixture
import Verif.Props.MixtureIds
import Verif.Props.Restore

/-!
# C80: the mixture log says which mixture every chunk was made with

A query result with a log directory writes `mixture.log` (chunk index ↦ mixture) and `chunk.idx`.
-/

set_option linter.unusedSectionVars false

namespace Mixtera

variable {K : Type} [DecidableEq K]

/-! ### Specification -/

/-- According to the file, chunk `i` was made with the mixture `d`: it is the mixture with the greatest chunk index up to
`i`. -/
def LogFile.Says (f : LogFile) (i : Nat) (d : Dict String Nat) : Prop :=
  ∃ j ≤ i, f.entries.get? j = some d ∧ ∀ j', j < j' → j' ≤ i → f.entries.get? j' = none

/-- The text form of a mixture: the rows of key `k` are found under `str k`, and nothing else. -/
def IsText (str : K → String) (rows : Dict K Nat) (d : Dict String Nat) : Prop :=
  (∀ k, d.get? (str k) = rows.get? k) ∧ ∀ t, (∀ k, t ≠ str k) → d.get? t = none

/-- The number of chunks among the answers. -/
def chunksIn : List (Out K) → Nat
  | [] => 0
  | .chunk _ :: os => chunksIn os + 1
  | _ :: os => chunksIn os

/-- Every mixture object either always or never has rows: `empty r` if object `r` has none. True for all mixtures but
schedules that have entries with and without rows. -/
def Steady (empty : Nat → Prop) : Nat → List (SOp K) → Prop
  | _, [] => True
  | _, .update ref v :: os => (v.rows = [] ↔ empty ref) ∧ Steady empty ref os
  | cur, .feedback v :: os => (v.rows = [] ↔ empty cur) ∧ Steady empty cur os
  | cur, .next :: os => Steady empty cur os

/-! ### One iteration of the generator -/

theorem Track.congr {e e' : Dict K Nat} {n : Int} {g : Gen K} (h : Track (some e) n g) (hs : SameMix e e')
    (hn : e'.keys.Nodup) : Track (some e') n g := by
  obtain ⟨h1, h2, h3, _⟩ := h
  refine ⟨h1, ?_, ?_, hn⟩
  · revert h2
    cases g.prev with
    | none => intro h2; have h2 : e = [] := h2; subst h2; exact hs.symm.nil
    | some p =>
      rintro ⟨a, b, c⟩
      exact ⟨fun h => a (by subst h; exact hs.nil), b.trans hs, c⟩
  · intro he; subst he; exact h3 hs.nil

/-- What an iteration does that answers the request. -/
structure StepLog (v : MixView K) (g g' : Gen K) (o : Option (Out K)) : Prop where
  base : g'.base = g.base
  target : g'.target = g.target
  log : (g'.log = g.log ∧ g'.mixtureId = g.mixtureId ∧ (isLogged g.prev g.cur v = false ∨ g'.susp = .finished)) ∨
    (g'.log = g.log ++ [(g.cur, v)] ∧ g'.mixtureId = g.mixtureId + 1 ∧ isLogged g.prev g.cur v = true)
  cur : g'.susp ≠ .finished → (∃ c, o = some (.chunk c)) ∧ g'.cur = g.cur + 1 ∧ g'.susp = .ready ∨
    o = some .none ∧ g'.cur = g.cur ∧ g'.susp = .afterNone
  fin : g'.susp = .finished → ∀ c, o ≠ some (.chunk c)
  id : ∀ c, o = some (.chunk c) → c.mixtureId = g'.mixtureId

theorem stepArbitrary_log (fuel : Nat) (v : MixView K) (g : Gen K) (hv : v.rows = []) (ht : g.cur = g.target) :
    StepLog v g (stepArbitrary fuel false v g).1 (stepArbitrary fuel false v g).2 := by
  have hL : isLogged g.prev g.cur v = (g.prev.isSome || g.cur == 0) := by unfold isLogged; rw [if_pos hv]
  unfold stepArbitrary
  dsimp only
  generalize hg1 : (if g.prev.isSome || g.cur == 0 then
      { g with mixtureId := g.mixtureId + 1, prev := Option.none, log := if false = true then g.log else g.log ++ [(g.cur, v)] }
      else g) = g1
  have h1 : g1.base = g.base ∧ g1.target = g.target ∧ g1.cur = g.cur ∧
      ((g1.log = g.log ∧ g1.mixtureId = g.mixtureId ∧ isLogged g.prev g.cur v = false) ∨
      (g1.log = g.log ++ [(g.cur, v)] ∧ g1.mixtureId = g.mixtureId + 1 ∧ isLogged g.prev g.cur v = true)) := by
    rw [← hg1, hL]
    split
    · rename_i h; exact ⟨rfl, rfl, rfl, Or.inr ⟨rfl, rfl, h⟩⟩
    · rename_i h; exact ⟨rfl, rfl, rfl, Or.inl ⟨rfl, rfl, by simpa using h⟩⟩
  obtain ⟨a, b, c, d⟩ := h1
  have d' : ∀ x : Gen K, x.log = g1.log → x.mixtureId = g1.mixtureId →
      (x.log = g.log ∧ x.mixtureId = g.mixtureId ∧ (isLogged g.prev g.cur v = false ∨ x.susp = .finished)) ∨
      (x.log = g.log ++ [(g.cur, v)] ∧ x.mixtureId = g.mixtureId + 1 ∧ isLogged g.prev g.cur v = true) := by
    intro x hx hy
    rw [hx, hy]
    rcases d with ⟨d1, d2, d3⟩ | d
    · exact Or.inl ⟨d1, d2, Or.inl d3⟩
    · exact Or.inr d
  split
  · exact ⟨a, b, d' _ rfl rfl, fun h => absurd rfl h, fun _ c h => (by cases h), fun c h => (by cases h)⟩
  · exact ⟨a, b, d' _ rfl rfl, fun h => absurd rfl h, fun _ c h => (by cases h), fun c h => (by cases h)⟩
  · rw [if_pos (by rw [b, c]; exact ht)]
    split
    · exact ⟨a, b, d' _ rfl rfl, fun h => absurd rfl h, fun _ c h => (by cases h), fun c h => (by cases h)⟩
    · refine ⟨a, b, d' _ rfl rfl, fun _ => Or.inl ⟨⟨_, rfl⟩, congrArg (· + 1) c, rfl⟩, fun h => (by cases h), ?_⟩
      intro x hx
      injection hx with hx; injection hx with hx; subst hx; rfl

theorem stepMixture_log (ops : KeyOps K) (v : MixView K) (g : Gen K) (hv : v.rows ≠ []) (ht : g.cur = g.target) :
    StepLog v g (stepMixture ops false v g).1 (stepMixture ops false v g).2 := by
  rw [stepMixture_eq]
  have hL : isLogged g.prev g.cur v = mixChanged g v.rows := by unfold isLogged mixChanged; rw [if_neg hv]; cases g.prev <;> rfl
  generalize hg1 : mixNoticed false v g = g1
  have h1 : g1.base = g.base ∧ g1.target = g.target ∧ g1.cur = g.cur ∧
      ((g1.log = g.log ∧ g1.mixtureId = g.mixtureId ∧ isLogged g.prev g.cur v = false) ∨
      (g1.log = g.log ++ [(g.cur, v)] ∧ g1.mixtureId = g.mixtureId + 1 ∧ isLogged g.prev g.cur v = true)) := by
    rw [← hg1, hL]
    unfold mixNoticed
    split
    · rename_i h; exact ⟨rfl, rfl, rfl, Or.inr ⟨rfl, rfl, h⟩⟩
    · rename_i h; exact ⟨rfl, rfl, rfl, Or.inl ⟨rfl, rfl, by simpa using h⟩⟩
  obtain ⟨a, b, c, d⟩ := h1
  have d' : ∀ x : Gen K, x.log = g1.log → x.mixtureId = g1.mixtureId →
      (x.log = g.log ∧ x.mixtureId = g.mixtureId ∧ (isLogged g.prev g.cur v = false ∨ x.susp = .finished)) ∨
      (x.log = g.log ++ [(g.cur, v)] ∧ x.mixtureId = g.mixtureId + 1 ∧ isLogged g.prev g.cur v = true) := by
    intro x hx hy
    rw [hx, hy]
    rcases d with ⟨d1, d2, d3⟩ | d
    · exact Or.inl ⟨d1, d2, Or.inl d3⟩
    · exact Or.inr d
  unfold mixTail
  split
  · exact ⟨a, b, d' _ rfl rfl, fun h => absurd rfl h, fun _ c h => (by cases h), fun c h => (by cases h)⟩
  · rw [if_pos (by rw [b, c]; exact ht)]
    refine ⟨a, b, d' _ rfl rfl, fun _ => Or.inl ⟨⟨_, rfl⟩, congrArg (· + 1) c, rfl⟩, fun h => (by cases h), ?_⟩
    intro x hx
    injection hx with hx; injection hx with hx; subst hx; rfl
  · exact ⟨a, b, d' _ rfl rfl, fun _ => Or.inr ⟨rfl, c, rfl⟩, fun h => (by cases h), fun c h => (by cases h)⟩

theorem step_logged (ops : KeyOps K) (fuel : Nat) (heap : Nat → MixView K) (g : Gen K) (ht : g.cur = g.target) :
    StepLog (heap g.base) g (g.step ops fuel false heap).1 (g.step ops fuel false heap).2 := by
  unfold Gen.step
  split
  · exact ⟨rfl, rfl, Or.inl ⟨rfl, rfl, Or.inr rfl⟩, fun h => absurd rfl h, fun _ c h => (by cases h), fun c h => (by cases h)⟩
  · dsimp only
    split
    · rename_i h; exact stepArbitrary_log fuel _ g h ht
    · rename_i h; exact stepMixture_log ops _ g h ht

/-! ### The session -/

/-- In the log itself: the entry for chunk `i` has the same rows as `rows`. -/
def LogSays (log : List (Nat × MixView K)) (i : Nat) (rows : Dict K Nat) : Prop :=
  ∃ pre e post, log = pre ++ e :: post ∧ e.1 ≤ i ∧ SameMix e.2.rows rows ∧ e.2.rows.keys.Nodup ∧
    ∀ f ∈ post, i < f.1

theorem LogSays.snoc {log : List (Nat × MixView K)} {i : Nat} {rows : Dict K Nat} (h : LogSays log i rows)
    (f : Nat × MixView K) (hf : i < f.1) : LogSays (log ++ [f]) i rows := by
  obtain ⟨pre, e, post, rfl, h1, h2, hn, h3⟩ := h
  refine ⟨pre, e, post ++ [f], by simp, h1, h2, hn, ?_⟩
  intro x hx
  rcases List.mem_append.1 hx with h | h
  · exact h3 x h
  · rw [List.mem_singleton.1 h]; exact hf

theorem LogSays.last {log : List (Nat × MixView K)} {e : Nat × MixView K} (he : log.getLast? = some e) {i : Nat}
    {rows : Dict K Nat} (h1 : e.1 ≤ i) (h2 : SameMix e.2.rows rows) (hn : e.2.rows.keys.Nodup) : LogSays log i rows := by
  rcases List.eq_nil_or_concat log with rfl | ⟨pre, x, rfl⟩
  · simp at he
  · rw [List.concat_eq_append] at he ⊢
    rw [List.getLast?_concat] at he
    cases he
    exact ⟨pre, e, [], rfl, h1, h2, hn, by simp⟩

/-- The rows of the last entry. -/
def lastRows (log : List (Nat × MixView K)) : Option (Dict K Nat) := log.getLast?.map (·.2.rows)

/-- What holds of a query result that never replays; `vs` are the mixtures its chunks so far were made with. -/
structure LogInv (vs : List (MixView K)) (s : Sess K) : Prop where
  replay : s.isReplay = false
  heap : HeapOk s.heap
  fresh : (s.gen.isNone && s.numReturns != 0) = false
  glog : s.theGen.log = s.log
  told : ∀ i v, vs[i]? = some v → LogSays s.log i v.rows
  bound : ∀ e ∈ s.log, e.1 ≤ vs.length
  sorted : s.log.Pairwise fun a b => a.1 ≤ b.1
  live : s.theGen.susp = .finished ∨ (s.theGen.cur = vs.length ∧ s.idx = vs.length ∧
    (s.theGen.susp = .afterNone → s.theGen.target = vs.length) ∧
    Track (lastRows s.log) ((s.log.length : Int) - 1) s.theGen)

theorem isLogged_bump {last : Option (Dict K Nat)} {n : Int} {g : Gen K} (h : Track last n g) (v : MixView K)
    (hv : v.rows.keys.Nodup) : isLogged g.prev g.cur v = true ↔ ∀ e, last = some e → ¬ SameMix e v.rows := by
  unfold isLogged
  cases last with
  | none =>
    obtain ⟨h1, h2, h3, h4⟩ := h
    rw [h2, h3]
    split <;> simp
  | some e =>
    obtain ⟨h1, h2, h3, h4⟩ := h
    have key : (∀ e', some e = some e' → ¬ SameMix e' v.rows) ↔ ¬ SameMix e v.rows :=
      ⟨fun h => h e rfl, fun h e' he' => by cases he'; exact h⟩
    rw [key]
    cases hp : g.prev with
    | none =>
      rw [hp] at h2
      have he : e = [] := h2
      have := h3 he
      subst he
      split
      · rename_i hr
        rw [hr]
        simp only [Option.isSome_none, Bool.false_or, beq_iff_eq]
        constructor
        · intro h; omega
        · intro h; exact absurd (SameMix.refl _) h
      · rename_i hr
        simp only [true_iff]
        intro h; exact hr h.symm.nil
    | some p =>
      rw [hp] at h2
      obtain ⟨k1, k2, k3⟩ := h2
      split
      · rename_i hr
        simp only [Option.isSome_some, Bool.true_or, true_iff]
        rw [hr]; intro h; exact k1 h.nil
      · simp only [Bool.not_eq_true', ← Bool.not_eq_true]
        rw [dictEq_iff k3 hv]
        exact not_congr ⟨fun h => k2.symm.trans h, fun h => k2.trans h⟩

/-- What `next` does to the log. -/
structure NextLog (vs : List (MixView K)) (s : Sess K) (v : MixView K) (s' : Sess K) (o : Out K) : Prop where
  keep : s'.heap = s.heap ∧ s'.mixRef = s.mixRef ∧ s'.index = s.index
  inv : (∃ c, o = .chunk c) ∧ LogInv (vs ++ [v]) s' ∨ (∀ c, o ≠ .chunk c) ∧ LogInv vs s'
  log : (s'.log = s.log ∧ s'.theGen.mixtureId = s.theGen.mixtureId) ∨
    (s'.log = s.log ++ [(vs.length, v)] ∧ s'.theGen.mixtureId = s.theGen.mixtureId + 1 ∧ s.idx = vs.length)
  chunk : ∀ c, o = .chunk c → s'.theGen.target = vs.length ∧ c.mixtureId = (s'.log.length : Int) - 1 ∧ s'.log ≠ []
  base : (s'.theGen.base = s.theGen.base ∧ s.gen.isSome = true) ∨ s'.theGen.base = s.mixRef
  some : s'.gen.isSome = true
  obj : s'.log ≠ s.log → s.heap s'.theGen.base = v
  last : ∀ c, o = .chunk c → ∃ e, s'.log.getLast? = Option.some e ∧ SameMix e.2.rows v.rows ∧ e.1 ≤ vs.length

theorem logInv_next (ops : KeyOps K) (fuel : Nat) {vs : List (MixView K)} {s : Sess K} (h : LogInv vs s) :
    NextLog vs s (s.theGen.eff ⟨s.heap, s.mixRef, s.idx, fuel⟩) (s.next ops fuel).1 (s.next ops fuel).2 := by
  obtain ⟨e1, e2⟩ := theGen_next ops fuel s h.fresh
  generalize hv : s.theGen.eff ⟨s.heap, s.mixRef, s.idx, fuel⟩ = v
  have hvn : v.rows.keys.Nodup := by rw [← hv]; unfold Gen.eff; split <;> exact h.heap _
  have keep : (s.next ops fuel).1.heap = s.heap ∧ (s.next ops fuel).1.mixRef = s.mixRef ∧
      (s.next ops fuel).1.index = s.index ∧ (s.next ops fuel).1.isReplay = s.isReplay ∧
      (s.next ops fuel).1.gen.isNone = false ∧ (s.next ops fuel).1.log = (s.next ops fuel).1.theGen.log ∧
      (s.next ops fuel).1.idx = (match (s.next ops fuel).2 with | .none => s.idx | _ => s.idx + 1) := by
    unfold Sess.next; rw [h.fresh, if_neg (by simp)]; exact ⟨rfl, rfl, rfl, rfl, rfl, rfl, rfl⟩
  generalize s.next ops fuel = r at e1 e2 keep
  obtain ⟨s', o⟩ := r
  obtain ⟨k1, k2, k3, k4, k5, k6, k7⟩ := keep
  dsimp only at e1 e2 k1 k2 k3 k4 k5 k6 k7 ⊢
  have hfresh : (s'.gen.isNone && s'.numReturns != 0) = false := by rw [k5]; rfl
  have hheap : HeapOk s'.heap := by rw [k1]; exact h.heap
  have hrep : s'.isReplay = false := by rw [k4]; exact h.replay
  rw [h.replay] at e1 e2
  have hsm : s'.gen.isSome = true := by rw [← Option.not_isNone, k5]; rfl
  have hsome : s.theGen.susp ≠ .ready → s.gen.isSome = true := by
    intro hx
    cases hg : s.gen with
    | some g => rfl
    | none => exact absurd (by simp [Sess.theGen, hg, Gen.init]) hx
  -- a request that changes nothing but ends the iteration
  have dead : (∀ c, o ≠ .chunk c) → s'.theGen.log = s.theGen.log → s'.theGen.mixtureId = s.theGen.mixtureId →
      s'.theGen.susp = .finished → ((s'.theGen.base = s.theGen.base ∧ s.gen.isSome = true) ∨ s'.theGen.base = s.mixRef) → NextLog vs s v s' o := by
    intro hno hl hm hf hb
    have hlog : s'.log = s.log := by rw [k6, hl, h.glog]
    exact { keep := ⟨k1, k2, k3⟩
            inv := Or.inr ⟨hno, { replay := hrep, heap := hheap, fresh := hfresh, glog := k6.symm, told := (by rw [hlog]; exact h.told),
                                  bound := (by rw [hlog]; exact h.bound), sorted := (by rw [hlog]; exact h.sorted), live := Or.inl hf }⟩
            log := Or.inl ⟨hlog, hm⟩
            chunk := fun c hc => absurd hc (hno c)
            base := hb
            some := hsm
            obj := fun hx => absurd hlog hx
            last := fun c hc => absurd hc (hno c) }
  by_cases hfin : s.theGen.susp = .finished
  · have es : s.theGen.send ops fuel false s.heap s.mixRef s.idx = (s.theGen, .stop) := by simp only [Gen.send, hfin]
    rw [es] at e1 e2
    exact dead (by rw [e2]; simp) (by rw [e1]) (by rw [e1]) (by rw [e1]; exact hfin)
      (by rw [e1]; exact Or.inl ⟨rfl, hsome (by rw [hfin]; simp)⟩)
  · obtain ⟨hcur, hidx, htgt, htrack⟩ := h.live.resolve_left hfin
    -- the generator that runs
    have : ∃ g : Gen K, g.cur = g.target ∧ s.heap g.base = v ∧ g.cur = vs.length ∧ g.log = s.log ∧
        g.mixtureId = s.theGen.mixtureId ∧ g.prev = s.theGen.prev ∧ Track (lastRows s.log) ((s.log.length : Int) - 1) g ∧
        ((g.base = s.theGen.base ∧ s.gen.isSome = true) ∨ g.base = s.mixRef) ∧
        s.theGen.send ops fuel false s.heap s.mixRef s.idx = Gen.run ops fuel false s.heap fuel g := by
      cases hs : s.theGen.susp with
      | ready =>
        refine ⟨{ s.theGen with base := s.mixRef, target := s.idx }, hcur.trans hidx.symm, ?_, hcur, h.glog, rfl, rfl, ?_,
          Or.inr rfl, by simp only [Gen.send, hs]⟩
        · rw [← hv]; simp [Gen.eff, hs]
        · revert htrack; cases lastRows s.log <;> exact id
      | afterNone =>
        refine ⟨s.theGen, hcur.trans (htgt hs).symm, ?_, hcur, h.glog, rfl, rfl, htrack, Or.inl ⟨rfl, hsome (by rw [hs]; simp)⟩, by simp only [Gen.send, hs]⟩
        rw [← hv]; simp [Gen.eff, hs]
      | finished => exact absurd hs hfin
    obtain ⟨g, q1, q2, q3, q4, q5, q6, q7, q8, q9⟩ := this
    rw [q9] at e1 e2
    cases fuel with
    | zero =>
      simp only [Gen.run] at e1 e2
      exact dead (by rw [e2]; simp) (by rw [e1, h.glog]; exact q4) (by rw [e1]; exact q5) (by rw [e1]) (by rw [e1]; exact q8)
    | succ fuel =>
      have hans := step_answers ops (fuel + 1) false s.heap g q1
      have hl := step_logged ops (fuel + 1) s.heap g q1
      obtain ⟨⟨ht⟩, _⟩ := step_track ops (fuel + 1) false s.heap h.heap q7
      have eR : Gen.run ops (fuel + 1) false s.heap (fuel + 1) g =
          match g.step ops (fuel + 1) false s.heap with
          | (g', some o) => (g', o)
          | (g', Option.none) => Gen.run ops (fuel + 1) false s.heap fuel g' := rfl
      rw [eR] at e1 e2
      rw [q2] at hl ht
      generalize g.step ops (fuel + 1) false s.heap = x at e1 e2 hans hl ht
      obtain ⟨g', o'⟩ := x
      cases o' with
      | none => exact absurd rfl hans
      | some o' =>
        dsimp only at e1 e2 hl ht
        subst e2
        have hlog' : s'.log = g'.log := by rw [k6, e1]
        have hbase : (s'.theGen.base = s.theGen.base ∧ s.gen.isSome = true) ∨ s'.theGen.base = s.mixRef := by rw [e1, hl.base]; exact q8
        have hobj : s.heap s'.theGen.base = v := by rw [e1, hl.base]; exact q2
        have hL := isLogged_bump q7 v hvn
        have hlogs : (s'.log = s.log ∧ s'.theGen.mixtureId = s.theGen.mixtureId ∧
              (isLogged g.prev g.cur v = false ∨ g'.susp = .finished)) ∨
            (s'.log = s.log ++ [(vs.length, v)] ∧ s'.theGen.mixtureId = s.theGen.mixtureId + 1 ∧
              isLogged g.prev g.cur v = true) := by
          rw [hlog', e1]
          rcases hl.log with ⟨a, b, c⟩ | ⟨a, b, c⟩
          · exact Or.inl ⟨a.trans q4, b.trans q5, c⟩
          · exact Or.inr ⟨by rw [a, q4, q3], by rw [b, q5], c⟩
        have hsorted : s'.log.Pairwise fun a b => a.1 ≤ b.1 := by
          rcases hlogs with ⟨a, _⟩ | ⟨a, _⟩
          · rw [a]; exact h.sorted
          · rw [a, List.pairwise_append]
            exact ⟨h.sorted, by simp, fun x hx y hy => by rw [List.mem_singleton.1 hy]; exact h.bound x hx⟩
        have hbound : ∀ e ∈ s'.log, e.1 ≤ vs.length := by
          rcases hlogs with ⟨a, _⟩ | ⟨a, _⟩
          · rw [a]; exact h.bound
          · rw [a]; intro e he
            rcases List.mem_append.1 he with he | he
            · exact h.bound e he
            · rw [List.mem_singleton.1 he]
        have htold : ∀ i w, vs[i]? = some w → LogSays s'.log i w.rows := by
          intro i w hw
          have hi : i < vs.length := (List.getElem?_eq_some_iff.1 hw).1
          rcases hlogs with ⟨a, _⟩ | ⟨a, _⟩
          · rw [a]; exact h.told i w hw
          · rw [a]; exact (h.told i w hw).snoc _ hi
        by_cases hf : g'.susp = .finished
        · exact { keep := ⟨k1, k2, k3⟩
                  inv := Or.inr ⟨fun c hc => hl.fin hf c (by rw [hc]),
                    { replay := hrep, heap := hheap, fresh := hfresh, glog := k6.symm, told := htold, bound := hbound,
                      sorted := hsorted, live := Or.inl (by rw [e1]; exact hf) }⟩
                  log := (by
                    rcases hlogs with ⟨a, b, _⟩ | ⟨a, b, _⟩
                    · exact Or.inl ⟨a, b⟩
                    · exact Or.inr ⟨a, b, hidx⟩)
                  chunk := fun c hc => absurd (by rw [hc]) (hl.fin hf c)
                  base := hbase
                  some := hsm
                  obj := fun _ => hobj
                  last := fun c hc => absurd (by rw [hc]) (hl.fin hf c) }
        · have ht := ht.resolve_left (fun h => hf h.1)
          -- the last entry of the log has the rows of the mixture
          have hlast : ∃ e, s'.log.getLast? = some e ∧ SameMix e.2.rows v.rows ∧ e.2.rows.keys.Nodup := by
            rcases hlogs with ⟨a, _, c⟩ | ⟨a, _, _⟩
            · have hn := c.resolve_right hf
              rw [← Bool.not_eq_true, hL] at hn
              push Not at hn
              obtain ⟨e, he, hs⟩ := hn
              unfold lastRows at he
              rw [Option.map_eq_some_iff] at he
              obtain ⟨x, hx, rfl⟩ := he
              refine ⟨x, by rw [a]; exact hx, hs, ?_⟩
              have : lastRows s.log = some x.2.rows := by unfold lastRows; rw [hx]; rfl
              rw [this] at q7
              exact q7.2.2.2
            · exact ⟨_, by rw [a, List.getLast?_concat], SameMix.refl _, hvn⟩
          obtain ⟨e, he, hes, hen⟩ := hlast
          have hid : bump (lastRows s.log) ((s.log.length : Int) - 1) v.rows = (s'.log.length : Int) - 1 := by
            rcases hlogs with ⟨a, _, c⟩ | ⟨a, _, c⟩
            · have hn := c.resolve_right hf
              rw [← Bool.not_eq_true, hL] at hn
              push Not at hn
              obtain ⟨e, he, hs⟩ := hn
              rw [he, a]
              unfold bump
              simp only
              rw [if_pos hs]
            · rw [hL] at c
              rw [a]
              cases hx : lastRows s.log with
              | none =>
                have : s.log = [] := by
                  unfold lastRows at hx
                  rw [Option.map_eq_none_iff, List.getLast?_eq_none_iff] at hx
                  exact hx
                rw [this]; simp [bump]
              | some e =>
                unfold bump
                simp only
                rw [if_neg (c e hx)]
                simp
          have htr : Track (lastRows s'.log) ((s'.log.length : Int) - 1) s'.theGen := by
            unfold lastRows
            rw [he, e1, ← hid]
            exact ht.1.congr hes.symm hen
          have hne : s'.log ≠ [] := fun hx => by rw [hx] at he; simp at he
          have hlg : (s'.log = s.log ∧ s'.theGen.mixtureId = s.theGen.mixtureId) ∨
              (s'.log = s.log ++ [(vs.length, v)] ∧ s'.theGen.mixtureId = s.theGen.mixtureId + 1 ∧ s.idx = vs.length) := by
            rcases hlogs with ⟨a, b, _⟩ | ⟨a, b, _⟩
            · exact Or.inl ⟨a, b⟩
            · exact Or.inr ⟨a, b, hidx⟩
          have hgt : s'.theGen.target = vs.length := by rw [e1, hl.target, ← q1, q3]
          rcases hl.cur hf with ⟨⟨c, hc⟩, hcc, hss⟩ | ⟨ho, hcc, hss⟩
          · injection hc with hc
            subst hc
            exact { keep := ⟨k1, k2, k3⟩
                    inv := Or.inl ⟨⟨c, rfl⟩,
                      { replay := hrep, heap := hheap, fresh := hfresh, glog := k6.symm
                        told := (by
                          intro i w hw
                          by_cases hi : i < vs.length
                          · rw [List.getElem?_append_left hi] at hw; exact htold i w hw
                          · have : i = vs.length := by
                              have := (List.getElem?_eq_some_iff.1 hw).1
                              simp at this; omega
                            subst this
                            simp at hw
                            subst hw
                            exact LogSays.last he (hbound e (List.mem_of_getLast? he)) hes hen)
                        bound := (by intro x hx; have := hbound x hx; simp; omega)
                        sorted := hsorted
                        live := Or.inr ⟨(by rw [e1, hcc, q3]; simp), (by rw [k7]; simp [hidx]), (by rw [e1, hss]; intro h; cases h), htr⟩ }⟩
                    log := hlg
                    chunk := (by
                      intro c' hc'
                      injection hc' with hc'
                      subst hc'
                      exact ⟨hgt, (ht.2 c rfl).trans hid, hne⟩)
                    base := hbase
                    some := hsm
                    obj := fun _ => hobj
                    last := fun _ _ => ⟨e, he, hes, hbound e (List.mem_of_getLast? he)⟩ }
          · injection ho with ho
            subst ho
            exact { keep := ⟨k1, k2, k3⟩
                    inv := Or.inr ⟨fun c hc => (by cases hc),
                      { replay := hrep, heap := hheap, fresh := hfresh, glog := k6.symm, told := htold, bound := hbound, sorted := hsorted
                        live := Or.inr ⟨(by rw [e1, hcc, q3]), (by rw [k7]; exact hidx), (fun _ => hgt), htr⟩ }⟩
                    log := hlg
                    chunk := fun c hc => (by cases hc)
                    base := hbase
                    some := hsm
                    obj := fun _ => hobj
                    last := fun c hc => (by cases hc) }

theorem logInv_update (ops : KeyOps K) {vs : List (MixView K)} {s : Sess K} (h : LogInv vs s) (ref : Nat) (v : MixView K)
    (hv : v.rows.keys.Nodup) : LogInv vs (s.update ops ref v) where
  replay := h.replay
  heap := by
    intro i
    simp only [Sess.update]
    split
    · exact hv
    · exact h.heap i
  fresh := h.fresh
  glog := h.glog
  told := h.told
  bound := h.bound
  sorted := h.sorted
  live := h.live

theorem logInv_feedback {vs : List (MixView K)} {s : Sess K} (h : LogInv vs s) (v : MixView K)
    (hv : v.rows.keys.Nodup) : LogInv vs (s.feedback v) where
  replay := h.replay
  heap := by
    intro i
    simp only [Sess.feedback]
    split
    · exact hv
    · exact h.heap i
  fresh := h.fresh
  glog := h.glog
  told := h.told
  bound := h.bound
  sorted := h.sorted
  live := h.live

theorem logInv_fresh (ops : KeyOps K) (index : Dict K Entries) (order : List K) (b : Bool) (ref : Nat) (v : MixView K)
    (hv : v.rows.keys.Nodup) : LogInv [] (Sess.fresh ops index order b ref v) where
  replay := rfl
  heap := fun _ => hv
  fresh := rfl
  glog := rfl
  told := by simp
  bound := by simp [Sess.fresh]
  sorted := List.Pairwise.nil
  live := Or.inr ⟨rfl, rfl, fun _ => rfl, rfl, rfl, rfl, rfl⟩

/-! ### The files -/

theorem get?_foldl_set {α β γ : Type} [DecidableEq α] (f : γ → α) (g : γ → β) (l : List γ) (j : α) : ∀ acc : Dict α β,
    (l.foldl (fun d e => d.set (f e) (g e)) acc).get? j =
      ((l.filter fun e => decide (f e = j)).getLast?.map g).or (acc.get? j) := by
  induction l using List.reverseRecOn with
  | nil => intro acc; simp
  | append_singleton l x ih =>
    intro acc
    rw [List.foldl_append, List.filter_append]
    simp only [List.foldl_cons, List.foldl_nil, Dict.get?_set, ih]
    by_cases h : f x = j
    · subst h
      simp
    · rw [List.filter_cons_of_neg (by simpa using h)]
      simp [h, Ne.symm h, eq_comm]

theorem isText_stringified {str : K → String} (hstr : Function.Injective str) {rows rows' : Dict K Nat}
    (hn : rows'.keys.Nodup) (hs : SameMix rows' rows) : IsText str rows (stringified str rows') := by
  unfold stringified
  refine ⟨fun k => ?_, fun t ht => ?_⟩
  · rw [get?_foldl_set (fun e : K × Nat => str e.1) (fun e => e.2), ← hs k]
    have hf : (rows'.filter fun e => decide (str e.1 = str k)) = rows'.filter fun e => decide (e.1 = k) := by
      apply List.filter_congr; intro e _; simp [hstr.eq_iff]
    rw [hf]
    cases hk : rows'.get? k with
    | none =>
      have : rows'.filter (fun e => decide (e.1 = k)) = [] := by
        rw [List.filter_eq_nil_iff]
        intro e he hx
        rw [Dict.get?_eq_none_iff] at hk
        rw [decide_eq_true_eq] at hx
        exact hk (by rw [← hx]; exact List.mem_map_of_mem he)
      rw [this]; rfl
    | some n =>
      cases hl : (rows'.filter fun e => decide (e.1 = k)).getLast? with
      | none =>
        rw [List.getLast?_eq_none_iff, List.filter_eq_nil_iff] at hl
        exact absurd (by simp) (hl _ (Dict.mem_of_get? hk))
      | some e =>
        have hm := List.mem_of_getLast? hl
        rw [List.mem_filter, decide_eq_true_eq] at hm
        obtain ⟨h1, rfl⟩ := hm
        have := Dict.get?_of_mem hn (k := e.1) (v := e.2) h1
        rw [hk] at this
        simp [this]
  · rw [get?_foldl_set (fun e : K × Nat => str e.1) (fun e => e.2)]
    have : rows'.filter (fun e => decide (str e.1 = t)) = [] := by
      rw [List.filter_eq_nil_iff]
      intro e _ hx
      rw [decide_eq_true_eq] at hx
      exact ht e.1 hx.symm
    rw [this]; rfl

theorem says_of_log {str : K → String} (hstr : Function.Injective str) {log : List (Nat × MixView K)}
    (hs : log.Pairwise fun a b => a.1 ≤ b.1) {i n : Nat} {rows : Dict K Nat} (h : LogSays log i rows) :
    ∃ d, (persistLog str log n).Says i d ∧ IsText str rows d := by
  obtain ⟨pre, e, post, rfl, h1, h2, hn, h3⟩ := h
  refine ⟨stringified str e.2.rows, ⟨e.1, h1, ?_, ?_⟩, isText_stringified hstr hn h2⟩
  · unfold persistLog
    dsimp only
    rw [get?_foldl_set (fun e : Nat × MixView K => e.1) (fun e => stringified str e.2.rows)]
    have : (pre ++ e :: post).filter (fun f => decide (f.1 = e.1)) = pre.filter (fun f => decide (f.1 = e.1)) ++ [e] := by
      rw [List.filter_append, List.filter_cons_of_pos (by simp)]
      have : post.filter (fun f => decide (f.1 = e.1)) = [] := by
        rw [List.filter_eq_nil_iff]
        intro f hf hx
        rw [decide_eq_true_eq] at hx
        have := h3 f hf
        omega
      rw [this]
    rw [this, List.getLast?_concat]
    rfl
  · intro j' hj hji
    unfold persistLog
    dsimp only
    rw [get?_foldl_set (fun e : Nat × MixView K => e.1) (fun e => stringified str e.2.rows)]
    have : (pre ++ e :: post).filter (fun f => decide (f.1 = j')) = [] := by
      rw [List.filter_eq_nil_iff]
      intro f hf hx
      rw [decide_eq_true_eq] at hx
      rw [List.pairwise_append] at hs
      rcases List.mem_append.1 hf with hf | hf
      · have := hs.2.2 f hf e (by simp)
        omega
      · rcases List.mem_cons.1 hf with rfl | hf
        · omega
        · have := h3 f hf
          omega
    rw [this]; rfl

/-- The entry of the real log stands for the entry of the model's log. -/
def Stands (empty : Nat → Prop) (heap : Nat → MixView K) (a : Nat × Logged K) (b : Nat × MixView K) : Prop :=
  a.1 = b.1 ∧ (a.2 = .copy b.2 ∨ ∃ r, a.2 = .ref r ∧ b.2.rows = [] ∧ empty r ∧ (heap r).rows = [])

theorem persistLog_stands {str : K → String} {empty : Nat → Prop} {heap : Nat → MixView K} {l : List (Nat × Logged K)}
    {l' : List (Nat × MixView K)} (h : List.Forall₂ (Stands empty heap) l l') (n : Nat) :
    persistLog str (l.map fun e => (e.1, e.2.view heap)) n = persistLog str l' n := by
  unfold persistLog
  congr 1
  generalize ([] : Dict Nat (Dict String Nat)) = acc
  induction h generalizing acc with
  | nil => rfl
  | cons h _ ih =>
    simp only [List.map_cons, List.foldl_cons]
    rw [ih]
    congr 1
    obtain ⟨h1, h2⟩ := h
    rw [h1]
    rcases h2 with h2 | ⟨r, h2, h3, _, h4⟩
    · rw [h2]; rfl
    · rw [h2]; simp only [Logged.view, h3, h4]

/-- The invariant of a query result with its files. -/
structure FileInv (str : K → String) (empty : Nat → Prop) (vs : List (MixView K)) (s : LogSess K) : Prop where
  inv : LogInv vs s.sess
  cur : (s.sess.heap s.sess.mixRef).rows = [] ↔ empty s.sess.mixRef
  base : s.sess.gen.isSome = true → ((s.sess.heap s.sess.theGen.base).rows = [] ↔ empty s.sess.theGen.base)
  stands : List.Forall₂ (Stands empty s.sess.heap) s.log s.sess.log
  file : (s.sess.log = [] ∧ s.mixFile = none) ∨
    ∃ e, s.sess.log.getLast? = some e ∧ s.mixFile = some (persistLog str s.sess.log (e.1 + 1))
  idx : s.idxFile = if vs = [] then none else some (vs.length - 1)

theorem stands_heap {empty : Nat → Prop} {heap heap' : Nat → MixView K} {l : List (Nat × Logged K)}
    {l' : List (Nat × MixView K)} (h : List.Forall₂ (Stands empty heap) l l')
    (hh : ∀ r, empty r → (heap r).rows = [] → (heap' r).rows = []) : List.Forall₂ (Stands empty heap') l l' := by
  refine h.imp ?_
  rintro a b ⟨h1, h2 | ⟨r, h2, h3, h4, h5⟩⟩
  · exact ⟨h1, Or.inl h2⟩
  · exact ⟨h1, Or.inr ⟨r, h2, h3, h4, hh r h4 h5⟩⟩

theorem fileInv_fresh (ops : KeyOps K) (str : K → String) (empty : Nat → Prop) (index : Dict K Entries) (order : List K)
    (b : Bool) (ref : Nat) (v : MixView K) (hv : v.rows.keys.Nodup) (he : v.rows = [] ↔ empty ref) :
    FileInv str empty [] (LogSess.fresh ops index order b ref v) where
  inv := logInv_fresh ops index order b ref v hv
  cur := he
  base := by intro h; cases h
  stands := List.Forall₂.nil
  file := Or.inl ⟨rfl, rfl⟩
  idx := rfl

/-- What `next` does to the log and the files. -/
theorem fileInv_next (ops : KeyOps K) (str : K → String) (fuel : Nat) {empty : Nat → Prop} {vs : List (MixView K)} {s : LogSess K}
    (h : FileInv str empty vs s) :
    (∃ c, (s.next ops str fuel).2 = .chunk c) ∧
        FileInv str empty (vs ++ [s.sess.theGen.eff ⟨s.sess.heap, s.sess.mixRef, s.sess.idx, fuel⟩]) (s.next ops str fuel).1 ∨
      (∀ c, (s.next ops str fuel).2 ≠ .chunk c) ∧ FileInv str empty vs (s.next ops str fuel).1 := by
  have hN := logInv_next ops fuel h.inv
  unfold LogSess.next LogSess.resolved
  dsimp only
  generalize s.sess.theGen.eff ⟨s.sess.heap, s.sess.mixRef, s.sess.idx, fuel⟩ = v at hN ⊢
  generalize s.sess.next ops fuel = r at hN ⊢
  obtain ⟨s', o⟩ := r
  dsimp only at hN ⊢
  obtain ⟨⟨k1, k2, k3⟩, hinv, hlog, hchunk, hbase, hsome, hobj, hlast⟩ := hN
  have hcur : (s'.heap s'.mixRef).rows = [] ↔ empty s'.mixRef := by rw [k1, k2]; exact h.cur
  have hb : (s'.heap s'.theGen.base).rows = [] ↔ empty s'.theGen.base := by
    rw [k1]
    rcases hbase with ⟨e, hs⟩ | e
    · rw [e]; exact h.base hs
    · rw [e]; exact h.cur
  have hst : List.Forall₂ (Stands empty s'.heap)
      (s.log ++ (s'.log.drop s.sess.log.length).map (logEntry s'.theGen.base)) s'.log := by
    rcases hlog with ⟨e, _⟩ | ⟨e, _⟩
    · rw [e, List.drop_length, List.map_nil, List.append_nil, k1]; exact h.stands
    · have hne : s'.log ≠ s.sess.log := by
        rw [e]; intro hx; have := congrArg List.length hx; simp at this
      rw [e, List.drop_left, List.map_singleton]
      refine List.rel_append (by rw [k1]; exact h.stands) (List.Forall₂.cons ⟨rfl, ?_⟩ List.Forall₂.nil)
      unfold logEntry
      dsimp only
      split
      · rename_i hr
        have : (s'.heap s'.theGen.base).rows = [] := by rw [k1, hobj hne]; exact hr
        exact Or.inr ⟨_, rfl, hr, hb.1 this, this⟩
      · exact Or.inl rfl
  have hfile : (s'.log = [] ∧ (if (!(s'.theGen.mixtureId == s.sess.theGen.mixtureId)) = true then
        some (persistLog str ((s.log ++ (s'.log.drop s.sess.log.length).map (logEntry s'.theGen.base)).map
          fun e => (e.1, e.2.view s'.heap)) (s.sess.idx + 1)) else s.mixFile) = none) ∨
      ∃ e, s'.log.getLast? = some e ∧ (if (!(s'.theGen.mixtureId == s.sess.theGen.mixtureId)) = true then
        some (persistLog str ((s.log ++ (s'.log.drop s.sess.log.length).map (logEntry s'.theGen.base)).map
          fun e => (e.1, e.2.view s'.heap)) (s.sess.idx + 1)) else s.mixFile) = some (persistLog str s'.log (e.1 + 1)) := by
    rw [persistLog_stands hst]
    rcases hlog with ⟨e, hm⟩ | ⟨e, hm, hi⟩
    · rw [hm, e]; simpa using h.file
    · rw [hm, e, hi]
      exact Or.inr ⟨(vs.length, v), List.getLast?_concat, if_pos (by simp)⟩
  rcases hinv with ⟨⟨c, rfl⟩, hi⟩ | ⟨hno, hi⟩
  · refine Or.inl ⟨⟨c, rfl⟩, { inv := hi, cur := hcur, base := fun _ => hb, stands := hst, file := hfile, idx := ?_ }⟩
    dsimp only
    rw [(hchunk c rfl).1]
    simp
  · refine Or.inr ⟨hno, { inv := hi, cur := hcur, base := fun _ => hb, stands := hst, file := hfile, idx := ?_ }⟩
    rw [← h.idx]
    cases o with
    | chunk c => exact absurd rfl (hno c)
    | none => rfl
    | stop => rfl
    | raised e => rfl

theorem chunksIn_append (a b : List (Out K)) : chunksIn (a ++ b) = chunksIn a + chunksIn b := by
  induction a with
  | nil => simp [chunksIn]
  | cons o a ih => cases o <;> simp [chunksIn, ih]; omega

theorem chunksIn_single_ne {o : Out K} (h : ∀ c, o ≠ .chunk c) : chunksIn [o] = 0 := by
  cases o with
  | chunk c => exact absurd rfl (h c)
  | none => rfl
  | stop => rfl
  | raised e => rfl

theorem logSess_run_append (ops : KeyOps K) (str : K → String) (fuel : Nat) (os os' : List (SOp K)) : ∀ s : LogSess K,
    (s.run ops str fuel (os ++ os')).1 = ((s.run ops str fuel os).1.run ops str fuel os').1 ∧
    (s.run ops str fuel (os ++ os')).2 = (s.run ops str fuel os).2 ++ ((s.run ops str fuel os).1.run ops str fuel os').2 := by
  induction os with
  | nil => intro s; exact ⟨rfl, rfl⟩
  | cons o os ih =>
    intro s
    simp only [List.cons_append, LogSess.run]
    obtain ⟨h1, h2⟩ := ih (s.op ops str fuel o).1
    exact ⟨h1, by rw [h2, List.append_assoc]⟩

/-- The files do not influence the answers. -/
theorem logSess_sess (ops : KeyOps K) (str : K → String) (fuel : Nat) (os : List (SOp K)) : ∀ s : LogSess K,
    (s.run ops str fuel os).1.sess = (s.sess.run ops fuel os).1 ∧ (s.run ops str fuel os).2 = (s.sess.run ops fuel os).2 := by
  induction os with
  | nil => intro s; exact ⟨rfl, rfl⟩
  | cons o os ih =>
    intro s
    have ho : (s.op ops str fuel o).1.sess = (s.sess.op ops fuel o).1 ∧ (s.op ops str fuel o).2 = (s.sess.op ops fuel o).2 := by
      cases o <;> exact ⟨rfl, rfl⟩
    simp only [LogSess.run, Sess.run]
    obtain ⟨h1, h2⟩ := ih (s.op ops str fuel o).1
    rw [ho.1] at h1 h2
    exact ⟨h1, by rw [h2, ho.2]⟩

/-- The mixture object in use after some operations. -/
def refAfter : Nat → List (SOp K) → Nat
  | cur, [] => cur
  | _, .update ref _ :: os => refAfter ref os
  | cur, _ :: os => refAfter cur os

theorem steady_append {empty : Nat → Prop} (os os' : List (SOp K)) : ∀ cur, Steady empty cur (os ++ os') ↔
    Steady empty cur os ∧ Steady empty (refAfter cur os) os' := by
  induction os with
  | nil => intro cur; simp [Steady, refAfter]
  | cons o os ih => intro cur; cases o <;> simp [Steady, refAfter, ih, and_assoc]

theorem mixRef_run (ops : KeyOps K) (fuel : Nat) (os : List (SOp K)) : ∀ s : Sess K,
    (s.run ops fuel os).1.mixRef = refAfter s.mixRef os := by
  induction os with
  | nil => intro s; rfl
  | cons o os ih =>
    intro s
    simp only [Sess.run]
    rw [ih]
    cases o with
    | update ref v => rfl
    | feedback v => rfl
    | next =>
      show refAfter (s.next ops fuel).1.mixRef os = refAfter s.mixRef os
      congr 1
      unfold Sess.next; split <;> rfl

theorem fileInv_run (ops : KeyOps K) (str : K → String) (fuel : Nat) {empty : Nat → Prop} (os : List (SOp K))
    (ho : ∀ o ∈ os, o.Ok) : ∀ {vs : List (MixView K)} {s : LogSess K}, FileInv str empty vs s → Steady empty s.sess.mixRef os →
    ∃ ws, FileInv str empty (vs ++ ws) (s.run ops str fuel os).1 ∧ ws.length = chunksIn (s.run ops str fuel os).2 ∧
      s.sess.log <+: (s.run ops str fuel os).1.sess.log := by
  induction os with
  | nil => intro vs s h _; exact ⟨[], by simpa [LogSess.run] using h, rfl, List.prefix_rfl⟩
  | cons o os ih =>
    intro vs s h hst
    have ih := fun {vs : List (MixView K)} {s : LogSess K} => ih (fun o' ho' => ho o' (by simp [ho'])) (vs := vs) (s := s)
    have hok := ho o (by simp)
    cases o with
    | update ref v =>
      obtain ⟨hv, hst⟩ := hst
      have hh : FileInv str empty vs { s with sess := s.sess.update ops ref v } := {
        inv := logInv_update ops h.inv ref v hok
        cur := by simp only [Sess.update, if_true]; exact hv
        base := by
          intro hs
          show ((if s.sess.theGen.base = ref then v else s.sess.heap s.sess.theGen.base).rows = [] ↔ _)
          split
          · rename_i e; rw [hv, ← e]; rfl
          · exact h.base hs
        stands := stands_heap h.stands (by
          intro r he hr
          simp only [Sess.update]
          split
          · rename_i e; subst e; exact hv.2 he
          · exact hr)
        file := h.file
        idx := h.idx }
      exact ih hh hst
    | feedback v =>
      obtain ⟨hv, hst⟩ := hst
      have hh : FileInv str empty vs { s with sess := s.sess.feedback v } := {
        inv := logInv_feedback h.inv v hok
        cur := by simp only [Sess.feedback, if_true]; exact hv
        base := by
          intro hs
          show ((if s.sess.theGen.base = s.sess.mixRef then v else s.sess.heap s.sess.theGen.base).rows = [] ↔ _)
          split
          · rename_i e; rw [hv, ← e]; rfl
          · exact h.base hs
        stands := stands_heap h.stands (by
          intro r he hr
          simp only [Sess.feedback]
          split
          · rename_i e; subst e; exact hv.2 he
          · exact hr)
        file := h.file
        idx := h.idx }
      exact ih hh hst
    | next =>
      have hN := logInv_next ops fuel h.inv
      have hp : s.sess.log <+: (s.next ops str fuel).1.sess.log := by
        show s.sess.log <+: (s.sess.next ops fuel).1.log
        rcases hN.log with ⟨e, _⟩ | ⟨e, _⟩
        · rw [e]; exact List.prefix_rfl
        · rw [e]; exact List.prefix_append _ _
      have hr : (s.next ops str fuel).1.sess.mixRef = s.sess.mixRef := hN.keep.2.1
      simp only [LogSess.run, LogSess.op]
      rcases fileInv_next ops str fuel h with ⟨⟨c, hc⟩, hi⟩ | ⟨hno, hi⟩
      · obtain ⟨ws, h1, h2, h3⟩ := ih hi (by rw [hr]; exact hst)
        refine ⟨_ :: ws, by rw [List.append_assoc] at h1; exact h1, ?_, hp.trans h3⟩
        rw [hc, chunksIn_append, ← h2, List.length_cons, Nat.add_comm]
        rfl
      · obtain ⟨ws, h1, h2, h3⟩ := ih hi (by rw [hr]; exact hst)
        refine ⟨ws, h1, ?_, hp.trans h3⟩
        rw [chunksIn_append, h2]
        simp [chunksIn_single_ne hno]

/-! ### Theorems -/

/-- The situation of the theorems: a new query result with a log directory, a history, a request that delivers the chunk `c`,
and everything that happens after it. -/
structure Delivered (ops : KeyOps K) (str : K → String) (fuel : Nat) (index : Dict K Entries) (order : List K) (b : Bool) (ref : Nat)
    (v0 : MixView K) (before later : List (SOp K)) (c : RChunk K) (s t : LogSess K) : Prop where
  indexOk : IndexOk index order
  start : v0.rows.keys.Nodup
  okBefore : ∀ o ∈ before, o.Ok
  okLater : ∀ o ∈ later, o.Ok
  isS : s = ((LogSess.fresh ops index order b ref v0).run ops str fuel before).1
  chunk : (s.next ops str fuel).2 = .chunk c
  isT : t = ((s.next ops str fuel).1.run ops str fuel later).1

theorem delivered_facts {ops : KeyOps K} {str : K → String} {fuel : Nat} {index : Dict K Entries} {order : List K} {b : Bool}
    {ref : Nat} {v0 : MixView K} {before later : List (SOp K)} {c : RChunk K} {s t : LogSess K}
    (h : Delivered ops str fuel index order b ref v0 before later c s t) {empty : Nat → Prop} (h0 : v0.rows = [] ↔ empty ref)
    (hst : Steady empty ref (before ++ .next :: later)) :
    ∃ vs v ws, FileInv str empty (vs ++ v :: ws) t ∧
      vs.length = chunksIn ((LogSess.fresh ops index order b ref v0).run ops str fuel before).2 ∧ ComposedBy v c ∧
      (((LogSess.fresh ops index order b ref v0).run ops str fuel before).2.getLast? ≠ some .none →
        v = s.sess.heap s.sess.mixRef) ∧
      ∃ e, t.sess.log[c.mixtureId.toNat]? = some e ∧ 0 ≤ c.mixtureId ∧ e.1 ≤ vs.length ∧ SameMix e.2.rows v.rows := by
  obtain ⟨hi, hv0, hb, hl, hs, hc, ht⟩ := h
  rw [steady_append] at hst
  obtain ⟨hst1, hst2⟩ := hst
  have hF := fileInv_fresh ops str empty index order b ref v0 hv0 h0
  obtain ⟨vs, h1, h2, _⟩ := fileInv_run ops str fuel before hb hF hst1
  rw [← hs, List.nil_append] at h1
  have hS := sessInv_run ops fuel before hb (sessInv_fresh ops hi b ref v0 hv0)
  have hsess := logSess_sess ops str fuel before (LogSess.fresh ops index order b ref v0)
  rw [← hs] at hsess
  have e1 : (LogSess.fresh ops index order b ref v0).sess = Sess.fresh ops index order b ref v0 := rfl
  rw [e1] at hsess
  rw [← hsess.1, Option.or_none, ← hsess.2] at hS
  have hN := logInv_next ops fuel h1.inv
  rcases fileInv_next ops str fuel h1 with ⟨_, hnext⟩ | ⟨hno, _⟩
  · have hr : (s.next ops str fuel).1.sess.mixRef = refAfter ref before := by
      refine (hN.keep.2.1 : _ = s.sess.mixRef).trans ?_
      rw [hsess.1, mixRef_run]; rfl
    obtain ⟨ws, g1, g2, g3⟩ := fileInv_run ops str fuel later hl hnext (by rw [hr]; exact hst2)
    rw [← ht] at g1 g3
    have hcomp := composed_eff ops fuel hS (s' := (s.sess.next ops fuel).1) (c := c)
      (Prod.ext rfl (by exact hc))
    refine ⟨vs, _, ws, by rw [List.append_assoc] at g1; exact g1, h2, hcomp, fun hl => eff_current hS hl _ _, ?_⟩
    obtain ⟨e, he, hes, hei⟩ := hN.last c hc
    obtain ⟨_, hid, hne⟩ := hN.chunk c hc
    have hpos : 0 < (s.sess.next ops fuel).1.log.length := List.length_pos_iff.2 hne
    refine ⟨e, ?_, by omega, hei, hes⟩
    have : c.mixtureId.toNat = (s.sess.next ops fuel).1.log.length - 1 := by omega
    rw [this]
    obtain ⟨more, hmore⟩ := g3
    rw [← hmore]
    rw [List.getLast?_eq_getElem?] at he
    rw [List.getElem?_append_left (by exact Nat.sub_lt hpos (by omega))]
    exact he
  · exact absurd hc (hno c)

/-- **C80**. At any time after the `i`-th chunk (counted from 0) was delivered, whatever happened before and after it,
`mixture.log` says which mixture the chunk was made with: the mixture with the greatest chunk index up to `i` is, in text form,
the mixture the chunk is composed by; that is the mixture that was set when the chunk was requested, unless the request before
was answered by `None`. Missing: schedules that change between entries with and without rows, see `c80_schedule_rewrites_log`. -/
theorem c80_log_partial (ops : KeyOps K) (str : K → String) (hstr : Function.Injective str) (fuel : Nat) (index : Dict K Entries)
    (order : List K) (b : Bool) (ref : Nat) (v0 : MixView K) (before later : List (SOp K)) (c : RChunk K) (s t : LogSess K)
    (h : Delivered ops str fuel index order b ref v0 before later c s t) (empty : Nat → Prop) (h0 : v0.rows = [] ↔ empty ref)
    (hst : Steady empty ref (before ++ .next :: later)) :
    let answers := ((LogSess.fresh ops index order b ref v0).run ops str fuel before).2
    ∃ f d v, t.mixFile = some f ∧ f.Says (chunksIn answers) d ∧ IsText str v.rows d ∧ ComposedBy v c ∧
      (answers.getLast? ≠ some .none → v = s.sess.heap s.sess.mixRef) := by
  intro answers
  obtain ⟨vs, v, ws, hF, hlen, hcomp, hcur, _⟩ := delivered_facts h h0 hst
  have htold := hF.inv.told vs.length v (by simp)
  rcases hF.file with ⟨hnil, _⟩ | ⟨e, _, hf⟩
  · obtain ⟨pre, e, post, hx, _⟩ := htold
    rw [hnil] at hx
    simp at hx
  · obtain ⟨d, hd1, hd2⟩ := says_of_log hstr hF.inv.sorted (n := e.1 + 1) htold
    rw [hlen] at hd1
    exact ⟨_, d, v, hf, hd1, hd2, hcomp, hcur⟩

/-- **C80** (mixture ids). The mixture id of a chunk is the position, in the log that is stored in checkpoints and cached
results, of the mixture the chunk was made with. Missing: the schedules excluded in `c80_log_partial`. -/
theorem c80_ids_partial (ops : KeyOps K) (str : K → String) (fuel : Nat) (index : Dict K Entries)
    (order : List K) (b : Bool) (ref : Nat) (v0 : MixView K) (before later : List (SOp K)) (c : RChunk K) (s t : LogSess K)
    (h : Delivered ops str fuel index order b ref v0 before later c s t) (empty : Nat → Prop) (h0 : v0.rows = [] ↔ empty ref)
    (hst : Steady empty ref (before ++ .next :: later)) :
    let answers := ((LogSess.fresh ops index order b ref v0).run ops str fuel before).2
    0 ≤ c.mixtureId ∧ ∃ e v, t.toCache.log[c.mixtureId.toNat]? = some e ∧ e.1 ≤ chunksIn answers ∧ SameMix e.2.rows v.rows ∧
      ComposedBy v c ∧ (answers.getLast? ≠ some .none → v = s.sess.heap s.sess.mixRef) := by
  intro answers
  obtain ⟨vs, v, ws, hF, hlen, hcomp, hcur, e, he, hpos, hei, hes⟩ := delivered_facts h h0 hst
  refine ⟨hpos, ?_⟩
  have hst := hF.stands
  have hlt := (List.getElem?_eq_some_iff.1 he).1
  have hlt' : c.mixtureId.toNat < t.log.length := by rw [hst.length_eq]; exact hlt
  have hs := hst.get (i := c.mixtureId.toNat) hlt' hlt
  rw [List.getElem?_eq_getElem hlt] at he
  injection he with he
  simp only [List.get_eq_getElem, he] at hs
  refine ⟨_, v, by
    show t.resolved[c.mixtureId.toNat]? = _
    unfold LogSess.resolved
    rw [List.getElem?_map, List.getElem?_eq_getElem hlt']
    rfl, ?_, ?_, hcomp, hcur⟩
  · show (t.log[c.mixtureId.toNat]).1 ≤ _
    rw [hs.1, ← hlen]; exact hei
  · show SameMix ((t.log[c.mixtureId.toNat]).2.view t.sess.heap).rows v.rows
    rcases hs.2 with h | ⟨r, h, h1, _, h2⟩
    · rw [h]; exact hes
    · rw [h]; show SameMix (t.sess.heap r).rows v.rows
      rw [h2]; rw [h1] at hes; exact hes

/-- Runs keep track of the number of the last chunk. -/
theorem idxFile_run (ops : KeyOps K) (str : K → String) (fuel : Nat) (os : List (SOp K)) (ho : ∀ o ∈ os, o.Ok) :
    ∀ {vs : List (MixView K)} {s : LogSess K}, LogInv vs s.sess → s.idxFile = (if vs = [] then none else some (vs.length - 1)) →
    ∃ ws, LogInv (vs ++ ws) (s.run ops str fuel os).1.sess ∧ ws.length = chunksIn (s.run ops str fuel os).2 ∧
      (s.run ops str fuel os).1.idxFile = (if vs ++ ws = [] then none else some ((vs ++ ws).length - 1)) := by
  induction os with
  | nil => intro vs s h hi; exact ⟨[], by simpa [LogSess.run] using h, rfl, by simpa [LogSess.run] using hi⟩
  | cons o os ih =>
    intro vs s h hi
    have ih := fun {vs : List (MixView K)} {s : LogSess K} => ih (fun o' ho' => ho o' (by simp [ho'])) (vs := vs) (s := s)
    have hok := ho o (by simp)
    cases o with
    | update ref v => exact ih (s := { s with sess := s.sess.update ops ref v }) (logInv_update ops h ref v hok) hi
    | feedback v => exact ih (s := { s with sess := s.sess.feedback v }) (logInv_feedback h v hok) hi
    | next =>
      have hN := logInv_next ops fuel h
      simp only [LogSess.run, LogSess.op]
      have e2 : (s.next ops str fuel).2 = (s.sess.next ops fuel).2 := rfl
      rcases hN.inv with ⟨⟨c, hc⟩, hinv⟩ | ⟨hno, hinv⟩
      · have hx : (s.next ops str fuel).1.idxFile = some vs.length := by
          rw [← (hN.chunk c hc).1]
          unfold LogSess.next
          dsimp only
          rw [hc]
        obtain ⟨ws, h1, h2, h3⟩ := ih (s := (s.next ops str fuel).1) hinv (by rw [hx]; simp)
        rw [List.append_assoc] at h1 h3
        refine ⟨_ :: ws, h1, ?_, h3⟩
        rw [e2, hc, chunksIn_append, ← h2, List.length_cons, Nat.add_comm]
        rfl
      · have hx : (s.next ops str fuel).1.idxFile = s.idxFile := by
          unfold LogSess.next
          dsimp only
          split
          · rename_i c hc; exact absurd hc (hno c)
          · rfl
        obtain ⟨ws, h1, h2, h3⟩ := ih (s := (s.next ops str fuel).1) hinv (by rw [hx]; exact hi)
        refine ⟨ws, h1, ?_, h3⟩
        rw [chunksIn_append, h2, e2]
        simp [chunksIn_single_ne hno]

/-- **C80** (`chunk.idx`). At any time, `chunk.idx` holds the number (from 0) of the last chunk delivered, and does not exist
before the first one. -/
theorem c80_chunk_idx (ops : KeyOps K) (str : K → String) (fuel : Nat) (index : Dict K Entries) (order : List K) (b : Bool)
    (ref : Nat) (v0 : MixView K) (hv0 : v0.rows.keys.Nodup) (history : List (SOp K)) (hh : ∀ o ∈ history, o.Ok) :
    let r := (LogSess.fresh ops index order b ref v0).run ops str fuel history
    (chunksIn r.2 = 0 → r.1.idxFile = none) ∧ (∀ n, chunksIn r.2 = n + 1 → r.1.idxFile = some n) := by
  intro r
  obtain ⟨ws, _, h2, h3⟩ := idxFile_run ops str fuel history hh (s := LogSess.fresh ops index order b ref v0)
    (logInv_fresh ops index order b ref v0 hv0) rfl
  rw [List.nil_append] at h3
  refine ⟨fun h => ?_, fun n h => ?_⟩
  · have : ws = [] := List.length_eq_zero_iff.1 (h2.trans h)
    show (LogSess.run ops str fuel _ history).1.idxFile = none
    rw [h3, if_pos this]
  · have hl : ws.length = n + 1 := h2.trans h
    show (LogSess.run ops str fuel _ history).1.idxFile = some n
    rw [h3, if_neg (by intro hx; rw [hx] at hl; simp at hl), hl]
    rfl

theorem persistLog_keys {str : K → String} {log : List (Nat × MixView K)} (hs : log.Pairwise fun a b => a.1 ≤ b.1)
    {e : Nat × MixView K} (he : log.getLast? = some e) (n : Nat) :
    e.1 ∈ (persistLog str log n).entries.keys ∧ ∀ j ∈ (persistLog str log n).entries.keys, j ≤ e.1 := by
  unfold persistLog
  dsimp only
  refine ⟨?_, ?_⟩
  · rw [Dict.mem_keys_iff, get?_foldl_set (fun e : Nat × MixView K => e.1) (fun e => stringified str e.2.rows)]
    cases hl : (log.filter fun x => decide (x.1 = e.1)).getLast? with
    | some y => exact ⟨_, rfl⟩
    | none =>
      rw [List.getLast?_eq_none_iff, List.filter_eq_nil_iff] at hl
      exact absurd (by simp) (hl e (List.mem_of_getLast? he))
  · intro j hj
    rw [Dict.mem_keys_iff] at hj
    obtain ⟨d, hj⟩ := hj
    rw [get?_foldl_set (fun e : Nat × MixView K => e.1) (fun e => stringified str e.2.rows)] at hj
    cases hl : (log.filter fun x => decide (x.1 = j)).getLast? with
    | none => rw [hl] at hj; cases hj
    | some y =>
      have hm := List.mem_of_getLast? hl
      rw [List.mem_filter, decide_eq_true_eq] at hm
      obtain ⟨hm, rfl⟩ := hm
      rcases List.eq_nil_or_concat log with hn | ⟨pre, x, hn⟩
      · rw [hn] at hm; cases hm
      · rw [hn, List.concat_eq_append] at he hm hs
        rw [List.getLast?_concat] at he
        cases he
        rcases List.mem_append.1 hm with hm | hm
        · exact (List.pairwise_append.1 hs).2.2 y hm e (by simp)
        · rw [List.mem_singleton.1 hm]

/-- **C80** (`curr_chunk_idx`). Whenever `mixture.log` exists, its `curr_chunk_idx` is one more than the greatest chunk index
in it, and no index in it is greater than the number of chunks delivered. -/
theorem c80_curr_chunk_idx_partial (ops : KeyOps K) (str : K → String) (fuel : Nat) (index : Dict K Entries) (order : List K)
    (b : Bool) (ref : Nat) (v0 : MixView K) (hv0 : v0.rows.keys.Nodup) (history : List (SOp K)) (hh : ∀ o ∈ history, o.Ok)
    (empty : Nat → Prop) (h0 : v0.rows = [] ↔ empty ref) (hst : Steady empty ref history) (f : LogFile)
    (hf : ((LogSess.fresh ops index order b ref v0).run ops str fuel history).1.mixFile = some f) :
    ∃ i, f.currIdx = i + 1 ∧ i ∈ f.entries.keys ∧ (∀ j ∈ f.entries.keys, j ≤ i) ∧
      i ≤ chunksIn ((LogSess.fresh ops index order b ref v0).run ops str fuel history).2 := by
  obtain ⟨vs, h1, h2, _⟩ := fileInv_run ops str fuel history hh (fileInv_fresh ops str empty index order b ref v0 hv0 h0) hst
  rw [List.nil_append] at h1
  rcases h1.file with ⟨_, hx⟩ | ⟨e, he, hx⟩
  · rw [hx] at hf; cases hf
  · rw [hx] at hf
    injection hf with hf
    subst hf
    obtain ⟨g1, g2⟩ := persistLog_keys (str := str) h1.inv.sorted he (e.1 + 1)
    refine ⟨e.1, rfl, g1, g2, ?_⟩
    · rw [← h2]; exact h1.inv.bound e (List.mem_of_getLast? he)

/-! ### Examples and findings -/

/-- A text form of the keys of the examples. -/
def Ex.str (k : Nat) : String := toString k

/-- The chunk indices and mixtures of a file. -/
def LogFile.shown (f : LogFile) : List (Nat × List (String × Nat)) × Nat := (f.entries, f.currIdx)

/-- Three chunks with the mixtures A, A, B, then no mixture: `mixture.log` has the entries 0 ↦ A, 2 ↦ B, 3 ↦ none, and
`chunk.idx` is 3. -/
example :
    let r := (LogSess.fresh Ex.ops Ex.index Ex.order false 0 Ex.strictMix).run Ex.ops Ex.str 20
      [.next, .feedback Ex.bestMix, .next, .update 1 ⟨[(2, 1)], true, 1⟩, .next, .update 2 Ex.arbMix, .next]
    r.1.mixFile.map LogFile.shown = some ([(0, [("1", 3), ("2", 2)]), (2, [("2", 1)]), (3, [])], 4) ∧ r.1.idxFile = some 3 ∧
      chunksIn r.2 = 4 := by
  decide +kernel

/-- The hypotheses of C80 are met by it, for the third chunk. -/
example : Steady (fun r => r = 2) 0 ([.next, .feedback Ex.bestMix, .next, .update 1 ⟨[(2, 1)], true, 1⟩] ++
      .next :: [.update 2 Ex.arbMix, .next]) ∧ (Ex.strictMix.rows = [] ↔ (0 : Nat) = 2) := by
  simp [Steady, Ex.bestMix, Ex.strictMix, Ex.arbMix]

end Mixtera
