import Verif.Props.MixtureLog
import Verif.Props.Mixture

/-!
# C24 and C80: jobs with a mixture schedule

A query result whose mixture is a `MixtureSchedule`, training steps reported by clients, and requests for chunks.
-/

set_option linter.unusedSectionVars false

namespace Mixtera

variable {K : Type} [DecidableEq K]

/-! ### Specification -/

/-- Something that happens to a job with a schedule: a client reports a training step, or a chunk is requested. -/
inductive JobEv
  | step (n : Int)
  | next

/-- The steps reported. -/
def JobEv.steps : List JobEv → List Int
  | [] => []
  | .step n :: es => n :: steps es
  | .next :: es => steps es

/-- What the events mean for the query result: a report changes the schedule object in place. -/
def jobOps (s : Schedule K) : List JobEv → List (SOp K)
  | [] => []
  | .step n :: es => .feedback (s.report n).view :: jobOps (s.report n) es
  | .next :: es => .next :: jobOps s es

/-! ### Lemmas -/

theorem schedule_view_rows {chunk : Nat} {entries : List (Int × BaseMix K)} {s : Schedule K}
    (hs : Schedule.mk? chunk entries = .ok s) (reports : List Int) :
    ∃ e ∈ entries, (reports.foldl Schedule.report s).view = ⟨e.2.rows, true, chunk⟩ := by
  obtain ⟨e, h1, h2, _⟩ := c24_current chunk entries s hs reports _ (foldl_max reports 0)
  refine ⟨e, h2, ?_⟩
  unfold Schedule.view
  rw [h1]
  have hc : ∀ (l : List Int) (s : Schedule K), (l.foldl Schedule.report s).chunk = s.chunk := by
    intro l
    induction l with
    | nil => intro s; rfl
    | cons n l ih => intro s; rw [List.foldl_cons, ih]; rfl
  have : s.chunk = chunk := by
    unfold Schedule.mk? at hs
    split at hs
    · cases hs
    · cases hs; rfl
  rw [hc, this]

theorem jobOps_ok {chunk : Nat} {entries : List (Int × BaseMix K)} {s : Schedule K}
    (hs : Schedule.mk? chunk entries = .ok s) (hn : ∀ e ∈ entries, e.2.rows.keys.Nodup) (es : List JobEv) :
    ∀ reports : List Int, ∀ o ∈ jobOps (reports.foldl Schedule.report s) es, o.Ok := by
  induction es with
  | nil => intro r o ho; cases ho
  | cons e es ih =>
    intro r o ho
    cases e with
    | next =>
      simp only [jobOps, List.mem_cons] at ho
      rcases ho with rfl | ho
      · trivial
      · exact ih r o ho
    | step n =>
      have e1 : (r.foldl Schedule.report s).report n = (r ++ [n]).foldl Schedule.report s := by
        rw [List.foldl_append]; rfl
      simp only [jobOps, List.mem_cons, e1] at ho
      rcases ho with rfl | ho
      · obtain ⟨e, he, hv⟩ := schedule_view_rows hs (r ++ [n])
        show (Schedule.view _).rows.keys.Nodup
        rw [hv]; exact hn e he
      · exact ih _ o ho

theorem jobOps_heap (ops : KeyOps K) (fuel : Nat) (es : List JobEv) : ∀ (s : Schedule K) (q : Sess K),
    q.heap q.mixRef = s.view →
    (q.run ops fuel (jobOps s es)).1.heap (q.run ops fuel (jobOps s es)).1.mixRef =
      ((JobEv.steps es).foldl Schedule.report s).view := by
  induction es with
  | nil => intro s q h; exact h
  | cons e es ih =>
    intro s q h
    cases e with
    | next =>
      simp only [jobOps, JobEv.steps, Sess.run, Sess.op]
      apply ih
      unfold Sess.next
      split <;> exact h
    | step n =>
      simp only [jobOps, JobEv.steps, Sess.run, Sess.op, List.foldl_cons]
      apply ih
      simp [Sess.feedback]

/-! ### C24 -/

/-- **C24** (chunks). In a job with a schedule, whatever steps were reported and whatever chunks were requested before: if the
request before was not answered by `None`, a chunk is composed by the mixture of the latest entry that has started - exactly as
in strict mode, with the schedule's chunk size. For entries that infer their mixture see `c24_later_inferring_uninformed`;
the strictness of the entry is ignored (`c24_strictness_ignored`). -/
theorem c24_chunks (ops : KeyOps K) (fuel : Nat) (index : Dict K Entries) (order : List K) (hi : IndexOk index order)
    (stopOnNone : Bool) (ref chunk : Nat) (entries : List (Int × BaseMix K)) (hn : ∀ e ∈ entries, e.2.rows.keys.Nodup)
    (s : Schedule K) (hs : Schedule.mk? chunk entries = .ok s) (history : List JobEv) (q q' : Sess K)
    (hq : q = ((Sess.fresh ops index order stopOnNone ref s.view).run ops fuel (jobOps s history)).1)
    (hlast : ((Sess.fresh ops index order stopOnNone ref s.view).run ops fuel (jobOps s history)).2.getLast? ≠ some .none)
    (c : RChunk K) (hc : q.next ops fuel = (q', .chunk c)) (top : Int) (htop : IsTop (JobEv.steps history) top) :
    ∃ e ∈ entries, ComposedBy ⟨e.2.rows, true, chunk⟩ c ∧
      ((∃ f ∈ entries, f.1 ≤ top) → e.1 ≤ top ∧ ∀ f ∈ entries, f.1 ≤ top → f.1 ≤ e.1) ∧
      ((∀ f ∈ entries, top < f.1) → ∀ f ∈ entries, e.1 ≤ f.1) := by
  obtain ⟨e, h1, h2, h3, h4⟩ := c24_current chunk entries s hs (JobEv.steps history) top htop
  refine ⟨e, h2, ?_, fun h => ⟨(h3 h).1, (h3 h).2.1⟩, h4⟩
  have hv0 : s.view.rows.keys.Nodup := by
    obtain ⟨e, he, hv⟩ := schedule_view_rows hs []
    rw [List.foldl_nil] at hv
    rw [hv]; exact hn e he
  have hS := sessInv_run ops fuel (jobOps s history) (jobOps_ok hs hn history []) (sessInv_fresh ops hi stopOnNone ref s.view hv0)
  rw [← hq, Option.or_none] at hS
  have hcomp := composed_next ops fuel hS hlast hc
  have hh := jobOps_heap ops fuel history s (Sess.fresh ops index order stopOnNone ref s.view) rfl
  rw [← hq] at hh
  rw [hh] at hcomp
  have : ((JobEv.steps history).foldl Schedule.report s).view = ⟨e.2.rows, true, chunk⟩ := by
    obtain ⟨e', _, hv⟩ := schedule_view_rows hs (JobEv.steps history)
    rw [hv]
    have : (((JobEv.steps history).foldl Schedule.report s).view).rows = e.2.rows := by
      unfold Schedule.view; rw [h1]
    rw [hv] at this
    simp only at this
    rw [this]
  rw [this] at hcomp
  exact hcomp

/-- Finding: the `strict` flag of a schedule's entries is ignored. A best-effort mixture that is served twice on its own is
served only once as the only entry of a schedule: the second chunk fails because there are only two samples of key 1 left. -/
theorem c24_strictness_ignored :
    let m : BaseMix Nat := ⟨false, 6, [(1, 5), (2, 1)], false⟩
    ∃ s, Schedule.mk? 6 [(0, m)] = .ok s ∧
      ((Sess.fresh Ex.ops Ex.index Ex.order false 0 s.view).run Ex.ops 20 [.next, .next]).2.map Out.seen =
        [.chunk [(1, [(0, 0, 0), (0, 0, 1), (0, 0, 2), (0, 0, 3), (0, 0, 4)]), (2, [(0, 1, 0)])], .none] ∧
      ((Sess.fresh Ex.ops Ex.index Ex.order false 0 ⟨m.rows, m.strict, m.chunk⟩).run Ex.ops 20 [.next, .next]).2.map Out.seen =
        [.chunk [(1, [(0, 0, 0), (0, 0, 1), (0, 0, 2), (0, 0, 3), (0, 0, 4)]), (2, [(0, 1, 0)])],
          .chunk [(1, [(0, 0, 5), (0, 0, 6)]), (2, [(0, 1, 1), (0, 1, 2), (0, 1, 3), (0, 1, 4)])]] := by
  refine ⟨_, rfl, ?_, ?_⟩ <;> decide +kernel

/-- C24's chunks: a schedule with two entries, the second one from step 10 on. -/
example : let e : List (Int × BaseMix Nat) := [(10, ⟨false, 2, [(2, 2)], true⟩), (0, ⟨false, 2, [(1, 1), (2, 1)], true⟩)]
    ∃ s, Schedule.mk? 2 e = .ok s ∧ IsTop (JobEv.steps [.next, .step 12, .next, .step 5]) 12 ∧
      ((Sess.fresh Ex.ops Ex.index Ex.order false 0 s.view).run Ex.ops 20
        (jobOps s [.next, .step 12, .next, .step 5, .next])).2.map Out.seen =
        [.chunk [(1, [(0, 0, 3)]), (2, [(0, 1, 0)])], .chunk [(2, [(0, 1, 1), (0, 1, 2)])], .chunk [(2, [(0, 1, 3), (0, 1, 4)])]] := by
  refine ⟨_, rfl, ?_, ?_⟩
  · unfold IsTop; decide
  · decide +kernel

/-! ### C80 -/

/-- A schedule that starts without a mixture and uses one from step 10 on. -/
def Ex.late : Schedule Nat := ⟨2, [(0, ⟨false, 2, [], true⟩), (10, ⟨false, 2, [(1, 1), (2, 1)], true⟩)], 0⟩

/-- The job: a chunk, step 10 is reported, another chunk. -/
def Ex.lateJob : LogSess Nat × List (Out Nat) :=
  (LogSess.fresh Ex.ops Ex.index Ex.order false 0 Ex.late.view).run Ex.ops Ex.str 20 (jobOps Ex.late [.next, .step 10, .next])

/-- Finding: C80 fails for a schedule that starts without a mixture. The log holds the schedule itself for chunk 0 and not a
copy, so when step 10 is reported the log says that chunk 0 was made with the mixture of chunk 1; it was not, it has samples of
only one key. -/
theorem c80_schedule_rewrites_log :
    Schedule.mk? 2 [(0, ⟨false, 2, [], true⟩), (10, ⟨false, 2, [(1, 1), (2, 1)], true⟩)] = .ok Ex.late ∧
    Ex.lateJob.2.map Out.seen =
      [.chunk [(11, [(0, 0, 0), (0, 0, 1)])], .chunk [(1, [(0, 0, 3)]), (2, [(0, 1, 0)])]] ∧
    Ex.lateJob.1.mixFile.map LogFile.shown = some ([(0, [("1", 1), ("2", 1)]), (1, [("1", 1), ("2", 1)])], 2) := by
  refine ⟨rfl, ?_, ?_⟩ <;> decide +kernel

/-- The answers after restoring a stored query result. -/
def continued (c : Cached Nat) (later : List (SOp Nat)) : Except Err (List Seen) :=
  match fromCache Ex.ops 20 0 c with
  | .ok r => .ok ((r.run Ex.ops 20 later).2.map Out.seen)
  | .error e => .error e

/-- Finding: for the same reason such a job does not continue after a restore where it stopped (C13): chunk 0 is replayed with
the mixture of chunk 1, and then the sample (0, 0, 0) of chunk 0 is delivered a second time. -/
theorem c13_restore_schedule_repeats :
    (Ex.lateJob.1.sess.run Ex.ops 20 [.next]).2.map Out.seen = [.chunk [(1, [(0, 0, 4)]), (2, [(0, 1, 1)])]] ∧
    continued Ex.lateJob.1.toCache [.next] = .ok [.chunk [(1, [(0, 0, 0)]), (2, [(0, 1, 2)])]] := by
  constructor <;> decide +kernel

end Mixtera
