import Verif.Model.Remote
import Verif.Props.Protocol
import Verif.Lemmas.Dict

/-!
# C57: streaming chunks from a server

What a remote worker gets, compared to the local chunk distributor (C15-C18): the same, if nothing is lost, whatever other
workers and jobs do in between; and with arbitrary losses, what it gets is a prefix of what the distributor handed out to
it, all of it except for at most the last answer.
-/

namespace Mixtera.Net

variable {T O F A σ ι C : Type} [DecidableEq T]

/-! ## Specification -/

/-- What a worker should see of an answer: chunks arrive, everything else ends the stream. -/
def seenAs : Ans C → Got C
  | .chunk c => .chunk c
  | .stop => .ended
  | .raised _ => .ended

/-- The events of one job, as events of its distributor. -/
def opsOf (job : T) : List (REvent T ι) → List (DOp ι)
  | [] => []
  | .ask j r _ :: es => if j = job then .ask r :: opsOf job es else opsOf job es
  | .poke j i :: es => if j = job then .poke i :: opsOf job es else opsOf job es

/-- What the workers of one job see. -/
def seenBy (job : T) (out : List (T × DReq × Got C)) : List (DReq × Got C) :=
  (out.filter fun o => decide (o.1 = job)).map Prod.snd

/-- `Matches seen answers`: `answers` are the distributor's answers to some of the requests, in order; what a worker sees
of an answered request is the distributor's chunk or no chunk at all, and of an unanswered one it is no chunk. -/
inductive Matches : List (DReq × Got C) → List (DReq × Ans C) → Prop
  | nil : Matches [] []
  | answered (r : DReq) (g : Got C) (a : Ans C) {seen answers} (h : ∀ c, g = .chunk c → a = .chunk c)
      (m : Matches seen answers) : Matches ((r, g) :: seen) ((r, a) :: answers)
  | lost (r : DReq) (g : Got C) {seen answers} (h : ∀ c, g ≠ .chunk c) (m : Matches seen answers) :
      Matches ((r, g) :: seen) answers

/-- Requests, job names and chunks that fit their encodings, and dill's faithfulness. -/
structure Setup (c : Codecs T O F A) (k : Codec C) : Prop where
  codecs : c.Faithful
  chunks : k.Faithful
  fits : ∀ x, k.encode x ≠ [] ∧ 2 * (k.encode x).length < 256 ^ sizeBytes

/-- The requests of a history fit. -/
def AllFit (c : Codecs T O F A) (es : List (REvent T ι)) : Prop :=
  ∀ job r l, REvent.ask job r l ∈ es → (Request.nextChunk job r.group r.node r.worker : Request T O F A).Fits c

/-! ## Proofs -/

theorem chunkHandler_incomplete (S : Source σ ι C) (k : Codec C) (v : Received T O F A) (hv : ¬ v.Complete)
    (jobs : Dict T (Dist σ C)) : chunkHandler S k v jobs = (jobs, (none : Option (Reply T O))) := by
  unfold chunkHandler
  split
  · rename_i job g n w
    exact absurd ⟨.nextChunk job g n w, rfl⟩ hv
  · rfl

theorem chunkHandler_ask (S : Source σ ι C) (k : Codec C) (job : T) (r : DReq) (jobs : Dict T (Dist σ C)) :
    chunkHandler (O := O) (F := F) (A := A) S k (Request.nextChunk job r.group r.node r.worker : Request T O F A).received jobs =
      match jobs.get? job with
      | none => (jobs, none)
      | some d => (jobs.set job (d.nextChunkFor S r).1, chunkReply k (d.nextChunkFor S r).2) := by
  unfold chunkHandler Request.received
  simp only
  cases jobs.get? job with
  | none => rfl
  | some d => simp

theorem answers_fit (S : Source σ ι C) {c : Codecs T O F A} {k : Codec C} (hs : Setup c k) (job : T) (g n w : Int)
    (jobs : Dict T (Dist σ C)) (v : Received T O F A) (y : Reply T O) (hy : (chunkHandler S k v jobs).2 = some y) :
    (Request.nextChunk job g n w : Request T O F A).Answers y ∧ y.Fits c := by
  unfold chunkHandler at hy
  split at hy
  · split at hy
    · cases hy
    · split at hy
      · simp only at hy
        unfold chunkReply at hy
        split at hy
        · simp only [Option.some.injEq] at hy; subst hy; exact ⟨trivial, hs.fits _⟩
        · simp only [Option.some.injEq] at hy; subst hy; exact ⟨trivial, trivial⟩
        · cases hy
      · cases hy
  · cases hy

/-- One request over a fine connection. -/
theorem getNext_fine {c : Codecs T O F A} (S : Source σ ι C) {k : Codec C} (hs : Setup c k) (job : T) (r : DReq)
    (hr : (Request.nextChunk job r.group r.node r.worker : Request T O F A).Fits c) (l : Link) (hl : l.Fine)
    (jobs : Dict T (Dist σ C)) :
    getNext c S k job r l jobs =
      match jobs.get? job with
      | none => (jobs, .ended)
      | some d => (jobs.set job (d.nextChunkFor S r).1, seenAs (d.nextChunkFor S r).2) := by
  have hh := chunkHandler_ask (T := T) (O := O) (F := F) (A := A) S k job r jobs
  unfold getNext
  cases hy : (chunkHandler S k (Request.nextChunk job r.group r.node r.worker : Request T O F A).received jobs :
      Dict T (Dist σ C) × Option (Reply T O)).2 with
  | none =>
    rw [c60_handler_raises c hs.codecs (chunkHandler S k) _ hr l hl jobs hy]
    cases hj : jobs.get? job with
    | none => rw [hj] at hh; simp only at hh; rw [hh]; rfl
    | some d =>
      rw [hj] at hh
      simp only at hh
      rw [hh] at hy ⊢
      simp only at hy ⊢
      unfold chunkReply at hy
      split at hy
      · cases hy
      · cases hy
      · rename_i e he
        rw [he]
        rfl
  | some y =>
    obtain ⟨a1, a2⟩ := answers_fit S hs job r.group r.node r.worker jobs _ y hy
    rw [c60_call c hs.codecs (chunkHandler S k) _ hr l hl jobs y hy a1 a2]
    cases hj : jobs.get? job with
    | none => rw [hj] at hh; simp only at hh; rw [hh] at hy; cases hy
    | some d =>
      rw [hj] at hh
      simp only at hh
      rw [hh] at hy ⊢
      simp only at hy ⊢
      unfold chunkReply at hy
      split at hy
      · rename_i x hx
        simp only [Option.some.injEq] at hy
        subst hy
        rw [hx]
        simp [Reply.seen, gotOf, hs.chunks x, seenAs]
      · rename_i hx
        simp only [Option.some.injEq] at hy
        subst hy
        rw [hx]
        rfl
      · cases hy

/-- One request over any connection: it did not reach the distributor and the worker sees no chunk, or it did and the worker
sees the distributor's chunk or none. -/
theorem getNext_any {c : Codecs T O F A} (S : Source σ ι C) {k : Codec C} (hs : Setup c k) (job : T) (r : DReq)
    (hr : (Request.nextChunk job r.group r.node r.worker : Request T O F A).Fits c) (l : Link) (jobs : Dict T (Dist σ C)) :
    ((getNext c S k job r l jobs).1 = jobs ∧ ∀ x, (getNext c S k job r l jobs).2 ≠ .chunk x) ∨
    ∃ d, jobs.get? job = some d ∧ (getNext c S k job r l jobs).1 = jobs.set job (d.nextChunkFor S r).1 ∧
      ∀ x, (getNext c S k job r l jobs).2 = .chunk x → (d.nextChunkFor S r).2 = .chunk x := by
  have hgot : ∀ (e : Except NetErr (Option (Reply T O))) x, gotOf k e = .chunk x →
      ∃ d, e = .ok (some (.bytes (some d))) ∧ k.decode d = .ok x := by
    intro e x h
    unfold gotOf at h
    split at h
    · rename_i d
      split at h
      · rename_i y hy
        simp only [Got.chunk.injEq] at h
        subst h
        exact ⟨d, rfl, hy⟩
      · cases h
    · cases h
    · cases h
  unfold getNext
  simp only
  rcases c60_any_network c hs.codecs (chunkHandler S k) _ hr l jobs
      (fun v y _ hy => answers_fit S hs job r.group r.node r.worker jobs v y hy) with ⟨h1, h2⟩ | ⟨v, hv, h1, h2⟩
  · left
    refine ⟨h1, fun x hx => ?_⟩
    obtain ⟨d, hd, _⟩ := hgot _ x hx
    exact h2 _ hd
  · rcases hv with hv | hv
    · subst hv
      rw [chunkHandler_ask] at h1 h2
      cases hj : jobs.get? job with
      | none =>
        left
        rw [hj] at h1 h2
        simp only at h1 h2
        refine ⟨h1, fun x hx => ?_⟩
        obtain ⟨d, hd, _⟩ := hgot _ x hx
        obtain ⟨y', hy', _⟩ := h2 _ hd
        cases hy'
      | some d =>
        right
        rw [hj] at h1 h2
        simp only at h1 h2
        refine ⟨d, rfl, h1, fun x hx => ?_⟩
        obtain ⟨b, hb, hdec⟩ := hgot _ x hx
        obtain ⟨y', hy', hseen⟩ := h2 _ hb
        unfold chunkReply at hy'
        split at hy'
        · rename_i z hz
          simp only [Option.some.injEq] at hy'
          subst hy'
          simp only [Reply.seen, Option.some.injEq, Reply.bytes.injEq] at hseen
          subst hseen
          rw [hs.chunks z] at hdec
          simp only [Except.ok.injEq] at hdec
          subst hdec
          exact hz
        · simp only [Option.some.injEq] at hy'
          subst hy'
          cases hseen
        · cases hy'
    · left
      rw [chunkHandler_incomplete S k v hv] at h1 h2
      refine ⟨h1, fun x hx => ?_⟩
      obtain ⟨d, hd, _⟩ := hgot _ x hx
      obtain ⟨y', hy', _⟩ := h2 _ hd
      cases hy'

theorem seenBy_cons (job : T) (o : T × DReq × Got C) (out : List (T × DReq × Got C)) :
    seenBy job (o :: out) = if o.1 = job then o.2 :: seenBy job out else seenBy job out := by
  unfold seenBy
  by_cases h : o.1 = job
  · simp [h]
  · simp [h]

/-- **C57** (nothing lost). If the connections lose nothing, the workers of a job see exactly the answers of the job's
distributor run on the job's own events - as if they asked it directly - whatever the fragmentation and whatever happens to
other jobs in between. -/
theorem c57_same_as_local {c : Codecs T O F A} (S : Source σ ι C) {k : Codec C} (hs : Setup c k) (es : List (REvent T ι))
    (hf : AllFit c es) (hl : ∀ job r l, REvent.ask job r l ∈ es → l.Fine) (jobs : Dict T (Dist σ C)) (job : T) (d : Dist σ C)
    (hd : jobs.get? job = some d) :
    (remoteRun c S k jobs es).1.get? job = some (Dist.run S d (opsOf job es)).1 ∧
    seenBy job (remoteRun c S k jobs es).2 = (Dist.run S d (opsOf job es)).2.map fun ra => (ra.1, seenAs ra.2) := by
  induction es generalizing jobs d with
  | nil => exact ⟨hd, rfl⟩
  | cons e es ih =>
    have hf' : AllFit c es := fun j r l h => hf j r l (by simp [h])
    have hl' : ∀ job r l, REvent.ask job r l ∈ es → l.Fine := fun j r l h => hl j r l (by simp [h])
    cases e with
    | poke j i =>
      simp only [remoteRun, remoteStep, opsOf]
      by_cases hj : j = job
      · subst hj
        simp only [hd, if_true]
        exact ih hf' hl' _ _ (by rw [Dict.get?_set]; simp)
      · simp only [if_neg hj]
        cases hjj : jobs.get? j with
        | none => exact ih hf' hl' _ _ hd
        | some d' => exact ih hf' hl' _ _ (by rw [Dict.get?_set, if_neg hj]; exact hd)
    | ask j r l =>
      have hg := getNext_fine S hs j r (hf j r l (by simp)) l (hl j r l (by simp)) jobs
      simp only [remoteRun, remoteStep, opsOf]
      by_cases hj : j = job
      · subst hj
        rw [hd] at hg
        simp only at hg
        simp only [hg, if_true]
        obtain ⟨a, b⟩ := ih hf' hl' (jobs.set j (d.nextChunkFor S r).1) (d.nextChunkFor S r).1 (by rw [Dict.get?_set]; simp)
        refine ⟨a, ?_⟩
        simp only [Option.toList_some, List.singleton_append, seenBy_cons, if_true, b, Dist.run, Dist.op, List.map_cons]
      · simp only [if_neg hj]
        obtain ⟨a, b⟩ := ih hf' hl' (getNext c S k j r l jobs).1 d (by
          rw [hg]
          cases jobs.get? j with
          | none => exact hd
          | some d' => simp only; rw [Dict.get?_set, if_neg hj]; exact hd)
        refine ⟨a, ?_⟩
        simp only [Option.toList_some, List.singleton_append, seenBy_cons, if_neg hj, b]

/-- The operations on the query result among the events of a distributor. -/
def pokesOf : List (DOp ι) → List ι
  | [] => []
  | .ask _ :: os => pokesOf os
  | .poke i :: os => i :: pokesOf os

/-- **C57** (anything lost). Whatever the connections do: the job's distributor answered some of the job's requests, in
order (all other events of the job took place), and the workers see the chunks it handed out for their requests, or no
chunk. No worker ever sees a chunk that the distributor did not hand out for this very request. -/
theorem c57_any_network {c : Codecs T O F A} (S : Source σ ι C) {k : Codec C} (hs : Setup c k) (es : List (REvent T ι))
    (hf : AllFit c es) (jobs : Dict T (Dist σ C)) (job : T) (d : Dist σ C) (hd : jobs.get? job = some d) :
    ∃ ops, ops.Sublist (opsOf job es) ∧ pokesOf ops = pokesOf (opsOf job es) ∧
      (remoteRun c S k jobs es).1.get? job = some (Dist.run S d ops).1 ∧
      Matches (seenBy job (remoteRun c S k jobs es).2) (Dist.run S d ops).2 := by
  induction es generalizing jobs d with
  | nil => exact ⟨[], List.Sublist.refl _, rfl, hd, .nil⟩
  | cons e es ih =>
    have hf' : AllFit c es := fun j r l h => hf j r l (by simp [h])
    cases e with
    | poke j i =>
      simp only [remoteRun, remoteStep, opsOf]
      by_cases hj : j = job
      · subst hj
        simp only [hd, if_true]
        obtain ⟨ops, h1, h2, h3, h4⟩ := ih hf' (jobs.set j { d with src := S.poke i d.src }) { d with src := S.poke i d.src }
          (by rw [Dict.get?_set]; simp)
        exact ⟨.poke i :: ops, h1.cons_cons _, by simp only [pokesOf, h2], h3, h4⟩
      · simp only [if_neg hj]
        cases hjj : jobs.get? j with
        | none => exact ih hf' _ _ hd
        | some d' => exact ih hf' _ _ (by rw [Dict.get?_set, if_neg hj]; exact hd)
    | ask j r l =>
      simp only [remoteRun, remoteStep, opsOf]
      by_cases hj : j = job
      · subst hj
        simp only [if_true, Option.toList_some, List.singleton_append, seenBy_cons]
        rcases getNext_any S hs j r (hf j r l (by simp)) l jobs with ⟨g1, g2⟩ | ⟨d', g0, g1, g2⟩
        · obtain ⟨ops, h1, h2, h3, h4⟩ := ih hf' (getNext c S k j r l jobs).1 d (by rw [g1]; exact hd)
          exact ⟨ops, h1.cons _, h2, h3, .lost r _ g2 h4⟩
        · rw [hd] at g0
          simp only [Option.some.injEq] at g0
          subst g0
          obtain ⟨ops, h1, h2, h3, h4⟩ := ih hf' (getNext c S k j r l jobs).1 (d.nextChunkFor S r).1
            (by rw [g1, Dict.get?_set]; simp)
          exact ⟨.ask r :: ops, h1.cons_cons _, h2, h3, .answered r _ _ g2 h4⟩
      · simp only [if_neg hj, Option.toList_some, List.singleton_append, seenBy_cons]
        refine ih hf' (getNext c S k j r l jobs).1 d ?_
        rcases getNext_any S hs j r (hf j r l (by simp)) l jobs with ⟨g1, _⟩ | ⟨d', _, g1, _⟩
        · rw [g1]; exact hd
        · rw [g1, Dict.get?_set, if_neg hj]; exact hd

/-- What one worker sees, and the distributor's answers to one worker. -/
def ofWorker {β : Type} (r : DReq) (l : List (DReq × β)) : List β := (l.filter fun o => decide (o.1 = r)).map Prod.snd

theorem ofWorker_cons {β : Type} (r : DReq) (o : DReq × β) (l : List (DReq × β)) :
    ofWorker r (o :: l) = if o.1 = r then o.2 :: ofWorker r l else ofWorker r l := by
  unfold ofWorker
  by_cases h : o.1 = r
  · simp [h]
  · simp [h]

theorem Matches.length_le (r : DReq) {seen : List (DReq × Got C)} {answers : List (DReq × Ans C)} (m : Matches seen answers) :
    (ofWorker r answers).length ≤ (ofWorker r seen).length := by
  induction m with
  | nil => simp [ofWorker]
  | answered r' g a hg m ih =>
    rw [ofWorker_cons, ofWorker_cons]
    by_cases hr : r' = r
    · simp only [hr, if_true, List.length_cons]; omega
    · simp only [if_neg hr]; exact ih
  | lost r' g hg m ih =>
    rw [ofWorker_cons]
    by_cases hr : r' = r
    · simp only [hr, if_true, List.length_cons]; omega
    · simp only [if_neg hr]; exact ih

theorem Matches.chunks_first (r : DReq) {seen : List (DReq × Got C)} {answers : List (DReq × Ans C)} (m : Matches seen answers)
    (cs : List C) (last : List (Got C)) (hlast : last.length ≤ 1) (h : ofWorker r seen = cs.map .chunk ++ last) :
    ∃ rest, rest.length ≤ last.length ∧ ofWorker r answers = cs.map .chunk ++ rest := by
  have hnil : cs = [] → ∃ rest, rest.length ≤ last.length ∧ ofWorker r answers = cs.map .chunk ++ rest := by
    rintro rfl
    refine ⟨ofWorker r answers, ?_, rfl⟩
    have := m.length_le r
    rw [h] at this
    simpa using this
  induction m generalizing cs with
  | nil =>
    apply hnil
    cases cs with
    | nil => rfl
    | cons c cs => simp [ofWorker] at h
  | answered r' g a hg m ih =>
    cases cs with
    | nil => exact hnil rfl
    | cons c cs =>
      rw [ofWorker_cons] at h ⊢
      by_cases hr : r' = r
      · simp only [hr, if_true, List.map_cons, List.cons_append, List.cons.injEq] at h ⊢
        obtain ⟨rest, h1, h2⟩ := ih cs h.2 (by
          rintro rfl
          refine ⟨ofWorker r _, ?_, rfl⟩
          have := m.length_le r
          rw [h.2] at this
          simpa using this)
        exact ⟨rest, h1, hg c h.1, h2⟩
      · simp only [if_neg hr] at h ⊢
        exact ih (c :: cs) h (by intro h0; cases h0)
  | lost r' g hg m ih =>
    cases cs with
    | nil => exact hnil rfl
    | cons c cs =>
      rw [ofWorker_cons] at h
      by_cases hr : r' = r
      · simp only [hr, if_true, List.map_cons, List.cons_append, List.cons.injEq] at h
        exact absurd h.1 (hg c)
      · simp only [if_neg hr] at h
        exact ih (c :: cs) h (by intro h0; cases h0)

/-- **C57** (one stream). A worker's stream goes on as long as it gets chunks. Whatever the connections do and whatever other
workers do, the chunks `cs` of a stream are exactly the first answers that the distributor gave to this worker; at most one
more answer was given to it, lost at the end of the stream - and none if the stream has not ended. -/
theorem c57_stream {c : Codecs T O F A} (S : Source σ ι C) {k : Codec C} (hs : Setup c k) (es : List (REvent T ι))
    (hf : AllFit c es) (jobs : Dict T (Dist σ C)) (job : T) (d : Dist σ C) (hd : jobs.get? job = some d) (r : DReq)
    (cs : List C) (last : List (Got C)) (hlast : last.length ≤ 1)
    (hstream : ofWorker r (seenBy job (remoteRun c S k jobs es).2) = cs.map .chunk ++ last) :
    ∃ ops rest, ops.Sublist (opsOf job es) ∧ pokesOf ops = pokesOf (opsOf job es) ∧
      (remoteRun c S k jobs es).1.get? job = some (Dist.run S d ops).1 ∧
      ofWorker r (Dist.run S d ops).2 = cs.map .chunk ++ rest ∧ rest.length ≤ last.length := by
  obtain ⟨ops, h1, h2, h3, h4⟩ := c57_any_network S hs es hf jobs job d hd
  obtain ⟨rest, h5, h6⟩ := h4.chunks_first r cs last hlast hstream
  exact ⟨ops, rest, h1, h2, h3, h6, h5⟩

/-! ## Concrete cases -/

/-- A source of listed chunks. -/
def listed : Source (List Byte) Unit Byte where
  fetch
    | [] => ([], .stop)
    | x :: l => (l, .chunk x)
  poke _ l := l

/-- A chunk as one byte. -/
def oneByte : Codec Byte := ⟨fun x => [x], fun d => .ok (d.headD 0)⟩

theorem oneByte_setup : Setup byteCodecs oneByte :=
  ⟨byteCodecs_faithful, fun _ => rfl, fun x => ⟨by simp [oneByte], by simp [oneByte, sizeBytes]⟩⟩

/-- A connection that loses nothing and delivers three bytes at a time. -/
def fine : Link := ⟨true, none, fun _ => some 3, none, fun _ => some 3⟩

theorem fine_fine : fine.Fine := ⟨rfl, rfl, by simp [fine], rfl, by simp [fine]⟩

/-- The reply is lost. -/
def noReply : Link := { fine with replyLen := some 0 }

/-- One job `[7]` with two workers and five chunks left. -/
def twoWorkers : Dict (List Byte) (Dist (List Byte) Byte) :=
  [([7], ⟨1, 1, 2, [10, 11, 12, 13, 14], fun _ => [], fun _ => [], fun _ _ w => w⟩)]

deriving instance DecidableEq for Got

/-- Two workers take turns over fine connections, until there is nothing left; another client asks for an unknown job. -/
example : (remoteRun byteCodecs listed oneByte twoWorkers
      [.ask [7] ⟨0, 0, 1⟩ fine, .ask [7] ⟨0, 0, 0⟩ fine, .ask [8] ⟨0, 0, 0⟩ fine, .ask [7] ⟨0, 0, 0⟩ fine,
        .ask [7] ⟨0, 0, 1⟩ fine, .ask [7] ⟨0, 0, 1⟩ fine, .ask [7] ⟨0, 0, 0⟩ fine]).2 =
    [([7], ⟨0, 0, 1⟩, .chunk 10), ([7], ⟨0, 0, 0⟩, .chunk 11), ([8], ⟨0, 0, 0⟩, .ended), ([7], ⟨0, 0, 0⟩, .chunk 12),
      ([7], ⟨0, 0, 1⟩, .chunk 13), ([7], ⟨0, 0, 1⟩, .chunk 14), ([7], ⟨0, 0, 0⟩, .ended)] := by decide +kernel

/-- The hypothesis `AllFit` is met. -/
example : AllFit byteCodecs ([.ask [7] ⟨0, 0, 1⟩ fine, .ask [7] ⟨0, 0, 0⟩ noReply] : List (REvent (List Byte) Unit)) := by
  intro job r l h
  simp only [List.mem_cons, REvent.ask.injEq, List.not_mem_nil, or_false] at h
  rcases h with ⟨rfl, rfl, rfl⟩ | ⟨rfl, rfl, rfl⟩ <;> simp [Request.Fits, FitsCoded, FitsInt, byteCodecs, idBytes]

/-- **C57** (finding). A lost reply, an unreachable server and a failing handler all look like the regular end of the data;
and the answer that was lost is not repeated: if the worker asks again, chunk 10 is gone for good. -/
theorem c57_lost_chunk :
    (remoteRun byteCodecs listed oneByte twoWorkers
      [.ask [7] ⟨0, 0, 0⟩ noReply, .ask [7] ⟨0, 0, 0⟩ fine, .ask [7] ⟨0, 0, 0⟩ { fine with reachable := false },
        .ask [7] ⟨0, 0, 9⟩ fine, .ask [7] ⟨0, 0, 0⟩ fine]).2 =
    [([7], ⟨0, 0, 0⟩, .ended), ([7], ⟨0, 0, 0⟩, .chunk 11), ([7], ⟨0, 0, 0⟩, .ended), ([7], ⟨0, 0, 9⟩, .ended),
      ([7], ⟨0, 0, 0⟩, .chunk 12)] := by decide +kernel

end Mixtera.Net
