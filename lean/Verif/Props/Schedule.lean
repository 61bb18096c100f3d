import Verif.Props.Chunks

/-!
# C08: chunk i does not depend on which consumer asks for it

Several processes hold copies of one query result. Each copy has its own generator; only the counter of
chunk indices is shared (/repo/mixtera/core/query/query_result.py:568-596).
-/

set_option linter.unusedSectionVars false

namespace Mixtera

variable {K : Type} [DecidableEq K]

/-- One sequential consumer: it asks for chunk 0, 1, ..., n-1. -/
def seqReqs (heap : Nat → MixView K) (mix fuel n : Nat) : List (Req K) :=
  (List.range n).map fun i => ⟨heap, mix, i, fuel⟩

/-- Processes `procs` (each with its own generator) take indices from a shared counter `i`; `sched` says
which process takes the next index. Answers in order of the indices. -/
def runSchedule (ops : KeyOps K) (replay : Bool) (heap : Nat → MixView K) (mix fuel : Nat) :
    (Nat → Gen K) → Nat → List Nat → List (Out K)
  | _, _, [] => []
  | procs, i, p :: ps =>
    let (g, o) := (procs p).send ops fuel replay heap mix i
    o :: runSchedule ops replay heap mix fuel (fun q => if q = p then g else procs q) (i + 1) ps

/-- The generator of the sequential consumer after `k` requests. -/
def seqSt (ops : KeyOps K) (replay : Bool) (heap : Nat → MixView K) (mix fuel : Nat) (g : Gen K) : Nat → Gen K
  | 0 => g
  | k + 1 => ((seqSt ops replay heap mix fuel g k).send ops fuel replay heap mix k).1

def seqOut (ops : KeyOps K) (replay : Bool) (heap : Nat → MixView K) (mix fuel : Nat) (g : Gen K) (k : Nat) : Out K :=
  ((seqSt ops replay heap mix fuel g k).send ops fuel replay heap mix k).2

theorem play_append (ops : KeyOps K) (replay : Bool) (g : Gen K) (a b : List (Req K)) :
    g.play ops replay (a ++ b) =
      (((g.play ops replay a).1.play ops replay b).1, (g.play ops replay a).2 ++ ((g.play ops replay a).1.play ops replay b).2) := by
  induction a generalizing g with
  | nil => simp [Gen.play]
  | cons r a ih => simp [Gen.play, ih]

theorem play_seqReqs (ops : KeyOps K) (replay : Bool) (heap : Nat → MixView K) (mix fuel : Nat) (g : Gen K) (n : Nat) :
    g.play ops replay (seqReqs heap mix fuel n) =
      (seqSt ops replay heap mix fuel g n, (List.range n).map (seqOut ops replay heap mix fuel g)) := by
  induction n with
  | zero => simp [seqReqs, Gen.play, seqSt]
  | succ n ih =>
    have : seqReqs heap mix fuel (n + 1) = seqReqs heap mix fuel n ++ [⟨heap, mix, n, fuel⟩] := by
      simp [seqReqs, List.range_succ]
    rw [this, play_append, ih]
    simp [Gen.play, seqSt, seqOut, List.range_succ]

def Out.isChunk : Out K → Bool
  | .chunk _ => true
  | _ => false

/-- An iteration that would deliver chunk `cur` skips it when another index is wanted. -/
theorem step_retarget (ops : KeyOps K) (fuel : Nat) (replay : Bool) (heap : Nat → MixView K) (g : Gen K) (t : Nat)
    (hs : g.susp = .ready) (ht : g.cur ≠ t) {g' : Gen K} {c : RChunk K}
    (h : Gen.step ops fuel replay heap { g with target := g.cur } = (g', some (.chunk c))) :
    Gen.step ops fuel replay heap { g with target := t } = ({ g' with target := t }, none) ∧
      g'.cur = g.cur + 1 ∧ g'.susp = .ready := by
  unfold Gen.step at h ⊢
  dsimp only at h ⊢
  split at h
  · simp at h
  · rename_i hns
    rw [if_neg hns]
    split at h
    · rename_i hr
      rw [if_pos hr]
      unfold stepArbitrary at h ⊢
      dsimp only at h ⊢
      by_cases hp : (g.prev.isSome || g.cur == 0) = true
      · rw [if_pos hp] at h ⊢
        dsimp only at h ⊢
        split at h
        · simp at h
        · simp at h
        · rw [if_pos rfl] at h
          rw [if_neg ht]
          split at h
          · simp at h
          · simp only [Prod.mk.injEq] at h
            obtain ⟨rfl, _⟩ := h
            simp [hs]
      · rw [if_neg hp] at h ⊢
        dsimp only at h ⊢
        split at h
        · simp at h
        · simp at h
        · rw [if_pos rfl] at h
          rw [if_neg ht]
          split at h
          · simp at h
          · simp only [Prod.mk.injEq] at h
            obtain ⟨rfl, _⟩ := h
            simp [hs]
    · rename_i hr
      rw [if_neg hr]
      unfold stepMixture at h ⊢
      dsimp only at h ⊢
      cases hpv : g.prev with
      | none =>
        rw [hpv] at h
        dsimp only at h ⊢
        rw [if_pos rfl] at h ⊢
        dsimp only at h ⊢
        split at h
        · simp at h
        · rw [if_pos rfl] at h
          rw [if_neg ht]
          simp only [Prod.mk.injEq] at h
          obtain ⟨rfl, _⟩ := h
          simp [hs]
        · simp at h
      | some p =>
        rw [hpv] at h
        dsimp only at h ⊢
        by_cases hd : (!dictEq p (heap g.base).rows) = true
        · rw [if_pos hd] at h ⊢
          dsimp only at h ⊢
          split at h
          · simp at h
          · rw [if_pos rfl] at h
            rw [if_neg ht]
            simp only [Prod.mk.injEq] at h
            obtain ⟨rfl, _⟩ := h
            simp [hs]
          · simp at h
        · rw [if_neg hd] at h ⊢
          dsimp only at h ⊢
          split at h
          · simp at h
          · rw [if_pos rfl] at h
            rw [if_neg ht]
            simp only [Prod.mk.injEq] at h
            obtain ⟨rfl, _⟩ := h
            simp [hs]
          · simp at h

theorem step_base (ops : KeyOps K) (fuel : Nat) (replay : Bool) (heap : Nat → MixView K) (g : Gen K)
    {g' : Gen K} {o : Option (Out K)} (h : g.step ops fuel replay heap = (g', o)) : g'.base = g.base := by
  have : g' = (g.step ops fuel replay heap).1 := by rw [h]
  rw [this]
  unfold Gen.step
  split
  · rfl
  · dsimp only
    split
    · unfold stepArbitrary
      dsimp only
      repeat' (first | rfl | split)
    · unfold stepMixture
      dsimp only
      repeat' (first | rfl | split)

theorem with_base (h : Gen K) (b t : Nat) (hb : h.base = b) :
    { h with base := b, target := t } = { h with target := t } := by
  subst hb; rfl

section
variable (ops : KeyOps K) (replay : Bool) (heap : Nat → MixView K) (mix fuel : Nat) (g : Gen K)

local notation "St" => seqSt ops replay heap mix fuel g
local notation "Ot" => seqOut ops replay heap mix fuel g

theorem run_now (n : Nat) (h : Gen K) (hc : h.cur = h.target) :
    Gen.run ops fuel replay heap (n + 1) h = Gen.run ops fuel replay heap 1 h := by
  have := step_answers ops fuel replay heap h hc
  rw [Gen.run, Gen.run]
  match hs : h.step ops fuel replay heap with
  | (g', some o) => rfl
  | (g', none) => rw [hs] at this; exact absurd rfl this

theorem send_ready (h : Gen K) (hs : h.susp = .ready) (t : Nat) :
    h.send ops fuel replay heap mix t = Gen.run ops fuel replay heap fuel { h with base := mix, target := t } := by
  unfold Gen.send
  rw [hs]

theorem seq_chunk (hf : 0 < fuel) (k : Nat) (hs : (St k).susp = .ready) (hc : (St k).cur = k)
    (hch : (Ot k).isChunk = true) : ∃ c, Ot k = .chunk c ∧
      Gen.step ops fuel replay heap { St k with base := mix, target := k } = (St (k + 1), some (.chunk c)) := by
  obtain ⟨f, hfu⟩ : ∃ f, fuel = f + 1 := ⟨fuel - 1, by omega⟩
  have e : (St k).send ops fuel replay heap mix k =
      Gen.run ops fuel replay heap (f + 1) { St k with base := mix, target := k } := by
    rw [send_ready _ _ _ _ _ _ hs, ← hfu]
  rw [run_now ops replay heap fuel f _ (show (St k).cur = k from hc), Gen.run] at e
  have hans := step_answers ops fuel replay heap { St k with base := mix, target := k } hc
  match hst : Gen.step ops fuel replay heap { St k with base := mix, target := k } with
  | (g', none) => rw [hst] at hans; exact absurd rfl hans
  | (g', some o) =>
    rw [hst] at e
    dsimp only at e
    have e1 : St (k + 1) = g' := by rw [seqSt, e]
    have e2 : Ot k = o := by rw [seqOut, e]
    rw [e2] at hch
    match o, hch with
    | .chunk c, _ => exact ⟨c, e2, by rw [e1]⟩

theorem seq_facts (hf : 0 < fuel) (hg : g.susp = .ready) (h0 : g.cur = 0) (k : Nat)
    (hc : ∀ j < k, (Ot j).isChunk = true) : (St k).susp = .ready ∧ (St k).cur = k := by
  induction k with
  | zero => exact ⟨hg, h0⟩
  | succ k ih =>
    obtain ⟨h1, h2⟩ := ih fun j hj => hc j (by omega)
    obtain ⟨c, _, hst⟩ := seq_chunk ops replay heap mix fuel g hf k h1 h2 (hc k (by omega))
    have := step_retarget ops fuel replay heap { St k with base := mix, target := k } (k + 1) h1
      (by show (St k).cur ≠ k + 1; omega) (g' := St (k + 1)) (c := c) (by
        show Gen.step ops fuel replay heap { St k with base := mix, target := (St k).cur } = _
        rw [h2]; exact hst)
    exact ⟨this.2.2, by rw [this.2.1]; show (St k).cur + 1 = k + 1; rw [h2]⟩

/-- Asking for a later chunk first passes through the states of the sequential consumer. -/
theorem run_catch_up (hf : 0 < fuel) (hg : g.susp = .ready) (h0 : g.cur = 0) (t : Nat)
    (hc : ∀ j < t, (Ot j).isChunk = true) (d k n : Nat) (hk : k + d = t) :
    Gen.run ops fuel replay heap (n + d) { St k with base := mix, target := t } =
      Gen.run ops fuel replay heap n { St t with base := mix, target := t } := by
  induction d generalizing k with
  | zero => simp at hk; subst hk; rfl
  | succ d ih =>
    have hkt : k < t := by omega
    obtain ⟨h1, h2⟩ := seq_facts ops replay heap mix fuel g hf hg h0 k fun j hj => hc j (by omega)
    obtain ⟨c, _, hst⟩ := seq_chunk ops replay heap mix fuel g hf k h1 h2 (hc k hkt)
    obtain ⟨hr, _, _⟩ := step_retarget ops fuel replay heap { St k with base := mix, target := k } t h1
      (by show (St k).cur ≠ t; omega) (g' := St (k + 1)) (c := c) (by
        show Gen.step ops fuel replay heap { St k with base := mix, target := (St k).cur } = _
        rw [h2]; exact hst)
    rw [← Nat.add_assoc, Gen.run, hr]
    dsimp only
    have hb : { St (k + 1) with base := mix, target := t } = { St (k + 1) with target := t } := by
      have : (St (k + 1)).base = mix := by
        have e : (St (k + 1)).base = ({ St k with base := mix, target := k } : Gen K).base := by
          exact step_base ops fuel replay heap _ hst
        exact e
      exact with_base _ _ _ this
    rw [← hb]
    exact ih (k + 1) (by omega)

theorem schedule_seq (hg : g.susp = .ready) (h0 : g.cur = 0) (sched : List Nat) (i : Nat) (procs : Nat → Gen K)
    (hn : i + sched.length ≤ fuel)
    (hc : ∀ j, j + 1 < i + sched.length → (Ot j).isChunk = true)
    (hp : ∀ p, ∃ k ≤ i, ∃ b t, procs p = { St k with base := b, target := t }) :
    runSchedule ops replay heap mix fuel procs i sched = (List.range' i sched.length).map Ot := by
  induction sched generalizing i procs with
  | nil => rfl
  | cons p ps ih =>
    simp only [List.length_cons] at hn hc
    have hf : 0 < fuel := by omega
    rw [runSchedule, List.length_cons, List.range'_succ, List.map_cons]
    obtain ⟨k, hki, b, t, hpk⟩ := hp p
    have hcj : ∀ j < i, (Ot j).isChunk = true := fun j hj => hc j (by omega)
    obtain ⟨hs, _⟩ := seq_facts ops replay heap mix fuel g hf hg h0 k fun j hj => hcj j (by omega)
    have e : (procs p).send ops fuel replay heap mix i = (St i).send ops fuel replay heap mix i := by
      rw [hpk, send_ready ops replay heap mix fuel { St k with base := b, target := t } hs, send_ready _ _ _ _ _ _
        (seq_facts ops replay heap mix fuel g hf hg h0 i hcj).1]
      have h2 := (seq_facts ops replay heap mix fuel g hf hg h0 i hcj).2
      obtain ⟨n, hn1⟩ : ∃ n, fuel = (n + 1) + (i - k) := ⟨fuel - (i - k) - 1, by omega⟩
      have hcu := run_catch_up ops replay heap mix fuel g hf hg h0 i hcj (i - k) k (n + 1) (by omega)
      rw [← hn1] at hcu
      show Gen.run ops fuel replay heap fuel { St k with base := mix, target := i } = _
      rw [hcu, run_now ops replay heap fuel n _ (show (St i).cur = i from h2)]
      obtain ⟨m, hm⟩ : ∃ m, fuel = m + 1 := ⟨fuel - 1, by omega⟩
      have e2 := run_now ops replay heap fuel m { St i with base := mix, target := i } (show (St i).cur = i from h2)
      rw [← hm] at e2
      exact e2.symm
    have e' : (St i).send ops fuel replay heap mix i = (St (i + 1), Ot i) := rfl
    rw [e, e']
    dsimp only
    congr 1
    cases ps with
    | nil => rfl
    | cons q qs =>
      apply ih
      · simp only [List.length_cons] at hn ⊢; omega
      · intro j hj; apply hc; simp only [List.length_cons] at hj ⊢; omega
      · intro q
        by_cases hq : q = p
        · exact ⟨i + 1, Nat.le_refl _, (St (i + 1)).base, (St (i + 1)).target, by simp [hq, seqSt]⟩
        · obtain ⟨k', hk', b', t', h'⟩ := hp q
          exact ⟨k', by omega, b', t', by simp [hq, h']⟩

end

/-- C08. Any number of processes that share the counter, in any order: answer number `i` is the answer the
sequential consumer gets for chunk `i`, for all indices up to and including the first that is not a chunk.
Hence together the processes see every chunk exactly once, whoever asks. -/
theorem c08_schedule_independent (ops : KeyOps K) (replay : Bool) (index : Dict K Entries) (order : List K)
    (heap : Nat → MixView K) (mix fuel : Nat) (sched : List Nat) (hf : sched.length ≤ fuel)
    (hc : ∀ o ∈ ((Gen.init index order).play ops replay (seqReqs heap mix fuel (sched.length - 1))).2,
      o.isChunk = true) :
    runSchedule ops replay heap mix fuel (fun _ => Gen.init index order) 0 sched =
      ((Gen.init index order).play ops replay (seqReqs heap mix fuel sched.length)).2 := by
  rw [play_seqReqs] at hc ⊢
  rw [schedule_seq ops replay heap mix fuel (Gen.init index order) rfl rfl sched 0
    (fun _ => Gen.init index order) (by omega) _
    (fun p => ⟨0, Nat.le_refl _, 0, 0, rfl⟩), List.range_eq_range']
  intro j hj
  exact hc _ (List.mem_map_of_mem (List.mem_range.mpr (by omega)))

example : (∀ o ∈ ((Gen.init Ex.index Ex.order).play Ex.ops false (seqReqs (fun _ => Ex.bestMix) 0 20 2)).2,
      o.isChunk = true) ∧
    (runSchedule Ex.ops false (fun _ => Ex.bestMix) 0 20 (fun _ => Gen.init Ex.index Ex.order) 0 [4, 4, 7]).map Ex.see =
      ((Gen.init Ex.index Ex.order).play Ex.ops false (seqReqs (fun _ => Ex.bestMix) 0 20 3)).2.map Ex.see := by
  decide +kernel

end Mixtera
