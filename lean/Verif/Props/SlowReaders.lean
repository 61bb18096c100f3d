import Verif.Props.Readers

set_option linter.unusedSectionVars false

/-! # C41, continued: slow readers, and how the reader processes are shared out -/

namespace Mixtera

variable {P α : Type} [DecidableEq P] [DecidableEq α]

/-- Everything of process `p` is accounted for: it has been yielded, or it is in the queue, or yet to come. -/
def Mt.Open (S : P → List α) (eos : α) (s : MtState P α) (p : P) : Prop :=
  samplesOf p s.out ++ (s.buf p ++ s.todo p) = S p ++ [eos]

/-- The invariant if nobody crashes and the consumer looks at a process right after the timeout. -/
structure Mt.NoLoss (procs : List P) (S : P → List α) (eos : α) (s : MtState P α) : Prop where
  actNodup : s.active.Nodup
  posNodup : s.pos.Nodup
  pos : ∀ p ∈ s.pos, p ∈ s.active ∧ p ∉ s.removed
  actSub : ∀ p ∈ s.active, p ∈ procs
  each : ∀ p ∈ procs, (Mt.Open S eos s p ∧ p ∈ s.active ∧ p ∉ s.removed) ∨
    (samplesOf p s.out = S p ∧ (p ∈ s.removed ∨ p ∉ s.active))
  mark : ∀ q ∈ s.out, q.2 ≠ eos
  timed : s.timedOut = true → ∃ p ps, s.pos = p :: ps ∧ s.buf p = []

theorem Mt.Open.congr {S : P → List α} {eos : α} {s t : MtState P α} {p : P} (h : Mt.Open S eos s p)
    (e1 : samplesOf p t.out = samplesOf p s.out) (e2 : t.buf p ++ t.todo p = s.buf p ++ s.todo p) : Mt.Open S eos t p := by
  unfold Mt.Open at h ⊢; rw [e1, e2, h]

/-- One step; the step after a timeout is the check. -/
theorem Mt.NoLoss.step {procs : List P} {S : P → List α} {eos : α} (heos : ∀ p ∈ procs, eos ∉ S p) {s : MtState P α}
    (h : Mt.NoLoss procs S eos s) (a : MtAct P) (hc : ∀ p, a ≠ .crash p) (ht : s.timedOut = true → a = .check) :
    Mt.NoLoss procs S eos (mtStep eos s a) := by
  cases a with
  | produce p =>
    have hto : s.timedOut ≠ true := fun e => by simpa using ht e
    simp only [mtStep]
    unfold mtProduce
    cases htd : s.todo p with
    | nil => exact h
    | cons x xs =>
      have hrem : ∀ q, setAt s.buf p (s.buf p ++ [x]) q ++ setAt s.todo p xs q = s.buf q ++ s.todo q := by
        intro q
        unfold setAt
        by_cases e : q = p
        · subst e; simp [htd]
        · simp [e]
      refine ⟨h.actNodup, h.posNodup, h.pos, h.actSub, fun q hq => ?_, h.mark, fun e => absurd e hto⟩
      rcases h.each q hq with ⟨h1, h2⟩ | h1
      · exact .inl ⟨h1.congr rfl (hrem q), h2⟩
      · exact .inr h1
  | consume =>
    have hto : s.timedOut ≠ true := fun e => by simpa using ht e
    simp only [mtStep]
    unfold mtConsume
    split
    · exact h
    cases hp : s.pos with
    | nil =>
      have hm : ∀ p, p ∈ s.active.filter (· ∉ s.removed) ↔ p ∈ s.active ∧ p ∉ s.removed := by
        intro p; rw [List.mem_filter]; simp
      refine ⟨h.actNodup.filter _, h.actNodup.filter _, fun p hp => ⟨hp, by simp⟩,
        fun p hp => h.actSub p ((hm p).mp hp).1, fun q hq => ?_, h.mark, fun e => absurd e hto⟩
      rcases h.each q hq with ⟨h1, h2⟩ | ⟨h1, h2⟩
      · exact .inl ⟨h1.congr rfl rfl, (hm q).mpr h2, by simp⟩
      · refine .inr ⟨h1, .inr fun hq' => ?_⟩
        have := (hm q).mp hq'
        rcases h2 with h2 | h2
        · exact this.2 h2
        · exact h2 this.1
    | cons p ps =>
      have hpn := h.posNodup
      rw [hp, List.nodup_cons] at hpn
      obtain ⟨hpa, hpr⟩ := h.pos p (by rw [hp]; simp)
      have hop : Mt.Open S eos s p := by
        rcases h.each p (h.actSub p hpa) with ⟨h1, _⟩ | ⟨_, h2 | h2⟩
        · exact h1
        · exact absurd h2 hpr
        · exact absurd hpa h2
      have hps : ∀ q ∈ ps, q ∈ s.active ∧ q ∉ s.removed := fun q hq => h.pos q (by rw [hp]; simp [hq])
      have hne : ∀ q ∈ ps, q ≠ p := fun q hq e => hpn.1 (e ▸ hq)
      dsimp only
      cases hb : s.buf p with
      | nil => exact h
      | cons x xs =>
        unfold Mt.Open at hop
        rw [hb] at hop
        dsimp only
        by_cases hx : x = eos
        · rw [if_pos hx]
          have hS : samplesOf p s.out = S p := by
            have hmem : eos ∉ S p := heos p (h.actSub p hpa)
            rcases List.eq_nil_or_concat (xs ++ s.todo p) with h0 | ⟨l, b, h0⟩
            · have : samplesOf p s.out ++ [x] = S p ++ [eos] := by
                rw [← hop]; simp only [List.cons_append, h0]
              exact (List.append_inj' this rfl).1
            · have : (samplesOf p s.out ++ x :: l) ++ [b] = S p ++ [eos] := by
                rw [← hop]; simp only [List.cons_append, h0, List.append_assoc, List.concat_eq_append]
              have := (List.append_inj' this rfl).1
              exact absurd (this ▸ (by simp [hx] : eos ∈ samplesOf p s.out ++ x :: l)) hmem
          refine ⟨h.actNodup, hpn.2, fun q hq => ⟨(hps q hq).1, ?_⟩, h.actSub, fun q hq => ?_, h.mark, fun e => absurd e hto⟩
          · simp only [List.mem_append, List.mem_singleton, not_or]
            exact ⟨(hps q hq).2, hne q hq⟩
          · by_cases e : q = p
            · subst e; exact .inr ⟨hS, .inl (by simp)⟩
            · rcases h.each q hq with ⟨h1, h2, h3⟩ | ⟨h1, h2⟩
              · exact .inl ⟨h1.congr rfl (by simp [setAt, e]), h2, by simp [h3, e]⟩
              · exact .inr ⟨h1, h2.imp (fun h2 => by simp [h2]) id⟩
        · rw [if_neg hx]
          refine ⟨h.actNodup, hpn.2, hps, h.actSub, fun q hq => ?_, fun q hq => ?_, fun e => absurd e hto⟩
          by_cases e : q = p
          · subst e
            refine .inl ⟨?_, hpa, hpr⟩
            unfold Mt.Open
            simp only [samplesOf_snoc, if_true, setAt]
            rw [← hop]; simp
          · have e' : ¬ p = q := fun h => e h.symm
            have h4 : samplesOf q (s.out ++ [(p, x)]) = samplesOf q s.out := by rw [samplesOf_snoc, if_neg e']
            rcases h.each q hq with ⟨h1, h2⟩ | ⟨h1, h2⟩
            · exact .inl ⟨h1.congr h4 (by simp [setAt, e]), h2⟩
            · exact .inr ⟨h4.trans h1, h2⟩
          · rcases List.mem_append.mp hq with hq | hq
            · exact h.mark q hq
            · rw [List.mem_singleton] at hq; subst hq; exact hx
  | expire =>
    simp only [mtStep]
    unfold mtExpire
    split
    · exact h
    · rename_i p ps hp
      split
      · rename_i hb
        refine ⟨h.actNodup, h.posNodup, h.pos, h.actSub, fun q hq => ?_, h.mark, fun _ => ⟨p, ps, hp, hb⟩⟩
        rcases h.each q hq with ⟨h1, h2⟩ | h1
        · exact .inl ⟨h1.congr rfl rfl, h2⟩
        · exact .inr h1
      · exact h
  | check =>
    simp only [mtStep]
    unfold mtCheck
    split
    · rename_i hto
      obtain ⟨p, ps, hp, hb⟩ := h.timed hto
      obtain ⟨hpa, hpr⟩ := h.pos p (by rw [hp]; simp)
      have hop : Mt.Open S eos s p := by
        rcases h.each p (h.actSub p hpa) with ⟨h1, _⟩ | ⟨_, h2 | h2⟩
        · exact h1
        · exact absurd h2 hpr
        · exact absurd hpa h2
      rw [hp]
      dsimp only
      split
      · rename_i htd
        -- the process is not finished: its end marker has not been seen
        refine ⟨h.actNodup, ?_, fun q hq => ?_, h.actSub, fun q hq => ?_, h.mark, fun e => by simp at e⟩
        · have := h.posNodup; rw [hp] at this; exact (List.nodup_cons.mp this).2
        · obtain ⟨h1, h2⟩ := h.pos q (by rw [hp]; simp [show q ∈ ps from hq])
          refine ⟨h1, ?_⟩
          simp only [List.mem_append, List.mem_singleton, not_or]
          refine ⟨h2, fun e => ?_⟩
          have := h.posNodup; rw [hp] at this
          exact (List.nodup_cons.mp this).1 (e ▸ hq)
        · unfold Mt.Open at hop
          rw [hb, htd] at hop
          simp only [List.append_nil] at hop
          exfalso
          have hin : eos ∈ samplesOf p s.out := by rw [hop]; simp
          simp only [samplesOf, List.mem_map, List.mem_filter] at hin
          obtain ⟨y, ⟨hy, _⟩, e⟩ := hin
          exact h.mark y hy e
      · refine ⟨h.actNodup, hp ▸ h.posNodup, hp ▸ h.pos, h.actSub, fun q hq => ?_, h.mark, fun e => by simp at e⟩
        rcases h.each q hq with ⟨h1, h2⟩ | h1
        · exact .inl ⟨h1.congr rfl rfl, h2⟩
        · exact .inr h1
    · exact h
  | crash p => exact absurd rfl (hc p)

/-- **C41, slow readers**: a reader that is too slow never makes samples disappear silently. For every schedule in which
no reader dies, timeouts included, if the iteration ends (and does not fail), then it has yielded every sample of every
process, in the process's order. Partial: the process is looked at right after the timeout, before it can do anything
else; `c41_timeout_race` shows that samples are lost otherwise. -/
theorem c41_slow_reader_partial (procs : List P) (S : P → List α) (eos : α) (hnd : procs.Nodup)
    (heos : ∀ p ∈ procs, eos ∉ S p) (σ : Nat → MtAct P) (hc : ∀ t p, σ t ≠ .crash p)
    (hat : ∀ t, σ t = .expire → σ (t + 1) = .check) (t : Nat)
    (hf : (mtRun eos (mtInit procs fun p => S p ++ [eos]) σ t).finished) :
    ∀ p ∈ procs, samplesOf p (mtRun eos (mtInit procs fun p => S p ++ [eos]) σ t).out = S p := by
  have key : ∀ t, Mt.NoLoss procs S eos (mtRun eos (mtInit procs fun p => S p ++ [eos]) σ t) ∧
      ((mtRun eos (mtInit procs fun p => S p ++ [eos]) σ t).timedOut = true → σ t = .check) := by
    intro t
    induction t with
    | zero =>
      refine ⟨⟨hnd, hnd, fun p hp => ⟨hp, by simp [mtRun, mtInit]⟩, fun p hp => hp, fun p hp => .inl ⟨?_, hp, by simp [mtRun, mtInit]⟩,
        by simp [mtRun, mtInit], by simp [mtRun, mtInit]⟩, by simp [mtRun, mtInit]⟩
      simp [Mt.Open, mtRun, mtInit, samplesOf]
    | succ t ih =>
      refine ⟨ih.1.step heos (σ t) (hc t) ih.2, fun e => ?_⟩
      rw [mtRun] at e
      cases ha : σ t with
      | expire => exact hat t ha
      | crash p => exact absurd ha (hc t p)
      | produce p =>
        rw [ha] at e
        exfalso
        have h0 : (mtRun eos (mtInit procs fun p => S p ++ [eos]) σ t).timedOut ≠ true := fun e => by simpa [ha] using ih.2 e
        simp only [mtStep, mtProduce] at e
        split at e <;> exact h0 e
      | consume =>
        rw [ha] at e
        exfalso
        have h0 : (mtRun eos (mtInit procs fun p => S p ++ [eos]) σ t).timedOut ≠ true := fun e => by simpa [ha] using ih.2 e
        simp only [mtStep, mtConsume] at e
        repeat' split at e
        all_goals exact h0 e
      | check =>
        rw [ha] at e
        exfalso
        simp only [mtStep, mtCheck] at e
        split at e
        · rename_i hto
          obtain ⟨p, ps, hp, _⟩ := ih.1.timed hto
          rw [hp] at e
          dsimp only at e
          split at e <;> simp at e
        · rename_i hto; exact hto e
  intro p hp
  rcases (key t).1.each p hp with ⟨_, h, _⟩ | ⟨h, _⟩
  · rw [hf.1] at h; simp at h
  · exact h

/-- The hypotheses are met by a schedule with a timeout: the consumer waits for the slow second process and fails, or
does not wait and finishes. -/
def exSlow (wait : Bool) (t : Nat) : MtAct Nat :=
  (([.produce 0, .produce 0, .produce 1, .consume, .consume, .consume, .consume] ++
    (if wait then [.expire, .check] else [.produce 1]) ++ [.consume, .consume, .consume, .consume] : List (MtAct Nat))[t]?).getD .consume

example : (mtRun 9 (mtInit [0, 1] fun p => (if p = 0 then [5] else [6]) ++ [9]) (exSlow false) 12).finished ∧
    (mtRun 9 (mtInit [0, 1] fun p => (if p = 0 then [5] else [6]) ++ [9]) (exSlow false) 12).out = [(0, 5), (1, 6)] := by
  refine ⟨⟨?_, ?_⟩, ?_⟩ <;> rfl
-- here the second process has put its sample but not its end marker
example : (mtRun 9 (mtInit [0, 1] fun p => (if p = 0 then [5] else [6]) ++ [9]) (exSlow true) 13).error = true ∧
    (mtRun 9 (mtInit [0, 1] fun p => (if p = 0 then [5] else [6]) ++ [9]) (exSlow true) 13).active ≠ [] := by
  refine ⟨by rfl, by decide +kernel⟩
example : (∀ t p, exSlow true t ≠ .crash p) ∧ ∀ t, exSlow true t = .expire → exSlow true (t + 1) = .check := by
  have h : ∀ t, 13 ≤ t → exSlow true t = .consume := by
    intro t ht
    unfold exSlow
    rw [List.getElem?_eq_none (by simpa using ht)]; rfl
  refine ⟨fun t p => ?_, fun t e => ?_⟩
  · by_cases ht : 13 ≤ t
    · rw [h t ht]; simp
    · have : t = 0 ∨ t = 1 ∨ t = 2 ∨ t = 3 ∨ t = 4 ∨ t = 5 ∨ t = 6 ∨ t = 7 ∨ t = 8 ∨ t = 9 ∨ t = 10 ∨ t = 11 ∨ t = 12 := by omega
      rcases this with rfl | rfl | rfl | rfl | rfl | rfl | rfl | rfl | rfl | rfl | rfl | rfl | rfl <;> simp [exSlow]
  · by_cases ht : 13 ≤ t
    · rw [h t ht] at e; simp at e
    · have : t = 0 ∨ t = 1 ∨ t = 2 ∨ t = 3 ∨ t = 4 ∨ t = 5 ∨ t = 6 ∨ t = 7 ∨ t = 8 ∨ t = 9 ∨ t = 10 ∨ t = 11 ∨ t = 12 := by omega
      rcases this with rfl | rfl | rfl | rfl | rfl | rfl | rfl | rfl | rfl | rfl | rfl | rfl | rfl <;> simp [exSlow] at e ⊢

/-! ## How many processes each key gets -/

variable {K : Type}

/-- **C41, process counts**: if there is a key, the processes shared out are exactly the configured number of readers;
every key keeps its place and gets its share rounded down, only the first key may get more; and for a mixture that fills
at most a chunk, no key gets more than all readers, or a negative number. -/
theorem c41_process_counts (readers chunk : Nat) (mixture : List (K × Nat)) (hne : mixture ≠ []) :
    ((processCounts readers chunk mixture).map Prod.snd).sum = (readers : Int) ∧
    (processCounts readers chunk mixture).map Prod.fst = mixture.map Prod.fst ∧
    (∀ (i : Nat) kv c, mixture[i + 1]? = some kv → (processCounts readers chunk mixture)[i + 1]? = some c →
      c.2 = ((kv.2 * readers / chunk : Nat) : Int)) ∧
    ((mixture.map Prod.snd).sum ≤ chunk → ∀ (i : Nat) kv c, mixture[i]? = some kv →
      (processCounts readers chunk mixture)[i]? = some c → ((kv.2 * readers / chunk : Nat) : Int) ≤ c.2 ∧ c.2 ≤ readers) := by
  obtain ⟨⟨k, v⟩, l, rfl⟩ := List.exists_cons_of_ne_nil hne
  have hp : processCounts readers chunk ((k, v) :: l) =
      (k, ((v * readers / chunk : Nat) : Int) + ((readers : Int) - (((v * readers / chunk : Nat) : Int) +
        ((l.map fun kv => ((kv.2 * readers / chunk : Nat) : Int))).sum))) ::
      l.map fun kv => (kv.1, ((kv.2 * readers / chunk : Nat) : Int)) := by
    simp [processCounts, Function.comp_def]
  have hsum : ∀ l : List (K × Nat), (l.map fun kv => ((kv.2 * readers / chunk : Nat) : Int)).sum =
      ((l.map fun kv => kv.2 * readers / chunk).sum : Nat) := by
    intro l
    induction l with
    | nil => rfl
    | cons a l ih => simp only [List.map_cons, List.sum_cons, ih, Nat.cast_add]
  have hle : ∀ l : List (K × Nat), (l.map fun kv => kv.2 * readers / chunk).sum ≤
      (l.map Prod.snd).sum * readers / chunk := by
    intro l
    induction l with
    | nil => simp
    | cons a l ih =>
      simp only [List.map_cons, List.sum_cons, Nat.add_mul]
      exact (Nat.add_le_add_left ih _).trans Nat.div_add_div_le_add_div
  have hmem : ∀ l : List (K × Nat), ∀ kv ∈ l, kv.2 * readers / chunk ≤ (l.map fun kv => kv.2 * readers / chunk).sum := by
    intro l kv h
    induction l with
    | nil => simp at h
    | cons a l ih =>
      simp only [List.map_cons, List.sum_cons]
      rcases List.mem_cons.mp h with rfl | h
      · exact Nat.le_add_right _ _
      · exact (ih h).trans (Nat.le_add_left _ _)
  refine ⟨?_, ?_, ?_, ?_⟩
  · rw [hp]; simp only [List.map_cons, List.sum_cons, List.map_map, Function.comp_def]; omega
  · rw [hp]; simp [Function.comp_def]
  · intro i kv c h1 h2
    rw [hp] at h2
    simp only [List.getElem?_cons_succ, List.getElem?_map] at h1 h2
    rw [h1] at h2
    simp only [Option.map_some, Option.some.injEq] at h2
    subst h2; rfl
  · intro hs i kv c h1 h2
    have htot : (((k, v) :: l).map fun kv => kv.2 * readers / chunk).sum ≤ readers := by
      refine (hle _).trans ?_
      rcases Nat.eq_zero_or_pos chunk with hc | hc
      · subst hc; simp
      · calc (((k, v) :: l).map Prod.snd).sum * readers / chunk ≤ chunk * readers / chunk :=
            Nat.div_le_div_right (Nat.mul_le_mul_right _ hs)
          _ = readers := Nat.mul_div_cancel_left _ hc
    simp only [List.map_cons, List.sum_cons] at htot
    rw [hp] at h2
    cases i with
    | zero =>
      simp only [List.getElem?_cons_zero, Option.some.injEq] at h1 h2
      subst h1; subst h2
      rw [hsum]
      dsimp only
      constructor <;> omega
    | succ i =>
      simp only [List.getElem?_cons_succ, List.getElem?_map] at h1 h2
      rw [h1] at h2
      simp only [Option.map_some, Option.some.injEq] at h2
      subst h2
      have := hmem l kv (List.mem_of_getElem? h1)
      refine ⟨le_refl _, ?_⟩
      dsimp only
      have h3 : kv.2 * readers / chunk ≤ readers := by
        generalize v * readers / chunk = a at htot
        omega
      exact_mod_cast h3

example : processCounts 5 10 [('a', 3), ('b', 5), ('c', 2)] = [('a', 2), ('b', 2), ('c', 1)] := by decide +kernel

end Mixtera
