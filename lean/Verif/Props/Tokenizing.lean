import Verif.Model.Tokenizing
import Verif.Lemmas.Fair
import Mathlib.Data.List.Basic

/-!
# C42, C43, C44: tokenizing and prefetching
-/

set_option linter.unusedSectionVars false

namespace Mixtera

variable {α : Type}

/-! ## Specification -/

/-- All consecutive windows of `seqLen + 1` tokens of a token stream: window `k` begins at token `k * step`. -/
def tokenWindows (seqLen step : Nat) (T : List Nat) : List (List Nat) :=
  (List.range (T.length + 1)).filterMap fun k =>
    if k * step + (seqLen + 1) ≤ T.length then some ((T.drop (k * step)).take (seqLen + 1)) else none

/-- A token stream that is too short for a window, repeated until it is long enough. -/
def cycled (len : Nat) (T : List Nat) : List Nat := (List.range len).map fun i => (T[i % T.length]?).getD 0

/-- What the iterator should yield: the windows of the tokens of all texts; if there are no windows, but there are
tokens, and at least one sample is wanted, the tokens repeated. -/
def expectedSamples (c : TokCfg α) (texts : List α) : List (List Nat) :=
  let T := texts.flatMap fun x => c.bos.toList ++ c.encode x ++ c.eos.toList
  if T.length < c.seqLen + 1 ∧ T ≠ [] ∧ c.atLeastOne = true then [cycled (c.seqLen + 1) T]
  else tokenWindows c.seqLen (if c.overlap then c.seqLen else c.seqLen + 1) T

/-! ## Counting windows -/

/-- The number of windows. -/
def windowCount (seqLen step n : Nat) : Nat := if n < seqLen + 1 then 0 else (n - (seqLen + 1)) / step + 1

theorem lt_windowCount {seqLen step n k : Nat} (hs : 1 ≤ step) :
    k < windowCount seqLen step n ↔ k * step + (seqLen + 1) ≤ n := by
  unfold windowCount
  split
  · constructor
    · intro h; omega
    · intro h; omega
  · rename_i h
    rw [Nat.lt_add_one_iff, Nat.le_div_iff_mul_le (by omega)]
    omega

theorem filterMap_range_lt {β : Type} (f : Nat → β) (N : Nat) : ∀ m, N ≤ m →
    ((List.range m).filterMap fun k => if k < N then some (f k) else none) = (List.range N).map f := by
  intro m hm
  obtain ⟨d, rfl⟩ := Nat.exists_eq_add_of_le hm
  rw [List.range_add, List.filterMap_append]
  have h1 : ((List.range N).filterMap fun k => if k < N then some (f k) else none) = (List.range N).map f := by
    rw [← List.filterMap_eq_map]
    apply List.filterMap_congr
    intro k hk
    rw [if_pos (List.mem_range.mp hk)]; rfl
  have h2 : (((List.range d).map fun x => N + x).filterMap fun k => if k < N then some (f k) else none) = [] := by
    rw [List.filterMap_eq_nil_iff]
    intro k hk
    obtain ⟨x, -, rfl⟩ := List.mem_map.mp hk
    rw [if_neg (by omega)]
  rw [h1, h2, List.append_nil]

theorem tokenWindows_eq {seqLen step : Nat} (hs : 1 ≤ step) (T : List Nat) :
    tokenWindows seqLen step T = (List.range (windowCount seqLen step T.length)).map
      fun k => (T.drop (k * step)).take (seqLen + 1) := by
  unfold tokenWindows
  simp only [← lt_windowCount (seqLen := seqLen) (n := T.length) hs]
  apply filterMap_range_lt
  unfold windowCount
  split
  · omega
  · have := Nat.div_le_self (T.length - (seqLen + 1)) step
    omega

/-! ## Padding -/

theorem getElem?_flatten_replicate (T : List Nat) (hT : T ≠ []) : ∀ (r i : Nat), i < r * T.length →
    ((List.replicate r T).flatten)[i]? = T[i % T.length]?
  | 0, i, h => by omega
  | r + 1, i, h => by
    have hpos := List.length_pos_iff.mpr hT
    rw [List.replicate_succ, List.flatten_cons]
    by_cases hi : i < T.length
    · rw [List.getElem?_append_left hi, Nat.mod_eq_of_lt hi]
    · rw [List.getElem?_append_right (by omega), getElem?_flatten_replicate T hT r (i - T.length) (by
        rw [Nat.succ_mul] at h; omega)]
      rw [← Nat.mod_eq_sub_mod (by omega)]

theorem padTokens_eq {len : Nat} {T : List Nat} (hT : T ≠ []) (hlt : T.length < len) :
    padTokens len T = cycled len T := by
  have hpos := List.length_pos_iff.mpr hT
  unfold padTokens cycled
  simp only
  have hdm := Nat.div_add_mod (len - T.length + T.length - 1) T.length
  have hmod := Nat.mod_lt (len - T.length + T.length - 1) hpos
  have henough : len ≤ (1 + (len - T.length + T.length - 1) / T.length) * T.length := by
    rw [Nat.add_mul, Nat.mul_comm ((len - T.length + T.length - 1) / T.length)]
    omega
  apply List.ext_getElem?
  intro i
  rw [List.getElem?_take]
  by_cases hi : i < len
  · rw [if_pos hi, getElem?_flatten_replicate T hT _ _ (by omega)]
    rw [List.getElem?_map, List.getElem?_range hi]
    have : i % T.length < T.length := Nat.mod_lt _ hpos
    simp [List.getElem?_eq_getElem this]
  · rw [if_neg hi]
    symm
    apply List.getElem?_eq_none
    simp; omega

/-! ## C42 -/

namespace Tok

/-- Window `k` of the token stream. -/
def win (c : TokCfg α) (T : List Nat) (k : Nat) : List Nat := (T.drop (k * c.step)).take (c.seqLen + 1)

/-- The number of windows. -/
def cnt (c : TokCfg α) (T : List Nat) : Nat := windowCount c.seqLen c.step T.length

/-- The iterator after `k` windows. -/
structure Inv (c : TokCfg α) (T : List Nat) (k : Nat) (s : TokState α) : Prop where
  stream : s.buffer ++ s.rest.flatMap c.tokens = T
  atEnd : s.atEnd = true → s.rest = []
  idx : s.idx = k * c.step
  yielded : s.yielded = k

variable {c : TokCfg α} {T : List Nat} {k : Nat} {s : TokState α}

theorem Inv.fetch (h : Inv c T k s) : Inv c T k (s.fetch c) := by
  refine ⟨?_, ?_, h.idx, h.yielded⟩
  · show s.buffer ++ (s.rest.take c.batch).flatMap c.tokens ++ (s.rest.drop c.batch).flatMap c.tokens = T
    rw [List.append_assoc, ← List.flatMap_append, List.take_append_drop]
    exact h.stream
  · intro he
    show s.rest.drop c.batch = []
    have : s.atEnd = true ∨ s.rest.length < c.batch := by simpa [TokState.fetch] using he
    rcases this with he | he
    · rw [h.atEnd he]; simp
    · exact List.drop_eq_nil_of_le (by omega)

theorem win_buffer (h : Inv c T k s) (hl : c.seqLen + 1 ≤ s.buffer.length - s.idx) :
    (s.buffer.drop s.idx).take (c.seqLen + 1) = win c T k ∧ k * c.step + (c.seqLen + 1) ≤ T.length := by
  have hlen : s.buffer.length ≤ T.length := by rw [← h.stream]; simp
  rw [h.idx] at hl ⊢
  constructor
  · unfold win
    rw [← h.stream, List.drop_append_of_le_length (by omega), List.take_append_of_le_length (by simp; omega)]
  · omega

/-- `__next__` after `k` windows. -/
theorem next_eq (hb : 1 ≤ c.batch) (hs : 1 ≤ c.step) : ∀ (fuel : Nat) (s : TokState α), Inv c T k s →
    s.rest.length + (if s.atEnd then 0 else 1) < fuel →
    (k < cnt c T ∧ ∃ s', tokNext c fuel s = some (some (win c T k), s') ∧ Inv c T (k + 1) s' ∧
      s'.rest.length ≤ s.rest.length) ∨
    (cnt c T ≤ k ∧ k = 0 ∧ T ≠ [] ∧ c.atLeastOne = true ∧ ∃ s', tokNext c fuel s
        = some (some (cycled (c.seqLen + 1) T), s') ∧ s'.atEnd = true ∧ s'.yielded = 1 ∧
          s'.buffer.length - s'.idx < c.seqLen + 1) ∨
    (cnt c T ≤ k ∧ ¬ (k = 0 ∧ T ≠ [] ∧ c.atLeastOne = true) ∧ ∃ s', tokNext c fuel s = some (none, s'))
  | 0, s, _, hf => by omega
  | fuel + 1, s, h, hf => by
    by_cases hl : c.seqLen + 1 ≤ s.buffer.length - s.idx
    · left
      obtain ⟨h1, h2⟩ := win_buffer h hl
      refine ⟨(lt_windowCount hs).mpr h2, { s with idx := s.idx + c.step, yielded := s.yielded + 1 }, ?_, ?_, le_rfl⟩
      · rw [tokNext, if_pos hl, h1]
      · refine ⟨h.stream, h.atEnd, ?_, ?_⟩
        · show s.idx + c.step = _
          rw [h.idx, Nat.succ_mul]
        · show s.yielded + 1 = _
          rw [h.yielded]
    · cases he : s.atEnd with
      | false =>
        have hstep : tokNext c (fuel + 1) s = tokNext c fuel (s.fetch c) := by
          rw [tokNext, if_neg hl, if_pos he]
        rw [hstep]
        have hlen : (s.fetch c).rest.length = s.rest.length - c.batch := by simp [TokState.fetch]
        have := next_eq hb hs fuel (s.fetch c) h.fetch (by
          rw [he] at hf
          simp only [Bool.false_eq_true, if_false] at hf
          rw [hlen]
          by_cases hlt : s.rest.length < c.batch
          · have : (s.fetch c).atEnd = true := by simp [TokState.fetch, hlt]
            rw [this]; simp; omega
          · split <;> omega)
        rcases this with ⟨h1, s', h2, h3, h4⟩ | h1 | h1
        · exact Or.inl ⟨h1, s', h2, h3, by omega⟩
        · exact Or.inr (Or.inl h1)
        · exact Or.inr (Or.inr h1)
      | true =>
        have hbuf : s.buffer = T := by
          have := h.stream
          rw [h.atEnd he] at this
          simpa using this
        have hcnt : cnt c T ≤ k := by
          by_contra hcon
          have := (lt_windowCount hs).mp (Nat.lt_of_not_le hcon)
          rw [hbuf, h.idx] at hl
          omega
        right
        by_cases hpad : s.yielded = 0 ∧ 0 < s.buffer.length - s.idx ∧ c.atLeastOne = true
        · left
          have hk : k = 0 := h.yielded.symm.trans hpad.1
          have hidx : s.idx = 0 := by rw [h.idx, hk]; simp
          have hT : T ≠ [] := by
            intro h0
            have := hpad.2.1
            rw [hbuf, h0] at this
            simp at this
          refine ⟨hcnt, hk, hT, hpad.2.2, { s with yielded := s.yielded + 1 }, ?_, he, ?_, ?_⟩
          · rw [tokNext, if_neg hl, if_neg (by rw [he]; simp), if_pos hpad, hidx, List.drop_zero, hbuf,
              padTokens_eq hT (by rw [hbuf, hidx] at hl; omega)]
          · show s.yielded + 1 = 1; rw [hpad.1]
          · show s.buffer.length - s.idx < _; omega
        · right
          refine ⟨hcnt, ?_, s, ?_⟩
          · rintro ⟨hk, hT, ha⟩
            apply hpad
            refine ⟨by rw [h.yielded, hk], ?_, ha⟩
            rw [hbuf, h.idx, hk]
            have := List.length_pos_iff.mpr hT
            omega
          · rw [tokNext, if_neg hl, if_neg (by rw [he]; simp), if_neg hpad]

theorem all_eq (hb : 1 ≤ c.batch) (hs : 1 ≤ c.step) (inner : Nat) : ∀ (fuel k : Nat) (s : TokState α), Inv c T k s →
    s.rest.length + 1 < inner → k ≤ cnt c T → cnt c T - k + 1 < fuel →
    tokAll c inner fuel s = some (if cnt c T = 0 ∧ T ≠ [] ∧ c.atLeastOne = true then [cycled (c.seqLen + 1) T]
      else (List.range' k (cnt c T - k)).map (win c T))
  | 0, k, s, _, _, _, hf => by omega
  | fuel + 1, k, s, h, hi, hk, hf => by
    rcases next_eq hb hs inner s h (by split <;> omega) with ⟨h1, s', h2, h3, h4⟩ | ⟨h1, h2, h3, h4, s', h5, h6, h7, h8⟩ |
      ⟨h1, h2, s', h3⟩
    · have ih := all_eq hb hs inner fuel (k + 1) s' h3 (by omega) (by omega) (by omega)
      rw [tokAll, h2]
      simp only
      have hc0 : ¬ (cnt c T = 0 ∧ T ≠ [] ∧ c.atLeastOne = true) := by rintro ⟨h, -⟩; omega
      rw [ih, if_neg hc0, if_neg hc0, Option.map_some]
      congr 1
      obtain ⟨d, hd⟩ : ∃ d, cnt c T - k = d + 1 := ⟨cnt c T - k - 1, by omega⟩
      have hd' : cnt c T - (k + 1) = d := by omega
      rw [hd, hd', List.range'_succ, List.map_cons]
    · rw [tokAll, h5]
      simp only
      have hc0 : cnt c T = 0 := by omega
      rw [if_pos ⟨hc0, h3, h4⟩]
      cases fuel with
      | zero => omega
      | succ fuel =>
        have hn : tokNext c inner s' = some (none, s') := by
          cases inner with
          | zero => omega
          | succ inner =>
            rw [tokNext, if_neg (by omega), if_neg (by rw [h6]; simp), if_neg (by rw [h7]; simp)]
        rw [tokAll, hn]
        rfl
    · rw [tokAll, h3]
      simp only
      have hkc : k = cnt c T := by omega
      have hc0 : ¬ (cnt c T = 0 ∧ T ≠ [] ∧ c.atLeastOne = true) := by
        rintro ⟨h, h'⟩; exact h2 ⟨by omega, h'⟩
      rw [if_neg hc0]
      simp [hkc]

end Tok

theorem expected_eq (c : TokCfg α) (hs : 1 ≤ c.step) (texts : List α) :
    expectedSamples c texts = if Tok.cnt c (texts.flatMap c.tokens) = 0 ∧ texts.flatMap c.tokens ≠ [] ∧
        c.atLeastOne = true then [cycled (c.seqLen + 1) (texts.flatMap c.tokens)]
      else (List.range (Tok.cnt c (texts.flatMap c.tokens))).map (Tok.win c (texts.flatMap c.tokens)) := by
  have hT : (texts.flatMap fun x => c.bos.toList ++ c.encode x ++ c.eos.toList) = texts.flatMap c.tokens := rfl
  unfold expectedSamples
  rw [hT]
  simp only
  have hst : (if c.overlap then c.seqLen else c.seqLen + 1) = c.step := rfl
  rw [hst, tokenWindows_eq hs]
  have hcnt : Tok.cnt c (texts.flatMap c.tokens) = 0 ↔ (texts.flatMap c.tokens).length < c.seqLen + 1 := by
    have := lt_windowCount (seqLen := c.seqLen) (n := (texts.flatMap c.tokens).length) (k := 0) hs
    simp only [Tok.cnt]
    omega
  simp only [hcnt]
  rfl

/-- **C42**: the tokenizing iterator ends, and yields exactly the consecutive windows of `seqLen + 1` tokens of the token
stream (overlapping in one token or not), or the one padded sample; the batch size makes no difference.

The step must not be zero: a sequence length of 0 with overlap makes the iterator yield for ever. -/
theorem c42_windows (c : TokCfg α) (hb : 1 ≤ c.batch) (hs : 1 ≤ c.seqLen ∨ c.overlap = false) (texts : List α) :
    ∃ n, ∀ fuel inner, n ≤ fuel → n ≤ inner →
      tokAll c inner fuel (.init texts) = some (expectedSamples c texts) := by
  have hstep : 1 ≤ c.step := by
    unfold TokCfg.step
    split
    · rcases hs with h | h
      · exact h
      · simp_all
    · omega
  refine ⟨texts.length + Tok.cnt c (texts.flatMap c.tokens) + 3, fun fuel inner hf hi => ?_⟩
  have h0 : Tok.Inv c (texts.flatMap c.tokens) 0 (TokState.init texts) :=
    ⟨rfl, by simp [TokState.init], by simp [TokState.init], rfl⟩
  rw [Tok.all_eq hb hstep inner fuel 0 _ h0 (by simp [TokState.init]; omega) (Nat.zero_le _) (by omega),
    expected_eq c hstep]
  simp [List.range_eq_range']

/-- **C42**: without overlap the windows partition the token stream: put together they are the stream, up to fewer than
`seqLen + 1` tokens at its end. -/
theorem c42_covers (seqLen : Nat) (T : List Nat) :
    (tokenWindows seqLen (seqLen + 1) T).flatten = T.take (windowCount seqLen (seqLen + 1) T.length * (seqLen + 1)) ∧
      T.length < windowCount seqLen (seqLen + 1) T.length * (seqLen + 1) + (seqLen + 1) := by
  constructor
  · rw [tokenWindows_eq (by omega)]
    generalize windowCount seqLen (seqLen + 1) T.length = n
    induction n with
    | zero => simp
    | succ n ih =>
      rw [List.range_succ, List.map_append, List.flatten_append, ih, Nat.succ_mul, List.take_add]
      simp
  · have := mt (lt_windowCount (seqLen := seqLen) (n := T.length)
      (k := windowCount seqLen (seqLen + 1) T.length) (step := seqLen + 1) (by omega)).mpr (Nat.lt_irrefl _)
    omega

/-- Windows of three tokens; two texts with an end token (9), one text at a time. -/
example : tokAll ⟨fun x => x, 2, 1, false, false, none, some 9⟩ 9 9 (.init [[1, 2, 3, 4], [5, 6]])
    = some [[1, 2, 3], [4, 9, 5]] := by decide +kernel

example : tokAll ⟨fun x => x, 2, 3, false, true, none, some 9⟩ 9 9 (.init [[1, 2, 3, 4], [5, 6]])
    = some [[1, 2, 3], [3, 4, 9], [9, 5, 6]] := by decide +kernel

example : tokAll ⟨fun x => x, 4, 3, true, true, none, none⟩ 9 9 (.init [[1], [2]])
    = some [[1, 2, 1, 2, 1]] := by decide +kernel

/-! ## C43 -/

namespace Thr

/-- What holds at every time of a run whose wrapped iterator does not raise. -/
structure Inv (c : TokCfg α) (T : List Nat) (s : ThrState α) : Prop where
  stream : s.buffer ++ s.rest.flatMap c.tokens = T
  atEnd : s.atEnd = true → s.rest = []
  alive : s.dead = false
  waiting : s.waiting = true → s.atEnd = false
  progress : (s.out = (List.range s.yielded).map (Tok.win c T) ∧ s.idx = s.yielded * c.step ∧ s.yielded ≤ Tok.cnt c T) ∨
    (Tok.cnt c T = 0 ∧ T ≠ [] ∧ c.atLeastOne = true ∧ s.out = [cycled (c.seqLen + 1) T] ∧ s.idx = 0 ∧ s.yielded = 1 ∧
      s.atEnd = true)
  done : s.done = true → s.out = if Tok.cnt c T = 0 ∧ T ≠ [] ∧ c.atLeastOne = true then [cycled (c.seqLen + 1) T]
      else (List.range (Tok.cnt c T)).map (Tok.win c T)

/-- What is left to do. -/
def measure (c : TokCfg α) (T : List Nat) (s : ThrState α) : Nat :=
  3 * (s.rest.length + if s.atEnd then 0 else 1) + 2 * (Tok.cnt c T + 1 - s.out.length) + (if s.done then 0 else 1)
    + if s.waiting then 0 else 1

variable {c : TokCfg α} {T : List Nat} {s : ThrState α}

theorem Inv.worker (hb : 1 ≤ c.batch) (h : Inv c T s) :
    Inv c T (thrWorker c false s) ∧ (thrWorker c false s = s ∨ measure c T (thrWorker c false s) < measure c T s) := by
  unfold thrWorker
  by_cases he : s.atEnd = true ∨ s.dead = true
  · rw [if_pos he]; exact ⟨h, Or.inl rfl⟩
  rw [if_neg he, if_neg (by simp)]
  have hend : s.atEnd = false := by
    cases h' : s.atEnd with
    | false => rfl
    | true => exact absurd (Or.inl h') he
  have hprog : ∀ s' : ThrState α, s'.out = s.out → s'.idx = s.idx → s'.yielded = s.yielded →
      (s'.out = (List.range s'.yielded).map (Tok.win c T) ∧ s'.idx = s'.yielded * c.step ∧ s'.yielded ≤ Tok.cnt c T) ∨
      (Tok.cnt c T = 0 ∧ T ≠ [] ∧ c.atLeastOne = true ∧ s'.out = [cycled (c.seqLen + 1) T] ∧ s'.idx = 0 ∧
        s'.yielded = 1 ∧ s'.atEnd = true) := by
    intro s' e1 e2 e3
    rcases h.progress with hp | hp
    · left; rw [e1, e2, e3]; exact hp
    · have := hp.2.2.2.2.2.2; rw [hend] at this; cases this
  by_cases hn : (s.rest.take c.batch).isEmpty = true
  · rw [if_pos hn]
    have hrest : s.rest = [] := by
      have h1 : s.rest.take c.batch = [] := by simpa using hn
      rw [List.take_eq_nil_iff] at h1
      rcases h1 with h1 | h1
      · omega
      · exact h1
    refine ⟨⟨h.stream, fun _ => hrest, h.alive, by simp, hprog _ rfl rfl rfl, h.done⟩, Or.inr ?_⟩
    unfold measure
    rw [hend]
    simp only [if_true, Bool.false_eq_true, if_false]
    split <;> split <;> omega
  · rw [if_neg hn]
    have hpos : 0 < s.rest.length := by
      rcases hr : s.rest with _ | ⟨x, l⟩
      · rw [hr] at hn; simp at hn
      · simp
    refine ⟨⟨?_, ?_, h.alive, by simp, hprog _ rfl rfl rfl, h.done⟩, Or.inr ?_⟩
    · show s.buffer ++ (s.rest.take c.batch).flatMap c.tokens ++ (s.rest.drop c.batch).flatMap c.tokens = T
      rw [List.append_assoc, ← List.flatMap_append, List.take_append_drop]
      exact h.stream
    · intro h'
      show s.rest.drop c.batch = []
      have : s.rest.length < c.batch := by simpa using h'
      exact List.drop_eq_nil_of_le (by omega)
    · unfold measure
      rw [hend]
      simp only [Bool.false_eq_true, if_false, List.length_drop, decide_eq_true_eq]
      split <;> split <;> split <;> omega

theorem Inv.consumer (hs : 1 ≤ c.step) (h : Inv c T s) :
    Inv c T (thrConsumer c s) ∧ (thrConsumer c s = s ∨ measure c T (thrConsumer c s) < measure c T s) := by
  unfold thrConsumer
  by_cases hw : s.waiting = true ∨ s.done = true
  · rw [if_pos hw]; exact ⟨h, Or.inl rfl⟩
  rw [if_neg hw]
  have hwait : s.waiting = false := by
    cases h' : s.waiting with
    | false => rfl
    | true => exact absurd (Or.inl h') hw
  have hdone : s.done = false := by
    cases h' : s.done with
    | false => rfl
    | true => exact absurd (Or.inr h') hw
  have hlenT : s.buffer.length ≤ T.length := by rw [← h.stream]; simp
  by_cases hl : c.seqLen + 1 ≤ s.buffer.length - s.idx
  · rw [if_pos hl]
    rcases h.progress with ⟨h1, h2, h3⟩ | ⟨h1, -, -, -, h2, -, -⟩
    · have hlt : s.yielded < Tok.cnt c T := (lt_windowCount hs).mpr (by rw [h2] at hl; omega)
      have hwin : (s.buffer.drop s.idx).take (c.seqLen + 1) = Tok.win c T s.yielded := by
        rw [h2] at hl ⊢
        unfold Tok.win
        rw [← h.stream, List.drop_append_of_le_length (by omega), List.take_append_of_le_length (by simp; omega)]
      refine ⟨⟨h.stream, h.atEnd, h.alive, h.waiting, Or.inl ⟨?_, ?_, by simp only; omega⟩, ?_⟩, Or.inr ?_⟩
      · simp only [h1, hwin, List.range_succ, List.map_append]; rfl
      · simp only [h2, Nat.succ_mul]
      · simp [hdone]
      · unfold measure
        have : s.out.length = s.yielded := by rw [h1]; simp
        simp only [List.length_append, List.length_singleton, this]
        omega
    · exfalso
      have := (lt_windowCount (seqLen := c.seqLen) (step := c.step) (n := T.length) (k := 0) hs).mpr (by omega)
      unfold Tok.cnt at h1
      omega
  · rw [if_neg hl]
    by_cases he : s.atEnd = true
    · rw [if_pos he]
      have hbuf : s.buffer = T := by
        have := h.stream
        rw [h.atEnd he] at this
        simpa using this
      by_cases hpad : s.yielded = 0 ∧ 0 < s.buffer.length - s.idx ∧ c.atLeastOne = true
      · rw [if_pos hpad]
        rcases h.progress with ⟨h1, h2, h3⟩ | ⟨-, -, -, -, -, h2, -⟩
        · have hidx : s.idx = 0 := by rw [h2, hpad.1]; simp
          have hT : T ≠ [] := by
            intro h0
            have := hpad.2.1
            rw [hbuf, h0] at this
            simp at this
          have hc0 : Tok.cnt c T = 0 := by
            by_contra hne
            have := (lt_windowCount (seqLen := c.seqLen) (step := c.step) (n := T.length) (k := 0) hs).mp
              (Nat.pos_of_ne_zero hne)
            rw [hbuf, hidx] at hl
            omega
          have hout : s.out = [] := by rw [h1, hpad.1]; rfl
          refine ⟨⟨h.stream, h.atEnd, h.alive, h.waiting, Or.inr ⟨hc0, hT, hpad.2.2, ?_, hidx, ?_, he⟩, ?_⟩, Or.inr ?_⟩
          · simp only [hout, List.nil_append]
            rw [hidx, List.drop_zero, hbuf, padTokens_eq hT (by rw [hbuf, hidx] at hl; omega)]
          · simp only [hpad.1]
          · simp [hdone]
          · unfold measure
            simp only [List.length_append, List.length_singleton, hout, List.length_nil]
            omega
        · omega
      · rw [if_neg hpad]
        refine ⟨⟨h.stream, h.atEnd, h.alive, h.waiting, h.progress, ?_⟩, Or.inr ?_⟩
        · intro _
          rcases h.progress with ⟨h1, h2, h3⟩ | ⟨h1, h2, h3, h4, -⟩
          · have hge : Tok.cnt c T ≤ s.yielded := by
              by_contra hcon
              have := (lt_windowCount hs).mp (Nat.lt_of_not_le hcon)
              rw [hbuf, h2] at hl
              omega
            have heq : s.yielded = Tok.cnt c T := by omega
            rw [if_neg]
            · simp only [h1, heq]
            · rintro ⟨h0, hT, ha⟩
              apply hpad
              refine ⟨by omega, ?_, ha⟩
              have h0' : s.yielded = 0 := by omega
              rw [hbuf, h2, h0']
              have := List.length_pos_iff.mpr hT
              omega
          · rw [if_pos ⟨h1, h2, h3⟩]; exact h4
        · unfold measure
          rw [hdone]
          simp only [if_true, Bool.false_eq_true, if_false]
          omega
    · rw [if_neg he]
      refine ⟨⟨h.stream, h.atEnd, h.alive, fun _ => by simpa using he, h.progress, ?_⟩, Or.inr ?_⟩
      · simp [hdone]
      · unfold measure
        rw [hwait]
        simp only [if_true, Bool.false_eq_true, if_false]
        omega

theorem Inv.step (hb : 1 ≤ c.batch) (hs : 1 ≤ c.step) (h : Inv c T s) (a : ThrAct) :
    Inv c T (thrStep c false s a) ∧ (thrStep c false s a = s ∨ measure c T (thrStep c false s a) < measure c T s) := by
  cases a with
  | worker => exact h.worker hb
  | consumer => exact h.consumer hs

theorem Inv.init (c : TokCfg α) (texts : List α) : Inv c (texts.flatMap c.tokens) (ThrState.init texts) :=
  ⟨rfl, by simp [ThrState.init], rfl, by simp [ThrState.init],
    Or.inl ⟨rfl, by simp [ThrState.init], Nat.zero_le _⟩, by simp [ThrState.init]⟩

/-- Until the consumer has finished, it or the worker can do something. -/
theorem Inv.live (h : Inv c T s) (hd : s.done = false) :
    thrStep c false s .worker ≠ s ∨ thrStep c false s .consumer ≠ s := by
  by_cases hw : s.waiting = true
  · left
    have he := h.waiting hw
    intro heq
    have hcond : ¬ (s.atEnd = true ∨ s.dead = true) := by rw [he, h.alive]; simp
    simp only [thrStep, thrWorker, if_neg hcond] at heq
    rw [if_neg (by simp)] at heq
    split at heq
    · have := congrArg ThrState.waiting heq
      rw [hw] at this; simp at this
    · have := congrArg ThrState.waiting heq
      rw [hw] at this; simp at this
  · right
    intro heq
    have hcond : ¬ (s.waiting = true ∨ s.done = true) := by rw [hd]; simpa using hw
    simp only [thrStep, thrConsumer, if_neg hcond] at heq
    split at heq
    · have := congrArg ThrState.yielded heq
      simp at this
    · split at heq
      · split at heq
        · have := congrArg ThrState.yielded heq
          simp at this
        · have := congrArg ThrState.done heq
          rw [hd] at this; simp at this
      · have := congrArg ThrState.waiting heq
        simp only at this
        exact hw this.symm

end Thr

/-- **C43**: whatever the schedule of the worker thread and the consumer, what the threaded iterator has yielded at any
time is a beginning of what the sequential one yields; and when it ends it has yielded all of that.

Partial (like `c43_terminates_partial`): the wrapped iterator does not raise an exception, see `c43_exception_hangs`. -/
theorem c43_same_samples_partial (c : TokCfg α) (hb : 1 ≤ c.batch) (hs : 1 ≤ c.seqLen ∨ c.overlap = false)
    (texts : List α) (σ : Nat → ThrAct) (t : Nat) :
    ∃ n samples, (∀ fuel inner, n ≤ fuel → n ≤ inner → tokAll c inner fuel (.init texts) = some samples) ∧
      (thrRun c false (.init texts) σ t).out <+: samples ∧
      ((thrRun c false (.init texts) σ t).done = true → (thrRun c false (.init texts) σ t).out = samples) := by
  have hstep : 1 ≤ c.step := by
    unfold TokCfg.step
    split
    · rcases hs with h | h
      · exact h
      · simp_all
    · omega
  obtain ⟨n, hn⟩ := c42_windows c hb hs texts
  refine ⟨n, expectedSamples c texts, hn, ?_⟩
  have hI : Thr.Inv c (texts.flatMap c.tokens) (thrRun c false (.init texts) σ t) := by
    induction t with
    | zero => exact Thr.Inv.init c texts
    | succ t ih => exact (ih.step hb hstep _).1
  rw [expected_eq c hstep]
  refine ⟨?_, hI.done⟩
  rcases hI.progress with ⟨h1, h2, h3⟩ | ⟨h1, h2, h3, h4, -⟩
  · rw [h1]
    split
    · rename_i h0
      have : (thrRun c false (.init texts) σ t).yielded = 0 := by omega
      rw [this]
      exact List.nil_prefix
    · obtain ⟨d, hd⟩ := Nat.exists_eq_add_of_le h3
      rw [hd, List.range_add, List.map_append]
      exact List.prefix_append _ _
  · rw [if_pos ⟨h1, h2, h3⟩, h4]
    exact List.prefix_refl _

/-- **C43**: if both threads get their turn again and again, the consumer ends (in particular no wakeup is lost). -/
theorem c43_terminates_partial (c : TokCfg α) (hb : 1 ≤ c.batch) (hs : 1 ≤ c.seqLen ∨ c.overlap = false)
    (texts : List α) (σ : Nat → ThrAct) (hσ : ∀ a t, ∃ t', t ≤ t' ∧ σ t' = a) :
    ∃ t, (thrRun c false (.init texts) σ t).done = true := by
  have hstep : 1 ≤ c.step := by
    unfold TokCfg.step
    split
    · rcases hs with h | h
      · exact h
      · simp_all
    · omega
  refine fair_terminates (thrStep c false) (Thr.Inv c (texts.flatMap c.tokens)) (Thr.measure c _)
    (fun s => s.done = true) σ (thrRun c false (.init texts) σ) (fun t => rfl)
    (fun s a h => (h.step hb hstep a).1) (fun s a h => (h.step hb hstep a).2) ?_ (Thr.Inv.init c texts)
  intro s h hd
  rcases h.live (by simpa using hd) with h1 | h1
  · exact ⟨_, h1, hσ _⟩
  · exact ⟨_, h1, hσ _⟩

/-- The full statement of C43 is false of the code when the wrapped iterator raises an exception (the sequential iterator
passes it on): if the tokens of the complete batches are not enough for a sample, then whatever the schedule the
threaded iterator yields nothing and never ends, because the worker thread dies without waking the consumer. -/
theorem c43_exception_hangs (c : TokCfg α) (texts : List α) (hshort : texts.length < c.batch) (σ : Nat → ThrAct)
    (t : Nat) : (thrRun c true (.init texts) σ t).done = false ∧ (thrRun c true (.init texts) σ t).out = [] := by
  have h : (thrRun c true (.init texts) σ t).buffer = [] ∧ (thrRun c true (.init texts) σ t).rest = texts ∧
      (thrRun c true (.init texts) σ t).atEnd = false ∧ (thrRun c true (.init texts) σ t).done = false ∧
      (thrRun c true (.init texts) σ t).out = [] := by
    induction t with
    | zero => exact ⟨rfl, rfl, rfl, rfl, rfl⟩
    | succ t ih =>
      obtain ⟨h1, h2, h3, h4, h5⟩ := ih
      rw [thrRun]
      cases σ t with
      | worker =>
        simp only [thrStep, thrWorker]
        split
        · exact ⟨h1, h2, h3, h4, h5⟩
        · rw [if_pos ⟨by simp, by rw [h2]; exact hshort⟩]
          exact ⟨h1, h2, h3, h4, h5⟩
      | consumer =>
        simp only [thrStep, thrConsumer]
        split
        · exact ⟨h1, h2, h3, h4, h5⟩
        · rw [if_neg (by rw [h1]; simp), if_neg (by rw [h3]; simp)]
          exact ⟨h1, h2, h3, h4, h5⟩
  exact ⟨h.2.2.2.1, h.2.2.2.2⟩

example : (thrRun ⟨fun x => x, 2, 1, false, false, none, some 9⟩ false (.init [[1, 2, 3, 4], [5, 6]])
    (fun t => if t % 2 = 0 then .consumer else .worker) 20).out = [[1, 2, 3], [4, 9, 5]] := by decide +kernel

/-! ## C44 -/

theorem preCalls_consumed (src : List (Pull α)) (f : Option α) : ∀ n,
    preCalls n ⟨src, true, f⟩ = srcCalls n src
  | 0 => rfl
  | n + 1 => by
    rw [preCalls, srcCalls]
    have h : preNext (⟨src, true, f⟩ : PreState α) = ((pull src).1, ⟨(pull src).2, true, f⟩) := by
      simp [preNext]
    rw [h, preCalls_consumed (pull src).2 f n]

/-- Two sequences of outcomes that a `for` loop cannot tell apart: they agree until one has ended. -/
def untilStop : List (Pull α) → List (Pull α)
  | [] => []
  | .stop :: _ => [.stop]
  | .fail :: _ => [.fail]
  | x :: l => x :: untilStop l

/-- **C44**: if the wrapped iterator's first call does not yield `None` and does not raise an exception, every call of
`next` on the prefetching iterator has the same outcome as the same call on the wrapped iterator.

Partial: see `c44_none`, `c44_exception`. -/
theorem c44_same_partial (src : List (Pull α)) (h1 : (pull src).1 ≠ .item none) (h2 : (pull src).1 ≠ .fail) (n : Nat) :
    preCalls n (preInit src) = srcCalls n src := by
  cases n with
  | zero => rfl
  | succ n =>
    rw [preCalls, srcCalls]
    cases src with
    | nil => exact congrArg _ (preCalls_consumed [] none n)
    | cons x r =>
      cases x with
      | item x =>
        cases x with
        | none => exact absurd rfl h1
        | some x => exact congrArg _ (preCalls_consumed r (some x) n)
      | stop => exact congrArg _ (preCalls_consumed r none n)
      | fail => exact absurd rfl h2

/-- An iterator whose first item is `None` looks empty. -/
theorem c44_none (src : List (Pull α)) (n : Nat) :
    untilStop (preCalls (n + 1) (preInit (.item none :: src))) = [.stop] := by
  simp [preCalls, preInit, pull, preNext, untilStop]

/-- An iterator whose first call raises an exception looks empty: the exception is swallowed. -/
theorem c44_exception (src : List (Pull α)) (n : Nat) :
    untilStop (preCalls (n + 1) (preInit (.fail :: src))) = [.stop] := by
  simp [preCalls, preInit, pull, preNext, untilStop]

example : preCalls 4 (preInit [.item (some 1), .item none, .item (some 3)])
    = [.item (some 1), .item none, .item (some 3), .stop] := by decide +kernel

end Mixtera
