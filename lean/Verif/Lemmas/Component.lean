import Verif.Spec.Samples

namespace Mixtera

@[simp] theorem samples_nil : samples [] = [] := rfl
@[simp] theorem samples_cons (s : Seg) (l : List Seg) : samples (s :: l) = s.samples ++ samples l := rfl
@[simp] theorem samples_append (a b : List Seg) : samples (a ++ b) = samples a ++ samples b := by
  simp [samples]

@[simp] theorem Seg.length_samples (s : Seg) : s.samples.length = s.hi - s.lo := by
  simp [Seg.samples]

theorem Seg.samples_eq_nil {s : Seg} (h : ¬ s.hi > s.lo) : s.samples = [] := by
  have : s.hi - s.lo = 0 := by omega
  simp [Seg.samples, this]

theorem Seg.samples_split (s : Seg) (m : Nat) (h1 : s.lo ≤ m) (h2 : m ≤ s.hi) :
    s.samples = ({ s with hi := m } : Seg).samples ++ ({ s with lo := m } : Seg).samples := by
  simp only [Seg.samples, ← List.map_append]
  congr 1
  have h := List.range'_append (s := s.lo) (m := m - s.lo) (n := s.hi - m) (step := 1)
  rw [show s.lo + 1 * (m - s.lo) = m by omega,
    show m - s.lo + (s.hi - m) = s.hi - s.lo by omega] at h
  exact h.symm

/-- Complete functional description of `sendAux`. -/
theorem sendAux_spec (n cur : Nat) (acc st : List Seg)
    (hcur : cur = (samples acc).length) (hle : cur ≤ n) :
    sendAux n cur acc st = none ∧ samples acc ++ samples st = [] ∨
    ∃ out rest, sendAux n cur acc st = some (out, rest) ∧ samples acc ++ samples st ≠ [] ∧
      samples out = (samples acc ++ samples st).take n ∧
      samples rest = (samples acc ++ samples st).drop n := by
  induction st generalizing cur acc with
  | nil =>
    rw [sendAux]
    by_cases h : cur > 0
    · right
      refine ⟨acc, [], by simp [h], ?_, ?_, ?_⟩
      · intro h0; simp at h0; simp [h0] at hcur; omega
      · simp; rw [List.take_of_length_le]; omega
      · simp; omega
    · left
      have h0 : (samples acc).length = 0 := by omega
      simp [h, List.length_eq_zero_iff.mp h0]
  | cons s rest ih =>
    rw [sendAux]
    by_cases hs : s.hi > s.lo
    · rw [if_pos hs]
      by_cases hlt : cur + (s.hi - s.lo) < n
      · rw [if_pos hlt]
        have := ih (cur + (s.hi - s.lo)) (acc ++ [s]) (by simp [hcur]) (by omega)
        simpa [List.append_assoc] using this
      · rw [if_neg hlt]
        right
        refine ⟨_, _, rfl, ?_, ?_, ?_⟩
        · intro h0
          have h1 := congrArg List.length h0
          simp at h1; omega
        · have hsplit := Seg.samples_split s (s.hi - (cur + (s.hi - s.lo) - n)) (by omega) (by omega)
          simp only [samples_append, samples_cons, samples_nil, List.append_nil]
          rw [hsplit, List.append_assoc, ← List.append_assoc, List.take_left' ]
          simp; omega
        · have hsplit := Seg.samples_split s (s.hi - (cur + (s.hi - s.lo) - n)) (by omega) (by omega)
          simp only [samples_cons]
          rw [hsplit, List.append_assoc, ← List.append_assoc, List.drop_left' ]
          simp; omega
    · rw [if_neg hs]
      have := ih cur acc hcur hle
      simpa [Seg.samples_eq_nil hs] using this

theorem send_none {n : Nat} {st : List Seg} (h : send n st = none) : samples st = [] := by
  rcases sendAux_spec n 0 [] st rfl (by omega) with ⟨_, h'⟩ | ⟨_, _, h', _⟩
  · simpa using h'
  · rw [send] at h; simp [h] at h'

theorem send_some {n : Nat} {st out rest : List Seg} (h : send n st = some (out, rest)) :
    samples st ≠ [] ∧ samples out = (samples st).take n ∧ samples rest = (samples st).drop n := by
  rcases sendAux_spec n 0 [] st rfl (by omega) with ⟨h', _⟩ | ⟨o, r, h', h1, h2, h3⟩
  · rw [send] at h; simp [h] at h'
  · rw [send, h'] at h
    simp at h
    obtain ⟨rfl, rfl⟩ := h
    exact ⟨by simpa using h1, by simpa using h2, by simpa using h3⟩

theorem send_eq_none_iff {n : Nat} {st : List Seg} : send n st = none ↔ samples st = [] := by
  constructor
  · exact send_none
  · intro h
    match hs : send n st with
    | none => rfl
    | some (o, r) => exact absurd h (send_some hs).1

end Mixtera
