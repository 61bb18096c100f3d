import Verif.Model.Datasets
import Verif.Lemmas.Dict
import Mathlib.Tactic.Linarith
import Mathlib.Data.List.Basic

/-!
# C45, C46: the readers return exactly the requested rows
-/

set_option linter.unusedSectionVars false

namespace Mixtera

variable {α β : Type}

/-! ## Specification -/

/-- A row number is in one of the ranges. -/
def inRanges (ranges : List (Nat × Nat)) (i : Nat) : Bool := ranges.any fun r => decide (r.1 ≤ i) && decide (i < r.2)

/-- The rows of a file whose number is in one of the ranges, in the order of the file. -/
def requestedRows (rows : List α) (ranges : List (Nat × Nat)) : List α :=
  (rows.zipIdx.filter fun p => inRanges ranges p.2).map Prod.fst

/-- Ranges with `start ≤ end` that are sorted and do not overlap, the first of which starts at `n` or later. -/
def SortedFrom : Nat → List (Nat × Nat) → Prop
  | _, [] => True
  | n, r :: rs => n ≤ r.1 ∧ r.1 ≤ r.2 ∧ SortedFrom r.2 rs

instance : ∀ n rs, Decidable (SortedFrom n rs)
  | _, [] => .isTrue trivial
  | n, r :: rs => by
    unfold SortedFrom
    have := instDecidableSortedFrom r.2 rs
    infer_instance

/-! ## Selecting rows by number -/

/-- The rows of `l`, the first of which has number `o`, whose number satisfies `p`. -/
def selFrom (p : Nat → Bool) : Nat → List α → List α
  | _, [] => []
  | o, x :: l => if p o then x :: selFrom p (o + 1) l else selFrom p (o + 1) l

theorem selFrom_eq (p : Nat → Bool) : ∀ (l : List α) (o : Nat),
    selFrom p o l = ((l.zipIdx o).filter fun q => p q.2).map Prod.fst
  | [], o => rfl
  | x :: l, o => by
    rw [selFrom, List.zipIdx_cons, List.filter_cons, selFrom_eq p l (o + 1)]
    by_cases h : p o <;> simp [h]

theorem requestedRows_eq (rows : List α) (ranges : List (Nat × Nat)) :
    requestedRows rows ranges = selFrom (inRanges ranges) 0 rows := (selFrom_eq _ _ _).symm

theorem selFrom_append (p : Nat → Bool) : ∀ (l m : List α) (o : Nat),
    selFrom p o (l ++ m) = selFrom p o l ++ selFrom p (o + l.length) m
  | [], m, o => by simp [selFrom]
  | x :: l, m, o => by
    rw [List.cons_append, selFrom, selFrom, selFrom_append p l m (o + 1), List.length_cons,
      show o + 1 + l.length = o + (l.length + 1) by omega]
    by_cases h : p o <;> simp [h]

theorem selFrom_congr {p q : Nat → Bool} : ∀ (l : List α) (o : Nat),
    (∀ i, o ≤ i → i < o + l.length → p i = q i) → selFrom p o l = selFrom q o l
  | [], _, _ => rfl
  | x :: l, o, h => by
    rw [selFrom, selFrom, h o (le_refl _) (by simp), selFrom_congr l (o + 1) (fun i h1 h2 => h i (by omega) (by
      rw [List.length_cons]; omega))]

theorem selFrom_false {p : Nat → Bool} (l : List α) (o : Nat) (h : ∀ i, o ≤ i → i < o + l.length → p i = false) :
    selFrom p o l = [] := by
  rw [selFrom_congr (q := fun _ => false) l o h]
  clear h
  induction l generalizing o with
  | nil => rfl
  | cons x l ih => rw [selFrom]; simp [ih]

theorem selFrom_true {p : Nat → Bool} (l : List α) (o : Nat) (h : ∀ i, o ≤ i → i < o + l.length → p i = true) :
    selFrom p o l = l := by
  rw [selFrom_congr (q := fun _ => true) l o h]
  clear h
  induction l generalizing o with
  | nil => rfl
  | cons x l ih => rw [selFrom]; simp [ih]

/-- If the numbers below `m` satisfy only `p` and those from `m` on only `q`. -/
theorem selFrom_or {p q : Nat → Bool} (m : Nat) (l : List α) (o : Nat) (hp : ∀ i, m ≤ i → p i = false)
    (hq : ∀ i, i < m → q i = false) :
    selFrom (fun i => p i || q i) o l = selFrom p o l ++ selFrom q o l := by
  have h := List.take_append_drop (m - o) l
  have e : ∀ r : Nat → Bool, selFrom r o l = selFrom r o (l.take (m - o)) ++ selFrom r (o + (l.take (m - o)).length)
      (l.drop (m - o)) := by
    intro r
    conv_lhs => rw [← h]
    rw [selFrom_append]
  rw [e, e p, e q]
  have hlen : (l.take (m - o)).length ≤ m - o := by simp
  have h1 : selFrom q o (l.take (m - o)) = [] := by
    apply selFrom_false
    intro i h1 h2
    exact hq i (by omega)
  have h2 : selFrom (fun i => p i || q i) o (l.take (m - o)) = selFrom p o (l.take (m - o)) := by
    apply selFrom_congr
    intro i h1 h2
    simp [hq i (by omega)]
  by_cases hl : m - o ≤ l.length
  · have hlen' : (l.take (m - o)).length = m - o := by simp [hl]
    have h3 : selFrom p (o + (l.take (m - o)).length) (l.drop (m - o)) = [] := by
      apply selFrom_false
      intro i h1 h2
      exact hp i (by omega)
    have h4 : selFrom (fun i => p i || q i) (o + (l.take (m - o)).length) (l.drop (m - o))
        = selFrom q (o + (l.take (m - o)).length) (l.drop (m - o)) := by
      apply selFrom_congr
      intro i h1 h2
      simp [hp i (by omega)]
    rw [h1, h2, h3, h4]; simp
  · have hd : l.drop (m - o) = [] := List.drop_eq_nil_of_le (by omega)
    rw [h1, h2, hd]; simp [selFrom]

theorem selFrom_interval (s e : Nat) (l : List α) (o : Nat) (h : o ≤ s) :
    selFrom (fun i => decide (s ≤ i) && decide (i < e)) o l = (l.drop (s - o)).take (e - s) := by
  have h0 := List.take_append_drop (s - o) l
  conv_lhs => rw [← h0]
  rw [selFrom_append]
  have hlen : (l.take (s - o)).length ≤ s - o := by simp
  rw [selFrom_false (l.take (s - o)) o (fun i h1 h2 => by simp; omega), List.nil_append]
  by_cases hl : s - o ≤ l.length
  · have hlen' : (l.take (s - o)).length = s - o := by simp [hl]
    have h1 := List.take_append_drop (e - s) (l.drop (s - o))
    conv_lhs => rw [← h1]
    rw [selFrom_append, selFrom_true ((l.drop (s - o)).take (e - s)), selFrom_false ((l.drop (s - o)).drop (e - s)),
      List.append_nil]
    · intro i h1 h2
      have : ((l.drop (s - o)).take (e - s)).length + ((l.drop (s - o)).drop (e - s)).length
        = (l.drop (s - o)).length := by rw [← List.length_append, List.take_append_drop]
      by_cases he : e - s ≤ (l.drop (s - o)).length
      · have : ((l.drop (s - o)).take (e - s)).length = e - s := by simp at he ⊢; omega
        simp; omega
      · have : ((l.drop (s - o)).drop (e - s)).length = 0 := by simp at he ⊢; omega
        omega
    · intro i h1 h2
      have : ((l.drop (s - o)).take (e - s)).length ≤ e - s := by simp
      simp; omega
  · have hd : l.drop (s - o) = [] := List.drop_eq_nil_of_le (by omega)
    rw [hd]; simp [selFrom]

theorem inRanges_lt {n : Nat} : ∀ {rs : List (Nat × Nat)}, SortedFrom n rs → ∀ {i}, i < n → inRanges rs i = false
  | [], _, i, _ => rfl
  | r :: rs, h, i, hi => by
    obtain ⟨h1, h2, h3⟩ := h
    have := inRanges_lt h3 (i := i) (by omega)
    unfold inRanges at this ⊢
    rw [List.any_cons, this]
    simp; omega

theorem inRanges_cons (s e : Nat) (rs : List (Nat × Nat)) (i : Nat) :
    inRanges ((s, e) :: rs) i = ((decide (s ≤ i) && decide (i < e)) || inRanges rs i) := rfl

theorem SortedFrom.mono {m n : Nat} (hmn : m ≤ n) : ∀ {rs : List (Nat × Nat)}, SortedFrom n rs → SortedFrom m rs
  | [], _ => trivial
  | _ :: _, h => ⟨le_trans hmn h.1, h.2⟩

/-- Splitting off the first range. -/
theorem selFrom_ranges_cons {s e : Nat} {rs : List (Nat × Nat)} (hs : SortedFrom e rs) (l : List α) (o : Nat) :
    selFrom (inRanges ((s, e) :: rs)) o l
      = selFrom (fun i => decide (s ≤ i) && decide (i < e)) o l ++ selFrom (inRanges rs) o l := by
  rw [← selFrom_or e]
  · rfl
  · intro i hi; simp; omega
  · intro i hi; exact inRanges_lt hs hi

/-! ## C45 -/

theorem jsonlRead_eq (parse : α → β) : ∀ (ranges : List (Nat × Nat)) (lines : List α) (lastRead : Nat) (lastStart : Int),
    SortedFrom lastRead ranges → lastStart ≤ lastRead →
    jsonlRead parse lines lastRead lastStart ranges = ((selFrom (inRanges ranges) lastRead lines).map parse, none)
  | [], lines, lastRead, lastStart, _, _ => by
    rw [jsonlRead, selFrom_false]
    · rfl
    · intro i _ _; rfl
  | (s, e) :: ranges, lines, lastRead, lastStart, h, hl => by
    obtain ⟨h1, h2, h3⟩ := h
    simp only at h1 h2 h3
    rw [jsonlRead, if_neg (by omega), if_neg (by omega), if_neg (by omega),
      jsonlRead_eq parse ranges _ e s h3 (by omega)]
    unfold Yields.after
    rw [← List.map_append]
    congr 2
    rw [selFrom_ranges_cons h3, selFrom_interval s e lines lastRead h1]
    congr 1
    have h0 := List.take_append_drop (e - lastRead) lines
    conv_rhs => rw [← h0]
    rw [selFrom_append, selFrom_false (lines.take (e - lastRead)), List.nil_append, List.drop_drop,
      show s - lastRead + (e - s) = e - lastRead by omega]
    · by_cases hlen : e - lastRead ≤ lines.length
      · congr 1
        simp; omega
      · rw [List.drop_eq_nil_of_le (by omega)]; rfl
    · intro i h4 h5
      apply inRanges_lt h3
      have : (lines.take (e - lastRead)).length ≤ e - lastRead := by simp
      omega

/-- **C45**: for sorted ranges that do not overlap, the JSONL reader yields exactly the lines whose number is in one of
the ranges, in the order of the file, each once and parsed, and does not fail. -/
theorem c45_lines (parse : α → β) (lines : List α) (ranges : List (Nat × Nat)) (h : SortedFrom 0 ranges) :
    jsonlReadFile parse lines ranges = ((requestedRows lines ranges).map parse, none) := by
  rw [requestedRows_eq]
  exact jsonlRead_eq parse ranges lines 0 (-1) h (by omega)

theorem jsonlRead_rejects (parse : α → β) : ∀ (ranges : List (Nat × Nat)) (lines : List α) (lastRead : Nat)
    (lastStart : Int), ¬ SortedFrom lastRead ranges → (jsonlRead parse lines lastRead lastStart ranges).2 ≠ none
  | [], _, _, _, h => absurd trivial h
  | (s, e) :: ranges, lines, lastRead, lastStart, h => by
    rw [jsonlRead]
    split
    · simp
    · split
      · simp
      · split
        · simp
        · rename_i h1 h2 h3
          have := jsonlRead_rejects parse ranges ((lines.drop (s - lastRead)).drop (e - s)) e s (fun hs =>
            h ⟨by simp only; omega, by simp only; omega, hs⟩)
          exact this

/-- **C45**: ranges that are not sorted or that overlap (or end before they start) are rejected. -/
theorem c45_rejects (parse : α → β) (lines : List α) (ranges : List (Nat × Nat)) (h : ¬ SortedFrom 0 ranges) :
    (jsonlReadFile parse lines ranges).2 ≠ none := jsonlRead_rejects parse ranges lines 0 (-1) h

example : jsonlReadFile id ["a", "b", "c", "d", "e"] [(1, 3), (4, 9)] = (["b", "c", "e"], none) := by decide +kernel

example : SortedFrom 0 [(1, 3), (4, 9)] ∧ ¬ SortedFrom 0 [(4, 9), (1, 3)] := by decide

/-- The web dataset reader. -/
theorem webRange_eq (parse : α → β) (samples : List α) : ∀ (n line : Nat), line + n ≤ samples.length →
    webRange parse samples line n = (((samples.drop line).take n).map parse, none)
  | 0, line, _ => by simp [webRange]
  | n + 1, line, h => by
    rw [webRange, List.getElem?_eq_getElem (show line < samples.length by omega)]
    simp only
    rw [webRange_eq parse samples n (line + 1) (by omega), List.drop_eq_getElem_cons (i := line) (show line < samples.length by omega), List.take_succ_cons]
    rfl

theorem webRead_eq (parse : α → β) (samples : List α) : ∀ (ranges : List (Nat × Nat)) (lastRead : Nat)
    (lastStart : Int), SortedFrom lastRead ranges → lastStart ≤ lastRead →
    (∀ r ∈ ranges, r.1 < r.2 → r.2 ≤ samples.length) →
    webRead parse samples lastRead lastStart ranges = ((selFrom (inRanges ranges) 0 samples).map parse, none)
  | [], lastRead, lastStart, _, _, _ => by
    rw [webRead, selFrom_false]
    · rfl
    · intro i _ _; rfl
  | (s, e) :: ranges, lastRead, lastStart, h, hl, hb => by
    obtain ⟨h1, h2, h3⟩ := h
    simp only at h1 h2 h3
    have he := hb _ (List.mem_cons_self)
    simp only at he
    have hr1 : webRange parse samples s (e - s) = (((samples.drop s).take (e - s)).map parse, none) := by
      rcases Nat.lt_or_ge s e with hse | hse
      · exact webRange_eq parse samples _ _ (by have := he hse; omega)
      · have h0 : e - s = 0 := by omega
        rw [h0]; simp [webRange]
    rw [webRead, if_neg (by omega), if_neg (by omega), hr1,
      webRead_eq parse samples ranges e s h3 (by omega) (fun r hr => hb r (by simp [hr]))]
    unfold Yields.andThen Yields.after
    simp only
    rw [← List.map_append]
    congr 2
    rw [selFrom_ranges_cons h3, selFrom_interval s e samples 0 (by omega)]
    rfl

/-- **C45**, web datasets: the same for the samples of a tar file, if all ranges (but the empty ones)
lie within the file. -/
theorem c45_web (parse : α → β) (samples : List α) (ranges : List (Nat × Nat)) (h : SortedFrom 0 ranges)
    (hb : ∀ r ∈ ranges, r.1 < r.2 → r.2 ≤ samples.length) :
    webReadFile parse samples ranges = ((requestedRows samples ranges).map parse, none) := by
  rw [requestedRows_eq]
  exact webRead_eq parse samples ranges 0 (-1) h (by omega) hb

theorem webRange_short (parse : α → β) (samples : List α) : ∀ (n line : Nat), 0 < n → samples.length < line + n →
    webRange parse samples line n = (((samples.drop line).take n).map parse, some .indexError)
  | 0, line, h0, _ => absurd h0 (by omega)
  | n + 1, line, _, h => by
    rw [webRange]
    by_cases hl : line < samples.length
    · rw [List.getElem?_eq_getElem hl]
      simp only
      rw [webRange_short parse samples n (line + 1) (by omega) (by omega), List.drop_eq_getElem_cons hl,
        List.take_succ_cons]
      rfl
    · rw [List.getElem?_eq_none (by omega), List.drop_eq_nil_of_le (by omega)]
      rfl

theorem webRead_short (parse : α → β) (samples : List α) : ∀ (ranges : List (Nat × Nat)) (lastRead : Nat)
    (lastStart : Int), SortedFrom lastRead ranges → lastStart ≤ lastRead →
    (∃ r ∈ ranges, r.1 < r.2 ∧ samples.length < r.2) →
    webRead parse samples lastRead lastStart ranges
      = ((selFrom (inRanges ranges) 0 samples).map parse, some .indexError)
  | [], _, _, _, _, h => by simp at h
  | (s, e) :: ranges, lastRead, lastStart, h, hl, hb => by
    obtain ⟨h1, h2, h3⟩ := h
    simp only at h1 h2 h3
    rw [webRead, if_neg (by omega), if_neg (by omega)]
    by_cases hse : s < e ∧ samples.length < e
    · rw [webRange_short parse samples _ _ (by omega) (by omega)]
      unfold Yields.andThen
      simp only
      rw [selFrom_ranges_cons h3, selFrom_interval s e samples 0 (by omega),
        selFrom_false (p := inRanges ranges) samples 0 (fun i _ hi => inRanges_lt h3 (by omega)), List.append_nil]
      rfl
    · have hrest : ∃ r ∈ ranges, r.1 < r.2 ∧ samples.length < r.2 := by
        obtain ⟨r, hr, h4⟩ := hb
        rcases List.mem_cons.mp hr with h5 | h5
        · subst h5; exact absurd h4 hse
        · exact ⟨r, h5, h4⟩
      rw [webRead_short parse samples ranges e s h3 (by omega) hrest]
      have hr : webRange parse samples s (e - s) = (((samples.drop s).take (e - s)).map parse, none) := by
        by_cases hlt : s < e
        · exact webRange_eq parse samples _ _ (by omega)
        · rw [show e - s = 0 by omega]; simp [webRange]
      rw [hr]
      unfold Yields.andThen Yields.after
      simp only
      rw [← List.map_append]
      congr 2
      rw [selFrom_ranges_cons h3, selFrom_interval s e samples 0 (by omega)]
      rfl

/-- **C45**, web datasets past the end of the file: if a range asks for a sample that the file does not have, the reader
yields the requested samples the file has and then fails with an `IndexError`; missing samples are not silently skipped. -/
theorem c45_web_missing (parse : α → β) (samples : List α) (ranges : List (Nat × Nat)) (h : SortedFrom 0 ranges)
    (hb : ∃ r ∈ ranges, r.1 < r.2 ∧ samples.length < r.2) :
    webReadFile parse samples ranges = ((requestedRows samples ranges).map parse, some .indexError) := by
  rw [requestedRows_eq]
  exact webRead_short parse samples ranges 0 (-1) h (by omega) hb

/-- A difference between the readers: past the end of the file the JSONL reader just yields less, the web dataset reader
fails. -/
example : jsonlReadFile id [1, 2] [(1, 3)] = ([2], none) ∧ webReadFile id [1, 2] [(1, 3)] = ([2], some .indexError) := by
  decide +kernel

/-! ## C46 -/

/-- What the parts read. -/
def readParts (groups : List (List α)) (parts : List (Nat × (Nat × Nat))) : List α :=
  parts.flatMap fun p => (((groups[p.1]?).getD []).drop p.2.1).take (p.2.2 - p.2.1)

/-- The two-pointer loop finds exactly the requested rows of the row groups that are left. -/
theorem readParts_mapRanges (groups : List (List α)) : ∀ (fuel : Nat) (rs : List (Nat × Nat)) (idx o n : Nat),
    SortedFrom n rs → rs.length + (groups.drop idx).length ≤ fuel →
    readParts groups (mapRanges fuel rs (groupOffsets o idx ((groups.drop idx).map List.length)))
      = selFrom (inRanges rs) o (groups.drop idx).flatten
  | 0, rs, idx, o, n, _, hf => by
    have h1 : rs = [] := List.length_eq_zero_iff.mp (by omega)
    subst h1
    rw [selFrom_false]
    · rfl
    · intro i _ _; rfl
  | fuel + 1, [], idx, o, n, _, _ => by
    rw [selFrom_false]
    · rfl
    · intro i _ _; rfl
  | fuel + 1, (s, e) :: rs, idx, o, n, hs, hf => by
    obtain ⟨h1, h2, h3⟩ := hs
    simp only at h1 h2 h3
    cases hg : groups.drop idx with
    | nil => simp [groupOffsets, mapRanges, readParts, selFrom]
    | cons G Gs =>
      have hGs : groups.drop (idx + 1) = Gs := by rw [← List.tail_drop, hg]; rfl
      have hG : groups[idx]? = some G := by
        have := congrArg (fun l : List (List α) => l[0]?) hg
        simpa using this
      have hfl : (groups.drop idx).length = Gs.length + 1 := by rw [hg]; rfl
      simp only [List.length_cons] at hf
      rw [List.map_cons, groupOffsets, mapRanges]
      by_cases c1 : e ≤ o
      · rw [if_pos c1]
        have ih := readParts_mapRanges groups fuel rs idx o e h3 (by omega)
        rw [hg, List.map_cons, groupOffsets] at ih
        rw [ih]
        apply selFrom_congr
        intro i hi _
        rw [inRanges_cons]
        simp; omega
      · rw [if_neg c1]
        by_cases c2 : o + G.length ≤ s
        · rw [if_pos c2]
          have ih := readParts_mapRanges groups fuel ((s, e) :: rs) (idx + 1) (o + G.length) n ⟨h1, h2, h3⟩ (by
            rw [hGs]; simp only [List.length_cons]; omega)
          rw [hGs] at ih
          rw [ih, List.flatten_cons, selFrom_append, selFrom_false G, List.nil_append]
          intro i _ hi
          rw [inRanges_cons, inRanges_lt h3 (by omega)]
          simp; omega
        · rw [if_neg c2]
          by_cases c3 : e ≤ o + G.length
          · rw [if_pos c3]
            have ih := readParts_mapRanges groups fuel rs idx o e h3 (by omega)
            rw [hg, List.map_cons, groupOffsets] at ih
            unfold readParts at ih ⊢
            rw [List.flatMap_cons, ih, selFrom_ranges_cons h3]
            congr 1
            simp only [hG, Option.getD_some]
            have hsplit : selFrom (fun i => decide (s ≤ i) && decide (i < e)) o (G :: Gs).flatten
                = selFrom (fun i => decide (max s o ≤ i) && decide (i < e)) o G := by
              rw [List.flatten_cons, selFrom_append, selFrom_false Gs.flatten, List.append_nil]
              · apply selFrom_congr
                intro i hi _
                have : decide (s ≤ i) = decide (max s o ≤ i) := by
                  apply decide_eq_decide.mpr; omega
                rw [this]
              · intro i hi _; simp; omega
            rw [hsplit, selFrom_interval _ _ _ _ (by omega)]
            congr 1
            omega
          · rw [if_neg c3]
            have ih := readParts_mapRanges groups fuel ((s, e) :: rs) (idx + 1) (o + G.length) n ⟨h1, h2, h3⟩ (by
              rw [hGs]; simp only [List.length_cons]; omega)
            rw [hGs] at ih
            unfold readParts at ih ⊢
            rw [List.flatMap_cons, ih, List.flatten_cons, selFrom_append]
            congr 1
            simp only [hG, Option.getD_some]
            have hsplit : selFrom (inRanges ((s, e) :: rs)) o G
                = selFrom (fun i => decide (max s o ≤ i) && decide (i < o + G.length)) o G := by
              apply selFrom_congr
              intro i hi hi2
              rw [inRanges_cons, inRanges_lt h3 (by omega), Bool.or_false]
              have e1 : decide (s ≤ i) = decide (max s o ≤ i) := by
                apply decide_eq_decide.mpr; omega
              have e2 : decide (i < e) = decide (i < o + G.length) := by
                apply decide_eq_decide.mpr; omega
              rw [e1, e2]
            rw [hsplit, selFrom_interval _ _ _ _ (by omega)]
            congr 1
            omega

/-- The row groups come in ascending order. -/
theorem mapRanges_sorted : ∀ (fuel : Nat) (rs : List (Nat × Nat)) (o idx : Nat) (ns : List Nat),
    ((mapRanges fuel rs (groupOffsets o idx ns)).map Prod.fst).Pairwise (· ≤ ·) ∧
      ∀ p ∈ mapRanges fuel rs (groupOffsets o idx ns), idx ≤ p.1
  | 0, rs, o, idx, ns => by simp [mapRanges]
  | fuel + 1, [], o, idx, ns => by simp [mapRanges]
  | fuel + 1, (s, e) :: rs, o, idx, [] => by simp [mapRanges, groupOffsets]
  | fuel + 1, (s, e) :: rs, o, idx, n :: ns => by
    rw [groupOffsets, mapRanges]
    have ihr := mapRanges_sorted fuel rs o idx (n :: ns)
    rw [groupOffsets] at ihr
    have ihg := mapRanges_sorted fuel ((s, e) :: rs) (o + n) (idx + 1) ns
    split
    · exact ihr
    · split
      · exact ⟨ihg.1, fun p hp => by have := ihg.2 p hp; omega⟩
      · split
        · refine ⟨?_, ?_⟩
          · rw [List.map_cons, List.pairwise_cons]
            refine ⟨?_, ihr.1⟩
            intro x hx
            obtain ⟨p, hp, rfl⟩ := List.mem_map.mp hx
            exact ihr.2 p hp
          · intro p hp
            rcases List.mem_cons.mp hp with rfl | hp
            · exact le_refl _
            · exact ihr.2 p hp
        · refine ⟨?_, ?_⟩
          · rw [List.map_cons, List.pairwise_cons]
            refine ⟨?_, ihg.1⟩
            intro x hx
            obtain ⟨p, hp, rfl⟩ := List.mem_map.mp hx
            have := ihg.2 p hp
            simp only; omega
          · intro p hp
            rcases List.mem_cons.mp hp with rfl | hp
            · exact le_refl _
            · have := ihg.2 p hp; omega

/-- Appending a part for the last or a new row group keeps the order of all parts. -/
theorem flatMap_upsert_last {γ : Type} (f : Nat → (Nat × Nat) → List γ) (g : Nat) (p : Nat × Nat) :
    ∀ d : Dict Nat (List (Nat × Nat)), (d.map Prod.fst).Pairwise (· < ·) → (∀ q ∈ d, q.1 ≤ g) →
      ((d.upsert g fun o => o.getD [] ++ [p]).flatMap fun gp => gp.2.flatMap (f gp.1))
        = (d.flatMap fun gp => gp.2.flatMap (f gp.1)) ++ f g p ∧
      ((d.upsert g fun o => o.getD [] ++ [p]).map Prod.fst).Pairwise (· < ·) ∧
      ∀ q ∈ d.upsert g fun o => o.getD [] ++ [p], q.1 ≤ g
  | [], _, _ => by simp [Dict.upsert]
  | (a, b) :: d, hs, hg => by
    rw [List.map_cons, List.pairwise_cons] at hs
    have hag := hg (a, b) (by simp)
    simp only at hag
    rw [Dict.upsert]
    by_cases e : a = g
    · subst e
      have hd : d = [] := by
        cases d with
        | nil => rfl
        | cons q d =>
          have h1 := hs.1 q.1 (by simp)
          have h2 := hg q (by simp)
          omega
      subst hd
      simp
    · rw [if_neg e]
      obtain ⟨i1, i2, i3⟩ := flatMap_upsert_last f g p d hs.2 (fun q hq => hg q (by simp [hq]))
      refine ⟨?_, ?_, ?_⟩
      · rw [List.flatMap_cons, List.flatMap_cons, i1, List.append_assoc]
      · rw [List.map_cons, List.pairwise_cons]
        refine ⟨?_, i2⟩
        intro x hx
        have : x ∈ d.map Prod.fst ∨ x = g := by
          clear i1 i2 i3 hs hg
          induction d with
          | nil => simp [Dict.upsert] at hx; exact Or.inr hx
          | cons q d ih =>
            rw [Dict.upsert] at hx
            split at hx
            · left; simpa using hx
            · rw [List.map_cons, List.mem_cons] at hx
              rcases hx with hx | hx
              · left; simp [hx]
              · rcases ih hx with h | h
                · left; simp only [List.map_cons, List.mem_cons]; exact Or.inr h
                · exact Or.inr h
        rcases this with h | h
        · exact hs.1 x h
        · subst h; simp only; omega
      · intro q hq
        rcases List.mem_cons.mp hq with rfl | hq
        · exact hag
        · exact i3 q hq

theorem groupParts_flatMap {γ : Type} (f : Nat → (Nat × Nat) → List γ) (parts : List (Nat × (Nat × Nat)))
    (hs : (parts.map Prod.fst).Pairwise (· ≤ ·)) :
    ((groupParts parts).flatMap fun gp => gp.2.flatMap (f gp.1)) = parts.flatMap fun p => f p.1 p.2 := by
  have key : ∀ (parts : List (Nat × (Nat × Nat))) (d : Dict Nat (List (Nat × Nat))),
      (parts.map Prod.fst).Pairwise (· ≤ ·) → (d.map Prod.fst).Pairwise (· < ·) →
      (∀ q ∈ d, ∀ p ∈ parts, q.1 ≤ p.1) →
      ((parts.foldl (fun d p => d.upsert p.1 fun o => o.getD [] ++ [p.2]) d).flatMap fun gp => gp.2.flatMap (f gp.1))
        = (d.flatMap fun gp => gp.2.flatMap (f gp.1)) ++ parts.flatMap fun p => f p.1 p.2 := by
    intro parts
    induction parts with
    | nil => intro d _ _ _; simp
    | cons p parts ih =>
      intro d h1 h2 h3
      rw [List.map_cons, List.pairwise_cons] at h1
      obtain ⟨i1, i2, i3⟩ := flatMap_upsert_last f p.1 p.2 d h2 (fun q hq => h3 q hq p (by simp))
      rw [List.foldl_cons, ih _ h1.2 i2 (fun q hq r hr =>
        le_trans (i3 q hq) (h1.1 r.1 (List.mem_map_of_mem (f := Prod.fst) hr))), i1, List.flatMap_cons,
        List.append_assoc]
  have := key parts [] hs (by simp) (by simp)
  simpa [groupParts] using this

/-- **C46**: for sorted ranges that do not overlap, the Parquet reader yields exactly the rows whose number is in one of
the ranges, in the order of the file, each once and parsed: whatever the row groups, and however slices are cut into
batches. -/
theorem c46_rows (parse : α → β) (batches : List α → List (List α)) (hb : ∀ l, (batches l).flatten = l)
    (groups : List (List α)) (ranges : List (Nat × Nat)) (h : SortedFrom 0 ranges) :
    parquetRead parse batches groups ranges = (requestedRows groups.flatten ranges).map parse := by
  unfold parquetRead
  have hsorted := (mapRanges_sorted (ranges.length + groups.length) ranges 0 0 (groups.map List.length)).1
  rw [groupParts_flatMap (fun g se =>
    (batches ((((groups[g]?).getD []).drop se.1).take (se.2 - se.1))).flatMap fun b => b.map parse) _ hsorted]
  have hbatch : ∀ l : List α, ((batches l).flatMap fun b => b.map parse) = l.map parse := by
    intro l
    conv_rhs => rw [← hb l]
    rw [List.map_flatten, List.flatMap]
  simp only [hbatch]
  have := readParts_mapRanges groups (ranges.length + groups.length) ranges 0 0 0 h (by simp)
  rw [List.drop_zero] at this
  rw [requestedRows_eq, ← this]
  unfold readParts
  rw [List.map_flatMap]

example : parquetRead id (fun l => l.map fun x => [x]) [[0, 1, 2], [], [3, 4], [5, 6, 7]] [(1, 4), (4, 6), (7, 100)]
    = [1, 2, 3, 4, 5, 7] := by decide +kernel

/-- Unlike the JSONL reader the Parquet reader does not check the ranges: with ranges that are not sorted it silently
leaves rows out. -/
theorem c46_unsorted_loses :
    parquetRead id (fun l => [l]) [[0, 1], [2, 3]] [(2, 4), (0, 2)] = [2, 3] ∧
      (jsonlReadFile id [0, 1, 2, 3] [(2, 4), (0, 2)]).2 = some .runtimeError := by decide +kernel

end Mixtera
