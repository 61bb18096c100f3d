import Verif.Model.RemoteFile
import Verif.Props.Protocol
import Verif.Props.Datasets

/-!
# C58: reading files through the server
-/

namespace Mixtera.Net

variable {O F A β : Type}

/-- Specification: a line without its line feed. -/
def chomp (l : PyStr) : PyStr := if l.getLast? = some '\n' then l.dropLast else l

/-- Specification: the text ends in the middle of a line. -/
def Unfinished (text : PyStr) : Prop := text ≠ [] ∧ text.getLast? ≠ some '\n'

instance (text : PyStr) : Decidable (Unfinished text) := inferInstanceAs (Decidable (_ ∧ _))

theorem splitLines_ne_nil (text : PyStr) : splitLines text ≠ [] := by
  cases text with
  | nil => simp [splitLines]
  | cons c s =>
    unfold splitLines
    split
    · simp
    · split <;> simp

/-- The local lines are the text, cut after every line feed. -/
theorem localLines_flatten (text : PyStr) : (localLines text).flatten = text := by
  induction text with
  | nil => rfl
  | cons c s ih =>
    unfold localLines
    split
    · rename_i h; simp [ih]
    · split
      · rename_i h; rw [h] at ih; simp at ih; simp [ih]
      · rename_i l ls h; rw [h] at ih; simp at ih; simp [ih]

theorem localLines_ne (text : PyStr) : ∀ l ∈ localLines text, l ≠ [] := by
  induction text with
  | nil => simp [localLines]
  | cons c s ih =>
    unfold localLines
    split
    · intro l hl
      rcases List.mem_cons.mp hl with rfl | h
      · simp
      · exact ih l h
    · split
      · intro l hl; simp at hl; subst hl; simp
      · rename_i l' ls h
        intro l hl
        rcases List.mem_cons.mp hl with rfl | h'
        · simp
        · exact ih l (by rw [h]; simp [h'])

theorem chomp_cons {c : Char} (hc : c ≠ '\n') (l : PyStr) : chomp (c :: l) = c :: chomp l := by
  unfold chomp
  cases l with
  | nil => simp [hc]
  | cons d l =>
    rw [List.getLast?_cons_cons]
    by_cases h : (d :: l).getLast? = some '\n'
    · rw [if_pos h, if_pos h]; rfl
    · rw [if_neg h, if_neg h]

theorem localLines_eq_nil {text : PyStr} (h : localLines text = []) : text = [] := by
  have := localLines_flatten text
  rw [h] at this
  exact this.symm

/-- **C58** (lines). Through the server a file has the same lines as locally, without their line feeds; and one empty line
more at the end, unless the text ends in the middle of a line. -/
theorem c58_lines (text : PyStr) :
    splitLines text = (localLines text).map chomp ++ (if Unfinished text then [] else [[]]) := by
  induction text with
  | nil => simp [splitLines, localLines, Unfinished]
  | cons c s ih =>
    unfold splitLines localLines
    by_cases hc : c = '\n'
    · subst hc
      simp only [if_true, List.map_cons, List.cons_append]
      rw [ih]
      have h1 : chomp ['\n'] = [] := by decide
      rw [h1]
      congr 2
      unfold Unfinished
      cases s with
      | nil => simp
      | cons d s => simp
    · simp only [if_neg hc]
      have hu : s ≠ [] → (Unfinished (c :: s) ↔ Unfinished s) := by
        intro hs
        obtain ⟨d, s', rfl⟩ := List.exists_cons_of_ne_nil hs
        unfold Unfinished
        simp
      cases hl : localLines s with
      | nil =>
        have hs := localLines_eq_nil hl
        subst hs
        have hcu : Unfinished [c] := ⟨by simp, by simpa using hc⟩
        simp [splitLines, hcu, chomp, hc]
      | cons l ls =>
        have hs : s ≠ [] := by rintro rfl; simp [localLines] at hl
        rw [ih, hl]
        simp only [List.map_cons, List.cons_append, chomp_cons hc]
        simp only [hu hs]

/-- The text of the request fits. -/
def PathFits (c : Codecs PyStr O F A) (path : PyStr) : Prop := FitsCoded c.text idBytes path

theorem fetch_fine (c : Codecs PyStr O F A) (hc : c.Faithful) (files : PyStr → Option PyStr) (path text : PyStr)
    (hp : path ≠ []) (hfit : PathFits c path) (hfile : files path = some text) (htext : FitsCoded c.text sizeBytes text)
    (l : Link) (hl : l.Fine) : fetchLines c files path l = .ok (splitLines text) := by
  have hh : (fileHandler files (Request.readFile path : Request PyStr O F A).received () : Unit × Option (Reply PyStr O)) =
      ((), some (.content text)) := by
    simp [fileHandler, Request.received, hp, hfile, localLines_flatten]
  unfold fetchLines
  rw [c60_call c hc (fileHandler files) (.readFile path) hfit l hl () (.content text) (by rw [hh]) trivial htext]
  rfl

theorem requestedRows_append {α : Type} (lines more : List α) (ranges : List (Nat × Nat)) (h : ∀ r ∈ ranges, r.2 ≤ lines.length) :
    requestedRows (lines ++ more) ranges = requestedRows lines ranges := by
  unfold requestedRows
  rw [List.zipIdx_append, List.filter_append]
  have : (more.zipIdx (0 + lines.length)).filter (fun p => inRanges ranges p.2) = [] := by
    rw [List.filter_eq_nil_iff]
    rintro ⟨x, i⟩ hx
    have hi := (List.mem_zipIdx hx).1
    simp only [inRanges, List.any_eq_true, not_exists, not_and]
    intro r hr
    have := h r hr
    simp
    omega
  rw [this, List.append_nil]

theorem requestedRows_map {α γ : Type} (f : α → γ) (lines : List α) (ranges : List (Nat × Nat)) :
    requestedRows (lines.map f) ranges = (requestedRows lines ranges).map f := by
  unfold requestedRows
  rw [List.zipIdx_map, List.filter_map, List.map_map, List.map_map]
  rfl

/-- **C58** (samples). Reading sorted ranges of lines of a file through the server, when nothing is lost, gives exactly the
lines that a local reader gives, in the same order, without their line feeds. -/
theorem c58_rows (c : Codecs PyStr O F A) (hc : c.Faithful) (files : PyStr → Option PyStr) (path text : PyStr)
    (hp : path ≠ []) (hfit : PathFits c path) (hfile : files path = some text) (htext : FitsCoded c.text sizeBytes text)
    (l : Link) (hl : l.Fine) (parse : PyStr → β) (ranges : List (Nat × Nat)) (hs : SortedFrom 0 ranges)
    (hb : ∀ r ∈ ranges, r.2 ≤ (localLines text).length) :
    readRemote c files path l parse ranges = jsonlReadFile (fun x => parse (chomp x)) (localLines text) ranges ∧
    readRemote c files path l parse ranges = ((requestedRows (localLines text) ranges).map fun x => parse (chomp x), none) := by
  have hloc := c45_lines (fun x => parse (chomp x)) (localLines text) ranges hs
  have : readRemote c files path l parse ranges = ((requestedRows (localLines text) ranges).map fun x => parse (chomp x), none) := by
    unfold readRemote
    split
    · rename_i h
      have : ranges = [] := by simpa using h
      subst this
      simp [requestedRows, inRanges]
    · rw [fetch_fine c hc files path text hp hfit hfile htext l hl]
      simp only
      rw [c45_lines parse _ ranges hs, c58_lines, requestedRows_append _ _ ranges (by simpa using hb), requestedRows_map,
        List.map_map]
      rfl
  exact ⟨by rw [this, hloc], this⟩

/-- **C58** (parsing). So if the parsing function does not care about the line feed - as `json.loads` does not - the samples
are the same. -/
theorem c58_same_samples (c : Codecs PyStr O F A) (hc : c.Faithful) (files : PyStr → Option PyStr) (path text : PyStr)
    (hp : path ≠ []) (hfit : PathFits c path) (hfile : files path = some text) (htext : FitsCoded c.text sizeBytes text)
    (l : Link) (hl : l.Fine) (parse : PyStr → β) (hparse : ∀ x, parse (x ++ ['\n']) = parse x) (ranges : List (Nat × Nat))
    (hs : SortedFrom 0 ranges) (hb : ∀ r ∈ ranges, r.2 ≤ (localLines text).length) :
    readRemote c files path l parse ranges = jsonlReadFile parse (localLines text) ranges := by
  have : (fun x => parse (chomp x)) = parse := by
    funext x
    unfold chomp
    split
    · rename_i h
      have hx : x = x.dropLast ++ ['\n'] := by
        obtain ⟨y, rfl⟩ : ∃ y, x = y ++ ['\n'] := by
          rcases List.eq_nil_or_concat x with rfl | ⟨y, a, rfl⟩
          · simp at h
          · simp at h; exact ⟨y, by simp [h]⟩
        simp
      rw [← hparse x.dropLast, ← hx]
    · rfl
  rw [(c58_rows c hc files path text hp hfit hfile htext l hl parse ranges hs hb).1, this]

/-- **C58** (any network). Whatever the network does: the samples are exactly those that a fine connection gives, or there are
none at all - never some of them, never others. -/
theorem c58_any_network (c : Codecs PyStr O F A) (hc : c.Faithful) (files : PyStr → Option PyStr) (path text : PyStr)
    (hp : path ≠ []) (hfit : PathFits c path) (hfile : files path = some text) (htext : FitsCoded c.text sizeBytes text)
    (l : Link) (parse : PyStr → β) (ranges : List (Nat × Nat)) :
    (∀ fine : Link, fine.Fine → readRemote c files path l parse ranges = readRemote c files path fine parse ranges) ∨
    (readRemote c files path l parse ranges).1 = [] := by
  have hfetch : fetchLines c files path l = .ok (splitLines text) ∨ fetchLines c files path l = .ok [] ∨
      ∃ e, fetchLines c files path l = .error e := by
    have hans : ∀ (v : Received PyStr O F A) (y : Reply PyStr O), (fileHandler files v ()).2 = some y →
        (v = (Request.readFile path : Request PyStr O F A).received → y = .content text) ∧ v.Complete ∧
        ∃ t, y = .content t := by
      intro v y hy
      unfold fileHandler at hy
      split at hy
      · rename_i path'
        split at hy
        · cases hy
        · split at hy
          · cases hy
          · rename_i t ht
            simp only [Option.some.injEq] at hy
            subst hy
            refine ⟨?_, ⟨.readFile path', rfl⟩, _, rfl⟩
            intro hv
            simp only [Request.received, Received.readFile.injEq, Option.some.injEq] at hv
            subst hv
            rw [hfile] at ht
            simp only [Option.some.injEq] at ht
            subst ht
            rw [localLines_flatten]
      · cases hy
    unfold fetchLines
    rcases c60_any_network c hc (fileHandler files) (.readFile path) hfit l () (by
      intro v y hv hy
      obtain ⟨h1, h2, _⟩ := hans v y hy
      rcases hv with hv | hv
      · rw [h1 hv]; exact ⟨trivial, htext⟩
      · exact absurd h2 hv) with ⟨_, h⟩ | ⟨v, hv, _, h⟩
    · cases he : (exchange c (fileHandler files) (.readFile path) l ()).2 with
      | error e => exact Or.inr (Or.inr ⟨e, rfl⟩)
      | ok o =>
        cases o with
        | none => exact Or.inr (Or.inl rfl)
        | some y => exact absurd he (h y)
    · cases he : (exchange c (fileHandler files) (.readFile path) l ()).2 with
      | error e => exact Or.inr (Or.inr ⟨e, rfl⟩)
      | ok o =>
        cases o with
        | none => exact Or.inr (Or.inl rfl)
        | some y =>
          obtain ⟨y', hy', hseen⟩ := h y he
          obtain ⟨h1, h2, _⟩ := hans v y' hy'
          rcases hv with hv | hv
          · rw [h1 hv] at hseen
            simp only [Reply.seen, Option.some.injEq] at hseen
            subst hseen
            exact Or.inl rfl
          · exact absurd h2 hv
  unfold readRemote
  by_cases hr : ranges.isEmpty
  · left; intro fine _; simp [hr]
  · simp only [hr, Bool.false_eq_true, if_false]
    rcases hfetch with h | h | ⟨e, h⟩
    · left
      intro fine hfine
      rw [h, fetch_fine c hc files path text hp hfit hfile htext fine hfine]
    · right
      rw [h]
      simp only
      have : ∀ (ranges : List (Nat × Nat)) lastRead lastStart, (jsonlRead parse [] lastRead lastStart ranges).1 = [] := by
        intro ranges
        induction ranges with
        | nil => intros; rfl
        | cons r ranges ih =>
          intro lastRead lastStart
          unfold jsonlRead
          split
          · rfl
          · split
            · rfl
            · split
              · rfl
              · simp [Yields.after, ih]
      exact this ranges 0 (-1)
    · right; rw [h]

/-! ## Concrete cases -/

/-- Three bytes per character. -/
def charBytes (ch : Char) : List Byte :=
  [Fin.ofNat 256 ch.toNat, Fin.ofNat 256 (ch.toNat / 256), Fin.ofNat 256 (ch.toNat / 65536)]

/-- Back to characters. -/
def bytesChars : List Byte → PyStr
  | a :: b :: c :: l => Char.ofNat (a.val + 256 * b.val + 65536 * c.val) :: bytesChars l
  | _ => []

theorem bytesChars_charBytes (s : PyStr) : bytesChars (s.flatMap charBytes) = s := by
  induction s with
  | nil => rfl
  | cons ch s ih =>
    have hlt : ch.toNat < 1114112 := by
      rcases ch.valid with h | h
      · have : ch.toNat < 55296 := h
        omega
      · exact h.2
    simp only [List.flatMap_cons, charBytes, List.cons_append, List.nil_append, bytesChars, ih]
    congr 1
    have : (Fin.ofNat 256 ch.toNat).val + 256 * (Fin.ofNat 256 (ch.toNat / 256)).val +
        65536 * (Fin.ofNat 256 (ch.toNat / 65536)).val = ch.toNat := by
      simp only [Fin.ofNat]
      omega
    rw [this, Char.ofNat_toNat]

/-- Codecs for the examples. -/
def charCodecs : Codecs PyStr (List Byte) Unit (List Byte) where
  text := ⟨fun s => s.flatMap charBytes, fun d => .ok (bytesChars d)⟩
  obj := ⟨id, .ok⟩
  float := ⟨fun _ => List.replicate 8 0, fun _ => .ok ()⟩
  array := ⟨id, .ok⟩

theorem charCodecs_faithful : charCodecs.Faithful :=
  ⟨fun s => congrArg _ (bytesChars_charBytes s), fun _ => rfl, fun _ => rfl, fun _ => rfl, fun _ => rfl⟩

/-- A file of two lines. -/
def twoLines (path : PyStr) : Option PyStr := if path = "/d/a".toList then some "x1\ny2\n".toList else none

/-- A connection that loses nothing. -/
def good : Link := ⟨true, none, fun _ => some 3, none, fun _ => some 2⟩

example : good.Fine := ⟨rfl, rfl, by simp [good], rfl, by simp [good]⟩

example : readRemote charCodecs twoLines "/d/a".toList good id [(0, 1), (1, 2)] = (["x1".toList, "y2".toList], none) ∧
    jsonlReadFile id (localLines "x1\ny2\n".toList) [(0, 1), (1, 2)] = (["x1\n".toList, "y2\n".toList], none) := by
  decide +kernel

/-- **C58** (findings). An unreachable server, a missing file and a reply that is lost all look like an empty file: the
samples are silently missing. -/
theorem c58_silently_missing :
    readRemote charCodecs twoLines "/d/a".toList { good with reachable := false } id [(0, 2)] = ([], none) ∧
    readRemote charCodecs twoLines "/d/b".toList good id [(0, 2)] = ([], none) ∧
    readRemote charCodecs twoLines "/d/a".toList { good with replyLen := some 0 } id [(0, 2)] = ([], none) := by decide +kernel

/-- **C58** (finding). A range that reaches past the end of the file gives an empty extra sample through the server, but not
locally. -/
theorem c58_phantom_line :
    readRemote charCodecs twoLines "/d/a".toList good id [(0, 5)] = (["x1".toList, "y2".toList, []], none) ∧
    jsonlReadFile id (localLines "x1\ny2\n".toList) [(0, 5)] = (["x1\n".toList, "y2\n".toList], none) := by decide +kernel

end Mixtera.Net
