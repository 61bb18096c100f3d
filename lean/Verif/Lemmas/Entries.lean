import Verif.Model.ChunkGen
import Verif.Lemmas.Dict
import Verif.Lemmas.Component
import Verif.Lemmas.Rounding

set_option linter.unusedSectionVars false

namespace Mixtera

/-- Weight of a range given its data set and file. -/
abbrev Weight := Nat → Nat → Rng → Nat

def rngsW (w : Weight) (d f : Nat) (rs : List Rng) : Nat := (rs.map (w d f)).sum
def filesW (w : Weight) (d : Nat) (fs : Dict Nat (List Rng)) : Nat := Dict.sumBy (rngsW w d) fs
def entW (w : Weight) (e : Entries) : Nat := Dict.sumBy (filesW w) e
def segW (w : Weight) (l : List Seg) : Nat := (l.map fun s => w s.ds s.file (s.lo, s.hi)).sum

@[simp] theorem segW_nil (w : Weight) : segW w [] = 0 := rfl
@[simp] theorem segW_cons (w : Weight) (s : Seg) (l : List Seg) :
    segW w (s :: l) = w s.ds s.file (s.lo, s.hi) + segW w l := by simp [segW]
@[simp] theorem segW_append (w : Weight) (a b : List Seg) : segW w (a ++ b) = segW w a + segW w b := by
  simp [segW]

@[simp] theorem entW_nil (w : Weight) : entW w [] = 0 := rfl

theorem filesW_upsert (w : Weight) (d f : Nat) (fs : Dict Nat (List Rng))
    (g : Option (List Rng) → List Rng) (m : Nat)
    (h : ∀ o, rngsW w d f (g o) = (o.map (rngsW w d f)).getD 0 + m) :
    filesW w d (fs.upsert f g) = filesW w d fs + m :=
  Dict.sumBy_upsert _ _ _ _ _ fun o _ => h o

theorem entW_upsert2 (w : Weight) (d f : Nat) (e : Entries)
    (g : Option (List Rng) → List Rng) (m : Nat)
    (h : ∀ o, rngsW w d f (g o) = (o.map (rngsW w d f)).getD 0 + m) :
    entW w (e.upsert d fun fs => (fs.getD []).upsert f g) = entW w e + m := by
  apply Dict.sumBy_upsert
  intro o _
  rw [filesW_upsert w d f _ g m h]
  cases o <;> simp [filesW]

theorem entW_nestSegs (w : Weight) (segs : List Seg) : entW w (nestSegs segs) = segW w segs := by
  suffices h : ∀ e, entW w (segs.foldl (fun e s =>
      e.upsert s.ds fun fs => (fs.getD []).upsert s.file fun rs => rs.getD [] ++ [(s.lo, s.hi)]) e)
      = entW w e + segW w segs by
    simpa [nestSegs] using h []
  induction segs with
  | nil => simp
  | cons s segs ih =>
    intro e
    rw [List.foldl_cons, ih, segW_cons]
    rw [entW_upsert2 w s.ds s.file e _ (w s.ds s.file (s.lo, s.hi))]
    · omega
    · intro o; cases o <;> simp [rngsW]

theorem rngsW_perm (w : Weight) (d f : Nat) {a b : List Rng} (h : a.Perm b) :
    rngsW w d f a = rngsW w d f b := (h.map _).sum_nat

theorem entW_addFile (w : Weight) (e : Entries) (d f : Nat) (rs : List Rng) :
    entW w (addFile e d f rs) = entW w e + rngsW w d f rs := by
  apply entW_upsert2
  intro o
  cases o with
  | none => simp
  | some o => simp [rngsW_perm w d f (mergeSortedLists_perm o rs)]; simp [rngsW]

theorem entW_addEntries (w : Weight) (e new : Entries) :
    entW w (addEntries e new) = entW w e + entW w new := by
  unfold addEntries
  induction new generalizing e with
  | nil => simp
  | cons df new ih =>
    obtain ⟨d, files⟩ := df
    rw [List.foldl_cons, ih]
    have : ∀ e, entW w (files.foldl (fun e (f, rs) => addFile e d f rs) e) = entW w e + filesW w d files := by
      induction files with
      | nil => simp [filesW]
      | cons fr files ih2 =>
        obtain ⟨f, rs⟩ := fr
        intro e
        rw [List.foldl_cons, ih2, entW_addFile]
        simp [filesW]; omega
    rw [this]
    simp [entW]; omega

/-- Number of samples of a range. -/
def sizeW : Weight := fun _ _ r => r.2 - r.1
/-- Number of occurrences of a position in a range. -/
def countW (p : Pos) : Weight := fun d f r => (Seg.samples ⟨d, f, r.1, r.2⟩).count p

theorem entriesSize_eq (e : Entries) : entriesSize e = entW sizeW e := rfl

theorem count_entriesSamples (p : Pos) (e : Entries) : (entriesSamples e).count p = entW (countW p) e := by
  unfold entriesSamples
  induction e with
  | nil => rfl
  | cons df e ih =>
    obtain ⟨d, files⟩ := df
    simp only [List.flatMap_cons, List.count_append, ih, entW, Dict.sumBy_cons]
    congr 1
    induction files with
    | nil => rfl
    | cons fr files ih2 =>
      obtain ⟨f, rs⟩ := fr
      simp only [List.flatMap_cons, List.count_append, ih2, filesW, Dict.sumBy_cons]
      congr 1
      induction rs with
      | nil => rfl
      | cons r rs ih3 => simp [List.count_append, ih3, rngsW, countW]

theorem length_entriesSamples (e : Entries) : (entriesSamples e).length = entW sizeW e := by
  unfold entriesSamples
  induction e with
  | nil => rfl
  | cons df e ih =>
    obtain ⟨d, files⟩ := df
    simp only [List.flatMap_cons, List.length_append, ih, entW, Dict.sumBy_cons]
    congr 1
    induction files with
    | nil => rfl
    | cons fr files ih2 =>
      obtain ⟨f, rs⟩ := fr
      simp only [List.flatMap_cons, List.length_append, ih2, filesW, Dict.sumBy_cons]
      congr 1
      induction rs with
      | nil => rfl
      | cons r rs ih3 => simp [ih3, rngsW, sizeW]

theorem count_samples (p : Pos) (l : List Seg) : (samples l).count p = segW (countW p) l := by
  induction l with
  | nil => rfl
  | cons s l ih => simp [List.count_append, ih, countW]

theorem length_samples (l : List Seg) : (samples l).length = segW sizeW l := by
  induction l with
  | nil => rfl
  | cons s l ih => simp [ih, sizeW]

theorem length_nestSegs (l : List Seg) : (entriesSamples (nestSegs l)).length = (samples l).length := by
  rw [length_entriesSamples, entW_nestSegs, length_samples]

theorem count_nestSegs (p : Pos) (l : List Seg) :
    (entriesSamples (nestSegs l)).count p = (samples l).count p := by
  rw [count_entriesSamples, entW_nestSegs, count_samples]

theorem entriesSize_nestSegs (l : List Seg) : entriesSize (nestSegs l) = (samples l).length := by
  rw [entriesSize_eq, entW_nestSegs, length_samples]

end Mixtera
