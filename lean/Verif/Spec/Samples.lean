import Verif.Model.Component

/-!
# What a list of ranges stands for

The specification vocabulary for chunk contents: a sample is a position
`(dataset, file, number)`; a range list stands for the positions it covers, in order.
-/

namespace Mixtera

/-- A sample position: data set id, file id, sample number within the file. -/
abbrev Pos := Nat × Nat × Nat

/-- The positions covered by one range, in order. -/
def Seg.samples (s : Seg) : List Pos :=
  (List.range' s.lo (s.hi - s.lo)).map fun i => (s.ds, s.file, i)

/-- The positions covered by a list of ranges, in order. -/
def samples (l : List Seg) : List Pos := l.flatMap Seg.samples

/-- The positions covered by a nested dictionary (all of them, in dictionary order). -/
def entriesSamples (e : Entries) : List Pos :=
  e.flatMap fun (d, files) => files.flatMap fun (f, rs) =>
    rs.flatMap fun r => Seg.samples ⟨d, f, r.1, r.2⟩

/-- All positions of all components (property combinations). -/
def allUnread {K : Type} (iters : Dict K (List Seg)) : List Pos := iters.flatMap fun cl => samples cl.2

/-- All positions of a chunk's (or an index's) content. -/
def contentSamples {K : Type} (c : Dict K Entries) : List Pos := c.flatMap fun ke => entriesSamples ke.2

/-- The positions a chunk lists under key `k`. -/
def keySamples {K : Type} [DecidableEq K] (c : Dict K Entries) (k : K) : List Pos :=
  entriesSamples ((c.get? k).getD [])

/-- Specification of serving a sequence of requests from an ordered data set: every request for
`n` samples takes the next `n` (or what is left); once nothing is left requests are refused. -/
def specServe : List Nat → List Pos → List (Option (List Pos))
  | [], _ => []
  | n :: ns, data =>
    (if data = [] then none else some (data.take n)) :: specServe ns (data.drop n)

end Mixtera
