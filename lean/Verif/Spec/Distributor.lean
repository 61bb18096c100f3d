import Verif.Model.Distributor

/-!
# What a distributor should do

The specification has no cache and forgets nothing: every (group, worker) pair owns a growing list of chunks;
a node that has read all of them makes the list grow by one chunk of the query result.
-/

namespace Mixtera

variable {σ ι C : Type}

structure SDist (σ C : Type) where
  src : σ
  stream : Nat → Nat → List C
  pos : Nat → Nat → Nat → Nat

/-- Update a function at one point. -/
def upd2 {α : Type} (f : Nat → Nat → α) (g w : Nat) (x : α) : Nat → Nat → α :=
  fun g' w' => if g' = g ∧ w' = w then x else f g' w'

def upd3 {α : Type} (f : Nat → Nat → Nat → α) (r : DReq) (x : α) : Nat → Nat → Nat → α :=
  fun g n w => if g = r.group ∧ n = r.node ∧ w = r.worker then x else f g n w

/-- A request to the specification. -/
def SDist.next (S : Source σ ι C) (s : SDist σ C) (r : DReq) : SDist σ C × Ans C :=
  let p := s.pos r.group r.node r.worker
  match (s.stream r.group r.worker)[p]? with
  | some c => ({ s with pos := upd3 s.pos r (p + 1) }, .chunk c)
  | none =>
    match S.fetch s.src with
    | (t, .chunk c) =>
      ({ src := t
         stream := upd2 s.stream r.group r.worker (s.stream r.group r.worker ++ [c])
         pos := upd3 s.pos r (p + 1) }, .chunk c)
    | (t, .stop) => ({ s with src := t }, .stop)
    | (t, .raised e) => ({ s with src := t }, .raised e)

def SDist.op (S : Source σ ι C) (s : SDist σ C) : DOp ι → SDist σ C × Option (DReq × Ans C)
  | .ask r => ((s.next S r).1, some (r, (s.next S r).2))
  | .poke i => ({ s with src := S.poke i s.src }, none)

def SDist.run (S : Source σ ι C) : SDist σ C → List (DOp ι) → SDist σ C × List (DReq × Ans C)
  | s, [] => (s, [])
  | s, o :: os =>
    let (s1, a) := s.op S o
    let (s2, as) := SDist.run S s1 os
    (s2, a.toList ++ as)

/-- Nothing read, nothing fetched. -/
def SDist.init (src : σ) : SDist σ C := { src := src, stream := fun _ _ => [], pos := fun _ _ _ => 0 }

/-- The request names an existing group, node and worker. -/
def DOp.Valid (groups nodes workers : Nat) : DOp ι → Prop
  | .ask r => r.group < groups ∧ r.node < nodes ∧ r.worker < workers
  | .poke _ => True

/-- The chunks that one worker of one node received, in order. -/
def received (as : List (DReq × Ans C)) (r : DReq) : List C :=
  as.filterMap fun (r', a) => if r' = r then (match a with | .chunk c => some c | _ => none) else none

end Mixtera
