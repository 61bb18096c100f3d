import Verif.Model.Feedback
import Verif.Model.Session

/-!
# A query result with a dynamic mixture

The machine of the feedback (Model/Feedback.lean) and the query result (Model/Session.lean) as one: the query result holds the mixture
object (/repo/mixtera/core/query/query_result.py:68), feedback changes it in place (/repo/mixtera/core/client/local/local_stub.py:213-224),
and the generator reads it at the next request (query_result.py:321).
-/

namespace Mixtera.Mixing

variable {K A : Type} [DecidableEq K]

/-- What the chunk generator reads of a dynamic mixture (query_result.py:321-322, 489;
/repo/mixtera/core/query/mixture/dynamic_mixture.py:30-42, 56-57). -/
def Live.view (s : Live K A) : MixView K := ⟨s.dyn.cur.rows, s.dyn.strict, s.dyn.chunk⟩

/-- A query result whose mixture is dynamic; the mixture object is object 0 of the heap of `sess`. -/
structure DQ (K A : Type) where
  live : Live K A
  sess : Sess K

/-- The constructor (query_result.py:36-92): the mixture is given the index and then the key ids. -/
def DQ.create (ops : KeyOps K) (P : MixAlg A) (index : Dict K Entries) (order : List K) (stopOnNone : Bool) (s : Live K A) :
    Except Err (DQ K A) :=
  match s.on P (.index index) with
  | (_, some e) => .error e
  | (s1, none) =>
    match s1.idMap P (Sess.fresh ops index order stopOnNone 0 s1.view).keyIds with
    | (_, some e) => .error e
    | (s2, none) => .ok ⟨s2, Sess.fresh ops index order stopOnNone 0 s1.view⟩

/-- A call of the training loop, or a request for a chunk. -/
inductive DEv
  | call (c : FbCall)
  | next

/-- One event. A call changes the mixture object (local_stub.py:213-224). A request is answered by the generator, which passes the key
ids on if it has added any (query_result.py:94-114, 348); simplification: this comes after the request here, and an exception from it is
lost - it cannot occur, since `process_id_map` of a mixture that knows its key ids raises nothing (dynamic_mixture.py:63-71). -/
def DQ.on (ops : KeyOps K) (fuel : Nat) (P : MixAlg A) (q : DQ K A) : DEv → DQ K A × Option (Out K)
  | .call c => (⟨(q.live.on P (.call c)).1, q.sess.feedback (q.live.on P (.call c)).1.view⟩, none)
  | .next =>
    let r := q.sess.next ops fuel
    (⟨if r.1.keyIds = q.sess.keyIds then q.live else (q.live.idMap P r.1.keyIds).1, r.1⟩, some r.2)

/-- A history; an exception does not end it. -/
def DQ.run (ops : KeyOps K) (fuel : Nat) (P : MixAlg A) (q : DQ K A) (es : List DEv) : DQ K A :=
  es.foldl (fun q e => (q.on ops fuel P e).1) q

end Mixtera.Mixing
