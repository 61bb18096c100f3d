import Verif.Model.Mixture
import Verif.Model.Mixing

/-!
# The feedback of the training

From the call that a training loop makes after a step (/repo/mixtera/utils/feedback.py:10-41) through `process_feedback`
(/repo/mixtera/core/client/local/local_stub.py:214-224) to the mixture and its algorithm
(/repo/mixtera/core/query/mixture/mixture.py:60-79, dynamic_mixture.py:63-104,
/repo/mixtera/core/algo/dynamic_mixing/dynamic_mixing.py:28-45), as one machine: the mixture together with its algorithm.
Numbers are rational (C89 is about rounding).
-/

namespace Mixtera.Mixing

variable {K A : Type} [DecidableEq K]

/-- `ClientFeedback` (/repo/mixtera/network/client/client_feedback.py:6-11). -/
structure ClientFb where
  steps : Int
  mixtureId : Int
  losses : Option (List ℚ)
  counts : Option (List Int)

/-- What a `DynamicMixture` needs of its algorithm: `process_losses` (dynamic_mixing.py:28-45) and the assignment to
`initial_mixture` (dynamic_mixture.py:81). An exception comes with the state it leaves behind. -/
structure MixAlg (A : Type) where
  process : A → List ℚ → List Int → Int → A × Except Err (Option (List ℚ))
  tell : A → List ℚ → A

/-- A `DynamicMixture` with its algorithm (dynamic_mixture.py:30-42) and `current_step` (mixture.py:24). -/
structure Live (K A : Type) where
  dyn : Dyn K
  alg : A
  step : Int

/-- `DynamicMixture._process_losses` (dynamic_mixture.py:87-104). -/
def Live.processLosses (P : MixAlg A) (s : Live K A) (losses : List ℚ) (counts : List Int) (mixtureId : Int) : Live K A × Option Err :=
  if s.dyn.ids.isNone ∨ ¬ s.dyn.informed ∨ mixtureId < 0 then (s, some .assertion)
  else
    match (P.process s.alg losses counts mixtureId).2 with
    | .error e => ({ s with alg := (P.process s.alg losses counts mixtureId).1 }, some e)
    | .ok out =>
      ({ s with alg := (P.process s.alg losses counts mixtureId).1, dyn := (s.dyn.processLosses mixtureId out).1 },
        (s.dyn.processLosses mixtureId out).2)

/-- `process_client_feedback` (mixture.py:60-79). -/
def Live.feedback (P : MixAlg A) (s : Live K A) (fb : ClientFb) : Live K A × Option Err :=
  match fb.counts, fb.losses with
  | some c, some l => Live.processLosses P { s with step := max s.step fb.steps } l c fb.mixtureId
  | _, _ => ({ s with step := max s.step fb.steps }, none)

/-- `process_id_map` (dynamic_mixture.py:63-85): the algorithm is told when the mixture becomes informed. -/
def Live.idMap (P : MixAlg A) (s : Live K A) (ids : Dict K Nat) : Live K A × Option Err :=
  ({ s with
      dyn := (s.dyn.processIdMap ids).1
      alg := if s.dyn.informed = false ∧ (s.dyn.processIdMap ids).1.informed = true then P.tell s.alg (s.dyn.processIdMap ids).1.told
        else s.alg },
    (s.dyn.processIdMap ids).2)

/-- A call of `handle_mixtera_feedback` (feedback.py:10-41) by one rank. `attached` is whether a Mixtera data set was found behind
the data loader, `current` is `current_mixture_id` of its client (C59). -/
structure FbCall where
  dpRank : Nat
  tpRank : Nat
  attached : Bool
  current : Option Int
  steps : Int
  losses : Option (List ℚ)
  counts : Option (List Int)

/-- `handle_mixtera_feedback` (feedback.py:10-41), for a job that the client knows (local_stub.py:215-217 otherwise only logs). The
lock (line 219) makes a call one step. -/
def handleFeedback (P : MixAlg A) (s : Live K A) (c : FbCall) : Live K A × Option Err :=
  if c.steps < 0 then (s, some .assertion)
  else if c.dpRank ≠ 0 ∨ c.tpRank ≠ 0 then (s, none)
  else if c.attached = false then (s, none)
  else
    match c.current with
    | none => (s, some .assertion)
    | some m => s.feedback P ⟨c.steps, m, c.losses, c.counts⟩

/-- What happens to the mixture of a job: calls of the ranks, and the query result telling it about key ids and the index
(/repo/mixtera/core/query/query_result.py:94-114, 265-276). -/
inductive FbEv (K : Type)
  | call (c : FbCall)
  | idMap (ids : Dict K Nat)
  | index (index : Dict K Entries)

/-- One event (the lines cited at the operations). -/
def Live.on (P : MixAlg A) (s : Live K A) : FbEv K → Live K A × Option Err
  | .call c => handleFeedback P s c
  | .idMap ids => s.idMap P ids
  | .index i => ({ s with dyn := (s.dyn.processIndex i).1 }, (s.dyn.processIndex i).2)

/-- A history; an exception does not end it. -/
def Live.run (P : MixAlg A) (s : Live K A) (es : List (FbEv K)) : Live K A := es.foldl (fun s e => (s.on P e).1) s

/-- `SimpleAveragingAlgorithm` (/repo/mixtera/core/algo/loss_avg/loss_avg.py:7-48) as the algorithm. -/
def averaging : MixAlg (Acc ℚ) := ⟨averageStep, fun a _ => a⟩

/-- `AdoDynamicMixing` (/repo/mixtera/core/algo/ado/ado.py:30-649) as the algorithm. -/
def ado (cfg : Cfg ℚ) (ops : Ops ℚ) (close : ℚ → Bool) : MixAlg (Ado ℚ) :=
  ⟨Ado.step cfg ops close, fun a w => { a with initial := w }⟩

end Mixtera.Mixing
