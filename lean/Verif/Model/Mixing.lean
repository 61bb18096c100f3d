import Mathlib.Algebra.Order.Field.Basic
import Mathlib.Algebra.BigOperators.Group.List.Basic
import Verif.Model.Utils

/-!
# Dynamic mixing algorithms

Models /repo/mixtera/core/algo/dynamic_mixing/dynamic_mixing.py, /repo/mixtera/core/algo/loss_avg/loss_avg.py and
/repo/mixtera/core/algo/ado/ado.py. A numpy array is a list. Floating-point numbers are the elements of an arbitrary
ordered field `F` (so there are no rounding errors, infinities or NaNs: where numpy would divide by zero the model raises
`zeroDivision`, and the theorems show that this is not reached). Reports can have any length.
-/

namespace Mixtera.Mixing

variable {F : Type} [Field F] [LinearOrder F] [IsStrictOrderedRing F]

/-- `a[:n] += b` for numpy arrays: the shapes must be equal, or `b` has one element, which is added to all. -/
def addPrefix {α : Type} [Add α] (n : Nat) (a b : List α) : Except Err (List α) :=
  if b.length = (a.take n).length then .ok (List.zipWith (· + ·) (a.take n) b ++ a.drop n)
  else match b with
    | [x] => .ok ((a.take n).map (· + x) ++ a.drop n)
    | _ => .error .valueError

/-- `np.concatenate([a, np.zeros(n - len(a))])` if `a` is shorter than `n`. -/
def padTo {α : Type} [Zero α] (n : Nat) (a : List α) : List α := a ++ List.replicate (n - a.length) 0

/-- The accumulators of a `DynamicMixingAlgorithm` and the newest mixture id it has heard of (dynamic_mixing.py:18-26). -/
structure Acc (F : Type) where
  losses : List F
  counts : List Int
  last : Int

/-- `DynamicMixingAlgorithm.__init__` (dynamic_mixing.py:18-26). -/
def Acc.init : Acc F := ⟨[], [], -1⟩

/-- `DynamicMixingAlgorithm._update_state` (dynamic_mixing.py:47-67). The new state and the exception raised, if any: the
losses are added before the counts. -/
def Acc.update (a : Acc F) (losses : List F) (counts : List Int) : Acc F × Option Err :=
  match addPrefix losses.length (padTo losses.length a.losses) losses with
  | .error e => ({ a with losses := padTo losses.length a.losses, counts := padTo losses.length a.counts }, some e)
  | .ok l =>
    match addPrefix losses.length (padTo losses.length a.counts) counts with
    | .error e => ({ a with losses := l, counts := padTo losses.length a.counts }, some e)
    | .ok c => ({ a with losses := l, counts := c }, none)

/-- The first lines of `process_losses` (dynamic_mixing.py:39-42): whether the client has begun to use a newer mixture. -/
def Acc.notice (a : Acc F) (mixtureId : Int) : Acc F × Bool :=
  if mixtureId > a.last then ({ a with last := mixtureId }, true) else (a, false)

/-- `reset_state` (dynamic_mixing.py:69-74). Nothing in the code base calls it. -/
def Acc.reset (a : Acc F) : Acc F := { a with losses := [], counts := [] }

/-! ### Averaging the losses -/

/-- `avg_losses` (loss_avg.py:29-30): zero for domains without counts. -/
def avgLosses (a : Acc F) : List F :=
  List.zipWith (fun l (c : Int) => if c > 0 then l / (c : F) else 0) a.losses a.counts

/-- The mixture before the last normalisation (loss_avg.py:33-41). -/
def rawMixture (a : Acc F) : List F :=
  if (avgLosses a).sum = 0 then
    a.counts.map fun (c : Int) => if c > 0 then 1 / ((a.counts.countP (fun c => decide (c > 0)) : Nat) : F) else 0
  else (avgLosses a).map (· / (avgLosses a).sum)

/-- `SimpleAveragingAlgorithm.calc_mixture` (loss_avg.py:14-48). -/
def averageMixture (a : Acc F) : Option (List F) :=
  if a.counts.any (fun c => decide (c > 0)) then
    if (rawMixture a).sum ≠ 0 then some ((rawMixture a).map (· / (rawMixture a).sum)) else some (rawMixture a)
  else none

/-- `process_losses` of the averaging algorithm (dynamic_mixing.py:28-45). -/
def averageStep (a : Acc F) (losses : List F) (counts : List Int) (mixtureId : Int) :
    Acc F × Except Err (Option (List F)) :=
  match (a.notice mixtureId).1.update losses counts with
  | (a', some e) => (a', .error e)
  | (a', none) => (a', .ok (averageMixture a'))

/-! ### Adaptive data optimization -/

/-- The variants of the algorithm (ado.py:57). -/
inductive Variant | vanilla | v1 | v2 | v3 | unknown
  deriving DecidableEq

/-- The configuration (ado.py:37-52). Logging is not modelled. -/
structure Cfg (F : Type) where
  variant : Variant
  gamma1 : F
  gamma2 : F
  s : F
  deltaMin : F
  interval : Nat
  start : Nat
  sameStep : Bool
  normalizer : Option Int

/-- What the model does not compute: the exponential function, powers and the fitting of the scaling laws
(`fit_scaling_law_for_domain`), which gives `(log_beta, log_epsilon, alpha)` for every domain or raises. -/
structure Ops (F : Type) where
  exp : F → F
  pow : F → F → F
  fit : List (List Int) → List (List F) → Except Err (List (F × F × F))

/-- The state of the algorithm (ado.py:89-113). -/
structure Ado (F : Type) where
  acc : Acc F
  initial : List F
  total : Nat
  lastUpdate : Nat
  h : Option (List F)
  mu : Option (List F)
  pi : Option (List F)
  piBar : Option (List F)
  params : Option (List (F × F × F))
  stepCounts : List (List Int)
  stepLosses : List (List F)
  nextContinue : Option Nat
  handedOut : Bool

/-- A new algorithm, told about the initial mixture by `process_id_map` (ado.py:76-113, dynamic_mixture.py:81). -/
def Ado.init (initial : List F) : Ado F :=
  ⟨Acc.init, initial, 0, 0, none, none, none, none, none, [], [], none, false⟩

/-- Elementwise operation on two arrays; arrays of different shapes raise. (Broadcasting of arrays with one element is
not modelled: it would need a report without any domain.) -/
def elementwise {α β γ : Type} (f : α → β → γ) (a : List α) (b : List β) : Except Err (List γ) :=
  if a.length = b.length then .ok (List.zipWith f a b) else .error .valueError

/-- `v / np.sum(v)`. -/
def normalize (v : List F) : Except Err (List F) :=
  if v.sum = 0 then .error .zeroDivision else .ok (v.map (· / v.sum))

/-- The growth of the domain vectors in `_update_state` (ado.py:605-620). -/
def Ado.grow (a : Ado F) (n : Nat) : Ado F :=
  { a with
    h := a.h.map (· ++ List.replicate n 0), mu := a.mu.map (· ++ List.replicate n 0),
    pi := a.pi.map (· ++ List.replicate n 0), piBar := a.piBar.map (· ++ List.replicate n 0) }

/-- `increment` (ado.py:641-647): the boolean index must have the length of the report. -/
def increment (total counts : List Int) : Except Err (List Int) :=
  if ¬ total.any (fun c => decide (c > 0)) then .error .assertion
  else if total.length ≠ counts.length then .error .indexError
  else .ok (total.map fun c => if c > 0 then counts.sum else 0)

/-- The growth of the recorded losses (ado.py:624-633): by what the counts of the same step lack. -/
def padLosses (n : Nat) (counts : List (List Int)) (losses : List (List F)) : List (List F) :=
  List.zipWith (fun c l => l ++ List.replicate (n - c.length) 0) counts losses ++ losses.drop counts.length

/-- The per-step histories in `_update_state` (ado.py:622-649); the losses are appended before the counts. -/
def Ado.record (cfg : Cfg F) (a : Ado F) (losses : List F) (counts : List Int) : Ado F × Option Err :=
  let a' : Ado F := { a with
    stepCounts := a.stepCounts.map (padTo losses.length)
    stepLosses := padLosses losses.length a.stepCounts a.stepLosses ++
      [List.zipWith (fun l (c : Int) => if c ≠ 0 then l / (c : F) else 0) losses counts] }
  if cfg.sameStep then
    match increment a.acc.counts counts with
    | .error e => (a', some e)
    | .ok inc => ({ a' with stepCounts := a'.stepCounts ++ [inc] }, none)
  else ({ a' with stepCounts := a'.stepCounts ++ [counts] }, none)

/-- `AdoDynamicMixing._update_state` (ado.py:588-649). Counts and losses of different lengths raise, except that one count
for all losses (which numpy accepts) is not modelled here. -/
def Ado.update (cfg : Cfg F) (a : Ado F) (losses : List F) (counts : List Int) : Ado F × Option Err :=
  if counts.length ≠ losses.length then (a, some .valueError)
  else
    let grown := losses.length - a.acc.losses.length
    match a.acc.update losses counts with
    | (acc, some e) => ({ a with acc := acc }, some e)
    | (acc, none) => (({ a with acc := acc } : Ado F).grow grown).record cfg losses counts

/-- Setting `mu_k` (ado.py:219-233): it is set before the assertions. `close` is `np.isclose(1, ·)`. -/
def Ado.setMu (close : F → Bool) (a : Ado F) : Ado F × Option Err :=
  match a.mu with
  | some _ => (a, none)
  | none =>
    let mu := padTo a.acc.counts.length a.initial
    let a' := { a with mu := some mu }
    if a.initial.length > a.acc.counts.length then (a', some .assertion)
    else if ¬ close mu.sum then (a', some .assertion)
    else (a', none)

/-- `np.array(rows)` needs rows of equal lengths. -/
def ragged {α : Type} (rows : List (List α)) : Bool := rows.any fun r => r.length ≠ (rows.headD []).length

/-- `fit_scaling_laws` (ado.py:357-413); `params[k] = ..` for all domains `k`. The parameters are set to zero before. -/
def Ado.fit (ops : Ops F) (a : Ado F) : Ado F × Option Err :=
  let a : Ado F := { a with params := some (List.replicate a.acc.counts.length (0, 0, 0)) }
  if ragged a.stepCounts ∨ ragged a.stepLosses then (a, some .valueError)
  else
    match ops.fit a.stepCounts a.stepLosses with
    | .error e => (a, some e)
    | .ok p => if p.length = a.acc.counts.length then ({ a with params := some p }, none) else (a, some .indexError)

/-- Whether the scaling laws are fitted at this step (ado.py:258-260). -/
def fitDue (cfg : Cfg F) (total : Nat) : Except Err Bool :=
  if total = cfg.start then .ok true
  else if cfg.interval = 0 then .error .zeroDivision
  else .ok (decide ((total - cfg.start) % cfg.interval = 0))

/-- The sum over the steps, `np.sum(counts_over_time, axis=0)` (ado.py:484-485). -/
def sumRows : List (List Int) → List Int
  | [] => []
  | [r] => r
  | r :: rs => List.zipWith (· + ·) r (sumRows rs)

/-- The samples per domain (ado.py:481-488). -/
def Ado.totals (cfg : Cfg F) (a : Ado F) : Except Err (List Int) :=
  if cfg.sameStep then if ragged a.stepCounts then .error .valueError else .ok (sumRows a.stepCounts)
  else .ok a.acc.counts

/-- Division by `count_normalizer` (ado.py:489-490). -/
def scaled (normalizer : Option Int) (n : List Int) : List F :=
  match normalizer with
  | some m => if m > 1 then n.map fun (c : Int) => (c : F) / (m : F) else n.map fun (c : Int) => (c : F)
  | none => n.map fun (c : Int) => (c : F)

/-- `n_k` (ado.py:481-490). -/
def Ado.domainCounts (cfg : Cfg F) (a : Ado F) : Except Err (List F) :=
  match a.totals cfg with
  | .error e => .error e
  | .ok n => .ok (scaled cfg.normalizer n)

/-- One entry of `dL_dn` (ado.py:492-507). -/
def derivative (ops : Ops F) (p : F × F × F) (n : F) : F :=
  if n > 0 then
    -(1 / n) * p.2.2 * ((ops.exp p.2.1 + ops.exp p.1 * ops.pow n (-p.2.2)) - ops.exp p.2.1)
  else 0

/-- `compute_loss_derivative` (ado.py:472-509): the boolean index must have the length of the parameters, which were
fitted for the domains known at that time. -/
def Ado.lossDerivative (cfg : Cfg F) (ops : Ops F) (a : Ado F) : Except Err (List F) := do
  match a.params with
  | none => .error .assertion
  | some ps =>
    let n ← a.domainCounts cfg
    if ps.length ≠ n.length then .error .indexError
    else return List.zipWith (derivative ops) ps n

/-- `compute_rho_t` (ado.py:511-533). -/
def rho (cfg : Cfg F) (ops : Ops F) (domains : Nat) (h mu dL : List F) : Except Err (List F) := do
  let a ← elementwise (· * ·) mu (h.map fun x => ops.pow x cfg.s)
  let b ← elementwise (· * ·) a (dL.map (- ·))
  let num := b.map (max · 0)
  if num.sum > 0 then return num.map (· / num.sum)
  else if domains = 0 then .error .zeroDivision
  else return mu.map (· / (domains : F))

/-- `update_pi_t` (ado.py:535-547). -/
def policy (cfg : Cfg F) (r piBar : List F) : Except Err (List F) := do
  let v ← elementwise (fun x y => cfg.gamma2 * x + (1 - cfg.gamma2) * y) r piBar
  normalize v

/-- `enforce_min_probability` (ado.py:549-583). -/
def enforceMin (cfg : Cfg F) (counts : List Int) (mu pi : List F) : Except Err (List F) := do
  let v ← elementwise (fun (c : Int) p => if c > 0 then max p cfg.deltaMin else p) counts pi
  if v.sum > 0 then return v.map (· / v.sum)
  else if counts.length = 0 then .error .zeroDivision
  else return mu.map (· / (counts.length : F))

/-- `update_h_t` (ado.py:340-357). -/
def Ado.updateH (cfg : Cfg F) (a : Ado F) (elapsed : Nat) (pi h : List F) : Except Err (Ado F) := do
  let g := if cfg.variant = .v2 ∧ elapsed > 1 then 1 - (1 - cfg.gamma1) ^ elapsed else cfg.gamma1
  let h' ← elementwise (fun p x => g * p + (1 - g) * x) pi h
  return { a with h := some h', lastUpdate := a.total }

/-- The choice of the variant (ado.py:306-320). -/
def Ado.credit (cfg : Cfg F) (a : Ado F) (atClient : Bool) (pi h : List F) : Except Err (Ado F) :=
  match cfg.variant with
  | .vanilla | .v3 => a.updateH cfg 1 pi h
  | .v1 => if atClient then a.updateH cfg 1 pi h else .ok a
  | .v2 => if atClient then a.updateH cfg (a.total - a.lastUpdate) pi h else .ok a
  | .unknown => .error .valueError

/-- `update_pi_bar_t` (ado.py:577-586). -/
def average (total : Nat) (r piBar : List F) : Except Err (List F) := do
  let w : F := 1 / ((total : F) + 1)
  let v ← elementwise (fun x y => w * x + (1 - w) * y) r piBar
  normalize v

/-- The computation of the mixture (ado.py:292-338). `h_t` and `mu_k` are set. -/
def Ado.compute (cfg : Cfg F) (ops : Ops F) (a : Ado F) (atClient : Bool) (h mu : List F) :
    Ado F × Except Err (Option (List F)) :=
  match a.lossDerivative cfg ops with
  | .error e => (a, .error e)
  | .ok dL =>
    match rho cfg ops a.acc.counts.length h mu dL with
    | .error e => (a, .error e)
    | .ok r =>
      let bar := a.piBar.getD mu
      let a1 := { a with piBar := some bar }
      match policy cfg r bar with
      | .error e => (a1, .error e)
      | .ok p =>
        let a2 := { a1 with pi := some p }
        match enforceMin cfg a.acc.counts mu p with
        | .error e => (a2, .error e)
        | .ok q =>
          let a3 := { a2 with pi := some q }
          match a3.credit cfg atClient q h with
          | .error e => (a3, .error e)
          | .ok a4 =>
            match average a.total r bar with
            | .error e => (a4, .error e)
            | .ok bar' => ({ a4 with piBar := some bar', handedOut := true }, .ok (some q))

/-- The waiting of `adjusted_v3` (ado.py:266-290): the new state and whether to continue. -/
def Ado.wait (cfg : Cfg F) (a : Ado F) (atClient updatedLaws : Bool) : Ado F × Bool :=
  if cfg.variant = .v3 ∧ a.handedOut then
    let a' := if atClient then { a with nextContinue := some (a.total + 15) } else a
    (a', decide (a'.nextContinue = some a.total) || updatedLaws)
  else (a, true)

/-- `calc_mixture` after the warm-up (ado.py:252-338). -/
def Ado.active (cfg : Cfg F) (ops : Ops F) (a : Ado F) (atClient : Bool) (mu : List F) :
    Ado F × Except Err (Option (List F)) :=
  let h := a.h.getD mu
  let a := { a with h := some h }
  match fitDue cfg a.total with
  | .error e => (a, .error e)
  | .ok due =>
    match (if due then a.fit ops else (a, none)) with
    | (a, some e) => (a, .error e)
    | (a, none) =>
      let w := a.wait cfg atClient due
      if w.2 then w.1.compute cfg ops atClient h mu else (w.1, .ok none)

/-- `calc_mixture` (ado.py:201-338). -/
def Ado.calc (cfg : Cfg F) (ops : Ops F) (close : F → Bool) (a : Ado F) (atClient : Bool) :
    Ado F × Except Err (Option (List F)) :=
  match ({ a with total := a.total + 1 } : Ado F).setMu close with
  | (a, some e) => (a, .error e)
  | (a, none) =>
    if a.total < cfg.start then (a, .ok none)
    else a.active cfg ops atClient (a.mu.getD [])

/-- `process_losses` (dynamic_mixing.py:28-45). -/
def Ado.step (cfg : Cfg F) (ops : Ops F) (close : F → Bool) (a : Ado F) (losses : List F) (counts : List Int)
    (mixtureId : Int) : Ado F × Except Err (Option (List F)) :=
  let n := a.acc.notice mixtureId
  match ({ a with acc := n.1 } : Ado F).update cfg losses counts with
  | (a, some e) => (a, .error e)
  | (a, none) => a.calc cfg ops close n.2

end Mixtera.Mixing
