import Verif.Model.Float64
import Verif.Model.Mixing

/-!
# The averaging algorithm in single precision

`DynamicMixingAlgorithm` keeps the losses in an array of dtype `float32` (/repo/mixtera/core/algo/dynamic_mixing/dynamic_mixing.py:22-25,
47-67), and so does `SimpleAveragingAlgorithm` with averages and weights (/repo/mixtera/core/algo/loss_avg/loss_avg.py:15-48).  Here every
operation rounds as numpy does.  Not modelled: overflow of floats and of `int64`, infinities and NaN.
-/

namespace Mixtera.F32

open F64 (roundEven fl)

/-- The nearest number with `p + 1` significant bits and last place at least `2 ^ emin` (IEEE 754, section 4.3.1). -/
def flp (p : Nat) (emin : Int) (x : ℚ) : ℚ :=
  if x = 0 then 0 else roundEven (x / 2 ^ max (Int.log 2 |x| - p) emin) * 2 ^ max (Int.log 2 |x| - p) emin

/-- The binary32 number nearest to `x`. -/
def fl32 (x : ℚ) : ℚ := flp 23 (-149) x

/-- `a += x` for a `float32` element `a` and an incoming `float32` or, if `double`, `float64` element: numpy adds in `float64` then, and
casts the result (dynamic_mixing.py:66). -/
def add (double : Bool) (a x : ℚ) : ℚ := if double then fl32 (fl (a + x)) else fl32 (a + x)

/-- `old[:len(incoming)] += incoming` after `old` has been extended with zeros (dynamic_mixing.py:57-67). -/
def addAll {α : Type} (f : α → α → α) (zero : α) : List α → List α → List α
  | as, [] => as
  | [], x :: xs => f zero x :: addAll f zero [] xs
  | a :: as, x :: xs => f a x :: addAll f zero as xs

/-- A report of losses and counts per domain; simplification: as many losses as counts (C49 has the others, which raise). -/
structure Report where
  double : Bool
  losses : List ℚ
  counts : List Int

/-- The accumulators (dynamic_mixing.py:22-23). -/
structure State where
  losses : List ℚ
  counts : List Int
deriving DecidableEq

/-- `_update_state` (dynamic_mixing.py:47-67). -/
def State.update (s : State) (r : Report) : State :=
  ⟨addAll (add r.double) 0 s.losses r.losses, addAll (· + ·) 0 s.counts r.counts⟩

/-- The accumulators after some reports (dynamic_mixing.py:18-26, 44). -/
def State.after (rs : List Report) : State := rs.foldl State.update ⟨[], []⟩

/-- `self.losses[mask] / self.counts[mask]`, a `float64` array assigned to a `float32` one (loss_avg.py:29-30). -/
def average (l : ℚ) (c : Int) : ℚ := fl32 (fl (l / fl c))

/-- `avg_losses[mask]` (loss_avg.py:31). -/
def State.masked (s : State) : List ℚ := (s.losses.zip s.counts).filterMap fun lc => if lc.2 > 0 then some (average lc.1 lc.2) else none

/-- The mixture before the last normalisation (loss_avg.py:31-41); `np.sum(mask)` counts the domains with samples. -/
def State.raw (npSum : List ℚ → ℚ) (s : State) : List ℚ :=
  if npSum s.masked = 0 then
    (s.losses.zip s.counts).map fun lc => if lc.2 > 0 then fl32 (fl (1 / fl s.masked.length)) else 0
  else (s.losses.zip s.counts).map fun lc => if lc.2 > 0 then fl32 (average lc.1 lc.2 / npSum s.masked) else 0

/-- `calc_mixture` (loss_avg.py:15-48); `npSum` is `np.sum` of a `float32` array. -/
def State.mixture (npSum : List ℚ → ℚ) (s : State) : Option (List ℚ) :=
  if s.counts.any (fun c => decide (c > 0)) then
    if npSum (s.raw npSum) ≠ 0 then some ((s.raw npSum).map fun x => fl32 (x / npSum (s.raw npSum))) else some (s.raw npSum)
  else none

/-- `np.sum` as a loop of additions from the left. -/
def loopSum (l : List ℚ) : ℚ := l.foldl (fun a x => fl32 (a + x)) 0

end Mixtera.F32
