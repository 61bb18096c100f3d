import Verif.Model.Mixing
import Mathlib.Analysis.SpecialFunctions.Log.Basic

/-! # Fitting ADO's scaling laws (ado.py:357-470, 648-815)

The optimiser (`scipy.optimize.minimize`) and the Savitzky-Golay filter are parameters. The worker processes share the table of
losses and fill gaps in it in place; this is modelled with arbitrary interleavings. -/

namespace Mixtera.Mixing

/-- The options of the fit (ado.py:42-52). -/
structure FitCfg where
  sameStep : Bool
  ignoreInitial : Int
  savgol : Bool
  subsampling : Nat
  normalizer : Option Int

/-- What `minimize` returns; `value` is `none` for an infinite or undefined value. -/
structure Minimum (F : Type) where
  success : Bool
  value : Option F
  point : F × F × F

/-- The library functions: `savgol_filter(·, window_length, polyorder=3)` (ado.py:709) and `minimize` (ado.py:771-777), which
calls `scaling_law_loss` and raises what that raises. -/
structure Scipy (F : Type) where
  smooth : Nat → List F → List F
  minimize : List F → List F → F × F × F → Except Err (Minimum F)

/-- A data point: samples so far, loss, number of the step. -/
structure Point (F : Type) where
  samples : Int
  loss : F
  step : Nat
deriving DecidableEq

variable {F : Type} [Field F] [LinearOrder F]

/-- `table[:, k]` (ado.py:676-677); all rows have an entry for the domain. -/
def column {α : Type} (d : α) (k : Nat) (rows : List (List α)) : List α := rows.map fun r => (r[k]?).getD d

/-- `np.cumsum` (ado.py:681), continued from `total`. -/
def cumsum (total : Int) : List Int → List Int
  | [] => []
  | c :: cs => (total + c) :: cumsum (total + c) cs

/-- The rest of the loop that fills gaps (ado.py:692-694), after an entry `prev`. -/
def fillFrom (prev : F) : List F → List F
  | [] => []
  | l :: ls => (if l = 0 then prev else l) :: fillFrom (if l = 0 then prev else l) ls

/-- The loop that fills gaps (ado.py:692-694). -/
def fill : List F → List F
  | [] => []
  | l :: ls => l :: fillFrom l ls

/-- The time series of a domain (ado.py:676-682). -/
def series (counts : List Int) (losses : List F) : List (Point F) :=
  (List.zip (cumsum 0 counts) losses).mapIdx fun i p => ⟨p.1, p.2, i⟩

/-- Without a common step size only points with a loss are kept (ado.py:695-701). -/
def withLoss (cfg : FitCfg) (l : List (Point F)) : List (Point F) :=
  if cfg.sameStep then l else l.filter fun p => decide (p.loss > 0)

/-- `window_length` (ado.py:704-708); it is irrelevant below 4. -/
def windowLength (n : Nat) : Nat := if min 101 n % 2 = 0 then min 101 n - 1 else min 101 n

/-- The filter (ado.py:703-713). -/
def smoothed (cfg : FitCfg) (sp : Scipy F) (l : List (Point F)) : List (Point F) :=
  if cfg.savgol = true ∧ windowLength l.length > 3 then
    List.zipWith (fun p y => { p with loss := y }) l (sp.smooth (windowLength l.length) (l.map Point.loss))
  else l

/-- `l[::n]` (ado.py:733-737). -/
def everyNth {α : Type} (n : Nat) (l : List α) : List α :=
  if n > 1 then (l.zipIdx.filter fun p => decide (p.2 % n = 0)).map Prod.fst else l

/-- The points the law is fitted to (ado.py:715-737): those with samples, after the ignored steps, subsampled. -/
def selected (cfg : FitCfg) (l : List (Point F)) : List (Point F) :=
  everyNth cfg.subsampling
    ((l.filter fun p => decide (p.samples > 0)).filter fun p => decide ((p.step : Int) > cfg.ignoreInitial))

/-- From the columns of the tables, with gaps filled, to the points (ado.py:676-737). -/
def fitPoints (cfg : FitCfg) (sp : Scipy F) (counts : List Int) (losses : List F) : List (Point F) :=
  selected cfg (smoothed cfg sp (withLoss cfg (series counts losses)))

/-- The grid of initial guesses (ado.py:756-769). -/
def grid : List (F × F × F) :=
  (List.range 8).flatMap fun (a : Nat) => (List.range 8).flatMap fun (b : Nat) =>
    ([-2, -3 / 2, -1, -1 / 2, 1, 3 / 2] : List F).map fun e => ((b : F) - 2, e, (a : F) / 10)

/-- `if result.success and result.fun < best_loss` (ado.py:779-782); nothing is below an undefined value. -/
def better (best : Option (F × F × F × F)) (r : Minimum F) : Option (F × F × F × F) :=
  match r.success, r.value with
  | true, some v => match best with
    | none => some (v, r.point)
    | some b => if v < b.1 then some (v, r.point) else some b
  | _, _ => best

/-- The loop over the grid (ado.py:771-782). -/
def searchGrid (sp : Scipy F) (x y : List F) : List (F × F × F) → Option (F × F × F × F) → Except Err (Option (F × F × F × F))
  | [], best => .ok best
  | g :: gs, best => match sp.minimize x y g with
    | .error e => .error e
    | .ok r => searchGrid sp x y gs (better best r)

/-- `fit_scaling_law_for_domain` after the gaps have been filled (ado.py:703-815): `(-1, -1, -1)` if there is no data. -/
def fitColumn (cfg : FitCfg) (sp : Scipy F) (counts : List Int) (losses : List F) : Except Err (F × F × F) :=
  if fitPoints cfg sp counts losses = [] then .ok (-1, -1, -1)
  else
    match searchGrid sp (scaled cfg.normalizer ((fitPoints cfg sp counts losses).map Point.samples))
        ((fitPoints cfg sp counts losses).map Point.loss) grid none with
    | .error e => .error e
    | .ok none => .error .runtimeError
    | .ok (some b) => .ok b.2

/-- `fit_scaling_law_for_domain` when no other process runs (ado.py:648-815). -/
def fitDomain (cfg : FitCfg) (sp : Scipy F) (counts : List (List Int)) (losses : List (List F)) (k : Nat) :
    Except Err (F × F × F) :=
  fitColumn cfg sp (column 0 k counts) (if cfg.sameStep then fill (column 0 k losses) else column 0 k losses)

/-- All domains one after the other (ado.py:388-417), as many as the rows have entries; of several exceptions that of the
first domain is raised. -/
def fitAll (cfg : FitCfg) (sp : Scipy F) (counts : List (List Int)) (losses : List (List F)) :
    Except Err (List (F × F × F)) :=
  (List.range (counts.headD []).length).mapM fun k => fitDomain cfg sp counts losses k

/-! ### The worker processes -/

/-- The progress of one domain: waiting, about to fill the gap at step `t` of its column, or done. -/
inductive Task (F : Type)
  | waiting
  | filling (t : Nat)
  | done (r : Except Err (F × F × F))

/-- The shared table of losses (entry of step `t` for domain `k`; the shared table of counts is never written to) and the
progress of all domains. -/
structure Shared (F : Type) where
  losses : Nat → Nat → F
  task : Nat → Task F

/-- The copy of the losses in shared memory before the pool starts (ado.py:374-386). -/
def Shared.init (losses : List (List F)) : Shared F := ⟨fun t k => (column 0 k losses)[t]?.getD 0, fun _ => .waiting⟩

/-- The next step of the process that works on domain `k` (ado.py:668-815), `steps` being the number of rows: the gaps are
filled in shared memory one entry at a time, then the column is read. -/
def Shared.work (cfg : FitCfg) (sp : Scipy F) (counts : List (List Int)) (steps : Nat) (s : Shared F) (k : Nat) : Shared F :=
  match s.task k with
  | .waiting => ⟨s.losses, Function.update s.task k (.filling (if cfg.sameStep then 1 else steps))⟩
  | .filling t =>
    if t < steps then
      ⟨fun t' k' => if t' = t ∧ k' = k ∧ s.losses t k = 0 then s.losses (t - 1) k else s.losses t' k',
        Function.update s.task k (.filling (t + 1))⟩
    else
      ⟨s.losses, Function.update s.task k
        (.done (fitColumn cfg sp (column 0 k counts) ((List.range steps).map fun t => s.losses t k)))⟩
  | .done _ => s

/-- A schedule of the pool: the domains whose processes make a step. -/
def Shared.run (cfg : FitCfg) (sp : Scipy F) (counts : List (List Int)) (steps : Nat) (s : Shared F) : List Nat → Shared F
  | [] => s
  | k :: ks => Shared.run cfg sp counts steps (s.work cfg sp counts steps k) ks

/-! ### The loss of a law -/

/-- `logsumexp([a, b])` (ado.py:436). -/
noncomputable def logsumexp (a b : ℝ) : ℝ := Real.log (Real.exp a + Real.exp b)

/-- One entry of `squared_loss` (ado.py:457-459). -/
noncomputable def huber (d : ℝ) : ℝ :=
  if |d| ≤ 1 / 1000 then 1 / 2 * |d| ^ 2 else 1 / 1000 * (|d| - 1 / 2 * (1 / 1000))

/-- `penalty` (ado.py:461-465). -/
noncomputable def penalty (p : ℝ × ℝ × ℝ) : ℝ :=
  max 0 (p.2.2 - 8 / 10) * 1000 + max 0 (1 / 1000 - p.2.2) * 1000 + max 0 (p.1 - 65 / 10) * 1000 + max 0 (5 / 10 - p.2.1) * 1000

/-- `scaling_law_loss` (ado.py:426-468) for finite parameters, positive counts and positive losses, where no intermediate
value is undefined. `p = (log_beta, log_epsilon, alpha)`. -/
noncomputable def lawLoss (p : ℝ × ℝ × ℝ) (x y : List ℝ) : ℝ :=
  (List.zipWith (fun a b => huber (logsumexp (p.1 - p.2.2 * Real.log a) p.2.1 - Real.log b)) x y).sum / x.length + penalty p

end Mixtera.Mixing
