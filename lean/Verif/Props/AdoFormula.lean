import Verif.Props.AdoHistory
import Mathlib.Analysis.SpecialFunctions.Pow.Deriv
import Mathlib.Tactic.IntervalCases

/-! # C74: which mixture ADO returns (ado.py:201-357, 470-586) -/

set_option linter.unusedSectionVars false

namespace Mixtera.Mixing

variable {F : Type} [Field F] [LinearOrder F] [IsStrictOrderedRing F]

/-! ### Specification

Vectors over the domains are functions of the number of the domain; `n` is the number of domains. -/

/-- Specification: a vector scaled to sum one. -/
def share (n : Nat) (v : Nat → F) (k : Nat) : F := v k / ∑ j ∈ Finset.range n, v j

/-- Specification: a weighted mean of two vectors. -/
def blend (g : F) (u v : Nat → F) (k : Nat) : F := g * u k + (1 - g) * v k

/-- Specification: the size of domain `k` so far: the samples of all steps, in units of `count_normalizer`. -/
def sizeOf (cfg : Cfg F) (reports : List (Report F)) (k : Nat) : F :=
  ((∑ i ∈ Finset.range reports.length, stepSamples cfg reports i k : Int) : F) /
    (match cfg.normalizer with
      | some m => if 1 < m then (m : F) else 1
      | none => 1)

/-- Specification: the number of reports that the scaling laws in force after `t` reports were fitted to. -/
def fittedTo (cfg : Cfg F) (t : Nat) : Nat := cfg.start + (t - cfg.start) / cfg.interval * cfg.interval

/-- Specification: the scaling laws fitted to some reports about `n` domains. -/
def lawsOf (cfg : Cfg F) (ops : Ops F) (n : Nat) (reports : List (Report F)) : List (F × F × F) :=
  match ops.fit
      ((List.range reports.length).map fun i => (List.range n).map fun k => stepSamples cfg reports i k)
      (reports.map fun x => (List.range n).map fun k => x.lossPerSample k) with
  | .ok p => p
  | .error _ => []

/-- Specification: the slope of the scaling law `exp ε + exp β * x ^ (-α)` at `x`, where `p = (β, ε, α)`; none at size
zero. For real numbers this is the derivative, see `c74_slope`. -/
def slope (ops : Ops F) (p : F × F × F) (x : F) : F :=
  if 0 < x then -(p.2.2 * (ops.exp p.1 * ops.pow x (-p.2.2)) / x) else 0

/-- Specification: how much is to be gained from domain `k`: its prior probability, times a power of its credit, times how
fast its loss falls. -/
def gain (cfg : Cfg F) (ops : Ops F) (prior credit slopes : Nat → F) (k : Nat) : F :=
  max 0 (prior k * ops.pow (credit k) cfg.s * -slopes k)

/-- Specification: the preference: proportional to the gains, if there are any. -/
def preference (cfg : Cfg F) (ops : Ops F) (n : Nat) (prior credit slopes : Nat → F) (k : Nat) : F :=
  if 0 < ∑ j ∈ Finset.range n, gain cfg ops prior credit slopes j then share n (gain cfg ops prior credit slopes) k
  else prior k / n

/-- Specification: what ADO remembers: the credit of every domain, the average preference, and the number of the report
after which the credit was changed last. -/
structure Memory (F : Type) where
  credit : Nat → F
  usual : Nat → F
  last : Nat

/-- Specification: the slopes of all domains after some reports. -/
def slopesAt (cfg : Cfg F) (ops : Ops F) (n : Nat) (reports : List (Report F)) (k : Nat) : F :=
  slope ops (((lawsOf cfg ops n (reports.take (fittedTo cfg reports.length)))[k]?).getD (0, 0, 0)) (sizeOf cfg reports k)

/-- Specification: the preference after some reports. -/
def preferenceAt (cfg : Cfg F) (ops : Ops F) (n : Nat) (prior : Nat → F) (reports : List (Report F)) (m : Memory F) :
    Nat → F := preference cfg ops n prior m.credit (slopesAt cfg ops n reports)

/-- Specification: the mixture after some reports: preference and average preference are mixed, the probabilities of domains
with samples are raised to the minimum, and the result is scaled to sum one. -/
def mixtureAt (cfg : Cfg F) (ops : Ops F) (n : Nat) (prior : Nat → F) (reports : List (Report F)) (m : Memory F) : Nat → F :=
  let policy := share n (blend cfg.gamma2 (preferenceAt cfg ops n prior reports m) m.usual)
  share n fun k => if 0 < samplesOf reports k then max (policy k) cfg.deltaMin else policy k

/-- Specification: the weight of the mixture in the new credit, if there is one: in the variants `adjusted_v1` and
`adjusted_v2` only if the last report was made with a newer mixture than all before; `adjusted_v2` makes up for the steps
since the last change. -/
def creditWeight (cfg : Cfg F) (newer : Bool) (elapsed : Nat) : Option F :=
  match cfg.variant with
  | .v1 => if newer then some cfg.gamma1 else none
  | .v2 => if newer then some (1 - (1 - cfg.gamma1) ^ elapsed) else none
  | _ => some cfg.gamma1

/-- Specification: the last report was made with a newer mixture than all before. -/
def LastNewer (reports : List (Report F)) : Prop :=
  ∃ r, reports.getLast? = some r ∧ ∀ x ∈ reports.dropLast, x.mixtureId < r.mixtureId

/-- Specification: whether the last of the reports is answered with a mixture. After the warm-up every report is, except in
the variant `adjusted_v3`: there only those at which the scaling laws were fitted anew, and those exactly 15 after a report
with a newer mixture (made after the first answer) if none with a still newer one was made since. -/
def Answers (cfg : Cfg F) (reports : List (Report F)) : Prop :=
  cfg.start ≤ reports.length ∧ (cfg.variant = .v3 → FitStep cfg reports.length ∨
    (cfg.start + 15 < reports.length ∧ LastNewer (reports.take (reports.length - 15)) ∧
      ∀ s, reports.length - 15 < s → s ≤ reports.length → ¬ LastNewer (reports.take s)))

open Classical in
/-- Specification: what is remembered after a mixture was computed. -/
noncomputable def remember (cfg : Cfg F) (ops : Ops F) (n : Nat) (prior : Nat → F) (reports : List (Report F)) (m : Memory F) :
    Memory F :=
  let usual := share n (blend (1 / ((reports.length : F) + 1)) (preferenceAt cfg ops n prior reports m) m.usual)
  match creditWeight cfg (decide (LastNewer reports)) (reports.length - m.last) with
  | some g => ⟨blend g (mixtureAt cfg ops n prior reports m) m.credit, usual, reports.length⟩
  | none => ⟨m.credit, usual, m.last⟩

open Classical in
/-- Specification: what is remembered after `t` of the reports: nothing but the prior during the warm-up; it changes with
every answer. -/
noncomputable def memoryAfter (cfg : Cfg F) (ops : Ops F) (n : Nat) (prior : Nat → F) (reports : List (Report F)) :
    Nat → Memory F
  | 0 => ⟨prior, prior, 0⟩
  | t + 1 =>
    if Answers cfg (reports.take (t + 1)) then
      remember cfg ops n prior (reports.take (t + 1)) (memoryAfter cfg ops n prior reports t)
    else memoryAfter cfg ops n prior reports t

/-! ### Rows -/

theorem zipWith_row {α β γ : Type} (f : α → β → γ) (n : Nat) (u : Nat → α) (v : Nat → β) :
    List.zipWith f (tableRow n u) (tableRow n v) = tableRow n fun k => f (u k) (v k) := by
  unfold tableRow
  induction n with
  | zero => rfl
  | succ n ih => rw [List.range_succ, List.map_append, List.map_append, List.zipWith_append (by simp), ih, List.map_append]; rfl

theorem map_row {α β : Type} (f : α → β) (n : Nat) (u : Nat → α) : (tableRow n u).map f = tableRow n fun k => f (u k) := by
  unfold tableRow; rw [List.map_map]; rfl

theorem sum_row {α : Type} [AddCommMonoid α] (n : Nat) (u : Nat → α) : (tableRow n u).sum = ∑ k ∈ Finset.range n, u k := by
  unfold tableRow
  induction n with
  | zero => rfl
  | succ n ih => rw [List.range_succ, List.map_append, List.sum_append, ih, Finset.sum_range_succ]; simp

theorem length_row {α : Type} (n : Nat) (u : Nat → α) : (tableRow n u).length = n := by simp [tableRow]

theorem elementwise_row {α β γ : Type} (f : α → β → γ) (n : Nat) (u : Nat → α) (v : Nat → β) :
    elementwise f (tableRow n u) (tableRow n v) = .ok (tableRow n fun k => f (u k) (v k)) := by
  rw [elementwise_of f (by rw [length_row, length_row]), zipWith_row]

theorem row_congr {α : Type} {n : Nat} {u v : Nat → α} (h : ∀ k, k < n → u k = v k) : tableRow n u = tableRow n v :=
  List.map_congr_left fun k hk => h k (List.mem_range.1 hk)

theorem row_of {α : Type} {n : Nat} (l : List α) (d : α) (h : l.length = n) : l = tableRow n fun k => (l[k]?).getD d := by
  apply List.ext_getElem
  · rw [length_row, h]
  · intro k h1 h2
    simp [tableRow, List.getElem?_eq_getElem h1]

theorem normalize_row {n : Nat} {u : Nat → F} {p : List F} (h : normalize (tableRow n u) = .ok p) : p = tableRow n (share n u) := by
  unfold normalize at h
  split at h
  · cases h
  · injection h with h
    rw [← h, map_row, sum_row]; rfl

/-! ### One computation -/

theorem derivative_eq (ops : Ops F) (p : F × F × F) (x : F) : derivative ops p x = slope ops p x := by
  unfold derivative slope
  by_cases h : 0 < x
  · rw [if_pos h, if_pos h]
    field_simp
    ring
  · rw [if_neg h, if_neg h]

theorem rho_row (cfg : Cfg F) (ops : Ops F) {n : Nat} (hn : n ≠ 0) (credit prior slopes : Nat → F) :
    rho cfg ops n (tableRow n credit) (tableRow n prior) (tableRow n slopes) =
      .ok (tableRow n (preference cfg ops n prior credit slopes)) := by
  have hg : (fun k => max (prior k * ops.pow (credit k) cfg.s * -slopes k) 0) = gain cfg ops prior credit slopes := by
    funext k; unfold gain; rw [max_comm]
  unfold rho
  rw [map_row, elementwise_row]
  simp only [bind, Except.bind, pure, Except.pure]
  rw [map_row, elementwise_row]
  simp only
  rw [map_row, hg, sum_row]
  unfold preference
  split
  · rw [map_row]; rfl
  · rw [map_row]

theorem policy_row {cfg : Cfg F} {n : Nat} {r bar : Nat → F} {p : List F} (h : policy cfg (tableRow n r) (tableRow n bar) = .ok p) :
    p = tableRow n (share n (blend cfg.gamma2 r bar)) := by
  unfold policy at h
  rw [elementwise_row] at h
  exact normalize_row h

theorem average_row {t n : Nat} {r bar : Nat → F} {p : List F} (h : average t (tableRow n r) (tableRow n bar) = .ok p) :
    p = tableRow n (share n (blend (1 / ((t : F) + 1)) r bar)) := by
  unfold average at h
  simp only [bind, Except.bind] at h
  rw [elementwise_row] at h
  exact normalize_row h

theorem enforceMin_row {cfg : Cfg F} {n : Nat} {counts : Nat → Int} {mu p : Nat → F} {q : List F}
    (hpos : 0 < ∑ k ∈ Finset.range n, if 0 < counts k then max (p k) cfg.deltaMin else p k)
    (h : enforceMin cfg (tableRow n counts) (tableRow n mu) (tableRow n p) = .ok q) :
    q = tableRow n (share n fun k => if 0 < counts k then max (p k) cfg.deltaMin else p k) := by
  unfold enforceMin at h
  rw [elementwise_row] at h
  simp only [bind, Except.bind, pure, Except.pure] at h
  rw [sum_row] at h
  rw [if_pos hpos] at h
  injection h with h
  rw [← h, map_row]; rfl

theorem updateH_row {cfg : Cfg F} {a a' : Ado F} {n e : Nat} {p h : Nat → F}
    (hok : a.updateH cfg e (tableRow n p) (tableRow n h) = .ok a') :
    a' = { a with h := some (tableRow n (blend (if cfg.variant = .v2 ∧ e > 1 then 1 - (1 - cfg.gamma1) ^ e else cfg.gamma1) p h)),
                  lastUpdate := a.total } := by
  unfold Ado.updateH at hok
  simp only [bind, Except.bind, pure, Except.pure] at hok
  rw [elementwise_row] at hok
  injection hok with hok
  rw [← hok]; rfl

theorem credit_row {cfg : Cfg F} {a a' : Ado F} {n : Nat} {b : Bool} {p h : Nat → F} (hlast : a.lastUpdate < a.total)
    (hok : a.credit cfg b (tableRow n p) (tableRow n h) = .ok a') :
    match creditWeight cfg b (a.total - a.lastUpdate) with
    | some g => a'.h = some (tableRow n (blend g p h)) ∧ a'.lastUpdate = a.total
    | none => a'.h = a.h ∧ a'.lastUpdate = a.lastUpdate := by
  unfold Ado.credit at hok
  unfold creditWeight
  cases hv : cfg.variant <;> rw [hv] at hok <;> dsimp only at hok ⊢
  · rw [updateH_row hok]; simp [hv]
  · cases b
    · injection hok with hok; subst hok; exact ⟨rfl, rfl⟩
    · simp only [if_true] at hok ⊢
      rw [updateH_row hok]; simp [hv]
  · cases b
    · injection hok with hok; subst hok; exact ⟨rfl, rfl⟩
    · simp only [if_true] at hok ⊢
      rw [updateH_row hok]
      refine ⟨?_, rfl⟩
      dsimp only
      split
      · rfl
      · rename_i h1
        have : a.total - a.lastUpdate = 1 := by
          rcases Nat.lt_or_ge 1 (a.total - a.lastUpdate) with h | h
          · exact absurd ⟨hv, h⟩ h1
          · omega
        rw [this, pow_one, sub_sub_cancel]
  · rw [updateH_row hok]; simp [hv]
  · cases hok

theorem compute_row {cfg : Cfg F} (hc : cfg.Sane) (ops : Ops F) {n : Nat} (hn : n ≠ 0) {a a' : Ado F} {ps : List (F × F × F)}
    (hp : a.params = some ps) (hpl : ps.length = n) {size : Nat → F} (hd : a.domainCounts cfg = .ok (tableRow n size))
    {cs : Nat → Int} (hcs : a.acc.counts = tableRow n cs) {credit prior usual : Nat → F} (hm : IsDist (tableRow n prior))
    (hb : a.piBar.getD (tableRow n prior) = tableRow n usual) (hbd : IsDist (tableRow n usual)) (hlast : a.lastUpdate < a.total)
    {b : Bool} {out : Option (List F)}
    (h : a.compute cfg ops b (tableRow n credit) (tableRow n prior) = (a', .ok out)) :
    let pref := preference cfg ops n prior credit fun k => slope ops ((ps[k]?).getD (0, 0, 0)) (size k)
    let policy := share n (blend cfg.gamma2 pref usual)
    let mix := share n fun k => if 0 < cs k then max (policy k) cfg.deltaMin else policy k
    out = some (tableRow n mix) ∧ a'.piBar = some (tableRow n (share n (blend (1 / ((a.total : F) + 1)) pref usual))) ∧
      match creditWeight cfg b (a.total - a.lastUpdate) with
      | some g => a'.h = some (tableRow n (blend g mix credit)) ∧ a'.lastUpdate = a.total
      | none => a'.h = a.h ∧ a'.lastUpdate = a.lastUpdate := by
  intro pref policy mix
  have hdl : a.lossDerivative cfg ops = .ok (tableRow n fun k => slope ops ((ps[k]?).getD (0, 0, 0)) (size k)) := by
    unfold Ado.lossDerivative
    rw [hp]
    simp only [bind, Except.bind, pure, Except.pure, hd]
    rw [if_neg (by rw [hpl, length_row]; simp), row_of ps (0, 0, 0) hpl, zipWith_row]
    congr 1
    apply row_congr
    intro k hk
    rw [derivative_eq]
    congr 1
    rw [← row_of ps (0, 0, 0) hpl]
  have hrho : rho cfg ops n (tableRow n credit) (tableRow n prior) (tableRow n fun k => slope ops ((ps[k]?).getD (0, 0, 0)) (size k)) =
      .ok (tableRow n pref) := rho_row cfg ops hn _ _ _
  obtain ⟨r1, r2, r3⟩ := rho_ok hrho hm
  unfold Ado.compute at h
  rw [hdl] at h
  simp only [hcs, length_row, hrho, hb] at h
  split at h
  · cases h
  rename_i p hpo
  obtain ⟨p1, p2⟩ := policy_ok hpo hc.g2 hc.g2' r1 hbd
  have hpe : p = tableRow n policy := policy_row hpo
  subst hpe
  have hpos : 0 < ∑ k ∈ Finset.range n, if 0 < cs k then max (policy k) cfg.deltaMin else policy k := by
    have := (sum_clip cfg.deltaMin hc.d (tableRow n cs) (tableRow n policy) (by rw [length_row, length_row]) p1.1).1
    rw [p1.2, zipWith_row, sum_row] at this
    exact lt_of_lt_of_le one_pos this
  split at h
  · cases h
  rename_i q hq
  have hqe : q = tableRow n mix := enforceMin_row hpos hq
  subst hqe
  split at h
  · cases h
  rename_i a4 h4
  have hcr := credit_row (by exact hlast) h4
  split at h
  · cases h
  rename_i bar' hbar'
  have hbe := average_row hbar'
  injection h with e1 e2
  injection e2 with e2
  subst e1
  refine ⟨e2.symm, by rw [hbe], ?_⟩
  exact hcr

/-! ### The counts -/

theorem sumRows_rows {n : Nat} {α : Type} (f : α → Nat → Int) : ∀ L : List α, L ≠ [] →
    sumRows (L.map fun i => tableRow n (f i)) = tableRow n fun k => (L.map fun i => f i k).sum := by
  intro L
  induction L with
  | nil => intro h; exact absurd rfl h
  | cons x xs ih =>
    intro _
    cases xs with
    | nil => simp [sumRows]
    | cons y ys =>
      have e : sumRows ((x :: y :: ys).map fun i => tableRow n (f i)) =
          List.zipWith (· + ·) (tableRow n (f x)) (sumRows ((y :: ys).map fun i => tableRow n (f i))) := rfl
      rw [e, ih (by simp), zipWith_row]
      simp

theorem sum_map_range {α : Type} [AddCommMonoid α] (f : Nat → α) (t : Nat) :
    ((List.range t).map f).sum = ∑ i ∈ Finset.range t, f i := sum_row t f

theorem steps_sum {cfg : Cfg F} (hs : cfg.sameStep = false) (rs : List (Report F)) (k : Nat) :
    ∑ i ∈ Finset.range rs.length, stepSamples cfg rs i k = samplesOf rs k := by
  rw [← sum_map_range]
  unfold samplesOf
  congr 1
  apply List.ext_getElem
  · simp
  · intro i h1 h2
    have hi : i < rs.length := by simpa using h1
    simp [stepSamples, List.getElem?_eq_getElem hi, hs]

theorem domainCounts_row {cfg : Cfg F} {n : Nat} {rs : List (Report F)} (hne : rs ≠ []) (hdom : domains rs = n) {a : Ado F}
    (hsc : a.stepCounts = countTable cfg rs) (hacc : a.acc.counts = tableRow n (samplesOf rs)) :
    a.domainCounts cfg = .ok (tableRow n (sizeOf cfg rs)) := by
  have hrag : ragged a.stepCounts = false := ragged_false (n := n) (by
    intro r hr
    rw [hsc, countTable] at hr
    obtain ⟨i, -, rfl⟩ := List.mem_map.1 hr
    rw [length_row, hdom])
  have hsum : sumRows a.stepCounts = tableRow n fun k => ∑ i ∈ Finset.range rs.length, stepSamples cfg rs i k := by
    rw [hsc, countTable, hdom, sumRows_rows (fun i => stepSamples cfg rs i) _ (by simpa using hne)]
    apply row_congr
    intro k _
    exact sum_map_range _ _
  have hcnt : a.totals cfg = .ok (tableRow n fun k => ∑ i ∈ Finset.range rs.length, stepSamples cfg rs i k) := by
    unfold Ado.totals
    cases hs : cfg.sameStep
    · simp only [Bool.false_eq_true, if_false]
      rw [hacc]
      congr 1
      apply row_congr
      intro k _
      exact (steps_sum hs rs k).symm
    · simp only [if_true]
      rw [hrag, hsum]; rfl
  unfold Ado.domainCounts
  rw [hcnt]
  dsimp only
  congr 1
  unfold scaled
  cases hnm : cfg.normalizer with
  | none =>
    dsimp only
    rw [map_row]
    apply row_congr
    intro k _
    simp [sizeOf, hnm]
  | some m =>
    dsimp only
    split
    · rename_i hm
      rw [map_row]
      apply row_congr
      intro k _
      have : (1 : Int) < m := hm
      simp [sizeOf, hnm, this]
    · rename_i hm
      rw [map_row]
      apply row_congr
      intro k _
      have : ¬ (1 : Int) < m := hm
      simp [sizeOf, hnm, this]

/-! ### The memory -/

theorem memoryAfter_append (cfg : Cfg F) (ops : Ops F) (n : Nat) (prior : Nat → F) (rs : List (Report F)) (r : Report F) :
    ∀ t, t ≤ rs.length → memoryAfter cfg ops n prior (rs ++ [r]) t = memoryAfter cfg ops n prior rs t := by
  intro t
  induction t with
  | zero => intro _; rfl
  | succ t ih =>
    intro h
    unfold memoryAfter
    rw [ih (by omega), List.take_append_of_le_length h]

theorem memoryAfter_warm (cfg : Cfg F) (ops : Ops F) (n : Nat) (prior : Nat → F) (rs : List (Report F)) :
    ∀ t, t < cfg.start → memoryAfter cfg ops n prior rs t = ⟨prior, prior, 0⟩ := by
  intro t
  induction t with
  | zero => intro _; rfl
  | succ t ih =>
    intro h
    unfold memoryAfter
    rw [if_neg, ih (by omega)]
    rintro ⟨h1, -⟩
    rw [List.length_take] at h1
    omega

theorem memoryAfter_last (cfg : Cfg F) (ops : Ops F) (n : Nat) (prior : Nat → F) (rs : List (Report F)) :
    ∀ t, t ≤ rs.length → (memoryAfter cfg ops n prior rs t).last ≤ t := by
  intro t
  induction t with
  | zero => intro _; exact le_refl _
  | succ t ih =>
    intro h
    have := ih (by omega)
    unfold memoryAfter
    split
    · unfold remember
      dsimp only
      split
      · simp
      · dsimp only; omega
    · omega

open Classical in
theorem memoryAfter_next (cfg : Cfg F) (ops : Ops F) (n : Nat) (prior : Nat → F) (rs : List (Report F)) (r : Report F) :
    memoryAfter cfg ops n prior (rs ++ [r]) (rs ++ [r]).length =
      if Answers cfg (rs ++ [r]) then remember cfg ops n prior (rs ++ [r]) (memoryAfter cfg ops n prior rs rs.length)
      else memoryAfter cfg ops n prior rs rs.length := by
  rw [List.length_append, List.length_singleton]
  show (if Answers cfg ((rs ++ [r]).take (rs.length + 1)) then _ else _) = _
  rw [memoryAfter_append _ _ _ _ _ _ _ (le_refl _), List.take_of_length_le (by simp)]

theorem fittedTo_same {cfg : Cfg F} {t : Nat} (ht : cfg.start ≤ t) (hn : (t + 1 - cfg.start) % cfg.interval ≠ 0) :
    fittedTo cfg (t + 1) = fittedTo cfg t := by
  unfold fittedTo
  rw [show t + 1 - cfg.start = (t - cfg.start) + 1 by omega] at hn ⊢
  rw [Nat.succ_div, if_neg (fun h => hn (Nat.mod_eq_zero_of_dvd h))]
  rfl

theorem fittedTo_now {cfg : Cfg F} {t : Nat} (ht : cfg.start ≤ t) (hn : (t - cfg.start) % cfg.interval = 0) :
    fittedTo cfg t = t := by
  unfold fittedTo
  rw [Nat.div_mul_cancel (Nat.dvd_of_mod_eq_zero hn)]
  omega

theorem fittedTo_le {cfg : Cfg F} {t : Nat} (ht : cfg.start ≤ t) : fittedTo cfg t ≤ t := by
  unfold fittedTo
  have := Nat.div_mul_le_self (t - cfg.start) cfg.interval
  omega

/-! ### One report -/

/-- The report at which the variant `adjusted_v3` continues. -/
def Due (cfg : Cfg F) (rs : List (Report F)) (m : Nat) : Prop :=
  cfg.start + 15 < m ∧ m ≤ rs.length + 15 ∧ LastNewer (rs.take (m - 15)) ∧
    ∀ s, m - 15 < s → s ≤ rs.length → ¬ LastNewer (rs.take s)

theorem lastNewer_snoc (rs : List (Report F)) (r : Report F) :
    LastNewer (rs ++ [r]) ↔ ∀ x ∈ rs, x.mixtureId < r.mixtureId := by
  unfold LastNewer
  simp

open Classical in
/-- How the next report is awaited. -/
theorem due_snoc {cfg : Cfg F} {rs : List (Report F)} {r : Report F} (m : Nat) :
    Due cfg (rs ++ [r]) m ↔
      if cfg.start ≤ rs.length ∧ LastNewer (rs ++ [r]) then m = rs.length + 1 + 15 else Due cfg rs m := by
  have hlen : (rs ++ [r]).length = rs.length + 1 := by simp
  have hfull : (rs ++ [r]).take (rs.length + 1) = rs ++ [r] := List.take_of_length_le (by simp)
  have hpart : ∀ s, s ≤ rs.length → (rs ++ [r]).take s = rs.take s := fun s h => List.take_append_of_le_length h
  unfold Due
  rw [hlen]
  split
  · rename_i h
    constructor
    · rintro ⟨h1, h2, h3, h4⟩
      by_contra hne
      exact h4 (rs.length + 1) (by omega) (le_refl _) (by rw [hfull]; exact h.2)
    · rintro rfl
      refine ⟨by omega, by omega, ?_, fun s h1 h2 => by omega⟩
      rw [Nat.add_sub_cancel, hfull]
      exact h.2
  · rename_i h
    by_cases hs : cfg.start ≤ rs.length
    · have hnn : ¬ LastNewer (rs ++ [r]) := fun hx => h ⟨hs, hx⟩
      constructor
      · rintro ⟨h1, h2, h3, h4⟩
        have hm : m ≤ rs.length + 15 := by
          by_contra hgt
          rw [show m - 15 = rs.length + 1 by omega, hfull] at h3
          exact hnn h3
        refine ⟨h1, hm, by rw [← hpart _ (by omega)]; exact h3, fun s h5 h6 => ?_⟩
        rw [← hpart _ h6]
        exact h4 s h5 (by omega)
      · rintro ⟨h1, h2, h3, h4⟩
        refine ⟨h1, by omega, by rw [hpart _ (by omega)]; exact h3, fun s h5 h6 => ?_⟩
        rcases Nat.lt_or_ge rs.length s with h7 | h7
        · rw [show s = rs.length + 1 by omega, hfull]; exact hnn
        · rw [hpart _ h7]; exact h4 s h5 h7
    · constructor
      · rintro ⟨h1, h2, -⟩; omega
      · rintro ⟨h1, h2, -⟩; omega

open Classical in
/-- The waiting of `adjusted_v3` follows the specification. -/
theorem wait_row {cfg : Cfg F} {rs : List (Report F)} {r : Report F} (hge : cfg.start ≤ rs.length + 1) {a : Ado F}
    (htot : a.total = rs.length + 1) (hh : a.handedOut = decide (cfg.start ≤ rs.length))
    (hx : cfg.variant = .v3 → ∀ m, a.nextContinue = some m ↔ Due cfg rs m) {b due : Bool}
    (hb : b = true ↔ LastNewer (rs ++ [r])) (hd : due = true ↔ FitStep cfg (rs.length + 1)) :
    ∃ o, a.wait cfg b due = ({ a with nextContinue := o }, (a.wait cfg b due).2) ∧
      ((a.wait cfg b due).2 = true ↔ Answers cfg (rs ++ [r])) ∧
      (cfg.variant = .v3 → ∀ m, o = some m ↔ Due cfg (rs ++ [r]) m) := by
  have hlen : (rs ++ [r]).length = rs.length + 1 := by simp
  unfold Ado.wait
  split
  · rename_i hv
    obtain ⟨hv, ho⟩ := hv
    have hs : cfg.start ≤ rs.length := by rw [hh] at ho; exact of_decide_eq_true ho
    have hnext : ∀ m, (if b = true then some (a.total + 15) else a.nextContinue) = some m ↔ Due cfg (rs ++ [r]) m := by
      intro m
      rw [due_snoc]
      split
      · rename_i hbt
        rw [if_pos ⟨hs, hb.1 hbt⟩, htot]
        simp [eq_comm]
      · rename_i hbt
        rw [if_neg (fun h => hbt (hb.2 h.2))]
        exact hx hv m
    have hans : Answers cfg (rs ++ [r]) ↔ FitStep cfg (rs.length + 1) ∨ Due cfg (rs ++ [r]) (rs.length + 1) := by
      unfold Answers Due
      rw [hlen]
      constructor
      · rintro ⟨-, h⟩
        rcases h hv with h | ⟨h1, h2, h3⟩
        · exact Or.inl h
        · exact Or.inr ⟨h1, by omega, h2, h3⟩
      · rintro (h | ⟨h1, -, h2, h3⟩)
        · exact ⟨hge, fun _ => Or.inl h⟩
        · exact ⟨hge, fun _ => Or.inr ⟨h1, h2, h3⟩⟩
    refine ⟨if b = true then some (a.total + 15) else a.nextContinue, ?_, ?_, fun _ => hnext⟩
    · cases b <;> rfl
    · rw [hans, ← hnext, ← hd, Bool.or_eq_true_iff, decide_eq_true_eq, htot]
      cases b
      · simp only [Bool.false_eq_true, if_false]; exact or_comm
      · simp only [if_true]; exact or_comm
  · rename_i hv
    refine ⟨a.nextContinue, rfl, ?_, fun h3 m => ?_⟩
    · simp only [true_iff]
      unfold Answers
      rw [hlen]
      refine ⟨hge, fun h3 => Or.inl ?_⟩
      have : ¬ cfg.start ≤ rs.length := by
        intro hs
        exact hv ⟨h3, by rw [hh]; exact decide_eq_true hs⟩
      exact ⟨0, by omega⟩
    · have : ¬ cfg.start ≤ rs.length := by
        intro hs
        exact hv ⟨h3, by rw [hh]; exact decide_eq_true hs⟩
      rw [due_snoc, if_neg (fun h => this h.1)]
      exact hx h3 m

/-- The state agrees with the specification. -/
structure Tracks (cfg : Cfg F) (ops : Ops F) (n : Nat) (initial : List F) (rs : List (Report F)) (a : Ado F) : Prop where
  init : a.initial = initial
  mu : a.mu = if rs = [] then none else some (tableRow n (entry initial))
  h : a.h = if rs.length < cfg.start then none
    else some (tableRow n (memoryAfter cfg ops n (entry initial) rs rs.length).credit)
  bar : a.piBar = if rs.length < cfg.start then none
    else some (tableRow n (memoryAfter cfg ops n (entry initial) rs rs.length).usual)
  last : a.lastUpdate = (memoryAfter cfg ops n (entry initial) rs rs.length).last
  params : cfg.start ≤ rs.length → a.params = some (lawsOf cfg ops n (rs.take (fittedTo cfg rs.length)))
  handed : a.handedOut = decide (cfg.start ≤ rs.length)
  next : cfg.variant = .v3 → ∀ m, a.nextContinue = some m ↔ Due cfg rs m

theorem update_rest {cfg : Cfg F} {a a' : Ado F} {l : List F} {c : List Int} (h : a.update cfg l c = (a', none)) :
    a'.initial = a.initial ∧ a'.mu = a.mu.map (· ++ List.replicate (l.length - a.acc.losses.length) 0) ∧
    a'.h = a.h.map (· ++ List.replicate (l.length - a.acc.losses.length) 0) ∧
    a'.piBar = a.piBar.map (· ++ List.replicate (l.length - a.acc.losses.length) 0) ∧
    a'.lastUpdate = a.lastUpdate ∧ a'.params = a.params := by
  unfold Ado.update at h
  split at h
  · cases h
  dsimp only at h
  split at h
  · cases h
  unfold Ado.record at h
  dsimp only at h
  split at h
  · split at h
    · cases h
    · injection h with h _; subst h; exact ⟨rfl, rfl, rfl, rfl, rfl, rfl⟩
  · injection h with h _; subst h; exact ⟨rfl, rfl, rfl, rfl, rfl, rfl⟩

theorem padTo_row {n : Nat} (l : List F) (h : l.length ≤ n) : padTo n l = tableRow n (entry l) := by
  rw [padTo]
  conv_lhs => rw [tableRow_entry l]
  rw [length_row]
  exact tableRow_pad h _ fun k hk => entry_beyond hk

theorem setMu_row {close : F → Bool} {a a2 : Ado F} {n : Nat} (hil : a.initial.length ≤ n) (hac : a.acc.counts.length = n)
    (hmu : a.mu = none ∨ a.mu = some (tableRow n (entry a.initial))) (h : a.setMu close = (a2, none)) :
    a2 = { a with mu := some (tableRow n (entry a.initial)) } := by
  unfold Ado.setMu at h
  rcases hmu with hmu | hmu
  · rw [hmu] at h
    dsimp only at h
    rw [hac, padTo_row _ hil] at h
    split at h
    · cases h
    split at h
    · cases h
    · injection h with h _; exact h.symm
  · rw [hmu] at h
    dsimp only at h
    injection h with h _
    rw [← h, ← hmu]

theorem fit_frame {ops : Ops F} {a a' : Ado F} (h : a.fit ops = (a', none)) :
    a'.acc = a.acc ∧ a'.stepCounts = a.stepCounts ∧ a'.total = a.total ∧ a'.lastUpdate = a.lastUpdate ∧ a'.piBar = a.piBar ∧
      a'.mu = a.mu ∧ a'.initial = a.initial ∧ a'.h = a.h := by
  unfold Ado.fit at h
  dsimp only at h
  split at h
  · cases h
  split at h
  · cases h
  split at h
  · injection h with h _; subst h; exact ⟨rfl, rfl, rfl, rfl, rfl, rfl, rfl, rfl⟩
  · cases h

theorem credit_mu {cfg : Cfg F} {a a' : Ado F} {b : Bool} {p h : List F} (e : a.credit cfg b p h = .ok a') :
    a'.mu = a.mu ∧ a'.initial = a.initial := by
  have hu : ∀ k, a.updateH cfg k p h = .ok a' → a'.mu = a.mu ∧ a'.initial = a.initial := by
    intro k e
    unfold Ado.updateH at e
    simp only [bind, Except.bind, pure, Except.pure] at e
    split at e
    · cases e
    · injection e with e; subst e; exact ⟨rfl, rfl⟩
  unfold Ado.credit at e
  split at e
  · exact hu _ e
  · exact hu _ e
  · split at e
    · exact hu _ e
    · injection e with e; subst e; exact ⟨rfl, rfl⟩
  · split at e
    · exact hu _ e
    · injection e with e; subst e; exact ⟨rfl, rfl⟩
  · cases e

theorem compute_mu (cfg : Cfg F) (ops : Ops F) (a : Ado F) (b : Bool) (h mu : List F) :
    (a.compute cfg ops b h mu).1.mu = a.mu ∧ (a.compute cfg ops b h mu).1.initial = a.initial := by
  unfold Ado.compute
  dsimp only
  split
  · exact ⟨rfl, rfl⟩
  split
  · exact ⟨rfl, rfl⟩
  split
  · exact ⟨rfl, rfl⟩
  split
  · exact ⟨rfl, rfl⟩
  split
  · exact ⟨rfl, rfl⟩
  rename_i a4 h4
  obtain ⟨c1, c2⟩ := credit_mu h4
  split
  · exact ⟨c1, c2⟩
  · exact ⟨c1, c2⟩

open Classical in
/-- After `_update_state`: one call of `calc_mixture`. -/
theorem calc_row {cfg : Cfg F} (hc : cfg.Sane) (ops : Ops F) (close : F → Bool) {n : Nat}
    (hn : n ≠ 0) (hf : ops.Fits n) {initial : List F} (hil : initial.length ≤ n) {rs : List (Report F)} {r : Report F}
    (hdom : domains (rs ++ [r]) = n) {a : Ado F} (ha : Inv a) (hsc : a.stepCounts = countTable cfg (rs ++ [r]))
    (hsl : a.stepLosses = lossTable (rs ++ [r])) (hacc : a.acc.counts = tableRow n (samplesOf (rs ++ [r])))
    (htot : a.total = rs.length) (ht : Tracks cfg ops n initial rs a) {b : Bool}
    (hb : b = true ↔ ∀ x ∈ rs, x.mixtureId < r.mixtureId) {a' : Ado F} {out : Option (List F)}
    (h : a.calc cfg ops close b = (a', .ok out)) :
    Tracks cfg ops n initial (rs ++ [r]) a' ∧
      (Answers cfg (rs ++ [r]) → out = some (tableRow n
        (mixtureAt cfg ops n (entry initial) (rs ++ [r]) (memoryAfter cfg ops n (entry initial) rs rs.length)))) ∧
      (¬ Answers cfg (rs ++ [r]) → out = none) := by
  have hne : rs ++ [r] ≠ [] := by simp
  have hlen : (rs ++ [r]).length = rs.length + 1 := by simp
  have hlaw : ∀ p, ops.fit a.stepCounts a.stepLosses = .ok p → lawsOf cfg ops n (rs ++ [r]) = p := by
    intro p hp
    have e1 : a.stepCounts = (List.range (rs ++ [r]).length).map fun i => (List.range n).map fun k => stepSamples cfg (rs ++ [r]) i k := by
      rw [hsc, countTable, hdom]; rfl
    have e2 : a.stepLosses = (rs ++ [r]).map fun x => (List.range n).map fun k => x.lossPerSample k := by
      rw [hsl, lossTable, hdom]; rfl
    rw [e1, e2] at hp
    unfold lawsOf
    rw [hp]
  unfold Ado.calc at h
  split at h
  · cases h
  rename_i a2 hset
  have ha2 := setMu_row (a := { a with total := a.total + 1 }) (n := n) (by rw [ht.init]; exact hil)
    (by show a.acc.counts.length = n; rw [hacc, length_row])
    (by
      show a.mu = none ∨ a.mu = some (tableRow n (entry a.initial))
      rw [ht.mu, ht.init]
      split
      · exact Or.inl rfl
      · exact Or.inr rfl) hset
  replace ha2 : a2 = { a with total := a.total + 1, mu := some (tableRow n (entry initial)) } :=
    ha2.trans (congrArg (fun x => ({ a with total := a.total + 1, mu := some (tableRow n (entry x)) } : Ado F)) ht.init)
  have hi2 := inv_setMu (a := { a with total := a.total + 1 }) ⟨ha.initial, ha.mu, ha.bar, ha.h, ha.pi⟩ close
  rw [hset] at hi2
  have htot2 : a2.total = rs.length + 1 := by rw [ha2, ← htot]
  have hmd : IsDist (tableRow n (entry initial)) := hi2.mu _ (by rw [ha2])
  rw [htot2] at h
  split at h
  · rename_i hlt
    injection h with h1 h2
    injection h2 with h2
    subst h1 h2
    have hna : ¬ Answers cfg (rs ++ [r]) := by
      rintro ⟨hx, -⟩
      rw [hlen] at hx
      omega
    refine ⟨?_, fun hs => absurd hs hna, fun _ => rfl⟩
    rw [ha2]
    have hw : rs.length < cfg.start := by omega
    refine ⟨ht.init, ?_, ?_, ?_, ?_, fun hs => absurd hs (by rw [hlen]; omega), ?_, fun h3 m => ?_⟩
    · rw [if_neg hne]
    · rw [hlen, if_pos hlt]; show a.h = none; rw [ht.h, if_pos hw]
    · rw [hlen, if_pos hlt]; show a.piBar = none; rw [ht.bar, if_pos hw]
    · rw [memoryAfter_next, if_neg hna]; exact ht.last
    · show a.handedOut = _
      rw [ht.handed, hlen, decide_eq_false (by omega), decide_eq_false (by omega)]
    · rw [due_snoc, if_neg (fun hx => by omega)]
      exact ht.next h3 m
  · rename_i hge
    have hge' : cfg.start ≤ rs.length + 1 := by omega
    generalize hM : memoryAfter cfg ops n (entry initial) rs rs.length = M at *
    have hh : a.h.getD (tableRow n (entry initial)) = tableRow n M.credit := by
      rw [ht.h, hM]
      split
      · rename_i hw
        rw [← hM, memoryAfter_warm _ _ _ _ _ _ hw]; rfl
      · rfl
    have hbar : a.piBar.getD (tableRow n (entry initial)) = tableRow n M.usual := by
      rw [ht.bar, hM]
      split
      · rename_i hw
        rw [← hM, memoryAfter_warm _ _ _ _ _ _ hw]; rfl
      · rfl
    have hbd : IsDist (tableRow n M.usual) := by
      rw [← hbar]
      cases hbb : a.piBar with
      | none => exact hmd
      | some v => exact ha.bar v hbb
    have hlastM : M.last < rs.length + 1 := by
      have := memoryAfter_last cfg ops n (entry initial) rs rs.length (le_refl _)
      rw [hM] at this
      omega
    -- the rest, once the laws are known
    have main : ∀ (a3 : Ado F) (due : Bool), a3.params = some (lawsOf cfg ops n ((rs ++ [r]).take (fittedTo cfg (rs ++ [r]).length))) →
        (lawsOf cfg ops n ((rs ++ [r]).take (fittedTo cfg (rs ++ [r]).length))).length = n →
        a3.acc = a.acc → a3.stepCounts = a.stepCounts → a3.total = rs.length + 1 → a3.lastUpdate = a.lastUpdate →
        a3.piBar = a.piBar → a3.mu = some (tableRow n (entry initial)) → a3.initial = initial →
        a3.h = some (tableRow n M.credit) → a3.handedOut = a.handedOut → a3.nextContinue = a.nextContinue →
        (due = true ↔ FitStep cfg (rs.length + 1)) →
        (if (a3.wait cfg b due).2 = true then (a3.wait cfg b due).1.compute cfg ops b (tableRow n M.credit) (tableRow n (entry initial))
          else ((a3.wait cfg b due).1, .ok none)) = (a', .ok out) →
        Tracks cfg ops n initial (rs ++ [r]) a' ∧
          (Answers cfg (rs ++ [r]) → out = some (tableRow n (mixtureAt cfg ops n (entry initial) (rs ++ [r]) M))) ∧
          (¬ Answers cfg (rs ++ [r]) → out = none) := by
      intro a3 due e1 e2 e3 e4 e5 e6 e7 e8 e9 e10 e11 e12 e13 hw
      obtain ⟨o, o1, o2, o3⟩ := wait_row (r := r) (b := b) hge' e5 (e11.trans ht.handed) (fun h3 m => by rw [e12]; exact ht.next h3 m)
        (hb.trans (lastNewer_snoc rs r).symm) e13
      rw [o1] at hw
      generalize (a3.wait cfg b due).2 = go at o2 hw
      by_cases hans : Answers cfg (rs ++ [r])
      swap
      · have hgo : go = false := by
          cases go
          · rfl
          · exact absurd (o2.1 rfl) hans
        rw [hgo] at hw
        simp only [Bool.false_eq_true, if_false] at hw
        injection hw with h1 h2
        injection h2 with h2
        subst h1 h2
        have hs : cfg.start ≤ rs.length := by
          by_contra hs
          exact hans ⟨by rw [hlen]; exact hge', fun _ => Or.inl ⟨0, by rw [hlen]; omega⟩⟩
        have hmem : memoryAfter cfg ops n (entry initial) (rs ++ [r]) (rs ++ [r]).length = M := by
          rw [memoryAfter_next, if_neg hans, hM]
        refine ⟨⟨e9, ?_, ?_, ?_, ?_, fun _ => e1, ?_, o3⟩, fun hx => absurd hx hans, fun _ => rfl⟩
        · show a3.mu = _
          rw [e8, if_neg hne]
        · show a3.h = _
          rw [if_neg (by rw [hlen]; omega), hmem, e10]
        · show a3.piBar = _
          rw [e7, ht.bar, if_neg (by omega), if_neg (by rw [hlen]; omega), hmem, hM]
        · show a3.lastUpdate = _
          rw [e6, ht.last, hmem, hM]
        · show a3.handedOut = _
          rw [e11, ht.handed, decide_eq_true hs, decide_eq_true (by rw [hlen]; omega)]
      have hgo : go = true := o2.2 hans
      rw [hgo] at hw
      simp only [if_true] at hw
      replace e1 : ({ a3 with nextContinue := o } : Ado F).params = _ := e1
      replace e3 : ({ a3 with nextContinue := o } : Ado F).acc = _ := e3
      replace e4 : ({ a3 with nextContinue := o } : Ado F).stepCounts = _ := e4
      replace e5 : ({ a3 with nextContinue := o } : Ado F).total = _ := e5
      replace e6 : ({ a3 with nextContinue := o } : Ado F).lastUpdate = _ := e6
      replace e7 : ({ a3 with nextContinue := o } : Ado F).piBar = _ := e7
      replace e8 : ({ a3 with nextContinue := o } : Ado F).mu = _ := e8
      replace e9 : ({ a3 with nextContinue := o } : Ado F).initial = _ := e9
      replace e10 : ({ a3 with nextContinue := o } : Ado F).h = _ := e10
      have e14 : ({ a3 with nextContinue := o } : Ado F).nextContinue = o := rfl
      clear e11 e12 o1
      generalize ({ a3 with nextContinue := o } : Ado F) = a3 at *
      obtain ⟨w1, -, w3, -, -⟩ := compute_wait cfg ops a3 b (tableRow n M.credit) (tableRow n (entry initial))
      rw [hw] at w1 w3
      have hfr := compute_hist cfg ops a3 b (tableRow n M.credit) (tableRow n (entry initial))
      have hcs : a3.acc.counts = tableRow n (samplesOf (rs ++ [r])) := by rw [e3, hacc]
      obtain ⟨c1, c2, c3⟩ := compute_row hc ops hn e1 e2 (domainCounts_row hne hdom (by rw [e4, hsc]) hcs) hcs hmd
        (by rw [e7]; exact hbar) hbd (by rw [e5, e6, ht.last, hM]; exact hlastM) hw
      have hmu' : a'.mu = a3.mu ∧ a'.initial = a3.initial := by
        have : a' = (a3.compute cfg ops b (tableRow n M.credit) (tableRow n (entry initial))).1 := by rw [hw]
        rw [this]
        exact compute_mu cfg ops a3 b _ _
      rw [hw] at hfr
      have hbw : decide (LastNewer (rs ++ [r])) = b := by
        have : LastNewer (rs ++ [r]) ↔ b = true := by
          rw [hb]
          unfold LastNewer
          simp
        cases b
        · simpa using this
        · simpa using this
      have hrem : memoryAfter cfg ops n (entry initial) (rs ++ [r]) (rs ++ [r]).length =
          remember cfg ops n (entry initial) (rs ++ [r]) M := by
        rw [memoryAfter_next, if_pos hans, hM]
      have husual : (remember cfg ops n (entry initial) (rs ++ [r]) M).usual =
          share n (blend (1 / (((rs ++ [r]).length : F) + 1)) (preferenceAt cfg ops n (entry initial) (rs ++ [r]) M) M.usual) := by
        unfold remember
        dsimp only
        split <;> rfl
      refine ⟨⟨by rw [hmu'.2, e9], by rw [hmu'.1, e8, if_neg hne], ?_, ?_, ?_, ?_, ?_, ?_⟩, fun _ => c1, fun hx => absurd hans hx⟩
      · rw [if_neg (by rw [hlen]; omega), hrem]
        unfold remember
        dsimp only
        rw [hbw, hlen]
        rw [e5, e6, ht.last, hM] at c3
        split
        · rename_i g hg
          rw [hg] at c3
          exact c3.1
        · rename_i hg
          rw [hg] at c3
          rw [c3.1, e10]
      · rw [if_neg (by rw [hlen]; omega), hrem, husual, c2, e5]
        unfold preferenceAt slopesAt
        rw [hlen]
      · rw [hrem]
        unfold remember
        dsimp only
        rw [hbw, hlen]
        rw [e5, e6, ht.last, hM] at c3
        split
        · rename_i g hg
          rw [hg] at c3
          rw [c3.2]
        · rename_i hg
          rw [hg] at c3
          exact c3.2
      · intro _
        rw [hfr.2]
        exact e1
      · rw [w3 _ (by rw [c1]), hlen, decide_eq_true hge']
      · intro h3 m
        rw [show a'.nextContinue = o from w1.trans e14]
        exact o3 h3 m
    unfold Ado.active at h
    dsimp only at h
    rw [ha2] at h
    simp only [Option.getD_some, hh] at h
    split at h
    · cases h
    rename_i due hdue
    split at h
    · cases h
    rename_i a3 hfit
    have hfs : due = true ↔ FitStep cfg (rs.length + 1) := by
      refine fitDue_iff hge' ?_
      rw [← hdue]
      show fitDue cfg (rs.length + 1) = fitDue cfg (a.total + 1)
      rw [htot]
    have hdue' : due = true ∧ (rs.length + 1 - cfg.start) % cfg.interval = 0 ∨
        due = false ∧ cfg.start ≤ rs.length ∧ (rs.length + 1 - cfg.start) % cfg.interval ≠ 0 := by
      unfold fitDue at hdue
      rw [htot] at hdue
      split at hdue
      · rename_i he
        injection hdue with hdue
        exact Or.inl ⟨hdue.symm, by rw [he]; simp⟩
      · split at hdue
        · cases hdue
        · rename_i h1 h2
          injection hdue with hdue
          by_cases hz : (rs.length + 1 - cfg.start) % cfg.interval = 0
          · exact Or.inl ⟨by rw [← hdue, hz]; simp, hz⟩
          · exact Or.inr ⟨by rw [← hdue]; simp [hz], by omega, hz⟩
    rcases hdue' with ⟨hd1, hd2⟩ | ⟨hd1, hd2, hd3⟩
    · subst hd1
      simp only [if_true] at hfit
      obtain ⟨p, hp1, hp2⟩ := fit_params hfit
      have hfr := fit_frame hfit
      have hfl : (rs ++ [r]).take (fittedTo cfg (rs ++ [r]).length) = rs ++ [r] := by
        rw [hlen, fittedTo_now hge' hd2, ← hlen, List.take_length]
      obtain ⟨f1, f2, f3, f4, f5, f6, f7, f8⟩ := hfr
      have hwt := (fit_wait ops { a with total := a.total + 1, mu := some (tableRow n (entry initial)), h := some (tableRow n M.credit) }).1
      rw [hfit] at hwt
      obtain ⟨q, hq1, hq2⟩ := hf a.stepCounts a.stepLosses (by
        intro x hx
        rw [hsc, countTable] at hx
        obtain ⟨i, -, rfl⟩ := List.mem_map.1 hx
        rw [length_row, hdom])
      have hpq : p = q := by
        have : (Except.ok p : Except Err _) = .ok q := hp1.symm.trans hq1
        injection this
      refine main a3 true ?_ ?_ f1 f2 (by rw [f3]; show a.total + 1 = _; omega) f4 f5 f6 (by rw [f7]; exact ht.init) f8 hwt.2 hwt.1 hfs h
      · rw [hfl, hlaw p hp1]; exact hp2
      · rw [hfl, hlaw p hp1, hpq]; exact hq2
    · subst hd1
      simp only [Bool.false_eq_true, if_false] at hfit
      injection hfit with hfit _
      have hfl : (rs ++ [r]).take (fittedTo cfg (rs ++ [r]).length) = rs.take (fittedTo cfg rs.length) := by
        rw [hlen, fittedTo_same hd2 hd3, List.take_append_of_le_length (fittedTo_le hd2)]
      have hpar := ht.params hd2
      have hpl : (lawsOf cfg ops n (rs.take (fittedTo cfg rs.length))).length = n := by
        unfold lawsOf
        obtain ⟨q, hq1, hq2⟩ := hf ((List.range (rs.take (fittedTo cfg rs.length)).length).map fun i =>
            (List.range n).map fun k => stepSamples cfg (rs.take (fittedTo cfg rs.length)) i k)
          ((rs.take (fittedTo cfg rs.length)).map fun x => (List.range n).map fun k => x.lossPerSample k) (by
            intro x hx
            obtain ⟨i, -, rfl⟩ := List.mem_map.1 hx
            simp)
        rw [hq1]
        exact hq2
      subst hfit
      exact main
        { a with total := a.total + 1, mu := some (tableRow n (entry initial)), h := some (tableRow n M.credit) } false (by rw [hfl]; exact hpar) (by rw [hfl]; exact hpl) rfl rfl
        (by show a.total + 1 = _; omega) rfl rfl rfl ht.init rfl rfl rfl hfs h

theorem growing_of {n : Nat} {rs : List (Report F)} (h : ∀ r ∈ rs, r.Full n) : Growing rs where
  valid r hr := by obtain ⟨h1, h2, _⟩ := h r hr; unfold Report.Valid; rw [h1, h2]
  nonneg r hr := (h r hr).2.2.1
  some r hr := (h r hr).2.2.2
  grow := by
    refine List.Pairwise.imp_of_mem (R := fun _ _ => True) ?_ (List.pairwise_of_forall fun _ _ => trivial)
    intro x y hx hy _
    rw [(h x hx).1, (h y hy).1]

theorem tracks_step {cfg : Cfg F} (hc : cfg.Sane) (ops : Ops F) (close : F → Bool) {n : Nat}
    (hn : n ≠ 0) (hst : 0 < cfg.start) (hf : ops.Fits n) {initial : List F} (hi : IsDist initial) (hil : initial.length ≤ n)
    {rs : List (Report F)} {r : Report F} (hr : ∀ x ∈ rs ++ [r], x.Full n) (hid : 0 ≤ r.mixtureId)
    (ht : Tracks cfg ops n initial rs (adoRun cfg ops close rs (Ado.init initial))) {a' : Ado F} {out : Option (List F)}
    (h : (adoRun cfg ops close rs (Ado.init initial)).step cfg ops close r.losses r.counts r.mixtureId = (a', .ok out)) :
    Tracks cfg ops n initial (rs ++ [r]) a' ∧
      (Answers cfg (rs ++ [r]) → out = some (tableRow n
        (mixtureAt cfg ops n (entry initial) (rs ++ [r]) (memoryAfter cfg ops n (entry initial) rs rs.length)))) ∧
      (¬ Answers cfg (rs ++ [r]) → out = none) := by
  have hg := growing_of hr
  have hrm : r ∈ rs ++ [r] := List.mem_append_right _ (List.mem_singleton.2 rfl)
  have hrl : r.losses.length = n := (hr r hrm).1
  have hdom : domains (rs ++ [r]) = n := by rw [hg.init.2.2, hrl]
  have hrun := recorded_run cfg ops close initial rs hg.init.1
  have hinv := inv_run hc ops close rs _ (inv_init initial hi)
  have hacc0 : (adoRun cfg ops close rs (Ado.init initial)).acc = accAfter rs Acc.init := by
    rw [adoRun_acc _ _ _ _ _ hg.init.1.valid]; rfl
  have hb := c49_newer_mixture rs r.mixtureId hid
  rw [← hacc0] at hb
  generalize adoRun cfg ops close rs (Ado.init initial) = A at *
  obtain ⟨a1, -, h2, h3, h4, h5, h6, h7, h8, h9⟩ := recorded_step_full (ops := ops) (close := close) hg hrun
  rw [h6] at h
  have hi1 := inv_update (inv_acc hinv (A.acc.notice r.mixtureId).1) cfg r.losses r.counts
  rw [h7] at hi1
  have hcs : a1.acc.counts = tableRow n (samplesOf (rs ++ [r])) := by
    rw [row_of a1.acc.counts 0 (h8.trans hdom)]
    apply row_congr
    intro k _
    exact h9 k
  obtain ⟨u1, u2, u3, u4, u5, u6⟩ := update_rest h7
  have hdiff : rs ≠ [] → r.losses.length - (A.acc.notice r.mixtureId).1.losses.length = 0 := by
    intro hne
    rw [(notice_same A.acc r.mixtureId).1, hrun.lenL, hrl]
    obtain ⟨x, hx⟩ := List.exists_mem_of_ne_nil rs hne
    have := domains_ge hx
    rw [(hr x (List.mem_append_left _ hx)).1] at this
    omega
  have hsame : ∀ o : Option (List F), (rs = [] → o = none) →
      o.map (· ++ List.replicate (r.losses.length - (A.acc.notice r.mixtureId).1.losses.length) 0) = o := by
    intro o ho
    by_cases hne : rs = []
    · rw [ho hne]; rfl
    · rw [hdiff hne]
      cases o <;> simp
  have hwarm : rs = [] → rs.length < cfg.start := by intro e; rw [e]; exact hst
  have huw := (update_wait cfg ({ A with acc := (A.acc.notice r.mixtureId).1 } : Ado F) r.losses r.counts).1
  rw [h7] at huw
  refine calc_row hc ops close hn hf hil hdom hi1 h4 h5 hcs (h3.trans hrun.total) ?_ hb h
  refine ⟨u1.trans ht.init, ?_, ?_, ?_, u5.trans ht.last, fun hs => u6.trans (ht.params hs),
    huw.2.trans ht.handed, fun h3 m => by rw [huw.1]; exact ht.next h3 m⟩
  · rw [u2, hsame _ fun e => by show A.mu = none; rw [ht.mu, if_pos e]]; exact ht.mu
  · rw [u3, hsame _ fun e => by show A.h = none; rw [ht.h, if_pos (hwarm e)]]; exact ht.h
  · rw [u4, hsame _ fun e => by show A.piBar = none; rw [ht.bar, if_pos (hwarm e)]]; exact ht.bar

theorem tracks_run {cfg : Cfg F} (hc : cfg.Sane) (hv : cfg.variant ≠ .unknown) (hint : 0 < cfg.interval)
    (hst : 0 < cfg.start) (ops : Ops F) {n : Nat} (hn : n ≠ 0) (hf : ops.Fits n) {close : F → Bool}
    (hcl : close 1 = true) {initial : List F} (hi : IsDist initial) (hil : initial.length ≤ n)
    (reports : List (Report F)) (hr : ∀ r ∈ reports, r.Full n) (hid : ∀ r ∈ reports, 0 ≤ r.mixtureId) :
    Tracks cfg ops n initial reports (adoRun cfg ops close reports (Ado.init initial)) := by
  induction reports using List.reverseRecOn with
  | nil =>
    exact ⟨rfl, rfl, by rw [if_pos (by exact hst)]; rfl, by rw [if_pos (by exact hst)]; rfl, rfl,
      fun h => absurd h (by simp; omega), by simp [adoRun, Ado.init]; omega, fun _ m => by
        simp only [adoRun, Ado.init, Due]
        constructor
        · intro h; cases h
        · rintro ⟨h1, h2, -⟩; simp at h2; omega⟩
  | append_singleton rs r ih =>
    have hr0 : ∀ x ∈ rs, x.Full n := fun x hx => hr x (List.mem_append_left _ hx)
    have hrm : r ∈ rs ++ [r] := List.mem_append_right _ (List.mem_singleton.2 rfl)
    obtain ⟨out, a', h, -⟩ := c50_undisturbed hc hv hint hst ops hn hf hcl hi hil rs hr0 r (hr r hrm)
    have := (tracks_step hc ops close hn hst hf hi hil hr (hid r hrm)
      (ih hr0 fun x hx => hid x (List.mem_append_left _ hx)) h).1
    rw [adoRun_append, h]
    exact this

/-! ### Theorems -/

/-- **C74.** When all reports are about the same domains, with non-negative counts of which at least one is positive, and the
scaling laws can always be fitted: a report is answered with a mixture exactly when the specification says so (after the
warm-up always, in the variant `adjusted_v3` only at the reports it waits for), and with the mixture of the specification:
the preference for every domain is proportional to its prior probability times a power of its credit times the speed at which
its scaling law falls at its present size; it is mixed with the average preference so far; and the minimum is applied to the
domains with samples. The credit and the average preference are those that follow from the reports before in the same way. -/
theorem c74_mixture {cfg : Cfg F} (hc : cfg.Sane) (hv : cfg.variant ≠ .unknown)
    (hint : 0 < cfg.interval) (hst : 0 < cfg.start) (ops : Ops F) {n : Nat} (hn : n ≠ 0) (hf : ops.Fits n) {close : F → Bool}
    (hcl : close 1 = true) {initial : List F} (hi : IsDist initial) (hil : initial.length ≤ n)
    (reports : List (Report F)) (hr : ∀ r ∈ reports, r.Full n) (hid : ∀ r ∈ reports, 0 ≤ r.mixtureId)
    (r : Report F) (hr' : r.Full n) (hid' : 0 ≤ r.mixtureId) :
    ∃ (out : Option (List F)) (a' : Ado F),
      (adoRun cfg ops close reports (Ado.init initial)).step cfg ops close r.losses r.counts r.mixtureId = (a', .ok out) ∧
      (¬ Answers cfg (reports ++ [r]) → out = none) ∧
      (Answers cfg (reports ++ [r]) → ∃ w, out = some w ∧ w.length = n ∧
        ∀ k, k < n → entry w k = mixtureAt cfg ops n (entry initial) (reports ++ [r])
          (memoryAfter cfg ops n (entry initial) reports reports.length) k) := by
  obtain ⟨out, a', h, -⟩ := c50_undisturbed hc hv hint hst ops hn hf hcl hi hil reports hr r hr'
  have hall : ∀ x ∈ reports ++ [r], x.Full n := by
    intro x hx
    rcases List.mem_append.1 hx with hx | hx
    · exact hr x hx
    · rw [List.mem_singleton.1 hx]; exact hr'
  obtain ⟨-, h1, h2⟩ := tracks_step hc ops close hn hst hf hi hil hall hid'
    (tracks_run hc hv hint hst ops hn hf hcl hi hil reports hr hid) h
  refine ⟨out, a', h, h2, fun ha => ⟨_, h1 ha, length_row _ _, fun k hk => ?_⟩⟩
  rw [entry_eq (by rw [length_row]; exact hk)]
  simp [tableRow]

/-- **C74** (the slopes). With real numbers, the slope of the specification is the derivative of the fitted scaling law
`x ↦ exp ε + exp β * x ^ (-α)`. -/
theorem c74_slope (ops : Ops ℝ) (he : ops.exp = Real.exp) (hp : ops.pow = fun x y => x ^ y) (β ε α x : ℝ) (hx : 0 < x) :
    HasDerivAt (fun y : ℝ => Real.exp ε + Real.exp β * y ^ (-α)) (slope ops (β, ε, α) x) x := by
  have h := ((Real.hasDerivAt_rpow_const (x := x) (p := -α) (Or.inl hx.ne')).const_mul (Real.exp β)).const_add (Real.exp ε)
  have e : slope ops (β, ε, α) x = Real.exp β * (-α * x ^ (-α - 1)) := ?_
  · rw [e]; exact h
  unfold slope
  rw [if_pos hx, he, hp]
  dsimp only
  rw [Real.rpow_sub_one hx.ne']
  field_simp

/-- **C74** (falling laws are preferred). A domain whose scaling law does not fall gets no preference if any other domain's
does; and of two domains with the same prior probability and credit, the one whose law falls faster has the larger
preference. -/
theorem c74_preference (cfg : Cfg F) (ops : Ops F) (n : Nat) (prior credit slopes : Nat → F)
    (hpos : 0 < ∑ j ∈ Finset.range n, gain cfg ops prior credit slopes j) (k : Nat) (hprior : 0 ≤ prior k)
    (hpow : 0 ≤ ops.pow (credit k) cfg.s) :
    (0 ≤ slopes k → preference cfg ops n prior credit slopes k = 0) ∧
    (∀ l, prior l = prior k → credit l = credit k → slopes k ≤ slopes l →
      preference cfg ops n prior credit slopes l ≤ preference cfg ops n prior credit slopes k) := by
  unfold preference
  rw [if_pos hpos]
  constructor
  · intro hs
    unfold share gain
    rw [max_eq_left, zero_div]
    have : 0 ≤ prior k * ops.pow (credit k) cfg.s := mul_nonneg hprior hpow
    nlinarith
  · intro l h1 h2 h3
    rw [if_pos hpos]
    unfold share
    refine div_le_div_of_nonneg_right ?_ hpos.le
    unfold gain
    rw [h1, h2]
    refine max_le_max (le_refl _) ?_
    exact mul_le_mul_of_nonneg_left (neg_le_neg h3) (mul_nonneg hprior hpow)

/-- The hypotheses of `c74_mixture` can be met, and the mixture depends on the laws: with equal priors the domain whose law
falls faster gets more. -/
example :
    let cfg : Cfg ℚ := ⟨.vanilla, 1/2, 1/2, 1, 1/100, 10, 1, false, none⟩
    let ops : Ops ℚ := ⟨fun _ => 1, fun x y => if y = 1 then x else 1, fun c _ => .ok ((c.headD []).mapIdx fun i _ => (0, 0, (i : ℚ) + 1))⟩
    ((Ado.init [1/2, 1/2]).step cfg ops (fun _ => true) [1, 1] [1, 1] 0).2.toOption.join = some [5/12, 7/12] ∧
      (⟨[1, 1], [1, 1], 0⟩ : Report ℚ).Full 2 ∧ cfg.Sane ∧ cfg.start ≤ 1 := by
  refine ⟨by decide +kernel, ⟨rfl, rfl, by decide, by decide⟩,
    ⟨by decide +kernel, by decide +kernel, by decide +kernel, by decide +kernel, by decide +kernel⟩, le_refl _⟩

/-- In the variant `adjusted_v3` there is a report that is answered although no scaling laws are fitted at it, and its
predecessor is not answered. -/
example :
    let cfg : Cfg ℚ := ⟨.v3, 1/2, 1/2, 1, 1/100, 100, 2, true, none⟩
    let rep (i : Int) : Report ℚ := ⟨[1, 2], [1, 1], i⟩
    let before := [rep 0, rep 0, rep 1] ++ List.replicate 14 (rep 1)
    Answers cfg (before ++ [rep 1]) ∧ ¬ Answers cfg before := by
  intro cfg rep before
  constructor
  · refine ⟨by decide, fun _ => Or.inr ⟨by decide, ⟨rep 1, rfl, by decide⟩, fun s h1 h2 => ?_⟩⟩
    have h1' : 3 < s := h1
    have h2' : s ≤ 18 := h2
    rintro ⟨r, hr, hx⟩
    have : rep 1 ∈ ((before ++ [rep 1]).take s).dropLast := by interval_cases s <;> exact List.mem_iff_getElem?.2 ⟨2, rfl⟩
    have h3 := hx _ this
    have : r ∈ before ++ [rep 1] := List.mem_of_mem_take (List.mem_of_getLast? hr)
    have : r = rep 0 ∨ r = rep 1 := by
      simp only [before, List.mem_append, List.mem_cons, List.mem_replicate, List.not_mem_nil, or_false] at this
      rcases this with ((h | h | h) | ⟨-, h⟩) | h <;> simp [h]
    rcases this with rfl | rfl
    · exact absurd h3 (by decide)
    · exact absurd h3 (by decide)
  · rintro ⟨-, h⟩
    rcases h rfl with ⟨j, hj⟩ | ⟨h1, -⟩
    · have : (17 : Nat) = 2 + j * 100 := hj
      omega
    · exact absurd h1 (by decide)

end Mixtera.Mixing
