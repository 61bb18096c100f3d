import Verif.Props.Ado

/-! # C64: what the scaling laws are fitted to, and when (ado.py:201-338, 357-413, 588-649) -/

set_option linter.unusedSectionVars false

namespace Mixtera.Mixing

variable {F : Type} [Field F] [LinearOrder F] [IsStrictOrderedRing F]

/-! ### Frame conditions -/

/-- The parts of the state that `calc_mixture` only reads. -/
def SameHist (a a' : Ado F) : Prop :=
  a'.stepCounts = a.stepCounts ∧ a'.stepLosses = a.stepLosses ∧ a'.total = a.total

theorem SameHist.rfl' {a : Ado F} : SameHist a a := ⟨rfl, rfl, rfl⟩

theorem updateH_hist {cfg : Cfg F} {a a' : Ado F} {n : Nat} {p h : List F} (e : a.updateH cfg n p h = .ok a') :
    SameHist a a' ∧ a'.params = a.params := by
  unfold Ado.updateH at e
  simp only [bind, Except.bind, pure, Except.pure] at e
  split at e
  · cases e
  · injection e with e; subst e; exact ⟨⟨rfl, rfl, rfl⟩, rfl⟩

theorem credit_hist {cfg : Cfg F} {a a' : Ado F} {b : Bool} {p h : List F} (e : a.credit cfg b p h = .ok a') :
    SameHist a a' ∧ a'.params = a.params := by
  unfold Ado.credit at e
  split at e
  · exact updateH_hist e
  · exact updateH_hist e
  · split at e
    · exact updateH_hist e
    · injection e with e; subst e; exact ⟨SameHist.rfl', rfl⟩
  · split at e
    · exact updateH_hist e
    · injection e with e; subst e; exact ⟨SameHist.rfl', rfl⟩
  · cases e

theorem compute_hist (cfg : Cfg F) (ops : Ops F) (a : Ado F) (b : Bool) (h mu : List F) :
    SameHist a (a.compute cfg ops b h mu).1 ∧ (a.compute cfg ops b h mu).1.params = a.params := by
  unfold Ado.compute
  simp only
  split
  · exact ⟨SameHist.rfl', rfl⟩
  split
  · exact ⟨SameHist.rfl', rfl⟩
  split
  · exact ⟨SameHist.rfl', rfl⟩
  split
  · exact ⟨SameHist.rfl', rfl⟩
  split
  · exact ⟨SameHist.rfl', rfl⟩
  rename_i h4
  have := credit_hist h4
  split
  · exact this
  · exact this

theorem wait_hist (cfg : Cfg F) (a : Ado F) (b u : Bool) :
    SameHist a (a.wait cfg b u).1 ∧ (a.wait cfg b u).1.params = a.params := by
  unfold Ado.wait
  split
  · simp only; split <;> exact ⟨SameHist.rfl', rfl⟩
  · exact ⟨SameHist.rfl', rfl⟩

theorem fit_hist (ops : Ops F) (a : Ado F) : SameHist a (a.fit ops).1 := by
  unfold Ado.fit
  simp only
  split
  · exact SameHist.rfl'
  split
  · exact SameHist.rfl'
  split <;> exact SameHist.rfl'

theorem fit_params {ops : Ops F} {a a' : Ado F} (h : a.fit ops = (a', none)) :
    ∃ p, ops.fit a.stepCounts a.stepLosses = .ok p ∧ a'.params = some p := by
  unfold Ado.fit at h
  simp only at h
  split at h
  · cases h
  split at h
  · cases h
  rename_i p hp
  split at h
  · injection h with h _; subst h; exact ⟨p, hp, rfl⟩
  · cases h

theorem setMu_hist (close : F → Bool) (a : Ado F) :
    SameHist a (a.setMu close).1 ∧ (a.setMu close).1.params = a.params := by
  unfold Ado.setMu
  split
  · exact ⟨SameHist.rfl', rfl⟩
  · simp only
    split
    · exact ⟨SameHist.rfl', rfl⟩
    split <;> exact ⟨SameHist.rfl', rfl⟩

theorem SameHist.trans {a b c : Ado F} (h : SameHist a b) (h' : SameHist b c) : SameHist a c :=
  ⟨h'.1.trans h.1, h'.2.1.trans h.2.1, h'.2.2.trans h.2.2⟩

/-- Specification: the steps at which the scaling laws are fitted: the first one after the warm-up, and then again after
every `interval` steps. -/
def FitStep (cfg : Cfg F) (t : Nat) : Prop := ∃ j, t = cfg.start + j * cfg.interval

theorem active_hist (cfg : Cfg F) (ops : Ops F) (a : Ado F) (b : Bool) (mu : List F) (hs : cfg.start ≤ a.total) :
    SameHist a (a.active cfg ops b mu).1 ∧
    (¬ FitStep cfg a.total → (a.active cfg ops b mu).1.params = a.params) ∧
    (∀ out, (a.active cfg ops b mu).2 = .ok out → FitStep cfg a.total →
      ∃ p, ops.fit a.stepCounts a.stepLosses = .ok p ∧ (a.active cfg ops b mu).1.params = some p) := by
  unfold Ado.active
  simp only
  have hfd : ∀ due, fitDue cfg a.total = .ok due → (due = true ↔ FitStep cfg a.total) := by
    intro due h
    unfold fitDue at h
    split at h
    · rename_i he; injection h with h; subst h
      exact ⟨fun _ => ⟨0, by omega⟩, fun _ => rfl⟩
    split at h
    · cases h
    rename_i h0 hi
    injection h with h; subst h
    rw [decide_eq_true_eq]
    constructor
    · intro h
      obtain ⟨j, hj⟩ := Nat.dvd_of_mod_eq_zero h
      exact ⟨j, by rw [Nat.mul_comm] at hj; omega⟩
    · rintro ⟨j, hj⟩
      rw [hj, Nat.add_sub_cancel_left, Nat.mul_mod_left]
  split
  · refine ⟨SameHist.rfl', fun _ => rfl, fun out h => by cases h⟩
  rename_i due hdue
  have hd := hfd due hdue
  cases due
  · have hn : ¬ FitStep cfg a.total := fun h => by simpa using hd.2 h
    simp only [Bool.false_eq_true, if_false]
    have hw := wait_hist cfg ({ a with h := some (a.h.getD mu) } : Ado F) b false
    split
    · have hc := compute_hist cfg ops (({ a with h := some (a.h.getD mu) } : Ado F).wait cfg b false).1 b (a.h.getD mu) mu
      exact ⟨hw.1.trans hc.1, fun _ => hc.2.trans hw.2, fun _ _ h => absurd h hn⟩
    · exact ⟨hw.1, fun _ => hw.2, fun _ _ h => absurd h hn⟩
  · have hy := hd.1 rfl
    simp only [if_true]
    have hf := fit_hist ops ({ a with h := some (a.h.getD mu) } : Ado F)
    split
    · rename_i h; rw [h] at hf; exact ⟨hf, fun h => absurd hy h, fun out h => by cases h⟩
    · rename_i a1 h; rw [h] at hf
      obtain ⟨p, hp, hp'⟩ := fit_params h
      have hw := wait_hist cfg a1 b true
      split
      · have hc := compute_hist cfg ops (a1.wait cfg b true).1 b (a.h.getD mu) mu
        exact ⟨(SameHist.trans hf hw.1).trans hc.1, fun h => absurd hy h, fun _ _ _ => ⟨p, hp, by rw [hc.2, hw.2, hp']⟩⟩
      · exact ⟨SameHist.trans hf hw.1, fun h => absurd hy h, fun _ _ _ => ⟨p, hp, by rw [hw.2, hp']⟩⟩

theorem calc_hist (cfg : Cfg F) (ops : Ops F) (close : F → Bool) (a : Ado F) (b : Bool) :
    ((a.calc cfg ops close b).1.stepCounts = a.stepCounts ∧ (a.calc cfg ops close b).1.stepLosses = a.stepLosses ∧
      (a.calc cfg ops close b).1.total = a.total + 1) ∧
    (¬ FitStep cfg (a.total + 1) → (a.calc cfg ops close b).1.params = a.params) ∧
    (∀ out, (a.calc cfg ops close b).2 = .ok out → FitStep cfg (a.total + 1) →
      ∃ p, ops.fit a.stepCounts a.stepLosses = .ok p ∧ (a.calc cfg ops close b).1.params = some p) := by
  obtain ⟨hs1, hs2⟩ := setMu_hist close { a with total := a.total + 1 }
  unfold Ado.calc
  split
  · rename_i h; rw [h] at hs1 hs2
    exact ⟨hs1, fun _ => hs2, fun _ h => by cases h⟩
  · rename_i a1 h; rw [h] at hs1 hs2
    simp only at hs1 hs2
    have ht : a1.total = a.total + 1 := hs1.2.2
    split
    · rename_i hlt
      refine ⟨hs1, fun _ => hs2, fun _ _ hf => ?_⟩
      obtain ⟨j, hj⟩ := hf
      omega
    · rename_i hge
      obtain ⟨h1, h2, h3⟩ := active_hist cfg ops a1 b (a1.mu.getD []) (by omega)
      rw [ht] at h2 h3
      exact ⟨hs1.trans h1, fun h => (h2 h).trans hs2, fun out ho hf => by
        obtain ⟨p, hp, hp'⟩ := h3 out ho hf
        rw [hs1.1, hs1.2.1] at hp
        exact ⟨p, hp, hp'⟩⟩

/-! ### What is recorded -/

/-- Specification: the row of a report in a table about `n` domains. -/
def tableRow {α : Type} (n : Nat) (f : Nat → α) : List α := (List.range n).map f

/-- Specification: the loss per sample that a report says a domain has; zero if it has no samples of the domain. -/
def Report.lossPerSample (r : Report F) (k : Nat) : F :=
  if entry r.counts k = 0 then 0 else entry r.losses k / ((entry r.counts k : Int) : F)

/-- Specification: the number of samples of a domain in some reports. -/
def samplesOf (reports : List (Report F)) (k : Nat) : Int := (reports.map fun r => entry r.counts k).sum

/-- Specification: the samples that step `i` adds to domain `k`. With `use_same_step_size` every domain that has been seen
up to this step is credited with all samples of the step. -/
def stepSamples (cfg : Cfg F) (reports : List (Report F)) (i k : Nat) : Int :=
  match reports[i]? with
  | none => 0
  | some r =>
    if cfg.sameStep then (if samplesOf (reports.take (i + 1)) k > 0 then r.counts.sum else 0) else entry r.counts k

/-- Specification: the number of domains known after some reports. -/
def domains (reports : List (Report F)) : Nat := reports.foldl (fun n r => max n r.losses.length) 0

/-- Specification: reports that make sense: counts and losses for the same domains, no negative counts, at least one
sample, and never fewer domains than in the reports before. -/
structure Growing (reports : List (Report F)) : Prop where
  valid : ∀ r ∈ reports, r.Valid
  nonneg : ∀ r ∈ reports, ∀ c ∈ r.counts, 0 ≤ c
  some : ∀ r ∈ reports, ∃ c ∈ r.counts, 0 < c
  grow : reports.Pairwise fun r r' => r.losses.length ≤ r'.losses.length

theorem Growing.init {rs : List (Report F)} {r : Report F} (h : Growing (rs ++ [r])) :
    Growing rs ∧ domains rs ≤ r.losses.length ∧ domains (rs ++ [r]) = r.losses.length := by
  have hg := List.pairwise_append.1 h.grow
  have hle : domains rs ≤ r.losses.length := by
    have key : ∀ (l : List (Report F)) (n : Nat), n ≤ r.losses.length → (∀ x ∈ l, x.losses.length ≤ r.losses.length) →
        l.foldl (fun n r => max n r.losses.length) n ≤ r.losses.length := by
      intro l
      induction l with
      | nil => intro n hn _; exact hn
      | cons x xs ih =>
        intro n hn hx
        exact ih _ (max_le hn (hx x List.mem_cons_self)) fun y hy => hx y (List.mem_cons_of_mem _ hy)
    exact key rs 0 (Nat.zero_le _) fun x hx => hg.2.2 x hx r (List.mem_singleton.2 rfl)
  refine ⟨⟨fun x hx => h.valid x (List.mem_append_left _ hx), fun x hx => h.nonneg x (List.mem_append_left _ hx),
    fun x hx => h.some x (List.mem_append_left _ hx), hg.1⟩, hle, ?_⟩
  unfold domains at hle ⊢
  rw [List.foldl_append]
  exact max_eq_right hle

theorem tableRow_pad {α : Type} [Zero α] {n m : Nat} (h : n ≤ m) (f : Nat → α) (hf : ∀ k, n ≤ k → f k = 0) :
    tableRow n f ++ List.replicate (m - n) 0 = tableRow m f := by
  obtain ⟨d, rfl⟩ := Nat.exists_eq_add_of_le h
  unfold tableRow
  rw [List.range_add, List.map_append, List.map_map, Nat.add_sub_cancel_left]
  congr 1
  symm
  rw [List.eq_replicate_iff]
  refine ⟨by simp, fun x hx => ?_⟩
  obtain ⟨k, _, rfl⟩ := List.mem_map.1 hx
  exact hf _ (Nat.le_add_right _ _)

theorem tableRow_entry {α : Type} [Zero α] (l : List α) : l = tableRow l.length (entry l) := by
  apply List.ext_getElem
  · simp [tableRow]
  · intro k h1 h2
    simp [tableRow, entry, List.getElem?_eq_getElem h1]

theorem samplesOf_nonneg {rs : List (Report F)} (h : ∀ r ∈ rs, ∀ c ∈ r.counts, 0 ≤ c) (k : Nat) : 0 ≤ samplesOf rs k := by
  unfold samplesOf
  apply List.sum_nonneg
  intro x hx
  obtain ⟨r, hr, rfl⟩ := List.mem_map.1 hx
  exact entry_nonneg (h r hr) k

theorem adoRun_append (cfg : Cfg F) (ops : Ops F) (close : F → Bool) (rs : List (Report F)) (r : Report F) (a : Ado F) :
    adoRun cfg ops close (rs ++ [r]) a =
      ((adoRun cfg ops close rs a).step cfg ops close r.losses r.counts r.mixtureId).1 := by
  unfold adoRun; rw [List.foldl_append]; rfl

/-- The table of the losses that the specification asks for. -/
def lossTable (rs : List (Report F)) : List (List F) := rs.map fun r => tableRow (domains rs) r.lossPerSample

/-- The table of the counts that the specification asks for. -/
def countTable (cfg : Cfg F) (rs : List (Report F)) : List (List Int) :=
  (List.range rs.length).map fun i => tableRow (domains rs) (stepSamples cfg rs i)

/-- What holds between the reports. -/
structure Recorded (cfg : Cfg F) (rs : List (Report F)) (a : Ado F) : Prop where
  losses : a.stepLosses = lossTable rs
  counts : a.stepCounts = countTable cfg rs
  total : a.total = rs.length
  lenL : a.acc.losses.length = domains rs
  lenC : a.acc.counts.length = domains rs
  acc : ∀ k, entry a.acc.counts k = samplesOf rs k

theorem domains_ge {rs : List (Report F)} {r : Report F} (h : r ∈ rs) : r.losses.length ≤ domains rs := by
  have key : ∀ (l : List (Report F)) (n : Nat), n ≤ l.foldl (fun n r => max n r.losses.length) n ∧
      ∀ x ∈ l, x.losses.length ≤ l.foldl (fun n r => max n r.losses.length) n := by
    intro l
    induction l with
    | nil => intro n; exact ⟨le_refl _, fun x hx => by cases hx⟩
    | cons y ys ih =>
      intro n
      obtain ⟨h1, h2⟩ := ih (max n y.losses.length)
      refine ⟨(le_max_left _ _).trans h1, fun x hx => ?_⟩
      rcases List.mem_cons.1 hx with rfl | hx
      · exact (le_max_right _ _).trans h1
      · exact h2 x hx
  exact (key rs 0).2 r h

theorem lossPerSample_beyond {rs : List (Report F)} {r : Report F} (hv : r.Valid) (h : r ∈ rs) {k : Nat}
    (hk : domains rs ≤ k) : r.lossPerSample k = 0 := by
  have := domains_ge h
  unfold Report.lossPerSample
  rw [if_pos]
  exact entry_beyond (by rw [show r.counts.length = r.losses.length from hv]; omega)

theorem samplesOf_beyond {rs : List (Report F)} (hv : ∀ r ∈ rs, r.Valid) {k : Nat}
    (hk : domains rs ≤ k) : samplesOf rs k = 0 := by
  unfold samplesOf
  rw [List.sum_eq_zero]
  intro x hx
  obtain ⟨r, hr, rfl⟩ := List.mem_map.1 hx
  have := domains_ge hr
  exact entry_beyond (by rw [show r.counts.length = r.losses.length from hv r hr]; omega)

theorem domains_take (rs : List (Report F)) (i : Nat) : domains (rs.take i) ≤ domains rs := by
  have key : ∀ (l : List (Report F)) (n : Nat), (∀ x ∈ l, x.losses.length ≤ domains rs) → n ≤ domains rs →
      l.foldl (fun n r => max n r.losses.length) n ≤ domains rs := by
    intro l
    induction l with
    | nil => intro n _ h; exact h
    | cons y ys ih =>
      intro n h hn
      exact ih _ (fun x hx => h x (List.mem_cons_of_mem _ hx)) (max_le hn (h y List.mem_cons_self))
  exact key _ 0 (fun x hx => domains_ge (List.mem_of_mem_take hx)) (Nat.zero_le _)

theorem stepSamples_beyond (cfg : Cfg F) {rs : List (Report F)} (hv : ∀ r ∈ rs, r.Valid) (i : Nat) {k : Nat}
    (hk : domains rs ≤ k) : stepSamples cfg rs i k = 0 := by
  unfold stepSamples
  cases hi : rs[i]? with
  | none => rfl
  | some r =>
    simp only
    split
    · rw [samplesOf_beyond (fun x hx => hv x (List.mem_of_mem_take hx)) ((domains_take _ _).trans hk)]
      simp
    · have hr := List.mem_of_getElem? hi
      have := domains_ge hr
      exact entry_beyond (by rw [show r.counts.length = r.losses.length from hv r hr]; omega)

theorem recorded_step_full {cfg : Cfg F} {ops : Ops F} {close : F → Bool} {rs : List (Report F)} {r : Report F}
    (hg : Growing (rs ++ [r])) {a : Ado F} (h : Recorded cfg rs a) :
    ∃ a1 : Ado F, Recorded cfg (rs ++ [r]) (a.step cfg ops close r.losses r.counts r.mixtureId).1 ∧
      a1.params = a.params ∧ a1.total = a.total ∧
      a1.stepCounts = countTable cfg (rs ++ [r]) ∧ a1.stepLosses = lossTable (rs ++ [r]) ∧
      a.step cfg ops close r.losses r.counts r.mixtureId = a1.calc cfg ops close (a.acc.notice r.mixtureId).2 ∧
      ({ a with acc := (a.acc.notice r.mixtureId).1 } : Ado F).update cfg r.losses r.counts = (a1, none) ∧
      a1.acc.counts.length = domains (rs ++ [r]) ∧ ∀ k, entry a1.acc.counts k = samplesOf (rs ++ [r]) k := by
  obtain ⟨hg0, hle, hd⟩ := hg.init
  have hr : r ∈ rs ++ [r] := List.mem_append_right _ (List.mem_singleton.2 rfl)
  have hval : r.Valid := hg.valid r hr
  have hcl : r.counts.length = r.losses.length := hval
  obtain ⟨n1, n2⟩ := notice_same a.acc r.mixtureId
  obtain ⟨acc, u1, u2, u3, u4, u5, u6⟩ := update_ok (a.acc.notice r.mixtureId).1 r hval (by rw [n1, n2, h.lenL, h.lenC])
  have hal : acc.losses.length = r.losses.length := by rw [u3, n1, h.lenL]; omega
  have hac : acc.counts.length = r.losses.length := by rw [u4, hal]
  have hacc : ∀ k, entry acc.counts k = samplesOf (rs ++ [r]) k := by
    intro k
    rw [u6 k, n2, h.acc k]
    simp [samplesOf]
  have hpos : acc.counts.any (fun c => decide (c > 0)) = true := by
    obtain ⟨c, hcm, hc0⟩ := hg.some r hr
    obtain ⟨k, hk, rfl⟩ := List.getElem_of_mem hcm
    have hk' : k < acc.counts.length := by omega
    rw [List.any_eq_true]
    refine ⟨acc.counts[k], List.getElem_mem hk', ?_⟩
    rw [decide_eq_true_eq, ← entry_eq hk', hacc k]
    have := samplesOf_nonneg hg0.nonneg k
    have e : samplesOf (rs ++ [r]) k = samplesOf rs k + r.counts[k] := by
      simp [samplesOf, entry_eq hk]
    omega
  -- the new tables
  let g : Ado F := ({ ({ a with acc := (a.acc.notice r.mixtureId).1 } : Ado F) with acc := acc } : Ado F).grow
    (r.losses.length - (a.acc.notice r.mixtureId).1.losses.length)
  have hLold : padLosses r.losses.length g.stepCounts g.stepLosses = rs.map fun x => tableRow r.losses.length x.lossPerSample := by
    have e1 : g.stepCounts = countTable cfg rs := h.counts
    have e2 : g.stepLosses = lossTable rs := h.losses
    rw [e1, e2, padLosses, List.drop_of_length_le (by simp [countTable, lossTable]), List.append_nil]
    apply List.ext_getElem
    · simp [countTable, lossTable]
    · intro i h1 h2
      have hi : i < rs.length := by simpa using h2
      rw [List.getElem_zipWith, List.getElem_map]
      simp only [countTable, lossTable, List.getElem_map, List.getElem_range]
      rw [show (tableRow (domains rs) (stepSamples cfg rs i)).length = domains rs by simp [tableRow]]
      refine tableRow_pad hle _ fun k hk => lossPerSample_beyond (hg0.valid _ (List.getElem_mem hi)) (List.getElem_mem hi) hk
  have hLnew : List.zipWith (fun (l : F) (c : Int) => if c ≠ 0 then l / (c : F) else 0) r.losses r.counts =
      tableRow r.losses.length r.lossPerSample := by
    apply List.ext_getElem
    · simp [tableRow, hcl]
    · intro i h1 h2
      have hi : i < r.losses.length := by simpa [tableRow] using h2
      rw [List.getElem_zipWith]
      simp only [tableRow, List.getElem_map, List.getElem_range, Report.lossPerSample, entry_eq hi,
        entry_eq (show i < r.counts.length by omega)]
      by_cases h0 : r.counts[i] = 0
      · rw [if_neg (not_not.2 h0), if_pos h0]
      · rw [if_pos h0, if_neg h0]
  have hCold : g.stepCounts.map (padTo r.losses.length) =
      (List.range rs.length).map fun i => tableRow r.losses.length (stepSamples cfg (rs ++ [r]) i) := by
    have e1 : g.stepCounts = countTable cfg rs := h.counts
    rw [e1, countTable, List.map_map]
    apply List.map_congr_left
    intro i hi
    have hi : i < rs.length := List.mem_range.1 hi
    show padTo _ (tableRow _ _) = _
    rw [padTo, show (tableRow (domains rs) (stepSamples cfg rs i)).length = domains rs by simp [tableRow],
      tableRow_pad hle _ fun k hk => stepSamples_beyond cfg hg0.valid i hk]
    have : stepSamples cfg (rs ++ [r]) i = stepSamples cfg rs i := by
      funext k
      unfold stepSamples
      rw [List.getElem?_append_left hi, List.take_append_of_le_length (by omega)]
    rw [this]
  have hCnew : ∀ row, (if cfg.sameStep = true then row = acc.counts.map (fun x => if x > 0 then r.counts.sum else 0)
      else row = r.counts) → row = tableRow r.losses.length (stepSamples cfg (rs ++ [r]) rs.length) := by
    intro row hrow
    have hlast : (rs ++ [r])[rs.length]? = some r := by simp
    have htake : (rs ++ [r]).take (rs.length + 1) = rs ++ [r] := List.take_of_length_le (by simp)
    unfold stepSamples
    simp only [hlast, htake]
    split at hrow
    · rename_i hs
      rw [hrow]
      apply List.ext_getElem
      · simp [tableRow, hac]
      · intro i h1 h2
        have hi : i < acc.counts.length := by simpa using h1
        simp only [tableRow, List.getElem_map, List.getElem_range, ← hacc i, entry_eq hi, hs, if_true]
    · rename_i hs
      rw [hrow, ← hcl]
      simp only [hs]
      exact tableRow_entry r.counts
  have hLT : lossTable (rs ++ [r]) = padLosses r.losses.length g.stepCounts g.stepLosses ++
      [List.zipWith (fun (l : F) (c : Int) => if c ≠ 0 then l / (c : F) else 0) r.losses r.counts] := by
    rw [hLold, hLnew, lossTable, hd, List.map_append]; rfl
  have hCT : ∀ row, (if cfg.sameStep = true then row = acc.counts.map (fun x => if x > 0 then r.counts.sum else 0)
      else row = r.counts) → countTable cfg (rs ++ [r]) = g.stepCounts.map (padTo r.losses.length) ++ [row] := by
    intro row hrow
    rw [hCold, hCnew row hrow, countTable, hd, List.length_append, List.length_singleton, List.range_succ, List.map_append]
    rfl
  have hrec : ∃ a1 : Ado F, g.record cfg r.losses r.counts = (a1, none) ∧ a1.params = a.params ∧ a1.total = a.total ∧
      a1.stepCounts = countTable cfg (rs ++ [r]) ∧ a1.stepLosses = lossTable (rs ++ [r]) ∧ a1.acc = acc := by
    have hinc : increment g.acc.counts r.counts = .ok (acc.counts.map fun x => if x > 0 then r.counts.sum else 0) := by
      show increment acc.counts r.counts = _
      unfold increment
      rw [hpos, if_neg (by simp), if_neg (by rw [hac, hcl]; simp)]
    unfold Ado.record
    simp only
    split
    · rename_i hs
      rw [hinc]
      exact ⟨_, rfl, rfl, rfl, (hCT _ (by rw [if_pos hs])).symm, hLT.symm, rfl⟩
    · rename_i hs
      exact ⟨_, rfl, rfl, rfl, (hCT _ (by rw [if_neg hs])).symm, hLT.symm, rfl⟩
  obtain ⟨a1, v1, v2, v3, v4, v5, v6⟩ := hrec
  have hupd : ({ a with acc := (a.acc.notice r.mixtureId).1 } : Ado F).update cfg r.losses r.counts = (a1, none) := by
    unfold Ado.update
    rw [if_neg (by rw [hcl]; simp)]
    simp only
    rw [u1]
    exact v1
  have hstep : a.step cfg ops close r.losses r.counts r.mixtureId = a1.calc cfg ops close (a.acc.notice r.mixtureId).2 := by
    unfold Ado.step
    simp only
    rw [hupd]
  refine ⟨a1, ?_, v2, v3, v4, v5, hstep, hupd, by rw [v6, hac, hd], fun k => by rw [v6]; exact hacc k⟩
  rw [hstep]
  obtain ⟨⟨w1, w2, w3⟩, _⟩ := calc_hist cfg ops close a1 (a.acc.notice r.mixtureId).2
  have wa := calc_acc cfg ops close a1 (a.acc.notice r.mixtureId).2
  exact ⟨w2.trans v5, w1.trans v4, by rw [w3, v3, h.total]; simp, by rw [wa, v6, hal, hd], by rw [wa, v6, hac, hd],
    fun k => by rw [wa, v6]; exact hacc k⟩

theorem recorded_step {cfg : Cfg F} {ops : Ops F} {close : F → Bool} {rs : List (Report F)} {r : Report F}
    (hg : Growing (rs ++ [r])) {a : Ado F} (h : Recorded cfg rs a) :
    ∃ a1 : Ado F, Recorded cfg (rs ++ [r]) (a.step cfg ops close r.losses r.counts r.mixtureId).1 ∧
      a1.params = a.params ∧ a1.total = a.total ∧
      a1.stepCounts = countTable cfg (rs ++ [r]) ∧ a1.stepLosses = lossTable (rs ++ [r]) ∧
      a.step cfg ops close r.losses r.counts r.mixtureId = a1.calc cfg ops close (a.acc.notice r.mixtureId).2 := by
  obtain ⟨a1, h1, h2, h3, h4, h5, h6, -⟩ := recorded_step_full (ops := ops) (close := close) hg h
  exact ⟨a1, h1, h2, h3, h4, h5, h6⟩

theorem recorded_run (cfg : Cfg F) (ops : Ops F) (close : F → Bool) (initial : List F) (rs : List (Report F))
    (hg : Growing rs) : Recorded cfg rs (adoRun cfg ops close rs (Ado.init initial)) := by
  induction rs using List.reverseRecOn with
  | nil => exact ⟨rfl, rfl, rfl, rfl, rfl, fun k => by simp [samplesOf, entry, adoRun, Ado.init, Acc.init]⟩
  | append_singleton rs r ih =>
    rw [adoRun_append]
    exact (recorded_step hg (ih hg.init.1)).choose_spec.1

/-- **C64** (what the scaling laws are fitted to, and when). Whatever growing sequence of reports was processed before,
with whatever exceptions during the computation of the mixtures: if a report is processed without an exception and its
number is `start_step`, or later by a multiple of the fitting interval, then the scaling laws are fitted anew, to a table
with one row per report so far and one column per domain known now, the losses per sample of that report and the samples it
adds to that domain. Otherwise the scaling laws stay as they are. -/
theorem c64_fitted_history (cfg : Cfg F) (ops : Ops F) (close : F → Bool) (initial : List F) (reports : List (Report F))
    (r : Report F) (hg : Growing (reports ++ [r])) (a' : Ado F) (out : Option (List F))
    (h : (adoRun cfg ops close reports (Ado.init initial)).step cfg ops close r.losses r.counts r.mixtureId =
      (a', .ok out)) :
    ((∃ j, reports.length + 1 = cfg.start + j * cfg.interval) →
      ∃ p, a'.params = some p ∧
        ops.fit
          ((List.range (reports.length + 1)).map fun i =>
            (List.range r.losses.length).map fun k => stepSamples cfg (reports ++ [r]) i k)
          ((reports ++ [r]).map fun x => (List.range r.losses.length).map fun k => x.lossPerSample k) = .ok p) ∧
    ((¬ ∃ j, reports.length + 1 = cfg.start + j * cfg.interval) →
      a'.params = (adoRun cfg ops close reports (Ado.init initial)).params) := by
  obtain ⟨hg0, _, hd⟩ := hg.init
  have hrun := recorded_run cfg ops close initial reports hg0
  obtain ⟨a1, _, v1, v2, v3, v4, v5⟩ := recorded_step (ops := ops) (close := close) hg hrun
  rw [h] at v5
  obtain ⟨_, w1, w2⟩ := calc_hist cfg ops close a1 ((adoRun cfg ops close reports (Ado.init initial)).acc.notice r.mixtureId).2
  rw [← v5, v2, hrun.total] at w1 w2
  refine ⟨fun hf => ?_, fun hf => (w1 hf).trans v1⟩
  obtain ⟨p, hp, hp'⟩ := w2 out rfl hf
  refine ⟨p, hp', ?_⟩
  rw [v3, v4] at hp
  simp only [countTable, lossTable, tableRow, hd, List.length_append, List.length_singleton] at hp
  exact hp

/-- **C64** (what is recorded). After any growing sequence of reports, with whatever exceptions during the computation of
the mixtures, the recorded histories have one row per report and one column per domain that is known now. -/
theorem c64_recorded (cfg : Cfg F) (ops : Ops F) (close : F → Bool) (initial : List F) (reports : List (Report F))
    (hg : Growing reports) :
    (adoRun cfg ops close reports (Ado.init initial)).stepLosses =
      reports.map (fun x => (List.range (domains reports)).map fun k => x.lossPerSample k) ∧
    (adoRun cfg ops close reports (Ado.init initial)).stepCounts =
      (List.range reports.length).map fun i => (List.range (domains reports)).map fun k => stepSamples cfg reports i k := by
  have h := recorded_run cfg ops close initial reports hg
  exact ⟨h.losses, h.counts⟩

/-- The hypotheses can be met: the third report knows a third domain. -/
example : Growing ([⟨[1, 2], [1, 1], 0⟩, ⟨[3, 2], [2, 0], 0⟩, ⟨[1, 1, 1], [1, 1, 1], 0⟩] : List (Report ℚ)) := by
  refine ⟨?_, ?_, ?_, ?_⟩ <;> simp [Report.Valid]

example : (adoRun exCfg exOps (fun _ => true) [⟨[1, 2], [1, 1], 0⟩, ⟨[3, 2], [2, 0], 0⟩, ⟨[1, 1, 1], [1, 1, 1], 0⟩]
      (Ado.init [1/2, 1/2])).stepLosses = [[1, 2, 0], [3/2, 0, 0], [1, 1, 1]] ∧
    (adoRun exCfg exOps (fun _ => true) [⟨[1, 2], [1, 1], 0⟩, ⟨[3, 2], [2, 0], 0⟩, ⟨[1, 1, 1], [1, 1, 1], 0⟩]
      (Ado.init [1/2, 1/2])).stepCounts = [[2, 2, 0], [2, 2, 0], [3, 3, 3]] := by decide +kernel

/-! ### The credit of `adjusted_v2` -/

/-- Specification: the exponential average with rate `g`, once for every step. -/
def mixedTimes (g : F) (p : F) : Nat → F → F
  | 0, h => h
  | n + 1, h => g * p + (1 - g) * mixedTimes g p n h

theorem mixedTimes_eq (g p h : F) (n : Nat) :
    mixedTimes g p n h = (1 - (1 - g) ^ n) * p + (1 - g) ^ n * h := by
  induction n with
  | zero => simp [mixedTimes]
  | succ n ih => rw [mixedTimes, ih, pow_succ]; ring

/-- **C64** (`adjusted_v2`). When the client has begun to use a newer mixture, the variant credits the policy for all the
steps since the last credit: the result is the same as with one vanilla credit of the same policy for each of these
steps. -/
theorem c64_v2_catches_up (cfg : Cfg F) (hv : cfg.variant = .v2) (a a' : Ado F) (pi h : List F)
    (hok : a.credit cfg true pi h = .ok a') (hlast : a.lastUpdate < a.total) :
    a'.h = some (List.zipWith (fun p x => mixedTimes cfg.gamma1 p (a.total - a.lastUpdate) x) pi h) ∧
      a'.lastUpdate = a.total := by
  unfold Ado.credit at hok
  rw [hv] at hok
  simp only [if_true] at hok
  unfold Ado.updateH at hok
  simp only [bind, Except.bind, pure, Except.pure, hv] at hok
  split at hok
  · cases hok
  rename_i h' he
  injection hok with hok; subst hok
  refine ⟨?_, rfl⟩
  unfold elementwise at he
  split at he
  swap
  · cases he
  injection he with he
  show some h' = _
  rw [← he]
  congr 2
  funext p x
  rw [mixedTimes_eq]
  split
  · ring
  · rename_i hn
    have : a.total - a.lastUpdate = 1 := by
      simp only [true_and, not_lt] at hn
      omega
    rw [this, pow_one]; ring

/-- The hypotheses can be met. -/
example : (((Ado.init [1/2, 1/2]) : Ado ℚ).credit ⟨.v2, 1/2, 1/2, 1, 1/100, 10, 2, true, none⟩ true [1, 0] [1/2, 1/2]).toOption.map
    (·.h) = some (some [3/4, 1/4]) := by decide +kernel

/-! ### When the newer variants react -/

/-- Specification: the report number `s` (counted from one) is the first one made with a newer mixture. -/
def FirstWithNewer (reports : List (Report F)) (s : Nat) : Prop :=
  ∃ before r after, reports = before ++ r :: after ∧ before.length + 1 = s ∧ ∀ x ∈ before, x.mixtureId < r.mixtureId

/-- The parts of the state that the waiting uses. -/
def SameWait (a a' : Ado F) : Prop := a'.nextContinue = a.nextContinue ∧ a'.handedOut = a.handedOut

theorem updateH_wait {cfg : Cfg F} {a a' : Ado F} {n : Nat} {p h : List F} (e : a.updateH cfg n p h = .ok a') :
    SameWait a a' := by
  unfold Ado.updateH at e
  simp only [bind, Except.bind, pure, Except.pure] at e
  split at e
  · cases e
  · injection e with e; subst e; exact ⟨rfl, rfl⟩

theorem credit_wait {cfg : Cfg F} {a a' : Ado F} {b : Bool} {p h : List F} (e : a.credit cfg b p h = .ok a') :
    SameWait a a' ∧ ((cfg.variant = .v1 ∨ cfg.variant = .v2) → b = false → a'.h = a.h) := by
  unfold Ado.credit at e
  split at e
  · rename_i hv; exact ⟨updateH_wait e, fun h => by rcases h with h | h <;> rw [h] at hv <;> cases hv⟩
  · rename_i hv; exact ⟨updateH_wait e, fun h => by rcases h with h | h <;> rw [h] at hv <;> cases hv⟩
  · split at e
    · rename_i hb; exact ⟨updateH_wait e, fun _ h => by rw [h] at hb; cases hb⟩
    · injection e with e; subst e; exact ⟨⟨rfl, rfl⟩, fun _ _ => rfl⟩
  · split at e
    · rename_i hb; exact ⟨updateH_wait e, fun _ h => by rw [h] at hb; cases hb⟩
    · injection e with e; subst e; exact ⟨⟨rfl, rfl⟩, fun _ _ => rfl⟩
  · cases e

theorem compute_wait (cfg : Cfg F) (ops : Ops F) (a : Ado F) (b : Bool) (h mu : List F) :
    (a.compute cfg ops b h mu).1.nextContinue = a.nextContinue ∧
    (a.handedOut = true → (a.compute cfg ops b h mu).1.handedOut = true) ∧
    (∀ w, (a.compute cfg ops b h mu).2 = .ok (some w) → (a.compute cfg ops b h mu).1.handedOut = true) ∧
    (∀ w, (a.compute cfg ops b h mu).2 = .ok w → w ≠ none) ∧
    ((cfg.variant = .v1 ∨ cfg.variant = .v2) → b = false → (a.compute cfg ops b h mu).1.h = a.h) := by
  unfold Ado.compute
  simp only
  split
  · exact ⟨rfl, id, fun w h => by (cases h), fun w h => by (cases h), fun _ _ => rfl⟩
  split
  · exact ⟨rfl, id, fun w h => by (cases h), fun w h => by (cases h), fun _ _ => rfl⟩
  split
  · exact ⟨rfl, id, fun w h => by (cases h), fun w h => by (cases h), fun _ _ => rfl⟩
  split
  · exact ⟨rfl, id, fun w h => by (cases h), fun w h => by (cases h), fun _ _ => rfl⟩
  split
  · exact ⟨rfl, id, fun w h => by (cases h), fun w h => by (cases h), fun _ _ => rfl⟩
  rename_i h4
  obtain ⟨c1, c2⟩ := credit_wait h4
  split
  · exact ⟨c1.1, fun h => c1.2.trans h, fun w h => by (cases h), fun w h => by (cases h), c2⟩
  · exact ⟨c1.1, fun _ => rfl, fun w _ => rfl, fun w h => by (injection h with h; rw [← h]; simp), c2⟩

theorem fit_wait (ops : Ops F) (a : Ado F) : SameWait a (a.fit ops).1 ∧ (a.fit ops).1.h = a.h := by
  unfold Ado.fit
  simp only
  split
  · exact ⟨⟨rfl, rfl⟩, rfl⟩
  split
  · exact ⟨⟨rfl, rfl⟩, rfl⟩
  split <;> exact ⟨⟨rfl, rfl⟩, rfl⟩

theorem setMu_wait (close : F → Bool) (a : Ado F) : SameWait a (a.setMu close).1 ∧ (a.setMu close).1.h = a.h := by
  unfold Ado.setMu
  split
  · exact ⟨⟨rfl, rfl⟩, rfl⟩
  · simp only
    split
    · exact ⟨⟨rfl, rfl⟩, rfl⟩
    split <;> exact ⟨⟨rfl, rfl⟩, rfl⟩

/-- What one call of `calc_mixture` does to the waiting. -/
structure WaitStep (cfg : Cfg F) (t : Nat) (b : Bool) (a a' : Ado F) (out : Except Err (Option (List F))) : Prop where
  next : ∀ m, a'.nextContinue = some m → a.nextContinue = some m ∨ (b = true ∧ m = t + 15)
  keeps : a.handedOut = true → a'.handedOut = true
  sets : ∀ w, out = .ok (some w) → a'.handedOut = true
  waits : cfg.variant = .v3 → a.handedOut = true → ∀ w, out = .ok (some w) → FitStep cfg t ∨ a'.nextContinue = some t
  ends : FitStep cfg t → ∀ w, out = .ok w → w ≠ none
  credit : (cfg.variant = .v1 ∨ cfg.variant = .v2) → b = false → ∀ h, a.h = some h → a'.h = some h

theorem wait_step (cfg : Cfg F) (a : Ado F) (b u : Bool) :
    (∀ m, (a.wait cfg b u).1.nextContinue = some m → a.nextContinue = some m ∨ (b = true ∧ m = a.total + 15)) ∧
    (a.wait cfg b u).1.handedOut = a.handedOut ∧ (a.wait cfg b u).1.h = a.h ∧
    (cfg.variant = .v3 → a.handedOut = true → (a.wait cfg b u).2 = true →
      u = true ∨ (a.wait cfg b u).1.nextContinue = some a.total) ∧
    (u = true → (a.wait cfg b u).2 = true) := by
  unfold Ado.wait
  split
  · rename_i hv
    simp only
    cases b
    · simp only [Bool.false_eq_true, if_false]
      refine ⟨fun m h => Or.inl h, by trivial, by trivial, fun _ _ h => ?_, fun h => by rw [h]; simp⟩
      rcases Bool.or_eq_true_iff.1 h with h | h
      · exact Or.inr (of_decide_eq_true h)
      · exact Or.inl h
    · simp only [if_true]
      refine ⟨fun m h => Or.inr ⟨by trivial, (Option.some.inj h).symm⟩, by trivial, by trivial, fun _ _ h => ?_, fun h => by rw [h]; simp⟩
      rcases Bool.or_eq_true_iff.1 h with h | h
      · exact Or.inr (of_decide_eq_true h)
      · exact Or.inl h
  · rename_i hv
    exact ⟨fun m h => Or.inl h, rfl, rfl, fun h h' => absurd ⟨h, h'⟩ hv, fun _ => rfl⟩

theorem fitDue_iff {cfg : Cfg F} {t : Nat} (hs : cfg.start ≤ t) {due : Bool} (h : fitDue cfg t = .ok due) :
    due = true ↔ FitStep cfg t := by
  unfold fitDue at h
  split at h
  · rename_i he; injection h with h; subst h
    exact ⟨fun _ => ⟨0, by omega⟩, fun _ => rfl⟩
  split at h
  · cases h
  injection h with h; subst h
  rw [decide_eq_true_eq]
  constructor
  · intro h
    obtain ⟨j, hj⟩ := Nat.dvd_of_mod_eq_zero h
    exact ⟨j, by rw [Nat.mul_comm] at hj; omega⟩
  · rintro ⟨j, hj⟩
    rw [hj, Nat.add_sub_cancel_left, Nat.mul_mod_left]

theorem active_wait (cfg : Cfg F) (ops : Ops F) (a : Ado F) (b : Bool) (mu : List F) (hs : cfg.start ≤ a.total) :
    WaitStep cfg a.total b a (a.active cfg ops b mu).1 (a.active cfg ops b mu).2 := by
  unfold Ado.active
  simp only
  split
  · exact ⟨fun m h => Or.inl h, id, fun w h => by (cases h), fun _ _ w h => by (cases h), fun _ w h => by (cases h),
      fun _ _ h e => by simp [e]⟩
  rename_i due hdue
  have hd := fitDue_iff hs hdue
  -- after the (possible) fitting
  have key : ∀ a1 : Ado F, SameWait a a1 → a1.total = a.total → a1.h = some (a.h.getD mu) →
      WaitStep cfg a.total b a
        (if (a1.wait cfg b due).2 then (a1.wait cfg b due).1.compute cfg ops b (a.h.getD mu) mu
          else ((a1.wait cfg b due).1, .ok none)).1
        (if (a1.wait cfg b due).2 then (a1.wait cfg b due).1.compute cfg ops b (a.h.getD mu) mu
          else ((a1.wait cfg b due).1, .ok none)).2 := by
    intro a1 h1 h2 h3
    obtain ⟨w1, w2, w3, w4, w5⟩ := wait_step cfg a1 b due
    rw [h2, h1.1] at w1
    rw [h2, h1.2] at w4
    rw [h1.2] at w2
    rw [h3] at w3
    split
    · rename_i hc
      obtain ⟨c1, c2, c3, c4, c5⟩ := compute_wait cfg ops (a1.wait cfg b due).1 b (a.h.getD mu) mu
      refine ⟨fun m h => w1 m (c1 ▸ h), fun h => c2 (w2.trans h), c3, fun hv ho w _ => ?_, fun _ => c4, fun hv hb h e => ?_⟩
      · rcases w4 hv ho hc with h | h
        · exact Or.inl (hd.1 h)
        · exact Or.inr (c1.trans h)
      · rw [c5 hv hb, w3, e]; rfl
    · rename_i hc
      refine ⟨w1, fun h => w2.trans h, fun w h => by (cases h), fun _ _ w h => by (cases h), fun hf => ?_, fun hv hb h e => ?_⟩
      · exact absurd (w5 (hd.2 hf)) hc
      · rw [w3, e]; rfl
  cases due
  · simp only [Bool.false_eq_true, if_false]
    exact key _ ⟨rfl, rfl⟩ rfl rfl
  · simp only [if_true]
    obtain ⟨hf, hfh⟩ := fit_wait ops ({ a with h := some (a.h.getD mu) } : Ado F)
    have ht := (fit_hist ops ({ a with h := some (a.h.getD mu) } : Ado F)).2.2
    split
    · rename_i h; rw [h] at hf hfh
      exact ⟨fun m h => Or.inl (hf.1 ▸ h), fun h => hf.2.trans h, fun w h => by (cases h), fun _ _ w h => by (cases h),
        fun _ w h => by (cases h), fun _ _ h e => by rw [hfh]; simp [e]⟩
    · rename_i a1 h; rw [h] at hf hfh ht
      exact key a1 hf ht hfh

theorem calc_wait (cfg : Cfg F) (ops : Ops F) (close : F → Bool) (a : Ado F) (b : Bool) :
    WaitStep cfg (a.total + 1) b a (a.calc cfg ops close b).1 (a.calc cfg ops close b).2 := by
  obtain ⟨hs1, hs2⟩ := setMu_wait close { a with total := a.total + 1 }
  have ht := (setMu_hist close { a with total := a.total + 1 }).1.2.2
  unfold Ado.calc
  split
  · rename_i h; rw [h] at hs1 hs2
    exact ⟨fun m h => Or.inl (hs1.1 ▸ h), fun h => hs1.2.trans h, fun w h => by (cases h), fun _ _ w h => by (cases h),
      fun _ w h => by (cases h), fun _ _ h e => hs2.trans e⟩
  · rename_i a1 h; rw [h] at hs1 hs2 ht
    simp only at hs1 hs2 ht
    split
    · rename_i hlt
      refine ⟨fun m h => Or.inl (hs1.1 ▸ h), fun h => hs1.2.trans h, fun w h => by (cases h), fun _ _ w h => by (cases h),
        fun hf => ?_, fun _ _ h e => hs2.trans e⟩
      obtain ⟨j, hj⟩ := hf
      omega
    · rename_i hge
      have w := active_wait cfg ops a1 b (a1.mu.getD []) (by omega)
      rw [ht] at w
      exact ⟨fun m h => hs1.1 ▸ w.next m h, fun h => w.keeps (hs1.2.trans h), w.sets, fun hv ho => w.waits hv (hs1.2.trans ho),
        w.ends, fun hv hb h e => w.credit hv hb h (hs2.trans e)⟩

theorem record_wait (cfg : Cfg F) (a : Ado F) (l : List F) (c : List Int) :
    SameWait a (a.record cfg l c).1 ∧ (a.record cfg l c).1.h = a.h := by
  unfold Ado.record
  simp only
  split
  · split <;> exact ⟨⟨rfl, rfl⟩, rfl⟩
  · exact ⟨⟨rfl, rfl⟩, rfl⟩

theorem update_wait (cfg : Cfg F) (a : Ado F) (l : List F) (c : List Int) :
    SameWait a (a.update cfg l c).1 ∧ ∀ h, a.h = some h → ∃ h', (a.update cfg l c).1.h = some h' ∧ ∀ k, entry h' k = entry h k := by
  unfold Ado.update
  split
  · exact ⟨⟨rfl, rfl⟩, fun h e => ⟨h, e, fun _ => rfl⟩⟩
  simp only
  split
  · exact ⟨⟨rfl, rfl⟩, fun h e => ⟨h, e, fun _ => rfl⟩⟩
  · rename_i acc _
    obtain ⟨r1, r2⟩ := record_wait cfg (({ a with acc := acc } : Ado F).grow (l.length - a.acc.losses.length)) l c
    refine ⟨r1, fun h e => ⟨h ++ List.replicate (l.length - a.acc.losses.length) 0, r2.trans ?_, ?_⟩⟩
    · simp [Ado.grow, e]
    · intro k
      unfold entry
      rcases lt_or_ge k h.length with hk | hk
      · rw [List.getElem?_append_left hk]
      · rw [List.getElem?_append_right hk, List.getElem?_eq_none hk, List.getElem?_replicate]
        split <;> rfl

/-- One processed report, as far as the waiting is concerned. -/
theorem step_wait {cfg : Cfg F} {ops : Ops F} {close : F → Bool} {rs : List (Report F)} {r : Report F}
    (hg : Growing (rs ++ [r])) (hid : 0 ≤ r.mixtureId) {initial : List F} :
    ∃ a1, SameWait (adoRun cfg ops close rs (Ado.init initial)) a1 ∧
      (∀ h, (adoRun cfg ops close rs (Ado.init initial)).h = some h → ∃ h', a1.h = some h' ∧ ∀ k, entry h' k = entry h k) ∧
      ∃ b : Bool, (b = true ↔ ∀ x ∈ rs, x.mixtureId < r.mixtureId) ∧
        WaitStep cfg (rs.length + 1) b a1
          ((adoRun cfg ops close rs (Ado.init initial)).step cfg ops close r.losses r.counts r.mixtureId).1
          ((adoRun cfg ops close rs (Ado.init initial)).step cfg ops close r.losses r.counts r.mixtureId).2 := by
  obtain ⟨hg0, _, _⟩ := hg.init
  have hrun := recorded_run cfg ops close initial rs hg0
  generalize hA : adoRun cfg ops close rs (Ado.init initial) = A at hrun ⊢
  have hacc : A.acc = accAfter rs Acc.init := by
    rw [← hA, adoRun_acc _ _ _ _ _ hg0.valid]; rfl
  have hb := c49_newer_mixture rs r.mixtureId hid
  rw [← hacc] at hb
  obtain ⟨a1, -, v1, v2, v3, v4, v5⟩ := recorded_step (ops := ops) (close := close) hg hrun
  obtain ⟨u1, u2⟩ := update_wait cfg ({ A with acc := (A.acc.notice r.mixtureId).1 } : Ado F) r.losses r.counts
  -- the state after `_update_state`
  unfold Ado.step
  simp only
  split
  · rename_i a2 e h
    exfalso
    have hval : r.Valid := hg.valid r (List.mem_append_right _ (List.mem_singleton.2 rfl))
    have : A.step cfg ops close r.losses r.counts r.mixtureId = (a2, .error e) := by
      unfold Ado.step
      simp only
      rw [h]
    have ht : (A.step cfg ops close r.losses r.counts r.mixtureId).1.total = A.total + 1 := by
      rw [v5, (calc_hist cfg ops close a1 _).1.2.2, v2]
    rw [this] at ht
    have hu : ∀ l c, (({ A with acc := (A.acc.notice r.mixtureId).1 } : Ado F).update cfg l c).1.total = A.total := by
      intro l c
      unfold Ado.update
      split
      · rfl
      simp only
      split
      · rfl
      · unfold Ado.record
        simp only
        split
        · split <;> rfl
        · rfl
    have h2 := hu r.losses r.counts
    rw [h] at h2
    simp only at h2 ht
    omega
  · rename_i a2 h
    rw [h] at u1 u2
    refine ⟨a2, u1, u2, _, hb, ?_⟩
    have hu : a2.total = rs.length := by
      have ht : (A.step cfg ops close r.losses r.counts r.mixtureId).1.total = A.total + 1 := by
        rw [v5, (calc_hist cfg ops close a1 _).1.2.2, v2]
      have h3 : A.step cfg ops close r.losses r.counts r.mixtureId = a2.calc cfg ops close (A.acc.notice r.mixtureId).2 := by
        unfold Ado.step
        simp only
        rw [h]
      rw [h3, (calc_hist cfg ops close a2 _).1.2.2, hrun.total] at ht
      omega
    rw [← hu]
    exact calc_wait cfg ops close a2 _

/-- **C64** (`adjusted_v1` and `adjusted_v2`). With these variants the credit of the domains stays as it is as long as the
client does not report with a newer mixture (new domains have no credit), whatever exceptions are raised. -/
theorem c64_credit_only_newer (cfg : Cfg F) (hv : cfg.variant = .v1 ∨ cfg.variant = .v2) (ops : Ops F) (close : F → Bool)
    (initial : List F) (reports : List (Report F)) (r : Report F) (hg : Growing (reports ++ [r])) (hid : 0 ≤ r.mixtureId)
    (hold : ∃ x ∈ reports, r.mixtureId ≤ x.mixtureId) (h : List F)
    (hh : (adoRun cfg ops close reports (Ado.init initial)).h = some h) :
    ∃ h', (adoRun cfg ops close (reports ++ [r]) (Ado.init initial)).h = some h' ∧ ∀ k, entry h' k = entry h k := by
  obtain ⟨a1, _, h2, b, hb, hw⟩ := step_wait (cfg := cfg) (ops := ops) (close := close) (initial := initial) hg hid
  obtain ⟨h', e1, e2⟩ := h2 h hh
  rw [adoRun_append]
  refine ⟨h', hw.credit hv ?_ h' e1, e2⟩
  obtain ⟨x, hx, hle⟩ := hold
  cases b
  · rfl
  · exact absurd (hb.1 rfl x hx) (by omega)

theorem next_run (cfg : Cfg F) (ops : Ops F) (close : F → Bool) (initial : List F) (rs : List (Report F))
    (hg : Growing rs) (hid : ∀ r ∈ rs, 0 ≤ r.mixtureId) :
    ∀ m, (adoRun cfg ops close rs (Ado.init initial)).nextContinue = some m →
      ∃ s, m = s + 15 ∧ FirstWithNewer rs s := by
  induction rs using List.reverseRecOn with
  | nil => intro m h; cases h
  | append_singleton rs r ih =>
    intro m h
    rw [adoRun_append] at h
    obtain ⟨a1, h1, _, b, hb, hw⟩ := step_wait (cfg := cfg) (ops := ops) (close := close) (initial := initial) hg
      (hid r (List.mem_append_right _ (List.mem_singleton.2 rfl)))
    rcases hw.next m h with h | ⟨hbt, rfl⟩
    · rw [h1.1] at h
      obtain ⟨s, e, before, x, after, e1, e2, e3⟩ := ih hg.init.1 (fun x hx => hid x (List.mem_append_left _ hx)) m h
      exact ⟨s, e, before, x, after ++ [r], by rw [e1]; simp, e2, e3⟩
    · exact ⟨_, rfl, rs, r, [], rfl, rfl, hb.1 hbt⟩

/-- Specification: one of the reports was answered with a mixture. -/
def Answered (cfg : Cfg F) (ops : Ops F) (close : F → Bool) (initial : List F) (reports : List (Report F)) : Prop :=
  ∃ before x after w, reports = before ++ x :: after ∧
    ((adoRun cfg ops close before (Ado.init initial)).step cfg ops close x.losses x.counts x.mixtureId).2 = .ok (some w)

theorem handed_run (cfg : Cfg F) (ops : Ops F) (close : F → Bool) (initial : List F) (rs : List (Report F))
    (hg : Growing rs) (hid : ∀ r ∈ rs, 0 ≤ r.mixtureId) (h : Answered cfg ops close initial rs) :
    (adoRun cfg ops close rs (Ado.init initial)).handedOut = true := by
  induction rs using List.reverseRecOn with
  | nil => obtain ⟨b, x, a, w, e, _⟩ := h; simp at e
  | append_singleton rs r ih =>
    obtain ⟨a1, h1, _, b, hb, hw⟩ := step_wait (cfg := cfg) (ops := ops) (close := close) (initial := initial) hg
      (hid r (List.mem_append_right _ (List.mem_singleton.2 rfl)))
    obtain ⟨before, x, after, w, e, hx⟩ := h
    rw [adoRun_append]
    rcases List.eq_nil_or_concat after with rfl | ⟨l, y, rfl⟩
    · obtain ⟨rfl, e2⟩ := List.append_inj' e rfl
      obtain rfl : r = x := by simpa using e2
      exact hw.sets w hx
    · have e' : rs ++ [r] = (before ++ x :: l) ++ [y] := by rw [e]; simp
      obtain ⟨e1, _⟩ := List.append_inj' e' rfl
      apply hw.keeps
      rw [h1.2]
      exact ih hg.init.1 (fun x hx => hid x (List.mem_append_left _ hx)) ⟨before, x, l, w, e1, hx⟩

/-- **C64** (`adjusted_v3`). Once this variant has returned a mixture, it returns another one only when the scaling laws
are fitted anew, or exactly 15 reports after the first report made with a newer mixture. -/
theorem c64_v3_waits (cfg : Cfg F) (hv : cfg.variant = .v3) (ops : Ops F) (close : F → Bool) (initial : List F)
    (reports : List (Report F)) (r : Report F) (hg : Growing (reports ++ [r]))
    (hid : ∀ x ∈ reports ++ [r], 0 ≤ x.mixtureId) (ha : Answered cfg ops close initial reports) (w : List F) (a' : Ado F)
    (h : (adoRun cfg ops close reports (Ado.init initial)).step cfg ops close r.losses r.counts r.mixtureId =
      (a', .ok (some w))) :
    (∃ j, reports.length + 1 = cfg.start + j * cfg.interval) ∨
      ∃ s, reports.length + 1 = s + 15 ∧ FirstWithNewer (reports ++ [r]) s := by
  obtain ⟨a1, h1, _, b, hb, hw⟩ := step_wait (cfg := cfg) (ops := ops) (close := close) (initial := initial) hg
    (hid r (List.mem_append_right _ (List.mem_singleton.2 rfl)))
  have ho := handed_run cfg ops close initial reports hg.init.1 (fun x hx => hid x (List.mem_append_left _ hx)) ha
  rcases hw.waits hv (h1.2.trans ho) w (by rw [h]) with hf | hn
  · exact Or.inl hf
  · rw [← adoRun_append] at hn
    exact Or.inr (next_run cfg ops close initial _ hg hid _ hn)

/-- **C64** (new scaling laws). Whatever the variant: when the scaling laws were just fitted and no exception is raised, a
mixture is returned. -/
theorem c64_new_laws_answer (cfg : Cfg F) (ops : Ops F) (close : F → Bool) (initial : List F)
    (reports : List (Report F)) (r : Report F) (hg : Growing (reports ++ [r])) (hid : 0 ≤ r.mixtureId)
    (hf : ∃ j, reports.length + 1 = cfg.start + j * cfg.interval) (out : Option (List F)) (a' : Ado F)
    (h : (adoRun cfg ops close reports (Ado.init initial)).step cfg ops close r.losses r.counts r.mixtureId =
      (a', .ok out)) : out ≠ none := by
  obtain ⟨a1, _, _, b, _, hw⟩ := step_wait (cfg := cfg) (ops := ops) (close := close) (initial := initial) hg hid
  exact hw.ends hf out (by rw [h])

/-- A run of `adjusted_v3`: a mixture at the second report (the first one after the warm-up), none at the third. -/
example :
    let cfg : Cfg ℚ := ⟨.v3, 1/2, 1/2, 1, 1/100, 10, 2, true, none⟩
    ((adoRun cfg exOps (fun _ => true) [⟨[1, 2], [1, 1], 0⟩] (Ado.init [1/2, 1/2])).step cfg exOps (fun _ => true)
        [1, 2] [1, 1] 0).2.toOption.join = some [1/2, 1/2] ∧
      ((adoRun cfg exOps (fun _ => true) [⟨[1, 2], [1, 1], 0⟩, ⟨[1, 2], [1, 1], 0⟩] (Ado.init [1/2, 1/2])).step cfg exOps
        (fun _ => true) [1, 2] [1, 1] 1).2 = .ok none := by decide +kernel

/-- Fifteen reports after the first one with a newer mixture, the variant returns a mixture although no scaling laws were
fitted. -/
example :
    let cfg : Cfg ℚ := ⟨.v3, 1/2, 1/2, 1, 1/100, 100, 2, true, none⟩
    let rep (i : Int) : Report ℚ := ⟨[1, 2], [1, 1], i⟩
    ((adoRun cfg exOps (fun _ => true) ([rep 0, rep 0, rep 1] ++ List.replicate 14 (rep 1)) (Ado.init [1/2, 1/2])).step cfg
        exOps (fun _ => true) [1, 2] [1, 1] 1).2.toOption.join.isSome = true := by decide +kernel

end Mixtera.Mixing
