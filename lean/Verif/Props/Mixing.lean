import Mathlib.Tactic.Linarith
import Mathlib.Tactic.FieldSimp
import Mathlib.Tactic.Positivity
import Mathlib.Data.List.GetD
import Mathlib.Algebra.Order.BigOperators.Group.List
import Verif.Model.Mixing

/-!
# C49: accumulated losses
-/

set_option linter.unusedSectionVars false

namespace Mixtera.Mixing

variable {F : Type} [Field F] [LinearOrder F] [IsStrictOrderedRing F]

/-- Specification: the entry of a domain in a report; a report says nothing about the domains beyond its length. -/
def entry {α : Type} [Zero α] (l : List α) (k : Nat) : α := l[k]?.getD 0

/-- A report of the training: losses and counts by domain, and the mixture the client was using. -/
structure Report (F : Type) where
  losses : List F
  counts : List Int
  mixtureId : Int

/-- Losses and counts are about the same domains. -/
def Report.Valid (r : Report F) : Prop := r.counts.length = r.losses.length

theorem entry_padTo {α : Type} [Zero α] (n : Nat) (a : List α) (k : Nat) : entry (padTo n a) k = entry a k := by
  unfold entry padTo
  rcases lt_or_ge k a.length with h | h
  · rw [List.getElem?_append_left h]
  · rw [List.getElem?_append_right h, List.getElem?_eq_none h]
    rw [List.getElem?_replicate]
    split <;> rfl

theorem length_padTo {α : Type} [Zero α] (n : Nat) (a : List α) : (padTo n a).length = max n a.length := by
  simp [padTo]; omega

theorem addPrefix_ok {α : Type} [AddMonoid α] (a b : List α) (h : b.length ≤ a.length) :
    ∃ c, addPrefix b.length a b = .ok c ∧ c.length = a.length ∧ ∀ k, entry c k = entry a k + entry b k := by
  have hl : b.length = (a.take b.length).length := by simp [h]
  refine ⟨_, by unfold addPrefix; rw [if_pos hl], ?_, ?_⟩
  · simp; omega
  · intro k
    unfold entry
    rcases lt_or_ge k b.length with hk | hk
    · have hka : k < a.length := by omega
      rw [List.getElem?_append_left (by simp; omega), List.getElem?_zipWith, List.getElem?_take_of_lt hk,
        List.getElem?_eq_getElem hk, List.getElem?_eq_getElem hka]
      rfl
    · rw [List.getElem?_append_right (by simp; omega), List.getElem?_drop, List.getElem?_eq_none hk]
      simp only [List.length_zipWith, List.length_take, Option.getD_none, add_zero]
      congr 2
      omega

theorem update_ok (a : Acc F) (r : Report F) (hr : r.Valid) (ha : a.counts.length = a.losses.length) :
    ∃ a', a.update r.losses r.counts = (a', none) ∧ a'.last = a.last ∧
      a'.losses.length = max r.losses.length a.losses.length ∧ a'.counts.length = a'.losses.length ∧
      (∀ k, entry a'.losses k = entry a.losses k + entry r.losses k) ∧
      (∀ k, entry a'.counts k = entry a.counts k + entry r.counts k) := by
  obtain ⟨l, hl, hl1, hl2⟩ := addPrefix_ok (padTo r.losses.length a.losses) r.losses (by rw [length_padTo]; omega)
  obtain ⟨c, hc, hc1, hc2⟩ := addPrefix_ok (padTo r.losses.length a.counts) r.counts (by
    have : r.counts.length = r.losses.length := hr
    rw [length_padTo]; omega)
  have hr' : r.counts.length = r.losses.length := hr
  rw [hr'] at hc
  refine ⟨{ a with losses := l, counts := c }, ?_, rfl, ?_, ?_, ?_, ?_⟩
  · simp only [Acc.update, hl, hc]
  · simp [hl1, length_padTo]
  · simp [hl1, hc1, length_padTo, ha]
  · intro k; simp only [hl2, entry_padTo]
  · intro k; simp only [hc2, entry_padTo]

theorem notice_same (a : Acc F) (i : Int) : (a.notice i).1.losses = a.losses ∧ (a.notice i).1.counts = a.counts := by
  unfold Acc.notice; split <;> exact ⟨rfl, rfl⟩

/-- The accumulators after these reports. -/
def accAfter (reports : List (Report F)) (a : Acc F) : Acc F :=
  reports.foldl (fun a r => ((a.notice r.mixtureId).1.update r.losses r.counts).1) a

theorem accAfter_spec (reports : List (Report F)) : ∀ (a : Acc F), (∀ r ∈ reports, r.Valid) →
    a.counts.length = a.losses.length →
    (∀ k, entry (accAfter reports a).losses k = entry a.losses k + (reports.map fun r => entry r.losses k).sum) ∧
    (∀ k, entry (accAfter reports a).counts k = entry a.counts k + (reports.map fun r => entry r.counts k).sum) ∧
    (accAfter reports a).counts.length = (accAfter reports a).losses.length ∧
    (accAfter reports a).losses.length = reports.foldl (fun n r => max n r.losses.length) a.losses.length := by
  induction reports with
  | nil => intro a _ h; simp [accAfter, h]
  | cons r rs ih =>
    intro a hv ha
    obtain ⟨n1, n2⟩ := notice_same a r.mixtureId
    obtain ⟨a', h1, _, h3, h4, h5, h6⟩ := update_ok (a.notice r.mixtureId).1 r (hv r List.mem_cons_self)
      (by rw [n1, n2]; exact ha)
    obtain ⟨i1, i2, i3, i4⟩ := ih a' (fun r' h' => hv r' (List.mem_cons_of_mem _ h')) h4
    have e : accAfter (r :: rs) a = accAfter rs a' := by simp [accAfter, h1]
    rw [e]
    refine ⟨?_, ?_, i3, ?_⟩
    · intro k; rw [i1, h5, n1, List.map_cons, List.sum_cons]; abel
    · intro k; rw [i2, h6, n2, List.map_cons, List.sum_cons]; abel
    · rw [i4, h3, n1, List.foldl_cons, max_comm]

/-- **C49**. After any sequence of reports of any lengths since the algorithm was created or reset, the accumulated loss
and count of every domain is the sum of what the reports said about it, and there is an entry for every domain that any
report had. -/
theorem c49_accumulate (reports : List (Report F)) (hv : ∀ r ∈ reports, r.Valid) (a : Acc F)
    (ha : a = Acc.init ∨ ∃ b : Acc F, a = b.reset) :
    (∀ k, entry (accAfter reports a).losses k = (reports.map fun r => entry r.losses k).sum) ∧
    (∀ k, entry (accAfter reports a).counts k = (reports.map fun r => entry r.counts k).sum) ∧
    (∀ k, k < (accAfter reports a).losses.length ↔ ∃ r ∈ reports, k < r.losses.length) := by
  have hl : a.losses = [] ∧ a.counts = [] := by
    rcases ha with rfl | ⟨b, rfl⟩ <;> exact ⟨rfl, rfl⟩
  obtain ⟨h1, h2, _, h4⟩ := accAfter_spec reports a hv (by rw [hl.1, hl.2]; rfl)
  refine ⟨fun k => by rw [h1, hl.1]; simp [entry], fun k => by rw [h2, hl.2]; simp [entry], fun k => ?_⟩
  rw [h4, hl.1]
  have key : ∀ (rs : List (Report F)) (n : Nat), k < rs.foldl (fun n r => max n r.losses.length) n ↔
      k < n ∨ ∃ r ∈ rs, k < r.losses.length := by
    intro rs
    induction rs with
    | nil => intro n; simp
    | cons r rs ih => intro n; rw [List.foldl_cons, ih]; simp [or_assoc]
  rw [key]
  simp

/-- **C49** (new mixtures). A report is taken for the first one with a newer mixture exactly if its mixture id is greater
than all earlier ones (ids are not negative). -/
theorem c49_newer_mixture (reports : List (Report F)) (i : Int) (hi : 0 ≤ i) :
    ((accAfter reports Acc.init).notice i).2 = true ↔ ∀ r ∈ reports, r.mixtureId < i := by
  have hlast : ∀ (a : Acc F) (l : List F) (c : List Int), (a.update l c).1.last = a.last := by
    intro a l c
    unfold Acc.update
    split
    · rfl
    · split <;> rfl
  have key : ∀ (rs : List (Report F)) (a : Acc F),
      (accAfter rs a).last < i ↔ a.last < i ∧ ∀ r ∈ rs, r.mixtureId < i := by
    intro rs
    induction rs with
    | nil => intro a; simp [accAfter]
    | cons r rs ih =>
      intro a
      have e : accAfter (r :: rs) a = accAfter rs ((a.notice r.mixtureId).1.update r.losses r.counts).1 := rfl
      rw [e, ih, hlast]
      have : (a.notice r.mixtureId).1.last = max a.last r.mixtureId := by
        unfold Acc.notice
        split
        · simp only; omega
        · simp only; omega
      rw [this]
      simp only [List.mem_cons, forall_eq_or_imp]
      rw [max_lt_iff, and_assoc]
  have h : ((accAfter reports Acc.init).notice i).2 = true ↔ (accAfter reports (Acc.init : Acc F)).last < i := by
    unfold Acc.notice
    split
    · simp; omega
    · simp; omega
  rw [h, key]
  have : (Acc.init : Acc F).last < i := by show (-1 : Int) < i; omega
  simp [this]

/-- **C49** (unequal reports). If losses and counts have different lengths (and there is more or less than one count), an
exception is raised, but the losses of the report have been added: they are counted twice if it is sent again. -/
theorem c49_half_applied (a : Acc F) (ha : a.counts.length = a.losses.length) (r : Report F)
    (h : r.counts.length ≠ r.losses.length) (h1 : r.counts.length ≠ 1) :
    (a.update r.losses r.counts).2 = some .valueError ∧
    (∀ k, entry (a.update r.losses r.counts).1.losses k = entry a.losses k + entry r.losses k) ∧
    (∀ k, entry (a.update r.losses r.counts).1.counts k = entry a.counts k) := by
  obtain ⟨l, hl, hl1, hl2⟩ := addPrefix_ok (padTo r.losses.length a.losses) r.losses (by rw [length_padTo]; omega)
  have hc : addPrefix r.losses.length (padTo r.losses.length a.counts) r.counts = .error .valueError := by
    have hne : ¬ r.counts.length = ((padTo r.losses.length a.counts).take r.losses.length).length := by
      rw [List.length_take, length_padTo]; omega
    unfold addPrefix
    rw [if_neg hne]
    split
    · rename_i h'; rw [h'] at h1; exact absurd rfl h1
    · rfl
  simp only [Acc.update, hl, hc]
  exact ⟨trivial, fun k => by rw [hl2, entry_padTo], fun k => by rw [entry_padTo]⟩

/-! ### The algorithms use these accumulators -/

/-- The averaging algorithm after these reports. -/
def averageRun (reports : List (Report F)) (a : Acc F) : Acc F :=
  reports.foldl (fun a r => (averageStep a r.losses r.counts r.mixtureId).1) a

/-- ADO after these reports; an exception does not end the run. -/
def adoRun (cfg : Cfg F) (ops : Ops F) (close : F → Bool) (reports : List (Report F)) (a : Ado F) : Ado F :=
  reports.foldl (fun a r => (a.step cfg ops close r.losses r.counts r.mixtureId).1) a

theorem averageStep_acc (a : Acc F) (r : Report F) :
    (averageStep a r.losses r.counts r.mixtureId).1 = ((a.notice r.mixtureId).1.update r.losses r.counts).1 := by
  unfold averageStep
  split <;> rename_i h <;> rw [h]

theorem record_acc (cfg : Cfg F) (a : Ado F) (l : List F) (c : List Int) : (a.record cfg l c).1.acc = a.acc := by
  unfold Ado.record
  simp only
  split
  · split <;> rfl
  · rfl

theorem update_acc (cfg : Cfg F) (a : Ado F) (r : Report F) (hr : r.Valid) :
    (a.update cfg r.losses r.counts).1.acc = (a.acc.update r.losses r.counts).1 := by
  unfold Ado.update
  rw [if_neg (by rw [not_not]; exact hr)]
  simp only
  split
  · rename_i h; rw [h]
  · rename_i h; rw [h, record_acc]; rfl

theorem updateH_acc {cfg : Cfg F} {a a' : Ado F} {n : Nat} {p h : List F} (e : a.updateH cfg n p h = .ok a') :
    a'.acc = a.acc ∧ a'.mu = a.mu ∧ a'.pi = a.pi ∧ a'.piBar = a.piBar := by
  unfold Ado.updateH at e
  simp only [bind, Except.bind, pure, Except.pure] at e
  split at e
  · cases e
  · injection e with e; subst e; exact ⟨rfl, rfl, rfl, rfl⟩

theorem credit_acc {cfg : Cfg F} {a a' : Ado F} {b : Bool} {p h : List F} (e : a.credit cfg b p h = .ok a') :
    a'.acc = a.acc ∧ a'.mu = a.mu ∧ a'.pi = a.pi ∧ a'.piBar = a.piBar := by
  unfold Ado.credit at e
  split at e
  · exact updateH_acc e
  · exact updateH_acc e
  · split at e
    · exact updateH_acc e
    · injection e with e; subst e; exact ⟨rfl, rfl, rfl, rfl⟩
  · split at e
    · exact updateH_acc e
    · injection e with e; subst e; exact ⟨rfl, rfl, rfl, rfl⟩
  · cases e

theorem compute_acc (cfg : Cfg F) (ops : Ops F) (a : Ado F) (b : Bool) (h mu : List F) :
    (a.compute cfg ops b h mu).1.acc = a.acc := by
  unfold Ado.compute
  simp only
  split
  · rfl
  split
  · rfl
  split
  · rfl
  split
  · rfl
  split
  · rfl
  rename_i h4
  have := (credit_acc h4).1
  split
  · exact this
  · exact this

theorem wait_acc (cfg : Cfg F) (a : Ado F) (b u : Bool) : (a.wait cfg b u).1.acc = a.acc := by
  unfold Ado.wait
  split
  · simp only; split <;> rfl
  · rfl

theorem fit_acc (ops : Ops F) (a : Ado F) : (a.fit ops).1.acc = a.acc := by
  unfold Ado.fit
  simp only
  split
  · rfl
  split
  · rfl
  split <;> rfl

theorem active_acc (cfg : Cfg F) (ops : Ops F) (a : Ado F) (b : Bool) (mu : List F) :
    (a.active cfg ops b mu).1.acc = a.acc := by
  unfold Ado.active
  simp only
  split
  · rfl
  rename_i due _
  cases due
  · simp only [Bool.false_eq_true, if_false]
    split
    · rw [compute_acc, wait_acc]
    · exact wait_acc _ _ _ _
  · simp only [if_true]
    have hf := fit_acc ops { a with h := some (a.h.getD mu) }
    split
    · rename_i h; rw [h] at hf; exact hf
    · rename_i h; rw [h] at hf
      split
      · rw [compute_acc, wait_acc]; exact hf
      · rw [wait_acc]; exact hf

theorem setMu_acc (close : F → Bool) (a : Ado F) : (a.setMu close).1.acc = a.acc := by
  unfold Ado.setMu
  split
  · rfl
  · simp only
    split
    · rfl
    split <;> rfl

theorem calc_acc (cfg : Cfg F) (ops : Ops F) (close : F → Bool) (a : Ado F) (b : Bool) :
    (a.calc cfg ops close b).1.acc = a.acc := by
  have hs := setMu_acc close { a with total := a.total + 1 }
  unfold Ado.calc
  split
  · rename_i h; rw [h] at hs; exact hs
  · rename_i h; rw [h] at hs
    split
    · exact hs
    · rw [active_acc]; exact hs

theorem step_acc (cfg : Cfg F) (ops : Ops F) (close : F → Bool) (a : Ado F) (r : Report F) (hr : r.Valid) :
    (a.step cfg ops close r.losses r.counts r.mixtureId).1.acc =
      ((a.acc.notice r.mixtureId).1.update r.losses r.counts).1 := by
  unfold Ado.step
  simp only
  have hu := update_acc cfg { a with acc := (a.acc.notice r.mixtureId).1 } r hr
  split
  · rename_i h; rw [h] at hu; exact hu
  · rename_i h; rw [h] at hu; rw [calc_acc]; exact hu

theorem averageRun_acc (reports : List (Report F)) : ∀ a : Acc F, averageRun reports a = accAfter reports a := by
  induction reports with
  | nil => intro a; rfl
  | cons r rs ih =>
    intro a
    show averageRun rs (averageStep a r.losses r.counts r.mixtureId).1 = _
    rw [averageStep_acc, ih]
    rfl

theorem adoRun_acc (cfg : Cfg F) (ops : Ops F) (close : F → Bool) (reports : List (Report F)) :
    ∀ a : Ado F, (∀ r ∈ reports, r.Valid) → (adoRun cfg ops close reports a).acc = accAfter reports a.acc := by
  induction reports with
  | nil => intro a _; rfl
  | cons r rs ih =>
    intro a hv
    show (adoRun cfg ops close rs (a.step cfg ops close r.losses r.counts r.mixtureId).1).acc = _
    rw [ih _ (fun r' h' => hv r' (List.mem_cons_of_mem _ h')), step_acc _ _ _ _ _ (hv r List.mem_cons_self)]
    rfl

/-- **C49** (both algorithms). What the averaging algorithm and ADO have accumulated after any sequence of reports is the
sum of the reports, whatever mixtures they computed and whatever exceptions they raised in between. -/
theorem c49_algorithms (cfg : Cfg F) (ops : Ops F) (close : F → Bool) (initial : List F) (reports : List (Report F))
    (hv : ∀ r ∈ reports, r.Valid) (k : Nat) :
    (entry (averageRun reports Acc.init).losses k = (reports.map fun r => entry r.losses k).sum ∧
      entry (averageRun reports (Acc.init : Acc F)).counts k = (reports.map fun r => entry r.counts k).sum) ∧
    (entry (adoRun cfg ops close reports (Ado.init initial)).acc.losses k = (reports.map fun r => entry r.losses k).sum ∧
      entry (adoRun cfg ops close reports (Ado.init initial)).acc.counts k =
        (reports.map fun r => entry r.counts k).sum) := by
  rw [averageRun_acc, adoRun_acc _ _ _ _ _ hv]
  have h := c49_accumulate reports hv Acc.init (Or.inl rfl)
  exact ⟨⟨h.1 k, h.2.1 k⟩, ⟨h.1 k, h.2.1 k⟩⟩

/-- Reports that grow and shrink. -/
example : (accAfter (F := ℚ) [⟨[1, 2], [1, 1], 0⟩, ⟨[1, 2, 3], [1, 0, 2], 1⟩, ⟨[5], [3], 1⟩] Acc.init).losses = [7, 4, 3] := by
  decide +kernel

end Mixtera.Mixing
