import Mathlib.Data.List.Basic
import Verif.Model.PropertyCalc

/-!
# C53: calculating properties
-/

set_option linter.unusedSectionVars false

namespace Mixtera.Calc

variable {γ ρ S : Type}

/-- Specification: all samples of the files, file by file and line by line. -/
def allSamples (strip : γ → γ) (files : List (CalcFile γ)) : List (Item γ) :=
  files.flatMap fun f => (f.lines.getD []).mapIdx fun i l =>
    { data := strip l, file := f.file, dataset := f.dataset, line := i }

/-- Specification: the result for a sample. -/
def resultFor (x : Item γ) (v : ρ) : Result ρ := { dataset := x.dataset, file := x.file, sample := x.line, value := v }

/-- Specification: batches of size `n` - all full but possibly the last, none empty. -/
def Batched (n : Nat) (bs : List (List (Item γ))) : Prop :=
  (∀ b ∈ bs, b ≠ [] ∧ b.length ≤ n) ∧ ∀ b ∈ bs.dropLast, b.length = n

theorem fill_spec (n : Nat) (hn : 1 ≤ n) : ∀ (xs : List (Item γ)) (bs : List (List (Item γ))) (cur : List (Item γ)),
    cur.length < n → (∀ b ∈ bs, b.length = n) →
    (fill n xs bs cur).1.flatten ++ (fill n xs bs cur).2 = bs.flatten ++ cur ++ xs ∧
      (fill n xs bs cur).2.length < n ∧ ∀ b ∈ (fill n xs bs cur).1, b.length = n := by
  intro xs
  induction xs with
  | nil => intro bs cur hc hb; simp [fill, hc]; exact hb
  | cons x xs ih =>
    intro bs cur hc hb
    unfold fill
    split
    · rename_i h
      obtain ⟨h1, h2, h3⟩ := ih (bs ++ [cur ++ [x]]) [] (by simp; omega) (by
        intro b hb'
        rw [List.mem_append, List.mem_singleton] at hb'
        rcases hb' with hb' | rfl
        · exact hb b hb'
        · exact h)
      exact ⟨by rw [h1]; simp, h2, h3⟩
    · rename_i h
      obtain ⟨h1, h2, h3⟩ := ih bs (cur ++ [x]) (by simp at h ⊢; omega) hb
      exact ⟨by rw [h1]; simp, h2, h3⟩

theorem loadFiles_spec (strip : γ → γ) (n : Nat) (hn : 1 ≤ n) : ∀ (files : List (CalcFile γ))
    (bs : List (List (Item γ))) (cur : List (Item γ)) (r : List (List (Item γ)) × List (Item γ)),
    cur.length < n → (∀ b ∈ bs, b.length = n) → loadFiles strip n files bs cur = .ok r →
    r.1.flatten ++ r.2 = bs.flatten ++ cur ++ allSamples strip files ∧ r.2.length < n ∧ (∀ b ∈ r.1, b.length = n) ∧
      ∀ f ∈ files, f.jsonl = true ∧ f.lines.isSome = true := by
  intro files
  induction files with
  | nil =>
    intro bs cur r hc hb h
    injection h with h
    subst h
    exact ⟨by simp [allSamples], hc, hb, by simp⟩
  | cons f fs ih =>
    intro bs cur r hc hb h
    simp only [loadFiles, readFile] at h
    cases hj : f.jsonl with
    | false => rw [hj] at h; simp at h
    | true =>
      cases hl : f.lines with
      | none => rw [hj, hl] at h; simp at h
      | some ls =>
        rw [hj, hl] at h
        simp only [if_true] at h
        obtain ⟨f1, f2, f3⟩ := fill_spec n hn (ls.mapIdx fun i l => (⟨strip l, f.file, f.dataset, i⟩ : Item γ)) bs cur hc hb
        obtain ⟨h1, h2, h3, h4⟩ := ih _ _ r f2 f3 h
        refine ⟨?_, h2, h3, ?_⟩
        · rw [h1, f1]
          simp [allSamples, hl]
        · intro f' hf'
          rcases List.mem_cons.1 hf' with rfl | hf'
          · exact ⟨hj, by rw [hl]; rfl⟩
          · exact h4 f' hf'

theorem fromMode_ok {mode : Mode} {degree bs : Int} {setup : Except CalcErr S} {ex : Executor γ S}
    (h : fromMode mode degree bs setup = .ok ex) :
    mode = .local_ ∧ degree = 1 ∧ 1 ≤ bs ∧ ex.batchSize = bs.toNat ∧ ex.batches = [] ∧ setup = .ok ex.state := by
  unfold fromMode at h
  split at h
  · cases h
  split at h
  · cases h
  split at h
  · rename_i hm
    cases setup with
    | error e => cases h
    | ok s =>
      simp only at h
      split at h
      · cases h
      · injection h with h
        subst h
        exact ⟨hm, by omega, by omega, rfl, rfl, rfl⟩
  · cases h

theorem loadData_spec (strip : γ → γ) (ex ex' : Executor γ S) (files : List (CalcFile γ)) (hn : 1 ≤ ex.batchSize)
    (he : ex.batches = []) (h : loadData strip ex files = .ok ex') :
    ex'.batches.flatten = allSamples strip files ∧ Batched ex.batchSize ex'.batches ∧ ex'.state = ex.state ∧
      ∀ f ∈ files, f.jsonl = true ∧ f.lines.isSome = true := by
  unfold loadData at h
  split at h
  · cases h
  rename_i batches cur hl
  injection h with h
  subst h
  rw [he] at hl
  obtain ⟨h1, h2, h3, h4⟩ := loadFiles_spec strip ex.batchSize hn files [] [] (batches, cur) (by simp; omega)
    (by simp) hl
  simp only [List.flatten_nil, List.nil_append] at h1
  refine ⟨?_, ?_, rfl, h4⟩
  · simp only
    split
    · simpa using h1
    · rename_i hc
      have : cur = [] := List.eq_nil_iff_length_eq_zero.2 (by omega)
      rw [this, List.append_nil] at h1
      exact h1
  · have hne : ∀ b ∈ batches, b ≠ [] ∧ b.length ≤ ex.batchSize := by
      intro b hb
      have := h3 b hb
      exact ⟨fun e => by rw [e] at this; simp at this; omega, by omega⟩
    simp only
    split
    · rename_i hc
      refine ⟨?_, ?_⟩
      · intro b hb
        rw [List.mem_append, List.mem_singleton] at hb
        rcases hb with hb | rfl
        · exact hne b hb
        · exact ⟨fun e => by simp [e] at hc, Nat.le_of_lt h2⟩
      · intro b hb
        rw [List.dropLast_concat] at hb
        exact h3 b hb
    · exact ⟨hne, fun b hb => h3 b (List.dropLast_subset _ hb)⟩

theorem collect_spec (okType : ρ → Bool) : ∀ (ps : List ρ) (xs : List (Item γ)) (rs : List (Result ρ)),
    ps.length = xs.length → collect okType ps xs = .ok rs →
    rs = List.zipWith resultFor xs ps ∧ ∀ p ∈ ps, okType p = true := by
  intro ps
  induction ps with
  | nil =>
    intro xs rs hl h
    cases xs with
    | nil => injection h with h; subst h; simp
    | cons x xs => simp at hl
  | cons p ps ih =>
    intro xs rs hl h
    cases xs with
    | nil => simp at hl
    | cons x xs =>
      simp only [collect] at h
      split at h
      · rename_i hp
        split at h
        · cases h
        rename_i rs' hrs
        injection h with h
        subst h
        obtain ⟨h1, h2⟩ := ih xs rs' (by simpa using hl) hrs
        refine ⟨by rw [h1]; rfl, ?_⟩
        intro q hq
        rcases List.mem_cons.1 hq with rfl | hq
        · exact hp
        · exact h2 q hq
      · cases h

/-- Specification: calling the user's function on one batch after the other: the final state and the predictions of every
call. -/
def callAll (calcF : S → List (Item γ) → S × Except CalcErr (List ρ)) : List (List (Item γ)) → S → S × List (List ρ)
  | [], s => (s, [])
  | b :: bs, s =>
    let (s', r) := calcF s b
    let (s'', rest) := callAll calcF bs s'
    (s'', (match r with | .ok ps => ps | .error _ => []) :: rest)

theorem runBatches_spec (calcF : S → List (Item γ) → S × Except CalcErr (List ρ)) (okType : ρ → Bool) :
    ∀ (bs : List (List (Item γ))) (s s' : S) (rs : List (Result ρ)), runBatches calcF okType bs s = (s', .ok rs) →
    s' = (callAll calcF bs s).1 ∧ List.Forall₂ (fun (b : List (Item γ)) (ps : List ρ) => ps.length = b.length) bs (callAll calcF bs s).2 ∧
      rs = List.zipWith resultFor bs.flatten (callAll calcF bs s).2.flatten := by
  intro bs
  induction bs with
  | nil =>
    intro s s' rs h
    simp only [runBatches, Prod.mk.injEq, Except.ok.injEq] at h
    obtain ⟨rfl, rfl⟩ := h
    simp [callAll]
  | cons b bs ih =>
    intro s s' rs h
    simp only [runBatches] at h
    cases hc : calcF s b with
    | mk s1 r =>
      rw [hc] at h
      cases r with
      | error e => simp at h
      | ok ps =>
        simp only at h
        split at h
        · rename_i hl
          cases hcol : collect okType ps b with
          | error e => rw [hcol] at h; simp at h
          | ok rs1 =>
            rw [hcol] at h
            simp only at h
            cases hr : runBatches calcF okType bs s1 with
            | mk s2 r2 =>
              rw [hr] at h
              cases r2 with
              | error e => simp at h
              | ok rest =>
                simp only [Prod.mk.injEq, Except.ok.injEq] at h
                obtain ⟨rfl, rfl⟩ := h
                obtain ⟨h1, h2, h3⟩ := ih s1 s2 rest hr
                obtain ⟨h4, _⟩ := collect_spec okType ps b rs1 hl hcol
                simp only [callAll, hc]
                refine ⟨h1, List.Forall₂.cons hl h2, ?_⟩
                rw [List.flatten_cons, List.flatten_cons, List.zipWith_append (by exact hl.symm), h3, h4]
        · simp at h

/-- **C53** (calculation). Whenever calculating a property succeeds - for any files, batch size, degree of parallelism and
user function, which may keep state between calls - the user's function was called on consecutive batches of all samples,
file by file and line by line, each sample in exactly one call, all batches full but the last; and the result has exactly
one entry for each sample, in order, with the value returned for that sample. What is missing from the full statement: the
values are never stored (`c53_never_stored`). -/
theorem c53_results_partial (strip : γ → γ) (calcF : S → List (Item γ) → S × Except CalcErr (List ρ)) (okType : ρ → Bool)
    (mode : Mode) (degree batchSize : Int) (setup : Except CalcErr S) (files : List (CalcFile γ)) (s' : S)
    (rs : List (Result ρ)) (h : calculate strip calcF okType mode degree batchSize setup files = .ok (s', rs)) :
    ∃ (s : S) (calls : List (List (Item γ))), setup = .ok s ∧ calls.flatten = allSamples strip files ∧
      Batched batchSize.toNat calls ∧
      (callAll calcF calls s).1 = s' ∧
      List.Forall₂ (fun b ps => ps.length = b.length) calls (callAll calcF calls s).2 ∧
      rs = List.zipWith resultFor (allSamples strip files) (callAll calcF calls s).2.flatten := by
  unfold calculate at h
  split at h
  · cases h
  rename_i ex hex
  split at h
  · cases h
  rename_i ex' hex'
  split at h
  · cases h
  rename_i s'' rs' hrun
  injection h with h
  simp only [Prod.mk.injEq] at h
  obtain ⟨rfl, rfl⟩ := h
  obtain ⟨_, _, hb, h1, h2, h3⟩ := fromMode_ok hex
  obtain ⟨g1, g2, g3, _⟩ := loadData_spec strip ex ex' files (by omega) h2 hex'
  obtain ⟨r1, r2, r3⟩ := runBatches_spec calcF okType _ _ _ _ hrun
  rw [g3] at r1 r2 r3
  rw [g1] at r3
  exact ⟨ex.state, ex'.batches, h3, g1, h1 ▸ g2, r1.symm, r2, r3⟩

/-- **C53** (independence of the batch size). If the user's function treats every sample on its own, the results are the
same for every batch size: the value of the function for each sample, in order. -/
theorem c53_batch_size (strip : γ → γ) (f : Item γ → ρ) (okType : ρ → Bool) (mode : Mode)
    (degree batchSize : Int) (setup : Except CalcErr S) (files : List (CalcFile γ)) (s' : S) (rs : List (Result ρ))
    (h : calculate strip (fun s b => (s, .ok (b.map f))) okType mode degree batchSize setup files = .ok (s', rs)) :
    rs = (allSamples strip files).map fun x => resultFor x (f x) := by
  obtain ⟨s, calls, _, h1, _, _, _, h4⟩ := c53_results_partial _ _ _ _ _ _ _ _ _ _ h
  have : ∀ (bs : List (List (Item γ))) (s : S),
      (callAll (fun s b => (s, (.ok (b.map f) : Except CalcErr (List ρ)))) bs s).2.flatten = bs.flatten.map f := by
    intro bs
    induction bs with
    | nil => intro s; rfl
    | cons b bs ih => intro s; simp [callAll, ih]
  rw [h4, this, h1]
  generalize allSamples strip files = xs
  induction xs with
  | nil => rfl
  | cons x xs ih => simp only [List.map_cons, List.zipWith_cons_cons, ih]

theorem collect_ok (okType : ρ → Bool) : ∀ (ps : List ρ) (xs : List (Item γ)), (∀ p ∈ ps, okType p = true) →
    ∃ rs, collect okType ps xs = .ok rs := by
  intro ps
  induction ps with
  | nil => intro xs _; exact ⟨[], by simp [collect]⟩
  | cons p ps ih =>
    intro xs h
    cases xs with
    | nil => exact ⟨[], by simp [collect]⟩
    | cons x xs =>
      obtain ⟨rs, hrs⟩ := ih xs fun q hq => h q (List.mem_cons_of_mem _ hq)
      exact ⟨_, by simp only [collect, h p List.mem_cons_self, if_true, hrs]; rfl⟩

theorem runBatches_ok (calcF : S → List (Item γ) → S × Except CalcErr (List ρ)) (okType : ρ → Bool)
    (hcalc : ∀ s b, ∃ s' ps, calcF s b = (s', .ok ps) ∧ ps.length = b.length ∧ ∀ p ∈ ps, okType p = true) :
    ∀ bs s, ∃ s' rs, runBatches calcF okType bs s = (s', .ok rs) := by
  intro bs
  induction bs with
  | nil => intro s; exact ⟨s, [], rfl⟩
  | cons b bs ih =>
    intro s
    obtain ⟨s1, ps, h1, h2, h3⟩ := hcalc s b
    obtain ⟨rs, h4⟩ := collect_ok okType ps b h3
    obtain ⟨s2, rest, h5⟩ := ih s1
    exact ⟨s2, rs ++ rest, by simp [runBatches, h1, h2, h4, h5]⟩

theorem loadFiles_ok (strip : γ → γ) (n : Nat) : ∀ (files : List (CalcFile γ)),
    (∀ f ∈ files, f.jsonl = true ∧ f.lines.isSome = true) → ∀ bs cur, ∃ r, loadFiles strip n files bs cur = .ok r := by
  intro files
  induction files with
  | nil => intro _ bs cur; exact ⟨_, rfl⟩
  | cons f fs ih =>
    intro h bs cur
    obtain ⟨h1, h2⟩ := h f List.mem_cons_self
    obtain ⟨ls, hls⟩ := Option.isSome_iff_exists.1 h2
    simp only [loadFiles, readFile, h1, hls, if_true]
    exact ih (fun f' hf' => h f' (List.mem_cons_of_mem _ hf')) _ _

/-- **C53** (success). Calculating a property succeeds for every list of existing JSONL files, every positive batch size,
one processing unit and every user function that returns one value of an accepted type per sample. -/
theorem c53_succeeds (strip : γ → γ) (calcF : S → List (Item γ) → S × Except CalcErr (List ρ)) (okType : ρ → Bool)
    (hcalc : ∀ s b, ∃ s' ps, calcF s b = (s', .ok ps) ∧ ps.length = b.length ∧ ∀ p ∈ ps, okType p = true)
    (batchSize : Int) (hb : 1 ≤ batchSize) (s : S) (files : List (CalcFile γ))
    (hf : ∀ f ∈ files, f.jsonl = true ∧ f.lines.isSome = true) :
    ∃ s' rs, calculate strip calcF okType .local_ 1 batchSize (.ok s) files = .ok (s', rs) := by
  have hnot : ¬ batchSize < 1 := by omega
  obtain ⟨⟨bs, cur⟩, hr⟩ := loadFiles_ok strip batchSize.toNat files hf [] []
  obtain ⟨s', rs, h⟩ := runBatches_ok calcF okType hcalc (if cur.length > 0 then bs ++ [cur] else bs) s
  refine ⟨s', rs, ?_⟩
  have e : fromMode (γ := γ) .local_ 1 batchSize (.ok s) = .ok { batchSize := batchSize.toNat, batches := [], state := s } := by
    simp [fromMode, hnot]
  simp only [calculate, e, loadData, hr, Executor.run, h]

/-- **C53** (parallelism). More than one processing unit is always refused. -/
theorem c53_parallel_refused (strip : γ → γ) (calcF : S → List (Item γ) → S × Except CalcErr (List ρ)) (okType : ρ → Bool)
    (mode : Mode) (degree batchSize : Int) (h : 1 < degree) (setup : Except CalcErr S) (files : List (CalcFile γ)) :
    ∃ e, calculate strip calcF okType mode degree batchSize setup files = .error e := by
  cases hx : calculate strip calcF okType mode degree batchSize setup files with
  | error e => exact ⟨e, rfl⟩
  | ok r =>
    unfold calculate at hx
    split at hx
    · cases hx
    rename_i ex hex
    have := (fromMode_ok hex).2.1
    omega

/-- **C53** (nothing is stored). `add_property` never returns `True` and never changes the database: not for any
arguments, files or functions. -/
theorem c53_never_stored (name : String) (numerical wide : Bool) (numBuckets : Int) (strip : γ → γ)
    (calcF : S → List (Item γ) → S × Except CalcErr (List ρ)) (okType : ρ → Bool) (mode : Mode) (degree batchSize : Int)
    (setup : Except CalcErr S) (files : List (CalcFile γ)) (db : PropDb ρ) :
    let r := addProperty name numerical wide numBuckets strip calcF okType mode degree batchSize setup files db
    r.1 = db ∧ r.2 ≠ .ok true := by
  simp only [addProperty, addColumns]
  repeat' split
  all_goals simp_all

/-- A run with two files, batches of two and a function that counts its calls. -/
example : calculate (fun l => l) (fun n b => (n + 1, .ok (b.map fun x => x.data * 10 + n))) (fun _ => true) .local_ 1 2
    (.ok 0) [⟨7, 1, true, some [3, 4, 5]⟩, ⟨8, 1, true, some [6]⟩] =
    .ok (2, [⟨1, 7, 0, 30⟩, ⟨1, 7, 1, 40⟩, ⟨1, 7, 2, 51⟩, ⟨1, 8, 0, 61⟩]) := rfl

end Mixtera.Calc
