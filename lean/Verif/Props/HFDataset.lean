import Verif.Model.HFDataset

/-! # C66: the worker ids of the HuggingFace dataset -/

namespace Mixtera.HF

/-! ### Specification -/

/-- The loader worker in which the iteration runs; 0 if it runs in the training process. -/
def Setup.realWorker (c : Setup) : Nat :=
  match c.loader with
  | none => 0
  | some (_, id) => id

/-- A number of shards that is let through: the query's number of workers (at least one), or its number of dp groups. -/
def Setup.Known (c : Setup) (n : Nat) : Prop := n = max c.numWorkers 1 ∨ n = c.dpGroups

/-- Exactly the setups in which an iteration starts. -/
def Setup.Accepted (c : Setup) : Prop :=
  (c.plain = true → c.split = some (c.dpGroups, c.dpGroup) ∨ (c.split = none ∧ c.dpGroups = 1 ∧ c.dpGroup = 0)) ∧
  c.realWorker < max c.numWorkers 1 ∧
  (match c.split, c.loader with
    | none, none => False
    | none, some (n, id) => c.Known n ∧ (c.numWorkers = 0 → id = c.dpGroup)
    | some (world, rank), none => c.Known world ∧ rank = (if c.numWorkers = 0 then c.dpGroup else 0)
    | some (world, _), some (n, _) => c.Known world ∧ c.Known n)

/-- The loader and the query agree: as many loader workers as the query was executed with. -/
def Setup.LoaderFits (c : Setup) : Prop :=
  match c.loader with
  | none => c.numWorkers = 0
  | some (n, id) => n = c.numWorkers ∧ id < n

/-! ### Lemmas -/

theorem shard_eq (c : Setup) (it : Iterable) (n i : Nat) (h : c.Known n) :
    shard c it n i = .ok { calls := it.calls + 1, worker := i } := if_pos h

theorem shard_err (c : Setup) (it : Iterable) (n i : Nat) (h : ¬ c.Known n) : shard c it n i = .error .assertion := if_neg h

theorem plainChecks_iff (c : Setup) : plainChecks c = .ok () ↔
    (c.plain = true → c.split = some (c.dpGroups, c.dpGroup) ∨ (c.split = none ∧ c.dpGroups = 1 ∧ c.dpGroup = 0)) := by
  unfold plainChecks
  cases hp : c.plain with
  | false => simp
  | true =>
    rcases hs : c.split with _ | ⟨a, b⟩
    · simp
    · simp

theorem begin_iff (c : Setup) (initial w : Nat) : begin c initial = .ok w ↔
    plainChecks c = .ok () ∧ ∃ it, prepare c { calls := 0, worker := initial } = .ok it ∧ validate c it = .ok w ∧
      w < max c.numWorkers 1 := by
  unfold begin
  cases h1 : plainChecks c with
  | error e => simp [bind, Except.bind]
  | ok u =>
    cases h2 : prepare c { calls := 0, worker := initial } with
    | error e => simp [bind, Except.bind]
    | ok it =>
      cases h3 : validate c it with
      | error e => simp [bind, Except.bind, h3]
      | ok v =>
        simp only [bind, Except.bind, h3]
        by_cases hv : v < max c.numWorkers 1
        · rw [if_pos hv]
          constructor
          · intro h; injection h with h; subst h; exact ⟨by trivial, it, rfl, h3, hv⟩
          · rintro ⟨_, it', h, h', _⟩
            injection h with h; subst h
            rw [← h', h3]
        · rw [if_neg hv]
          constructor
          · intro h; cases h
          · rintro ⟨_, it', h, h', hw⟩
            injection h with h; subst h
            rw [h3] at h'; injection h' with h'
            exact absurd (h' ▸ hw) hv

theorem torchWorker_eq (c : Setup) : torchWorker c =
    if c.realWorker < max c.numWorkers 1 then .ok c.realWorker else .error .assertion := by
  rcases c with ⟨_, _, _, _, _ | ⟨n, id⟩, _⟩ <;> rfl

theorem validate_one (c : Setup) (i w : Nat) : validate c { calls := 1, worker := i } = .ok w ↔
    c.realWorker < max c.numWorkers 1 ∧ w = c.realWorker ∧
      (if c.numWorkers = 0 then i = c.dpGroup else i = c.realWorker) := by
  unfold validate
  rw [torchWorker_eq]
  simp only [Nat.one_ne_zero, if_false, if_true]
  rw [if_neg (by omega : ¬ (2 < 1))]
  by_cases h0 : c.numWorkers = 0
  · rw [if_pos h0, if_pos h0]
    by_cases hi : i = c.dpGroup
    · rw [if_pos hi]
      by_cases hr : c.realWorker < max c.numWorkers 1
      · rw [if_pos hr]
        simp only [bind, Except.bind]
        have hz : c.realWorker = 0 := by omega
        rw [if_pos hz]
        constructor
        · intro h; injection h with h; exact ⟨hr, by omega, hi⟩
        · rintro ⟨_, h, _⟩; rw [h, hz]
      · rw [if_neg hr]
        constructor
        · intro h; cases h
        · rintro ⟨h, _⟩; exact absurd h hr
    · rw [if_neg hi]
      constructor
      · intro h; cases h
      · rintro ⟨_, _, h⟩; exact absurd h hi
  · rw [if_neg h0, if_neg h0]
    by_cases hr : c.realWorker < max c.numWorkers 1
    · rw [if_pos hr]
      simp only [bind, Except.bind]
      by_cases hi : c.realWorker = i
      · rw [if_pos hi]
        constructor
        · intro h; injection h with h; exact ⟨hr, by omega, hi.symm⟩
        · rintro ⟨_, h, _⟩; rw [h, hi]
      · rw [if_neg hi]
        constructor
        · intro h; cases h
        · rintro ⟨_, _, h⟩; exact absurd h.symm hi
    · rw [if_neg hr]
      constructor
      · intro h; cases h
      · rintro ⟨h, _⟩; exact absurd h hr

theorem validate_two (c : Setup) (i : Nat) : validate c { calls := 2, worker := i } = .ok i := rfl

/-! ### Theorems -/

/-- **C66** (which setups work). An iteration starts in exactly the accepted setups, and then streams with the id of the
loader worker it runs in (0 in the training process), whatever worker id the streaming arguments contained. -/
theorem c66_accepted (c : Setup) (initial w : Nat) : begin c initial = .ok w ↔ c.Accepted ∧ w = c.realWorker := by
  rw [begin_iff, plainChecks_iff]
  unfold Setup.Accepted
  rw [and_assoc]
  refine and_congr_right fun _ => ?_
  rcases hs : c.split with _ | ⟨world, rank⟩ <;> rcases hl : c.loader with _ | ⟨n, id⟩
  · simp [prepare, hs, hl, bind, Except.bind, validate]
  · have hr : c.realWorker = id := by unfold Setup.realWorker; rw [hl]
    simp only [prepare, hs, hl, bind, Except.bind]
    by_cases hk : c.Known n
    · rw [shard_eq c _ n id hk]
      constructor
      · rintro ⟨it, h, hv, hw⟩
        injection h with h; subst h
        obtain ⟨h1, h2, h3⟩ := (validate_one c id w).1 hv
        exact ⟨⟨h1, hk, fun h0 => by rw [if_pos h0] at h3; exact h3⟩, h2⟩
      · rintro ⟨⟨h1, _, h3⟩, h2⟩
        refine ⟨_, rfl, (validate_one c id w).2 ⟨h1, h2, ?_⟩, h2 ▸ h1⟩
        split
        · rename_i h0; exact h3 h0
        · exact hr.symm
    · rw [shard_err c _ n id hk]
      constructor
      · rintro ⟨it, h, _⟩; cases h
      · rintro ⟨⟨_, h, _⟩, _⟩; exact absurd h hk
  · have hr : c.realWorker = 0 := by unfold Setup.realWorker; rw [hl]
    simp only [prepare, hs, hl, bind, Except.bind]
    by_cases hk : c.Known world
    · rw [shard_eq c _ world rank hk]
      constructor
      · rintro ⟨it, h, hv, hw⟩
        injection h with h; subst h
        obtain ⟨h1, h2, h3⟩ := (validate_one c rank w).1 hv
        refine ⟨⟨h1, hk, ?_⟩, h2⟩
        split
        · rename_i h0; rw [if_pos h0] at h3; exact h3
        · rename_i h0; rw [if_neg h0] at h3; rw [h3, hr]
      · rintro ⟨⟨h1, _, h3⟩, h2⟩
        refine ⟨_, rfl, (validate_one c rank w).2 ⟨h1, h2, ?_⟩, h2 ▸ h1⟩
        split
        · rename_i h0; rw [if_pos h0] at h3; exact h3
        · rename_i h0; rw [if_neg h0] at h3; rw [h3, hr]
    · rw [shard_err c _ world rank hk]
      constructor
      · rintro ⟨it, h, _⟩; cases h
      · rintro ⟨⟨_, h, _⟩, _⟩; exact absurd h hk
  · have hr : c.realWorker = id := by unfold Setup.realWorker; rw [hl]
    simp only [prepare, hs, hl, bind, Except.bind]
    by_cases hk : c.Known world
    · rw [shard_eq c _ world rank hk]
      by_cases hn : c.Known n
      · simp only [shard_eq c _ n id hn]
        constructor
        · rintro ⟨it, h, hv, hw⟩
          injection h with h; subst h
          rw [validate_two] at hv; injection hv with hv; subst hv
          exact ⟨⟨hr ▸ hw, hk, hn⟩, hr.symm⟩
        · rintro ⟨⟨h1, _, _⟩, h2⟩
          exact ⟨_, rfl, by rw [validate_two, h2, hr], h2 ▸ h1⟩
      · simp only [shard_err c _ n id hn]
        constructor
        · rintro ⟨it, h, _⟩; cases h
        · rintro ⟨⟨_, _, h⟩, _⟩; exact absurd h hn
    · rw [shard_err c _ world rank hk]
      constructor
      · rintro ⟨it, h, _⟩; cases h
      · rintro ⟨⟨_, h, _⟩, _⟩; exact absurd h hk

/-- **C66** (the intended use). After `split_dataset_by_node` with the query's number of dp groups and this process' group,
and with as many loader workers as the query was executed with, every iteration starts, with the loader worker's id; it also
ends without an exception, unless the dataset still is the `MixteraHFDataset` itself. -/
theorem c66_intended (c : Setup) (initial : Nat) (hs : c.split = some (c.dpGroups, c.dpGroup)) (hl : c.LoaderFits) :
    begin c initial = .ok c.realWorker ∧ (c.plain = false → atEnd c = .ok ()) := by
  constructor
  · rw [c66_accepted]
    refine ⟨⟨fun _ => Or.inl hs, ?_, ?_⟩, rfl⟩
    · revert hl
      unfold Setup.LoaderFits Setup.realWorker
      rcases c.loader with _ | ⟨n, id⟩
      · intro _; show 0 < _; omega
      · rintro ⟨h1, h2⟩; show id < _; omega
    · rw [hs]
      revert hl
      unfold Setup.LoaderFits
      rcases c.loader with _ | ⟨n, id⟩
      · intro h; exact ⟨Or.inr rfl, by rw [if_pos h]⟩
      · rintro ⟨h1, h2⟩; exact ⟨Or.inr rfl, Or.inl (by omega)⟩
  · intro hp; unfold atEnd; rw [hp]; rfl

/-- **C66** (two loader workers never stream as one). -/
theorem c66_distinct (c : Setup) (n i j : Nat) (initial initial' w : Nat)
    (hi : begin { c with loader := some (n, i) } initial = .ok w)
    (hj : begin { c with loader := some (n, j) } initial' = .ok w) : i = j := by
  have h1 := ((c66_accepted _ _ _).1 hi).2
  have h2 := ((c66_accepted _ _ _).1 hj).2
  rw [h1] at h2
  exact h2

/-- **C66** (deviation: without splitting and without loader workers). A `MixteraHFDataset` that was not split by node and is
iterated in the training process always raises; and if it is iterated in a loader worker, it raises at the end of its
stream. -/
theorem c66_unsplit_raises (c : Setup) (hs : c.split = none) (initial : Nat) :
    (c.loader = none → ∃ e, begin c initial = .error e) ∧ (c.plain = true → ∃ e, atEnd c = .error e) := by
  constructor
  · intro hl
    cases h : begin c initial with
    | error e => exact ⟨e, rfl⟩
    | ok w =>
      have := ((c66_accepted c initial w).1 h).1.2.2
      rw [hs, hl] at this
      exact this.elim
  · intro hp; exact ⟨_, by unfold atEnd; rw [hp]; rfl⟩

/-- **C66** (deviation: the number of loader workers). The check of the number of loader workers also lets the number of dp
groups through: with `g` dp groups and more than `g` workers declared, `g` loader workers are accepted, so that the other
declared workers never stream. -/
theorem c66_wrong_number (c : Setup) (hs : c.split = some (c.dpGroups, c.dpGroup)) (hg : c.dpGroups < c.numWorkers) (i : Nat)
    (hl : c.loader = some (c.dpGroups, i)) (hi : i < c.dpGroups) (initial : Nat) :
    ¬ c.LoaderFits ∧ begin c initial = .ok i := by
  constructor
  · unfold Setup.LoaderFits; rw [hl]; rintro ⟨h, _⟩; omega
  · rw [c66_accepted]
    refine ⟨⟨fun _ => Or.inl hs, ?_, ?_⟩, ?_⟩
    · unfold Setup.realWorker; rw [hl]; show i < _; omega
    · rw [hs, hl]; exact ⟨Or.inr rfl, Or.inr rfl⟩
    · unfold Setup.realWorker; rw [hl]

/-! ### Examples -/

/-- Two dp groups, three loader workers; the third one on the second rank. -/
example : begin ⟨3, 2, 1, some (2, 1), some (3, 2), false⟩ 0 = .ok 2 := by decide +kernel
/-- Two dp groups, loading in the training process, on the second rank. -/
example : begin ⟨0, 2, 1, some (2, 1), none, true⟩ 0 = .ok 0 := by decide +kernel
/-- The query was executed with three workers, but there are none: the first rank starts, the second one raises. -/
example : begin ⟨3, 2, 0, some (2, 0), none, false⟩ 0 = .ok 0 ∧ begin ⟨3, 2, 1, some (2, 1), none, false⟩ 0 = .error .assertion := by
  decide +kernel
/-- Three loader workers although the query was executed with two: with three dp groups the third one fails on its write. -/
example : begin ⟨2, 3, 0, some (3, 0), some (3, 2), false⟩ 0 = .error .indexError := by decide +kernel
/-- `c66_wrong_number`: two dp groups, four declared workers, two loader workers. -/
example : begin ⟨4, 2, 1, some (2, 1), some (2, 1), false⟩ 0 = .ok 1 := by decide +kernel
example : ∃ e, begin ⟨0, 1, 0, none, none, true⟩ 0 = .error e := (c66_unsplit_raises _ rfl 0).1 rfl

end Mixtera.HF
