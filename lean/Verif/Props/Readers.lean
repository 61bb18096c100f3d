import Verif.Props.ChunkRead
import Verif.Spec.Samples

/-!
# C41: reading with many processes
-/

set_option linter.unusedSectionVars false

namespace Mixtera

variable {P α : Type} [DecidableEq P] [DecidableEq α]

/-! ## Specification -/

/-- The state after `t` actions of the schedule `σ`. -/
def mtRun (eos : α) (s : MtState P α) (σ : Nat → MtAct P) : Nat → MtState P α
  | 0 => s
  | t + 1 => mtStep eos (mtRun eos s σ t) (σ t)

/-- No timeout and no crash. -/
def MtAct.smooth : MtAct P → Prop
  | .produce _ => True
  | .consume => True
  | _ => False

/-- A schedule in which every process and the consumer get their turn again and again. -/
def Fair (procs : List P) (σ : Nat → MtAct P) : Prop :=
  (∀ t, ∃ t', t ≤ t' ∧ σ t' = .consume) ∧ ∀ p ∈ procs, ∀ t, ∃ t', t ≤ t' ∧ σ t' = .produce p

/-! ## Invariant -/

namespace Mt

/-- In round `j`, when the processes `done` have already been asked. -/
structure Inv (procs : List P) (S : P → List α) (eos : α) (j : Nat) (done : List P) (s : MtState P α) : Prop where
  noTimeout : s.timedOut = false
  noError : s.error = false
  active : s.active = procs.filter fun p => j ≤ (S p).length
  split : s.active = done ++ s.pos
  before : ∀ p ∈ done, s.buf p ++ s.todo p = (S p ++ [eos]).drop (j + 1)
  after : ∀ p ∈ s.pos, s.buf p ++ s.todo p = (S p ++ [eos]).drop j
  removed : s.removed = done.filter fun p => (S p).length = j
  out : s.out = (List.range j).flatMap (roundOf procs S) ++ roundOf done S j

/-- What is left to do. -/
def measure (procs : List P) (m j : Nat) (s : MtState P α) : Nat :=
  (procs.map fun p => 2 * (s.todo p).length + (s.buf p).length).sum + (m + 1 - j)

theorem sum_lt {f g : P → Nat} {k : P} : ∀ (l : List P), k ∈ l → (∀ p, p ≠ k → f p = g p) → f k < g k →
    (l.map f).sum < (l.map g).sum
  | [], h, _, _ => by simp at h
  | a :: l, h, hne, hlt => by
    have hle : (l.map f).sum ≤ (l.map g).sum := by
      clear h
      induction l with
      | nil => simp
      | cons b l ih =>
        have : f b ≤ g b := by
          by_cases e : b = k
          · subst e; omega
          · rw [hne b e]
        simp only [List.map_cons, List.sum_cons]; omega
    simp only [List.map_cons, List.sum_cons]
    by_cases e : a = k
    · subst e; omega
    · have hk : k ∈ l := by
        rcases List.mem_cons.mp h with h | h
        · exact absurd h.symm e
        · exact h
      have := sum_lt l hk hne hlt
      rw [hne a e]; omega

section
variable {procs : List P} {S : P → List α} {eos : α} {m j : Nat} {done : List P} {s : MtState P α}

theorem Inv.init (procs : List P) (S : P → List α) (eos : α) :
    Inv procs S eos 0 [] (mtInit procs fun p => S p ++ [eos]) := by
  refine ⟨rfl, rfl, ?_, rfl, by simp, ?_, rfl, by simp [mtInit, roundOf]⟩
  · simp [mtInit]
  · intro p _; simp [mtInit]

theorem Inv.mem_active (h : Inv procs S eos j done s) {p : P} : p ∈ s.active ↔ p ∈ procs ∧ j ≤ (S p).length := by
  rw [h.active]; simp

/-- A process puts an item into its queue. -/
theorem Inv.produce (h : Inv procs S eos j done s) (p : P) :
    Inv procs S eos j done (mtProduce s p) ∧
      (p ∈ procs → mtProduce s p = s ∨ measure procs m j (mtProduce s p) < measure procs m j s) := by
  unfold mtProduce
  cases ht : s.todo p with
  | nil => exact ⟨h, fun _ => Or.inl rfl⟩
  | cons x xs =>
    have hrem : ∀ q, setAt s.buf p (s.buf p ++ [x]) q ++ setAt s.todo p xs q = s.buf q ++ s.todo q := by
      intro q
      unfold setAt
      by_cases e : q = p
      · subst e; simp [ht]
      · simp [e]
    refine ⟨⟨h.noTimeout, h.noError, h.active, h.split, ?_, ?_, h.removed, h.out⟩, ?_⟩
    · intro q hq; rw [← h.before q hq]; exact hrem q
    · intro q hq; rw [← h.after q hq]; exact hrem q
    · intro hp
      refine Or.inr ?_
      unfold measure
      apply Nat.add_lt_add_right
      apply sum_lt (k := p) procs hp
      · intro q hq; simp [setAt, hq]
      · simp [setAt, ht]; omega

theorem roundOf_active (h : Inv procs S eos j done s) : roundOf s.active S j = roundOf procs S j := by
  rw [h.active]
  unfold roundOf
  rw [List.filterMap_filter]
  apply List.filterMap_congr
  intro p _
  by_cases hj : j ≤ (S p).length
  · simp [hj]
  · simp [hj]; omega

/-- The consumer gets an item or begins a new round. -/
theorem Inv.consume (hnd : procs.Nodup) (heos : ∀ p ∈ procs, eos ∉ S p) (hm : ∀ p ∈ procs, (S p).length ≤ m)
    (h : Inv procs S eos j done s) :
    ∃ j' done', Inv procs S eos j' done' (mtConsume eos s) ∧
      (mtConsume eos s = s ∨ measure procs m j' (mtConsume eos s) < measure procs m j s) := by
  have hcond : ¬ (s.timedOut = true ∨ s.error = true) := by rw [h.noTimeout, h.noError]; simp
  unfold mtConsume
  rw [if_neg hcond]
  cases hp : s.pos with
  | nil =>
    simp only
    by_cases ha : s.active = []
    · have hd : done = [] := (List.append_eq_nil_iff.mp (h.split.symm.trans ha)).1
      have hr : s.removed = [] := by rw [h.removed, hd]; rfl
      have heq : { s with
          active := s.active.filter (· ∉ s.removed)
          pos := s.active.filter (· ∉ s.removed)
          removed := [] } = s := by
        rw [ha, List.filter_nil]
        obtain ⟨todo, buf, active, pos, removed, timedOut, error, out⟩ := s
        simp only at ha hp hr
        subst ha hp hr
        rfl
      rw [heq]
      exact ⟨j, done, h, Or.inl rfl⟩
    · have hdone : s.active = done := by have := h.split; rw [hp] at this; simpa using this
      have hfilt : s.active.filter (· ∉ s.removed) = procs.filter fun p => j + 1 ≤ (S p).length := by
        rw [h.removed, ← hdone, h.active, List.filter_filter]
        apply List.filter_congr
        intro p hp'
        simp only [List.mem_filter, decide_eq_true_eq, not_and, Bool.decide_eq_true]
        by_cases h1 : j ≤ (S p).length
        · by_cases h2 : (S p).length = j
          · simp [hp', h1, h2]
          · have : j + 1 ≤ (S p).length := by omega
            simp [h1, h2, this]
        · have : ¬ j + 1 ≤ (S p).length := by omega
          simp [h1, this]
      refine ⟨j + 1, [], ⟨h.noTimeout, h.noError, hfilt, rfl, by simp, ?_, rfl, ?_⟩, Or.inr ?_⟩
      · intro p hp'
        have hmem : p ∈ s.active := List.mem_of_mem_filter hp'
        rw [hdone] at hmem
        exact h.before p hmem
      · rw [h.out, List.range_succ, List.flatMap_append, ← hdone, roundOf_active h]
        simp [roundOf]
      · have hj : j ≤ m := by
          cases hl : s.active with
          | nil => exact absurd hl ha
          | cons p l =>
            have := (h.mem_active (p := p)).mp (by simp [hl])
            have := hm p this.1
            omega
        unfold measure
        simp only
        omega
  | cons p ps =>
    simp only
    have hpa : p ∈ s.active := by rw [h.split, hp]; simp
    obtain ⟨hpp, hpj⟩ := h.mem_active.mp hpa
    have hnda : s.active.Nodup := by rw [h.active]; exact hnd.filter _
    rw [h.split, hp] at hnda
    have hpd : p ∉ done := fun hd => (List.nodup_append.mp hnda).2.2 p hd p (by simp) rfl
    have hpps : p ∉ ps := (List.nodup_cons.mp (List.nodup_append.mp hnda).2.1).1
    cases hb : s.buf p with
    | nil => exact ⟨j, done, by simpa [hp] using h, Or.inl rfl⟩
    | cons x xs =>
      simp only
      have hrem := h.after p (by rw [hp]; simp)
      rw [hb] at hrem
      have hother : ∀ q, q ≠ p → setAt s.buf p xs q = s.buf q := fun q hq => by simp [setAt, hq]
      have hmeas : (procs.map fun q => 2 * (s.todo q).length + (setAt s.buf p xs q).length).sum
          < (procs.map fun q => 2 * (s.todo q).length + (s.buf q).length).sum := by
        apply sum_lt (k := p) procs hpp
        · intro q hq; rw [hother q hq]
        · simp [setAt, hb]
      have htail : ∀ q ∈ done ++ [p], setAt s.buf p xs q ++ s.todo q = (S q ++ [eos]).drop (j + 1) := by
        intro q hq
        rcases List.mem_append.mp hq with hq | hq
        · rw [hother q (fun e => hpd (e ▸ hq))]; exact h.before q hq
        · have : q = p := by simpa using hq
          subst this
          rw [← List.tail_drop, ← hrem]
          simp [setAt]
      have hps : ∀ q ∈ ps, setAt s.buf p xs q ++ s.todo q = (S q ++ [eos]).drop j := by
        intro q hq
        rw [hother q (fun e => hpps (e ▸ hq))]
        exact h.after q (by rw [hp]; simp [hq])
      have hx : (S p ++ [eos])[j]? = some x := by
        have := congrArg (fun l : List α => l[0]?) hrem
        simpa using this.symm
      have hsplit : s.active = (done ++ [p]) ++ ps := by rw [h.split, hp]; simp
      by_cases hxe : x = eos
      · rw [if_pos hxe]
        have hlen : (S p).length = j := by
          by_contra hne
          rw [List.getElem?_append_left (by omega)] at hx
          exact heos p hpp (hxe ▸ List.mem_of_getElem? hx)
        refine ⟨j, done ++ [p], ⟨h.noTimeout, h.noError, h.active, hsplit, htail, hps, ?_, ?_⟩, Or.inr ?_⟩
        · simp only [h.removed]; rw [List.filter_append]; simp [hlen]
        · simp only [h.out]
          unfold roundOf
          rw [List.filterMap_append]
          simp [hlen]
        · unfold measure; simp only; omega
      · rw [if_neg hxe]
        have hlen : j < (S p).length := by
          by_contra hne
          have : j = (S p).length := by omega
          subst this
          simp at hx
          exact hxe hx.symm
        rw [List.getElem?_append_left hlen] at hx
        refine ⟨j, done ++ [p], ⟨h.noTimeout, h.noError, h.active, hsplit, htail, hps, ?_, ?_⟩, Or.inr ?_⟩
        · simp only [h.removed]; rw [List.filter_append]
          have : ¬ (S p).length = j := by omega
          simp [this]
        · simp only [h.out]
          unfold roundOf
          rw [List.filterMap_append]
          simp [hx]
        · unfold measure; simp only; omega

theorem Inv.step (hnd : procs.Nodup) (heos : ∀ p ∈ procs, eos ∉ S p) (hm : ∀ p ∈ procs, (S p).length ≤ m)
    (h : Inv procs S eos j done s) (a : MtAct P) (ha : a.smooth) :
    ∃ j' done', Inv procs S eos j' done' (mtStep eos s a) ∧
      ((∀ p, a = .produce p → p ∈ procs) →
        mtStep eos s a = s ∨ measure procs m j' (mtStep eos s a) < measure procs m j s) := by
  cases a with
  | produce p =>
    obtain ⟨h1, h2⟩ := h.produce (m := m) p
    exact ⟨j, done, h1, fun hp => h2 (hp p rfl)⟩
  | consume =>
    obtain ⟨j', done', h1, h2⟩ := h.consume hnd heos hm
    exact ⟨j', done', h1, fun _ => h2⟩
  | expire => exact ha.elim
  | check => exact ha.elim
  | crash p => exact ha.elim

/-- Something can always happen until the iteration has ended. -/
theorem Inv.progress (hnd : procs.Nodup) (h : Inv procs S eos j done s) (hf : ¬ s.finished) :
    mtStep eos s .consume ≠ s ∨ ∃ p ∈ procs, mtStep eos s (.produce p) ≠ s := by
  have ha : s.active ≠ [] := fun ha => hf ⟨ha, h.noError⟩
  have hcond : ¬ (s.timedOut = true ∨ s.error = true) := by rw [h.noTimeout, h.noError]; simp
  cases hp : s.pos with
  | nil =>
    left
    intro heq
    have hdone : s.active = done := by have := h.split; rw [hp] at this; simpa using this
    simp only [mtStep] at heq
    unfold mtConsume at heq
    rw [if_neg hcond, hp] at heq
    have hpos : s.active.filter (· ∉ s.removed) = [] := by
      have := congrArg MtState.pos heq
      simpa [hp] using this
    have hact : s.active.filter (· ∉ s.removed) = s.active := congrArg MtState.active heq
    exact ha (hact ▸ hpos)
  | cons p ps =>
    have hpa : p ∈ s.active := by rw [h.split, hp]; simp
    obtain ⟨hpp, hpj⟩ := h.mem_active.mp hpa
    have hrem := h.after p (by rw [hp]; simp)
    cases hb : s.buf p with
    | nil =>
      right
      refine ⟨p, hpp, fun heq => ?_⟩
      rw [hb, List.nil_append] at hrem
      cases ht : s.todo p with
      | nil =>
        rw [ht] at hrem
        have := List.drop_eq_nil_iff.mp hrem.symm
        simp at this
        omega
      | cons x xs =>
        simp only [mtStep] at heq
        unfold mtProduce at heq
        rw [ht] at heq
        have := congrArg (fun s : MtState P α => (s.todo p).length) heq
        simp [setAt, ht] at this
    | cons x xs =>
      left
      intro heq
      simp only [mtStep] at heq
      unfold mtConsume at heq
      rw [if_neg hcond, hp] at heq
      simp only [hb] at heq
      have := congrArg (fun s : MtState P α => s.pos.length) heq
      split at this <;> simp [hp] at this

/-- What has been yielded is the beginning of the round robin order. -/
theorem Inv.out_prefix (hm : ∀ p ∈ procs, (S p).length ≤ m) (h : Inv procs S eos j done s) :
    s.out <+: (List.range m).flatMap (roundOf procs S) := by
  have hstable : ∀ n, m ≤ n → (List.range n).flatMap (roundOf procs S) = (List.range m).flatMap (roundOf procs S) := by
    intro n hn
    obtain ⟨d, rfl⟩ := Nat.exists_eq_add_of_le hn
    exact flatMap_range_roundOf hm d
  have h1 : s.out <+: (List.range (j + 1)).flatMap (roundOf procs S) := by
    rw [h.out, List.range_succ, List.flatMap_append]
    rw [List.prefix_append_right_inj]
    simp only [List.flatMap_cons, List.flatMap_nil, List.append_nil]
    rw [← roundOf_active h, h.split]
    unfold roundOf
    rw [List.filterMap_append]
    exact List.prefix_append _ _
  refine h1.trans ?_
  rcases Nat.le_total m (j + 1) with hj | hj
  · rw [hstable _ hj]; exact List.prefix_refl _
  · obtain ⟨d, rfl⟩ := Nat.exists_eq_add_of_le hj
    rw [List.range_add (n := j + 1) (m := d), List.flatMap_append]
    exact List.prefix_append _ _

theorem Inv.finished_out (hm : ∀ p ∈ procs, (S p).length ≤ m) (h : Inv procs S eos j done s) (hf : s.finished) :
    s.out = (List.range m).flatMap (roundOf procs S) := by
  have hlen : ∀ p ∈ procs, (S p).length ≤ j := by
    intro p hp
    by_contra hcon
    have : p ∈ s.active := h.mem_active.mpr ⟨hp, by omega⟩
    rw [hf.1] at this
    simp at this
  have hd : done = [] := (List.append_eq_nil_iff.mp (h.split.symm.trans hf.1)).1
  rw [h.out, hd]
  simp only [roundOf, List.filterMap_nil, List.append_nil]
  show (List.range j).flatMap (roundOf procs S) = _
  rcases Nat.le_total m j with hj | hj
  · obtain ⟨d, rfl⟩ := Nat.exists_eq_add_of_le hj
    exact flatMap_range_roundOf hm d
  · obtain ⟨d, rfl⟩ := Nat.exists_eq_add_of_le hj
    exact (flatMap_range_roundOf hlen d).symm

end

section
variable {procs : List P} {S : P → List α} {eos : α} {m : Nat} {σ : Nat → MtAct P}

theorem run_inv (hnd : procs.Nodup) (heos : ∀ p ∈ procs, eos ∉ S p) (hm : ∀ p ∈ procs, (S p).length ≤ m)
    (hσ : ∀ t, (σ t).smooth) : ∀ t, ∃ j done, Inv procs S eos j done
      (mtRun eos (mtInit procs fun p => S p ++ [eos]) σ t)
  | 0 => ⟨0, [], Inv.init procs S eos⟩
  | t + 1 => by
    obtain ⟨j, done, h⟩ := run_inv hnd heos hm hσ t
    obtain ⟨j', done', h', -⟩ := h.step hnd heos hm (σ t) (hσ t)
    exact ⟨j', done', h'⟩

theorem run_finishes (hnd : procs.Nodup) (heos : ∀ p ∈ procs, eos ∉ S p) (hm : ∀ p ∈ procs, (S p).length ≤ m)
    (hσ : ∀ t, (σ t).smooth) (hσp : ∀ t p, σ t = .produce p → p ∈ procs) (hfair : Fair procs σ) (s0 : MtState P α) :
    ∀ (n t j : Nat) (done : List P), Inv procs S eos j done (mtRun eos s0 σ t) →
      measure procs m j (mtRun eos s0 σ t) ≤ n → ∃ t', (mtRun eos s0 σ t').finished := by
  intro n
  induction n with
  | zero =>
    intro t j done h hn
    by_contra hcon
    push Not at hcon
    have hchange : ∀ a : MtAct P, a.smooth → (∀ p, a = .produce p → p ∈ procs) →
        mtStep eos (mtRun eos s0 σ t) a = mtRun eos s0 σ t := by
      intro a ha hap
      obtain ⟨j', done', -, h2⟩ := h.step hnd heos hm a ha
      rcases h2 hap with h2 | h2
      · exact h2
      · omega
    rcases h.progress hnd (hcon t) with hp | ⟨p, hp, hne⟩
    · exact hp (hchange _ trivial (by simp))
    · exact hne (hchange _ trivial (by rintro q ⟨⟩; exact hp))
  | succ n ih =>
    intro t j done h hn
    by_cases hf : (mtRun eos s0 σ t).finished
    · exact ⟨t, hf⟩
    have hwalk : ∀ d, mtRun eos s0 σ (t + d) = mtRun eos s0 σ t ∨
        ∃ t', (mtRun eos s0 σ t').finished := by
      intro d
      induction d with
      | zero => exact Or.inl rfl
      | succ d ihd =>
        rcases ihd with hd | hd
        · obtain ⟨j', done', h1, h2⟩ := h.step hnd heos hm (σ (t + d)) (hσ _)
          have hstep : mtRun eos s0 σ (t + (d + 1)) = mtStep eos (mtRun eos s0 σ t) (σ (t + d)) := by
            rw [← Nat.add_assoc, mtRun, hd]
          rcases h2 (hσp _) with h2 | h2
          · exact Or.inl (hstep.trans h2)
          · exact Or.inr (ih (t + (d + 1)) j' done' (hstep ▸ h1) (by rw [hstep]; omega))
        · exact Or.inr hd
    have hact : ∃ a, mtStep eos (mtRun eos s0 σ t) a ≠ mtRun eos s0 σ t ∧ ∃ t', t ≤ t' ∧ σ t' = a := by
      rcases h.progress hnd hf with hp | ⟨p, hp, hne⟩
      · exact ⟨_, hp, hfair.1 t⟩
      · exact ⟨_, hne, hfair.2 p hp t⟩
    obtain ⟨a, hne, t', htt', hat'⟩ := hact
    obtain ⟨d, rfl⟩ := Nat.exists_eq_add_of_le htt'
    rcases hwalk (d + 1) with h1 | h1
    · rcases hwalk d with h2 | h2
      · exfalso
        apply hne
        rw [← Nat.add_assoc, mtRun, h2, hat'] at h1
        exact h1
      · exact h2
    · exact h1

end
end Mt

/-! ## The theorems about the consumer -/

omit [DecidableEq α] in
/-- What was yielded, put together key by key. -/
theorem perm_by_keys : ∀ (procs : List P), procs.Nodup → ∀ out : List (P × α), (∀ q ∈ out, q.1 ∈ procs) →
    (out.map Prod.snd).Perm (procs.flatMap fun p => samplesOf p out) := by
  intro procs
  induction procs with
  | nil =>
    intro _ out hout
    have : out = [] := by
      cases out with
      | nil => rfl
      | cons q l => exact absurd (hout q (by simp)) (by simp)
    subst this; simp
  | cons p procs ih =>
    intro hnd out hout
    obtain ⟨hp, hnd⟩ := List.nodup_cons.mp hnd
    have h1 : (out.filter (fun q => q.1 = p) ++ out.filter (fun q => ¬ q.1 = p)).Perm out := by
      simpa using List.filter_append_perm (fun q : P × α => q.1 = p) out
    have h2 := ih hnd (out.filter fun q => ¬ q.1 = p) (by
      intro q hq
      obtain ⟨hq1, hq2⟩ := List.mem_filter.mp hq
      rcases List.mem_cons.mp (hout q hq1) with h | h
      · simp [h] at hq2
      · exact h)
    have h3 : (procs.flatMap fun r => samplesOf r (out.filter fun q => ¬ q.1 = p))
        = procs.flatMap fun r => samplesOf r out := by
      apply List.flatMap_congr
      intro r hr
      have hrp : r ≠ p := fun e => hp (e ▸ hr)
      unfold samplesOf
      rw [List.filter_filter]
      congr 1
      apply List.filter_congr
      intro q _
      by_cases e : q.1 = r
      · have : ¬ q.1 = p := fun e' => hrp (e ▸ e')
        simp [e, hrp]
      · simp [e]
    rw [List.flatMap_cons]
    refine (h1.symm.map Prod.snd).trans ?_
    rw [List.map_append]
    refine List.Perm.append (List.Perm.refl _) ?_
    rw [← h3]
    exact h2

/-- **C41**: whatever the order in which the processes and the consumer run, what the consumer has yielded at any time is
the beginning of one fixed sequence: the processes' samples, round robin. -/
theorem c41_deterministic_partial (procs : List P) (S : P → List α) (eos : α) (m : Nat) (hnd : procs.Nodup)
    (heos : ∀ p ∈ procs, eos ∉ S p) (hm : ∀ p ∈ procs, (S p).length ≤ m) (σ : Nat → MtAct P)
    (hσ : ∀ t, (σ t).smooth) (t : Nat) :
    (mtRun eos (mtInit procs fun p => S p ++ [eos]) σ t).out <+: (List.range m).flatMap (roundOf procs S) := by
  obtain ⟨j, done, h⟩ := Mt.run_inv hnd heos hm hσ t
  exact h.out_prefix hm

/-- **C41**: if everybody gets their turn again and again, the iteration ends, and then it has yielded every sample of
every process exactly once (and each process's samples in their order).

Partial: no timeouts, no crashes, and no sample that equals the end marker; see `c41_no_wrong_samples`,
`c41_timeout_race`, `c41_crash_loses` and `c41_marker_loses` for what happens otherwise. -/
theorem c41_all_samples_partial (procs : List P) (S : P → List α) (eos : α) (hnd : procs.Nodup)
    (heos : ∀ p ∈ procs, eos ∉ S p) (σ : Nat → MtAct P) (hσ : ∀ t, (σ t).smooth)
    (hσp : ∀ t p, σ t = .produce p → p ∈ procs) (hfair : Fair procs σ) :
    ∃ t, (mtRun eos (mtInit procs fun p => S p ++ [eos]) σ t).finished ∧
      ∀ t, (mtRun eos (mtInit procs fun p => S p ++ [eos]) σ t).finished →
        (∀ p ∈ procs, samplesOf p (mtRun eos (mtInit procs fun p => S p ++ [eos]) σ t).out = S p) ∧
        ((mtRun eos (mtInit procs fun p => S p ++ [eos]) σ t).out.map Prod.snd).Perm (procs.flatMap S) := by
  obtain ⟨m, hm⟩ := exists_bound procs S
  obtain ⟨t, ht⟩ := Mt.run_finishes hnd heos hm hσ hσp hfair (mtInit procs fun p => S p ++ [eos]) _ 0 0 []
    (Mt.Inv.init procs S eos) le_rfl
  refine ⟨t, ht, ?_⟩
  intro t ht
  obtain ⟨j, done, h⟩ := Mt.run_inv hnd heos hm hσ t
  have hout := h.finished_out hm ht
  have hs : ∀ p ∈ procs, samplesOf p (mtRun eos (mtInit procs fun p => S p ++ [eos]) σ t).out = S p := by
    intro p hp
    rw [hout, samplesOf_flatMap]
    unfold roundOf
    simp only [samplesOf_filterMap p _ procs hnd hp]
    exact flatMap_getElem? _ _ (hm p hp)
  refine ⟨hs, ?_⟩
  have hkeys : ∀ q ∈ (mtRun eos (mtInit procs fun p => S p ++ [eos]) σ t).out, q.1 ∈ procs := by
    rw [hout]
    intro q hq
    obtain ⟨i, -, hi⟩ := List.mem_flatMap.mp hq
    obtain ⟨n, hn, he⟩ := List.mem_filterMap.mp hi
    obtain ⟨x, -, rfl⟩ := Option.map_eq_some_iff.mp he
    exact hn
  refine (perm_by_keys procs hnd _ hkeys).trans ?_
  rw [List.flatMap_congr hs]

/-! ## Timeouts and crashes -/

/-- What is true whatever happens. -/
structure Mt.Safe (S : P → List α) (eos : α) (s : MtState P α) : Prop where
  out : ∀ p, samplesOf p s.out <+: S p
  rest : ∀ p, s.buf p ++ s.todo p ≠ [] → samplesOf p s.out ++ (s.buf p ++ s.todo p) <+: S p ++ [eos]

theorem samplesOf_snoc (p q : P) (x : α) (out : List (P × α)) :
    samplesOf p (out ++ [(q, x)]) = if q = p then samplesOf p out ++ [x] else samplesOf p out := by
  rw [samplesOf_append]
  by_cases e : q = p <;> simp [samplesOf, e]

theorem Mt.Safe.step {S : P → List α} {eos : α} {s : MtState P α} (heos : ∀ p, eos ∉ S p) (h : Mt.Safe S eos s)
    (a : MtAct P) : Mt.Safe S eos (mtStep eos s a) := by
  cases a with
  | produce p =>
    simp only [mtStep]
    unfold mtProduce
    cases ht : s.todo p with
    | nil => exact h
    | cons x xs =>
      have hrem : ∀ q, setAt s.buf p (s.buf p ++ [x]) q ++ setAt s.todo p xs q = s.buf q ++ s.todo q := by
        intro q
        unfold setAt
        by_cases e : q = p
        · subst e; simp [ht]
        · simp [e]
      refine ⟨h.out, fun q => ?_⟩
      simp only [hrem]
      exact h.rest q
  | consume =>
    simp only [mtStep]
    unfold mtConsume
    split
    · exact h
    split
    · exact ⟨h.out, h.rest⟩
    rename_i p ps hp
    cases hb : s.buf p with
    | nil => exact h
    | cons x xs =>
      have hr := h.rest p (by rw [hb]; simp)
      rw [hb] at hr
      simp only
      by_cases hx : x = eos
      · rw [if_pos hx]
        have hnil : xs ++ s.todo p = [] := by
          obtain ⟨t, ht⟩ := hr
          by_contra hne
          have h1 : (S p ++ [eos]).dropLast = S p := List.dropLast_concat
          rw [← ht] at h1
          have hmem : x ∈ (samplesOf p s.out ++ (x :: xs ++ s.todo p) ++ t).dropLast := by
            have : samplesOf p s.out ++ (x :: xs ++ s.todo p) ++ t
                = samplesOf p s.out ++ [x] ++ ((xs ++ s.todo p) ++ t) := by simp
            rw [this, List.dropLast_append_of_ne_nil (by simp [List.append_eq_nil_iff] at hne ⊢; tauto)]
            simp
          rw [h1] at hmem
          exact heos p (hx ▸ hmem)
        refine ⟨h.out, fun q hq => ?_⟩
        by_cases e : q = p
        · subst e; simp [setAt, hnil] at hq
        · simp only [setAt, if_neg e] at hq ⊢
          exact h.rest q hq
      · rw [if_neg hx]
        have hpre : samplesOf p s.out ++ [x] <+: S p := by
          obtain ⟨t, ht⟩ := hr
          rcases List.eq_nil_or_concat (xs ++ s.todo p ++ t) with h0 | ⟨l, b, h0⟩
          · have : samplesOf p s.out ++ [x] = S p ++ [eos] := by
              rw [← ht]
              have : samplesOf p s.out ++ (x :: xs ++ s.todo p) ++ t
                = samplesOf p s.out ++ [x] ++ (xs ++ s.todo p ++ t) := by simp
              rw [this, h0, List.append_nil]
            have := (List.append_inj' this rfl).2
            simp at this
            exact absurd this hx
          · have h2 : samplesOf p s.out ++ (x :: xs ++ s.todo p) ++ t
                = (samplesOf p s.out ++ [x] ++ l) ++ [b] := by
              have : samplesOf p s.out ++ (x :: xs ++ s.todo p) ++ t
                = samplesOf p s.out ++ [x] ++ (xs ++ s.todo p ++ t) := by simp
              rw [this, h0]; simp
            rw [h2] at ht
            have := (List.append_inj' ht rfl).1
            exact ⟨l, this⟩
        refine ⟨fun q => ?_, fun q hq => ?_⟩
        · rw [samplesOf_snoc]
          by_cases e : p = q
          · subst e; simpa using hpre
          · simpa [e] using h.out q
        · simp only at hq ⊢
          rw [samplesOf_snoc]
          by_cases e : p = q
          · subst e
            simpa [setAt] using hr
          · have e' : ¬ q = p := fun h => e h.symm
            simp only [setAt, if_neg e', if_neg e] at hq ⊢
            exact h.rest q hq
  | expire =>
    simp only [mtStep]
    unfold mtExpire
    split
    · exact h
    · split
      · exact ⟨h.out, h.rest⟩
      · exact h
  | check =>
    simp only [mtStep]
    unfold mtCheck
    split
    · split
      · exact h
      · split <;> exact ⟨h.out, h.rest⟩
    · exact h
  | crash p =>
    simp only [mtStep]
    refine ⟨h.out, fun q hq => ?_⟩
    simp only at hq ⊢
    by_cases e : q = p
    · subst e
      simp only [setAt, if_true, List.append_nil] at hq ⊢
      have := h.rest q (by simp [hq])
      refine List.IsPrefix.trans ?_ this
      rw [List.prefix_append_right_inj]
      exact List.prefix_append _ _
    · simp only [setAt, if_neg e] at hq ⊢
      exact h.rest q hq

/-- **C41**: whatever happens, timeouts and crashes included, what has been yielded of a process is at any time a
beginning of its samples: nothing is repeated, reordered or made up. -/
theorem c41_no_wrong_samples (procs : List P) (S : P → List α) (eos : α) (heos : ∀ p, eos ∉ S p)
    (σ : Nat → MtAct P) (t : Nat) (p : P) :
    samplesOf p (mtRun eos (mtInit procs fun p => S p ++ [eos]) σ t).out <+: S p := by
  have h : Mt.Safe S eos (mtRun eos (mtInit procs fun p => S p ++ [eos]) σ t) := by
    induction t with
    | zero =>
      refine ⟨fun p => List.nil_prefix, fun p _ => ?_⟩
      simp [mtRun, mtInit, samplesOf]
    | succ t ih => exact ih.step heos _
  exact h.out p

/-! ## Partitions -/

theorem partitions_flatten {β : Type} (size : Nat) (h : 1 ≤ size) : ∀ (fuel : Nat) (l : List β), l.length ≤ fuel →
    (partitions size fuel l).flatten = l
  | 0, l, hl => by
    have : l = [] := List.length_eq_zero_iff.mp (by omega)
    subst this; rfl
  | fuel + 1, l, hl => by
    cases l with
    | nil => rfl
    | cons a l =>
      have ih := partitions_flatten size h fuel ((a :: l).drop size) (by
        simp only [List.length_drop, List.length_cons] at hl ⊢; omega)
      rw [partitions, if_neg (by simp), List.flatten_cons, ih, List.take_append_drop]

theorem partitions_ne_nil {β : Type} (size : Nat) (h : 1 ≤ size) : ∀ (fuel : Nat) (l : List β),
    ∀ w ∈ partitions size fuel l, w ≠ [] ∧ w.length ≤ size
  | 0, l, w, hw => by simp [partitions] at hw
  | fuel + 1, [], w, hw => by simp [partitions] at hw
  | fuel + 1, a :: l, w, hw => by
    rw [partitions, if_neg (by simp)] at hw
    rcases List.mem_cons.mp hw with rfl | hw
    · constructor
      · intro h0
        rw [List.take_eq_nil_iff] at h0
        rcases h0 with h0 | h0
        · omega
        · simp at h0
      · simp
    · exact partitions_ne_nil size h fuel _ w hw

/-- **C41**: the processes of a key together get exactly the key's files, in order, and none gets nothing. -/
theorem c41_partitions {β : Type} (count : Int) (workload : List β) :
    (readerWorkloads count workload).flatten = workload ∧ ∀ w ∈ readerWorkloads count workload, w ≠ [] := by
  unfold readerWorkloads
  exact ⟨partitions_flatten _ (by omega) _ _ (by omega), fun w hw => (partitions_ne_nil _ (by omega) _ _ w hw).1⟩

/-- **C41**: reading a key with reader processes yields, whatever the schedule, exactly the samples of the key's files,
each once: a permutation of what a single process yields. The processes are numbered; process `i` reads the `i`-th
part of the workload. -/
theorem c41_like_one_process_partial {β : Type} (count : Int) (workload : List β) (read : β → List α) (eos : α)
    (heos : ∀ f ∈ workload, eos ∉ read f) (σ : Nat → MtAct Nat) (hσ : ∀ t, (σ t).smooth)
    (hσp : ∀ t p, σ t = .produce p → p ∈ List.range (readerWorkloads count workload).length)
    (hfair : Fair (List.range (readerWorkloads count workload).length) σ) :
    let start := mtInit (List.range (readerWorkloads count workload).length)
      fun i => readerOutput read eos (((readerWorkloads count workload)[i]?).getD [])
    ∃ t, (mtRun eos start σ t).finished ∧
      ∀ t, (mtRun eos start σ t).finished → ((mtRun eos start σ t).out.map Prod.snd).Perm (workload.flatMap read) := by
  obtain ⟨hflat, -⟩ := c41_partitions count workload
  intro start
  have hmem : ∀ i : Nat, ∀ f ∈ ((readerWorkloads count workload)[i]?).getD [], f ∈ workload := by
    intro i f hf
    rw [← hflat]
    cases hi : (readerWorkloads count workload)[i]? with
    | none => rw [hi] at hf; simp at hf
    | some w =>
      rw [hi] at hf
      exact List.mem_flatten.mpr ⟨w, List.mem_of_getElem? hi, hf⟩
  obtain ⟨t, ht, h⟩ := c41_all_samples_partial (List.range (readerWorkloads count workload).length)
    (fun i => (((readerWorkloads count workload)[i]?).getD []).flatMap read) eos List.nodup_range (by
      intro i _ hcon
      obtain ⟨f, hf, he⟩ := List.mem_flatMap.mp hcon
      exact heos f (hmem i f hf) he) σ hσ hσp hfair
  refine ⟨t, ht, fun t ht => ?_⟩
  refine (h t ht).2.trans (List.Perm.of_eq ?_)
  have key : ∀ ws : List (List β), ((List.range ws.length).flatMap fun i => ((ws[i]?).getD []).flatMap read)
      = ws.flatten.flatMap read := by
    intro ws
    induction ws with
    | nil => rfl
    | cons w ws ih =>
      rw [List.length_cons, List.range_succ_eq_map, List.flatMap_cons, List.flatMap_map, List.flatten_cons,
        List.flatMap_append, ← ih]
      simp
  rw [key, hflat]

/-- **C41** (the work is what the chunk lists). However the files of a key are shuffled, the workload handed to the readers
covers exactly the sample positions the chunk lists under the key, each as often as it is listed. -/
theorem c41_workload (shuffle : List (Nat × Nat × List Rng) → List (Nat × Nat × List Rng)) (hs : ∀ l, (shuffle l).Perm l)
    (e : Entries) :
    ((prepareWorkload shuffle e).flatMap fun w => w.2.2.flatMap fun r => Seg.samples ⟨w.1, w.2.1, r.1, r.2⟩).Perm
      (entriesSamples e) := by
  unfold prepareWorkload entriesSamples
  refine ((hs _).flatMap_right _).trans (List.Perm.of_eq ?_)
  simp only [List.flatMap_assoc, List.flatMap_map]

/-- **C41** (end to end for one key). With reader processes that read the lines of their files' ranges, whatever the shuffle
and the schedule, the samples yielded for a key are exactly those at the positions the chunk lists under it. -/
theorem c41_chunk_samples_partial (count : Int) (shuffle : List (Nat × Nat × List Rng) → List (Nat × Nat × List Rng))
    (hs : ∀ l, (shuffle l).Perm l) (e : Entries) (line : Pos → α) (eos : α) (heos : ∀ p, line p ≠ eos)
    (σ : Nat → MtAct Nat) (hσ : ∀ t, (σ t).smooth)
    (hσp : ∀ t p, σ t = .produce p → p ∈ List.range (readerWorkloads count (prepareWorkload shuffle e)).length)
    (hfair : Fair (List.range (readerWorkloads count (prepareWorkload shuffle e)).length) σ) :
    let read := fun w : Nat × Nat × List Rng => (w.2.2.flatMap fun r => Seg.samples ⟨w.1, w.2.1, r.1, r.2⟩).map line
    let start := mtInit (List.range (readerWorkloads count (prepareWorkload shuffle e)).length)
      fun i => readerOutput read eos (((readerWorkloads count (prepareWorkload shuffle e))[i]?).getD [])
    ∃ t, (mtRun eos start σ t).finished ∧ ∀ t, (mtRun eos start σ t).finished →
      ((mtRun eos start σ t).out.map Prod.snd).Perm ((entriesSamples e).map line) := by
  intro read start
  obtain ⟨t, h1, h2⟩ := c41_like_one_process_partial count (prepareWorkload shuffle e) read eos (by
    intro f _ hm
    obtain ⟨p, _, hp⟩ := List.mem_map.1 hm
    exact heos p hp) σ hσ hσp hfair
  refine ⟨t, h1, fun t ht => (h2 t ht).trans ?_⟩
  have h3 := (c41_workload shuffle hs e).map line
  rw [List.map_flatMap] at h3
  exact h3

/-! ## Witnesses and examples -/

/-- `c41_workload` on two files of a data set, in reversed order. -/
example : prepareWorkload List.reverse [(7, [(0, [(0, 2)]), (1, [(3, 4)])])] = [(7, 1, [(3, 4)]), (7, 0, [(0, 2)])] := by
  decide +kernel

/-- The alternating schedule of two processes and the consumer is fair. -/
def exSchedule (t : Nat) : MtAct Nat := if t % 3 = 0 then .produce 0 else if t % 3 = 1 then .produce 1 else .consume

theorem exSchedule_fair : Fair [0, 1] exSchedule := by
  refine ⟨fun t => ⟨3 * t + 2, by omega, ?_⟩, fun p hp t => ?_⟩
  · have h1 : (3 * t + 2) % 3 = 2 := by omega
    simp [exSchedule, h1]
  · rcases List.mem_cons.mp hp with rfl | hp
    · exact ⟨3 * t, by omega, by simp [exSchedule]⟩
    · have : p = 1 := by simpa using hp
      subst this
      have h1 : (3 * t + 1) % 3 = 1 := by omega
      exact ⟨3 * t + 1, by omega, by simp [exSchedule, h1]⟩

/-- The hypotheses of `c41_like_one_process_partial` are met: five files for two processes. -/
example : ∃ t, (mtRun 0 (mtInit (List.range 2) fun i => readerOutput (fun f => [10 * f, 10 * f + 1]) 0
      (((readerWorkloads 2 [1, 2, 3, 4])[i]?).getD [])) exSchedule t).finished :=
  (c41_like_one_process_partial 2 [1, 2, 3, 4] (fun f => [10 * f, 10 * f + 1]) 0 (by decide) exSchedule
    (by
      intro t; unfold exSchedule
      split
      · trivial
      · split <;> trivial)
    (by
      intro t p h
      unfold exSchedule at h
      split at h
      · cases h; decide
      · split at h
        · cases h; decide
        · cases h)
    (by
      show Fair [0, 1] exSchedule
      exact exSchedule_fair)).imp fun t h => h.1

example : readerWorkloads 2 [1, 2, 3, 4, 5] = [[1, 2], [3, 4], [5]] := by decide +kernel

/-- Running a finite schedule. -/
def mtRunList (eos : α) (s : MtState P α) (acts : List (MtAct P)) : MtState P α := acts.foldl (mtStep eos) s

/-- A reader that puts its last items and exits between the timeout of `queue.get` and the check whether it is alive: its
samples are lost and nobody is told. -/
theorem c41_timeout_race :
    let s := mtRunList 0 (mtInit [0] fun _ => [1, 2, 0])
      [.produce 0, .consume, .consume, .expire, .produce 0, .produce 0, .check, .consume]
    s.finished ∧ s.out = [(0, 1)] := by
  refine ⟨⟨?_, ?_⟩, ?_⟩ <;> rfl

/-- A reader that dies: its samples are lost and nobody is told. -/
theorem c41_crash_loses :
    let s := mtRunList 0 (mtInit [0] fun _ => [1, 2, 0]) [.produce 0, .consume, .consume, .crash 0, .expire, .check, .consume]
    s.finished ∧ s.out = [(0, 1)] := by
  refine ⟨⟨?_, ?_⟩, ?_⟩ <;> rfl

/-- A sample that equals the end marker: it and everything that the process reads after it are lost. -/
theorem c41_marker_loses :
    let s := mtRunList 0 (mtInit [0] fun _ => [1, 0, 2] ++ [0])
      [.produce 0, .produce 0, .produce 0, .produce 0, .consume, .consume, .consume, .consume]
    s.finished ∧ s.out = [(0, 1)] := by
  refine ⟨⟨?_, ?_⟩, ?_⟩ <;> rfl

end Mixtera
