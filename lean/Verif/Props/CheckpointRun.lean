import Verif.Model.CheckpointRun
import Verif.Props.Checkpoint
import Mathlib.Data.List.Induction

/-!
# C70: taking a checkpoint, from the training nodes to the disk
-/

namespace Mixtera.CkRun

set_option linter.unusedSectionVars false

variable {Q S : Type}

/-! ## Specification -/

/-- The server's distributor is replaced: it died, or a query was executed, or a checkpoint was restored. -/
def begins : Ev Q S × Out Q S → Bool
  | (.crash _, _) => true
  | (_, .executed) => true
  | (_, .restored _ _) => true
  | _ => false

/-- What has been seen since then. -/
def life (log : List (Ev Q S × Out Q S)) : List (Ev Q S × Out Q S) :=
  log.foldl (fun acc x => if begins x then [] else acc ++ [x]) []

/-- A report of a node was accepted for checkpoint `id`. -/
def Reported (log : List (Ev Q S × Out Q S)) (id g n : Nat) : Prop :=
  ∃ status aligned snap wait started, (Ev.call g n status aligned snap wait, Out.entered id started) ∈ log

/-- The report that completed the round of checkpoint `id`, with the state `s` to be saved. -/
def Started (log : List (Ev Q S × Out Q S)) (id : Nat) (s : S) : Prop :=
  ∃ g n status aligned wait, (Ev.call g n status aligned s wait, Out.entered id true) ∈ log

/-- All nodes that call exist. -/
def ValidEv (G N : Nat) : Ev Q S → Prop
  | .call g n _ _ _ _ => g < G ∧ n < N
  | _ => True

theorem run_append (G N : Nat) (a b : List (Ev Q S)) : ∀ w : World Q S,
    w.run G N (a ++ b) = (((w.run G N a).1.run G N b).1, (w.run G N a).2 ++ ((w.run G N a).1.run G N b).2) := by
  induction a with
  | nil => intro w; rfl
  | cons e a ih =>
    intro w
    rw [List.cons_append, World.run, ih]
    rfl

theorem run_snoc (G N : Nat) (a : List (Ev Q S)) (e : Ev Q S) (w : World Q S) :
    w.run G N (a ++ [e]) = (((w.run G N a).1.step G N e).1, (w.run G N a).2 ++ [(e, ((w.run G N a).1.step G N e).2)]) := by
  rw [run_append]; rfl

theorem life_snoc (log : List (Ev Q S × Out Q S)) (x : Ev Q S × Out Q S) :
    life (log ++ [x]) = if begins x then [] else life log ++ [x] := by
  rw [life, List.foldl_append]; rfl

/-! ## The files -/

/-- What a process that is at `pc` has written of its own directory. -/
def expected (s : S) : Pc → Option (File S × File S)
  | .write1 => some (.absent, .absent)
  | .writing1 => some (.incomplete, .absent)
  | .write2 => some (.full s, .absent)
  | .writing2 => some (.full s, .incomplete)
  | .done => some (.full s, .full s)
  | _ => none

/-- The files agree with the processes. -/
structure DInv (procs : List (Proc S)) (d : Disk Q S) : Prop where
  owner : ∀ (i : Nat) (p : Proc S) (f : File S × File S), procs[i]? = some p → expected p.snap p.pc = some f →
    d.dirs.get? p.id = some f
  uniq : ∀ (i j : Nat) (p q : Proc S), procs[i]? = some p → procs[j]? = some q → (expected p.snap p.pc).isSome = true →
    (expected q.snap q.pc).isSome = true → p.id = q.id → i = j
  copying : ∀ (i : Nat) (p : Proc S) (k : Nat), procs[i]? = some p → p.pc = .copying k → d.query = .incomplete
  uniqCopying : ∀ (i j : Nat) (p q : Proc S) (k l : Nat), procs[i]? = some p → procs[j]? = some q → p.pc = .copying k →
    q.pc = .copying l → i = j
  exists' : ∀ (i : Nat) (p : Proc S), procs[i]? = some p → (p.pc = .mkdir ∨ (expected p.snap p.pc).isSome = true) →
    d.query ≠ .absent
  first : ∀ (i : Nat) (p : Proc S), procs[i]? = some p → p.id = 1 →
    (p.pc = .check ∨ p.pc = .mkdir ∨ (expected p.snap p.pc).isSome = true) → ∃ q, d.query = .full q

theorem DInv.kill {procs procs' : List (Proc S)} {d : Disk Q S} (h : DInv procs d)
    (hp : ∀ (i : Nat) (p : Proc S), procs'[i]? = some p → procs[i]? = some p ∨
      ((∃ p0, procs[i]? = some p0 ∧ p0.id = p.id) ∧ p.pc = .failed)) : DInv procs' d := by
  refine ⟨?_, ?_, ?_, ?_, ?_, ?_⟩
  · intro i p f hi he
    rcases hp i p hi with h1 | ⟨-, h1⟩
    · exact h.owner i p f h1 he
    · rw [h1] at he; simp [expected] at he
  · intro i j p q hi hj he he' hid
    rcases hp i p hi with h1 | ⟨-, h1⟩
    · rcases hp j q hj with h2 | ⟨-, h2⟩
      · exact h.uniq i j p q h1 h2 he he' hid
      · rw [h2] at he'; simp [expected] at he'
    · rw [h1] at he; simp [expected] at he
  · intro i p k hi hk
    rcases hp i p hi with h1 | ⟨-, h1⟩
    · exact h.copying i p k h1 hk
    · rw [h1] at hk; cases hk
  · intro i j p q k l hi hj hk hl
    rcases hp i p hi with h1 | ⟨-, h1⟩
    · rcases hp j q hj with h2 | ⟨-, h2⟩
      · exact h.uniqCopying i j p q k l h1 h2 hk hl
      · rw [h2] at hl; cases hl
    · rw [h1] at hk; cases hk
  · intro i p hi he
    rcases hp i p hi with h1 | ⟨-, h1⟩
    · exact h.exists' i p h1 he
    · rw [h1] at he; simp [expected] at he
  · intro i p hi h1' he
    rcases hp i p hi with h1 | ⟨-, h1⟩
    · exact h.first i p h1 h1' he
    · rw [h1] at he; simp [expected] at he

/-- What one step of a process does to the files. -/
theorem DInv.persist {procs : List (Proc S)} {d : Disk Q S} (h : DInv procs d) (caches : List (Option Q)) (i : Nat)
    (p : Proc S) (hi : procs[i]? = some p) :
    DInv (procs.set i (p.step caches d).2) (p.step caches d).1 ∧ (p.step caches d).2.id = p.id ∧
      (p.step caches d).2.snap = p.snap ∧
      (∀ q, d.query = .full q → (p.step caches d).1.query = .full q) ∧
      (∀ q, (p.step caches d).1.query = .full q → d.query = .full q ∨ ∃ k : Nat, caches[k]? = some (some q)) ∧
      (∀ id s t, d.dirs.get? id = some (.full s, .full t) → (p.step caches d).1.dirs.get? id = some (.full s, .full t)) := by
  have hlt : i < procs.length := by
    rw [List.getElem?_eq_some_iff] at hi; exact hi.1
  have hset : ∀ (x : Proc S) (j : Nat) (q : Proc S), (procs.set i x)[j]? = some q →
      (j = i ∧ q = x) ∨ (j ≠ i ∧ procs[j]? = some q) := by
    intro x j q hq
    by_cases hji : j = i
    · subst hji
      rw [List.getElem?_set_self hlt] at hq
      exact .inl ⟨rfl, by simpa using hq.symm⟩
    · rw [List.getElem?_set_ne (Ne.symm hji)] at hq
      exact .inr ⟨hji, hq⟩
  -- a process that gives up
  have hfail : DInv (procs.set i { p with pc := .failed }) d := by
    apply h.kill
    intro j q hq
    rcases hset _ j q hq with ⟨e1, e2⟩ | ⟨-, e2⟩
    · right; rw [e1, e2]; exact ⟨⟨p, hi, rfl⟩, rfl⟩
    · exact .inl e2
  -- a process that writes one of its own files
  have hwrite : ∀ (f f' : File S × File S) (pc' : Pc), expected p.snap p.pc = some f → expected p.snap pc' = some f' →
      (∀ k, pc' ≠ .copying k) → (∀ s t, f ≠ (.full s, .full t)) →
      DInv (procs.set i { p with pc := pc' }) (d.put p.id f') ∧
      (∀ id s t, d.dirs.get? id = some (.full s, .full t) → (d.put p.id f').dirs.get? id = some (.full s, .full t)) := by
    intro f f' pc' he he' hnc hnf
    have hown := h.owner i p f hi he
    refine ⟨⟨?_, ?_, ?_, ?_, ?_, ?_⟩, ?_⟩
    · intro j q g hq hg
      rw [Disk.put]
      dsimp only
      rw [Dict.get?_set]
      rcases hset _ j q hq with ⟨-, e2⟩ | ⟨e1, e2⟩
      · rw [e2] at hg ⊢
        dsimp only at hg ⊢
        rw [if_pos rfl, ← he', hg]
      · have : q.id ≠ p.id := by
          intro hid
          exact e1 (h.uniq j i q p e2 hi (by rw [hg]; rfl) (by rw [he]; rfl) hid)
        rw [if_neg (fun hh => this hh.symm)]
        exact h.owner j q g e2 hg
    · intro a b x y hx hy hex hey hid
      rcases hset _ a x hx with ⟨e1, e2⟩ | ⟨e1, e2⟩
      · rcases hset _ b y hy with ⟨f1, f2⟩ | ⟨f1, f2⟩
        · rw [e1, f1]
        · rw [e2] at hid
          rw [e1]
          exact h.uniq i b p y hi f2 (by rw [he]; rfl) hey hid
      · rcases hset _ b y hy with ⟨f1, f2⟩ | ⟨f1, f2⟩
        · rw [f2] at hid
          rw [f1]
          exact h.uniq a i x p e2 hi hex (by rw [he]; rfl) hid
        · exact h.uniq a b x y e2 f2 hex hey hid
    · intro j q k hq hk
      rcases hset _ j q hq with ⟨-, e2⟩ | ⟨-, e2⟩
      · rw [e2] at hk; exact absurd hk (hnc k)
      · exact h.copying j q k e2 hk
    · intro a b x y k l hx hy hk hl
      rcases hset _ a x hx with ⟨-, e2⟩ | ⟨-, e2⟩
      · rw [e2] at hk; exact absurd hk (hnc k)
      · rcases hset _ b y hy with ⟨-, f2⟩ | ⟨-, f2⟩
        · rw [f2] at hl; exact absurd hl (hnc l)
        · exact h.uniqCopying a b x y k l e2 f2 hk hl
    · intro j q hq hj
      rcases hset _ j q hq with ⟨-, e2⟩ | ⟨-, e2⟩
      · exact h.exists' i p hi (.inr (by rw [he]; rfl))
      · exact h.exists' j q e2 hj
    · intro j q hq h1 hj
      rcases hset _ j q hq with ⟨-, e2⟩ | ⟨-, e2⟩
      · rw [e2] at h1
        exact h.first i p hi h1 (.inr (.inr (by rw [he]; rfl)))
      · exact h.first j q e2 h1 hj
    · intro id s t hd
      rw [Disk.put]
      dsimp only
      rw [Dict.get?_set]
      split
      · rename_i e
        rw [← e, hown] at hd
        exact absurd (by simpa using hd) (hnf s t)
      · exact hd
  unfold Proc.step
  split
  · -- copy
    rename_i k hpc
    unfold copyStep
    split
    · rename_i q hq habs
      refine ⟨⟨?_, ?_, ?_, ?_, ?_, ?_⟩, rfl, rfl, ?_, ?_, fun _ _ _ h' => h'⟩
      · intro j x f hx hf
        rcases hset _ j x hx with ⟨-, e2⟩ | ⟨-, e2⟩
        · rw [e2] at hf; simp [expected] at hf
        · exact h.owner j x f e2 hf
      · intro a b x y hx hy hex hey hid
        rcases hset _ a x hx with ⟨-, e2⟩ | ⟨-, e2⟩
        · rw [e2] at hex; simp [expected] at hex
        · rcases hset _ b y hy with ⟨-, f2⟩ | ⟨-, f2⟩
          · rw [f2] at hey; simp [expected] at hey
          · exact h.uniq a b x y e2 f2 hex hey hid
      · intro j x l hx hl; rfl
      · intro a b x y l m hx hy hl hm
        rcases hset _ a x hx with ⟨e1, -⟩ | ⟨-, e2⟩
        · rcases hset _ b y hy with ⟨f1, -⟩ | ⟨-, f2⟩
          · rw [e1, f1]
          · have := h.copying b y m f2 hm
            rw [habs] at this; cases this
        · have := h.copying a x l e2 hl
          rw [habs] at this; cases this
      · intro j x hx hj hh; cases hh
      · intro j x hx h1 hj
        exfalso
        rcases hset _ j x hx with ⟨-, e2⟩ | ⟨-, e2⟩
        · rw [e2] at hj; simp [expected] at hj
        · obtain ⟨q', hq'⟩ := h.first j x e2 h1 hj
          rw [habs] at hq'; cases hq'
      · intro q' hq'; rw [habs] at hq'; cases hq'
      · intro q' hq'; cases hq'
    · exact ⟨hfail, rfl, rfl, fun _ h' => h', fun _ h' => .inl h', fun _ _ _ h' => h'⟩
  · -- copying
    rename_i k hpc
    have hinc := h.copying i p k hi hpc
    unfold copyingStep
    split
    · rename_i q hq
      have hq' : caches[k]? = some (some q) := by
        cases hc : caches[k]? with
        | none => rw [hc] at hq; cases hq
        | some o => rw [hc] at hq; simp at hq; rw [hq]
      refine ⟨⟨?_, ?_, ?_, ?_, ?_, ?_⟩, rfl, rfl, ?_, ?_, fun _ _ _ h' => h'⟩
      · intro j x f hx hf
        rcases hset _ j x hx with ⟨-, e2⟩ | ⟨-, e2⟩
        · rw [e2] at hf; simp [expected] at hf
        · exact h.owner j x f e2 hf
      · intro a b x y hx hy hex hey hid
        rcases hset _ a x hx with ⟨-, e2⟩ | ⟨-, e2⟩
        · rw [e2] at hex; simp [expected] at hex
        · rcases hset _ b y hy with ⟨-, f2⟩ | ⟨-, f2⟩
          · rw [f2] at hey; simp [expected] at hey
          · exact h.uniq a b x y e2 f2 hex hey hid
      · intro j x l hx hl
        exfalso
        rcases hset _ j x hx with ⟨-, e2⟩ | ⟨e1, e2⟩
        · rw [e2] at hl; cases hl
        · exact e1 (h.uniqCopying j i x p l k e2 hi hl hpc)
      · intro a b x y l m hx hy hl hm
        rcases hset _ a x hx with ⟨-, e2⟩ | ⟨e1, e2⟩
        · rw [e2] at hl; cases hl
        · exact absurd (h.uniqCopying a i x p l k e2 hi hl hpc) e1
      · intro j x hx hj hh; cases hh
      · intro j x hx h1 hj; exact ⟨q, rfl⟩
      · intro q' h'; rw [hinc] at h'; cases h'
      · intro q' h'
        right
        refine ⟨k, ?_⟩
        rw [hq']
        cases h'; rfl
    · exact ⟨hfail, rfl, rfl, fun _ h' => h', fun _ h' => .inl h', fun _ _ _ h' => h'⟩
  · -- check
    rename_i hpc
    unfold checkStep
    split
    · exact ⟨hfail, rfl, rfl, fun _ h' => h', fun _ h' => .inl h', fun _ _ _ h' => h'⟩
    · rename_i hne
      refine ⟨⟨?_, ?_, ?_, ?_, ?_, ?_⟩, rfl, rfl, fun _ h' => h', fun _ h' => .inl h', fun _ _ _ h' => h'⟩
      · intro j x f hx hf
        rcases hset _ j x hx with ⟨-, e2⟩ | ⟨-, e2⟩
        · rw [e2] at hf; simp [expected] at hf
        · exact h.owner j x f e2 hf
      · intro a b x y hx hy hex hey hid
        rcases hset _ a x hx with ⟨-, e2⟩ | ⟨-, e2⟩
        · rw [e2] at hex; simp [expected] at hex
        · rcases hset _ b y hy with ⟨-, f2⟩ | ⟨-, f2⟩
          · rw [f2] at hey; simp [expected] at hey
          · exact h.uniq a b x y e2 f2 hex hey hid
      · intro j x l hx hl
        rcases hset _ j x hx with ⟨-, e2⟩ | ⟨-, e2⟩
        · rw [e2] at hl; cases hl
        · exact h.copying j x l e2 hl
      · intro a b x y l m hx hy hl hm
        rcases hset _ a x hx with ⟨-, e2⟩ | ⟨-, e2⟩
        · rw [e2] at hl; cases hl
        · rcases hset _ b y hy with ⟨-, f2⟩ | ⟨-, f2⟩
          · rw [f2] at hm; cases hm
          · exact h.uniqCopying a b x y l m e2 f2 hl hm
      · intro j x hx hj hh; exact hne hh
      · intro j x hx h1 hj
        rcases hset _ j x hx with ⟨-, e2⟩ | ⟨-, e2⟩
        · rw [e2] at h1
          exact h.first i p hi h1 (.inl hpc)
        · exact h.first j x e2 h1 hj
  · -- mkdir
    rename_i hpc
    unfold mkdirStep
    split
    · exact ⟨hfail, rfl, rfl, fun _ h' => h', fun _ h' => .inl h', fun _ _ _ h' => h'⟩
    · rename_i hhas
      have hnone : d.dirs.get? p.id = none := by
        cases hg : d.dirs.get? p.id with
        | none => rfl
        | some v => rw [Dict.has, hg] at hhas; simp at hhas
      have hfresh : ∀ (j : Nat) (x : Proc S), procs[j]? = some x → (expected x.snap x.pc).isSome = true → x.id ≠ p.id := by
        intro j x hx hex hid
        obtain ⟨f, hf⟩ := Option.isSome_iff_exists.1 hex
        have := h.owner j x f hx hf
        rw [hid, hnone] at this; cases this
      refine ⟨⟨?_, ?_, ?_, ?_, ?_, ?_⟩, rfl, rfl, fun _ h' => h', fun _ h' => .inl h', ?_⟩
      · intro j x f hx hf
        rw [Disk.put]
        dsimp only
        rw [Dict.get?_set]
        rcases hset _ j x hx with ⟨-, e2⟩ | ⟨-, e2⟩
        · rw [e2] at hf ⊢
          simpa [expected] using hf
        · rw [if_neg (fun hh => hfresh j x e2 (by rw [hf]; rfl) hh.symm)]
          exact h.owner j x f e2 hf
      · intro a b x y hx hy hex hey hid
        rcases hset _ a x hx with ⟨e1, e2⟩ | ⟨-, e2⟩
        · rcases hset _ b y hy with ⟨f1, f2⟩ | ⟨-, f2⟩
          · rw [e1, f1]
          · rw [e2] at hid
            exact absurd hid.symm (hfresh b y f2 hey)
        · rcases hset _ b y hy with ⟨f1, f2⟩ | ⟨-, f2⟩
          · rw [f2] at hid
            exact absurd hid (hfresh a x e2 hex)
          · exact h.uniq a b x y e2 f2 hex hey hid
      · intro j x l hx hl
        rcases hset _ j x hx with ⟨-, e2⟩ | ⟨-, e2⟩
        · rw [e2] at hl; cases hl
        · exact h.copying j x l e2 hl
      · intro a b x y l m hx hy hl hm
        rcases hset _ a x hx with ⟨-, e2⟩ | ⟨-, e2⟩
        · rw [e2] at hl; cases hl
        · rcases hset _ b y hy with ⟨-, f2⟩ | ⟨-, f2⟩
          · rw [f2] at hm; cases hm
          · exact h.uniqCopying a b x y l m e2 f2 hl hm
      · intro j x hx hj
        exact h.exists' i p hi (.inl hpc)
      · intro j x hx h1 hj
        rcases hset _ j x hx with ⟨-, e2⟩ | ⟨-, e2⟩
        · rw [e2] at h1
          exact h.first i p hi h1 (.inr (.inl hpc))
        · exact h.first j x e2 h1 hj
      · intro id s t hd
        rw [Disk.put]
        dsimp only
        rw [Dict.get?_set]
        split
        · rename_i e
          rw [← e, hnone] at hd; cases hd
        · exact hd
  · rename_i hpc
    obtain ⟨h1, h2⟩ := hwrite _ (.incomplete, .absent) .writing1 (by rw [hpc]; rfl) rfl (fun _ => (fun h => by cases h))
      (fun _ _ => (fun h => by cases h))
    exact ⟨h1, rfl, rfl, fun _ h' => h', fun _ h' => .inl h', h2⟩
  · rename_i hpc
    obtain ⟨h1, h2⟩ := hwrite _ (.full p.snap, .absent) .write2 (by rw [hpc]; rfl) rfl (fun _ => (fun h => by cases h))
      (fun _ _ => (fun h => by cases h))
    exact ⟨h1, rfl, rfl, fun _ h' => h', fun _ h' => .inl h', h2⟩
  · rename_i hpc
    obtain ⟨h1, h2⟩ := hwrite _ (.full p.snap, .incomplete) .writing2 (by rw [hpc]; rfl) rfl (fun _ => (fun h => by cases h))
      (fun _ _ => (fun h => by cases h))
    exact ⟨h1, rfl, rfl, fun _ h' => h', fun _ h' => .inl h', h2⟩
  · rename_i hpc
    obtain ⟨h1, h2⟩ := hwrite _ (.full p.snap, .full p.snap) .done (by rw [hpc]; rfl) rfl (fun _ => (fun h => by cases h))
      (fun _ _ => (fun h => by cases h))
    exact ⟨h1, rfl, rfl, fun _ h' => h', fun _ h' => .inl h', h2⟩
  · rename_i hpc
    have : procs.set i p = procs := by
      apply List.ext_getElem?
      intro j
      by_cases hj : j = i
      · rw [hj, List.getElem?_set_self hlt, hi]
      · rw [List.getElem?_set_ne (Ne.symm hj)]
    rw [this]
    exact ⟨h, rfl, rfl, fun _ h' => h', fun _ h' => .inl h', fun _ _ _ h' => h'⟩
  · rename_i hpc
    have : procs.set i p = procs := by
      apply List.ext_getElem?
      intro j
      by_cases hj : j = i
      · rw [hj, List.getElem?_set_self hlt, hi]
      · rw [List.getElem?_set_ne (Ne.symm hj)]
    rw [this]
    exact ⟨h, rfl, rfl, fun _ h' => h', fun _ h' => .inl h', fun _ _ _ h' => h'⟩

/-- A new process. -/
theorem DInv.start {procs : List (Proc S)} {d : Disk Q S} (h : DInv procs d) (p : Proc S)
    (hp : (∃ k, p.pc = .copy k) ∨ (p.pc = .check ∧ p.id ≠ 1)) : DInv (procs ++ [p]) d := by
  have hget : ∀ (j : Nat) (x : Proc S), (procs ++ [p])[j]? = some x → procs[j]? = some x ∨ x = p := by
    intro j x hx
    rw [List.getElem?_append] at hx
    split at hx
    · exact .inl hx
    · right
      rw [List.getElem?_singleton] at hx
      split at hx
      · simpa using hx.symm
      · cases hx
  have hex : expected p.snap p.pc = none := by
    rcases hp with ⟨k, hk⟩ | ⟨hk, -⟩ <;> rw [hk] <;> rfl
  have hnc : ∀ k, p.pc ≠ .copying k := by
    intro k' e
    rcases hp with ⟨k, hk⟩ | ⟨hk, -⟩ <;> rw [hk] at e <;> cases e
  refine ⟨?_, ?_, ?_, ?_, ?_, ?_⟩
  · intro j x f hx hf
    rcases hget j x hx with e | e
    · exact h.owner j x f e hf
    · rw [e, hex] at hf; cases hf
  · intro a b x y hx hy hex' hey hid
    rcases hget a x hx with e | e
    · rcases hget b y hy with e' | e'
      · exact h.uniq a b x y e e' hex' hey hid
      · rw [e', hex] at hey; cases hey
    · rw [e, hex] at hex'; cases hex'
  · intro j x k hx hk
    rcases hget j x hx with e | e
    · exact h.copying j x k e hk
    · rw [e] at hk; exact absurd hk (hnc k)
  · intro a b x y k l hx hy hk hl
    rcases hget a x hx with e | e
    · rcases hget b y hy with e' | e'
      · exact h.uniqCopying a b x y k l e e' hk hl
      · rw [e'] at hl; exact absurd hl (hnc l)
    · rw [e] at hk; exact absurd hk (hnc k)
  · intro j x hx hj
    rcases hget j x hx with e | e
    · exact h.exists' j x e hj
    · rw [e, hex] at hj
      rcases hp with ⟨k, hk⟩ | ⟨hk, -⟩ <;> rw [hk] at hj <;> simp at hj
  · intro j x hx h1 hj
    rcases hget j x hx with e | e
    · exact h.first j x e h1 hj
    · rw [e] at h1
      rw [e, hex] at hj
      rcases hp with ⟨k, hk⟩ | ⟨hk, hne⟩
      · rw [hk] at hj; simp at hj
      · exact absurd h1 hne

/-! ## The rounds -/

/-- The number a report gets. -/
def nextId (c : Chk) : Nat := c.current.getD (c.counter + 1)

/-- The counter after it. -/
def nextCounter (c : Chk) : Nat := if c.current.isSome then c.counter else c.counter + 1

theorem report_cases (G N : Nat) (aligned : Bool) (c : Chk) (g n : Nat) (st : List Nat) :
    (c.statuses.has (g, n) = true ∧ c.report G N aligned g n st = (c, .raised .runtimeError)) ∨
    (c.statuses.has (g, n) = false ∧
      ((((c.statuses.set (g, n) st).length = G * N ∧ aligned = true) ∧
        c.report G N aligned g n st = (⟨[], nextCounter c, none⟩, .accepted (nextId c) true)) ∨
      (((c.statuses.set (g, n) st).length = G * N ∧ aligned = false) ∧
        c.report G N aligned g n st = (⟨c.statuses.set (g, n) st, nextCounter c, some (nextId c)⟩, .raised .runtimeError)) ∨
      ((c.statuses.set (g, n) st).length ≠ G * N ∧
        c.report G N aligned g n st = (⟨c.statuses.set (g, n) st, nextCounter c, some (nextId c)⟩,
          .accepted (nextId c) false)))) := by
  unfold Chk.report nextId nextCounter
  cases hh : c.statuses.has (g, n)
  · right
    refine ⟨rfl, ?_⟩
    cases hc : c.current <;> by_cases hl : (c.statuses.set (g, n) st).length = G * N <;> cases aligned <;> simp [hl]
  · left; simp

/-- What holds between the events; `L` is what has been seen of the current distributor. -/
structure Inv (G N : Nat) (w : World Q S) (L : List (Ev Q S × Out Q S)) : Prop where
  disk : DInv w.procs w.disk
  nodup : w.chk.statuses.keys.Nodup
  valid : ∀ p ∈ w.chk.statuses.keys, p.1 < G ∧ p.2 < N
  cur : ∀ id, w.chk.current = some id → id = w.chk.counter ∧ 1 ≤ id ∧ w.info.get? id = none ∧
    ((∀ p ∈ w.chk.statuses.keys, Reported L id p.1 p.2) ∨ ∀ g < G, ∀ n < N, (g, n) ∈ w.chk.statuses.keys)
  fresh : w.chk.current = none → w.chk.statuses = []
  info : ∀ id pid, w.info.get? id = some pid → id ≤ w.chk.counter ∧ (∀ g < G, ∀ n < N, Reported L id g n) ∧
    ∃ p : Proc S, w.procs[pid]? = some p ∧ p.id = id ∧ Started L id p.snap
  file : ∀ id wait, w.node 0 0 = .waiting id wait → w.idFile = some id

theorem Reported.mono {L L' : List (Ev Q S × Out Q S)} {id g n : Nat} (h : Reported L id g n) : Reported (L ++ L') id g n := by
  obtain ⟨a, b, c, d, e, hm⟩ := h
  exact ⟨a, b, c, d, e, List.mem_append_left _ hm⟩

theorem Started.mono {L L' : List (Ev Q S × Out Q S)} {id : Nat} {s : S} (h : Started L id s) : Started (L ++ L') id s := by
  obtain ⟨a, b, c, d, e, hm⟩ := h
  exact ⟨a, b, c, d, e, List.mem_append_left _ hm⟩

/-- Anything that leaves the distributor alone. -/
theorem Inv.keep {G N : Nat} {w w' : World Q S} {L : List (Ev Q S × Out Q S)} (h : Inv G N w L)
    (x : List (Ev Q S × Out Q S)) (hd : DInv w'.procs w'.disk) (hc : w'.chk = w.chk) (hi : w'.info = w.info)
    (hp : ∀ (i : Nat) (p : Proc S), w.procs[i]? = some p → ∃ p' : Proc S, w'.procs[i]? = some p' ∧ p'.id = p.id ∧
      p'.snap = p.snap)
    (hf : ∀ id wait, w'.node 0 0 = .waiting id wait → w'.idFile = some id) : Inv G N w' (L ++ x) := by
  refine ⟨hd, by rw [hc]; exact h.nodup, by rw [hc]; exact h.valid, ?_, by rw [hc]; exact h.fresh, ?_, hf⟩
  · intro id hid
    rw [hc] at hid ⊢
    obtain ⟨a, b, c, d⟩ := h.cur id hid
    refine ⟨a, b, by rw [hi]; exact c, ?_⟩
    rcases d with d | d
    · exact .inl fun p hp => (d p hp).mono
    · exact .inr d
  · intro id pid hid
    rw [hi] at hid
    obtain ⟨a, b, p, h1, h2, h3⟩ := h.info id pid hid
    obtain ⟨p', h1', h2', h3'⟩ := hp _ p h1
    exact ⟨by rw [hc]; exact a, fun g hg n hn => (b g hg n hn).mono, p', h1', by rw [h2', h2], by rw [h3']; exact h3.mono⟩

/-- A new distributor. -/
theorem Inv.new {G N : Nat} {w w' : World Q S} {L : List (Ev Q S × Out Q S)} (h : Inv G N w L)
    (hd : DInv w'.procs w'.disk) (hc : w'.chk.statuses = [] ∧ w'.chk.current = none) (hi : w'.info = [])
    (hn : w'.node = w.node) (hf : w'.idFile = w.idFile) : Inv G N w' [] := by
  refine ⟨hd, by rw [hc.1]; simp [Dict.keys], by rw [hc.1]; simp [Dict.keys], ?_, fun _ => hc.1, ?_, ?_⟩
  · intro id hid; rw [hc.2] at hid; cases hid
  · intro id pid hid; rw [hi] at hid; cases hid
  · intro id wait hw; rw [hn] at hw; rw [hf]; exact h.file id wait hw

theorem get?_none_of_has {α β : Type} [DecidableEq α] {d : Dict α β} {k : α} (h : d.has k = false) : k ∉ d.keys := by
  rw [← Dict.get?_eq_none_iff]
  rw [Dict.has] at h
  cases hg : d.get? k with
  | none => rfl
  | some v => rw [hg] at h; cases h

theorem mem_of_has {α β : Type} [DecidableEq α] {d : Dict α β} {k : α} (h : d.has k = true) : k ∈ d.keys := by
  rw [Dict.mem_keys_iff]
  rw [Dict.has] at h
  exact Option.isSome_iff_exists.1 h

/-- The reports after one more. -/
theorem keys_report {c : Chk} {g n : Nat} {st : List Nat} (hh : c.statuses.has (g, n) = false) :
    (c.statuses.set (g, n) st).keys = c.statuses.keys ++ [(g, n)] := by
  rw [Dict.set, Dict.keys_upsert_of_not_mem (get?_none_of_has hh)]

theorem setNode_other (w : World Q S) (g n : Nat) (x : Node) : (w.setNode g n x).procs = w.procs ∧
    (w.setNode g n x).disk = w.disk ∧ (w.setNode g n x).chk = w.chk ∧ (w.setNode g n x).info = w.info ∧
    (w.setNode g n x).idFile = w.idFile := ⟨rfl, rfl, rfl, rfl, rfl⟩

theorem Inv.call {G N : Nat} {w : World Q S} {L : List (Ev Q S × Out Q S)} (h : Inv G N w L) (j : Job Q) (g n : Nat)
    (st : List Nat) (aligned : Bool) (snap : S) (wait : Bool) (hv : g < G ∧ n < N) :
    Inv G N (w.call G N j g n st aligned snap wait).1
      (L ++ [(.call g n st aligned snap wait, (w.call G N j g n st aligned snap wait).2)]) := by
  have hcnt : (if w.chk.current.isSome then w.chk.counter else w.chk.counter + 1) = nextCounter w.chk := rfl
  have hid : nextId w.chk = nextCounter w.chk := by
    unfold nextId nextCounter
    cases hc : w.chk.current with
    | none => rfl
    | some id => simpa using (h.cur id hc).1
  have hle : w.chk.counter ≤ nextCounter w.chk := by unfold nextCounter; split <;> omega
  have hpos : 1 ≤ nextCounter w.chk := by
    unfold nextCounter
    cases hc : w.chk.current with
    | none => simp
    | some id =>
      have := h.cur id hc
      simp only [Option.isSome_some, if_true]
      omega
  have hnew : w.info.get? (nextId w.chk) = none := by
    cases hc : w.chk.current with
    | some id => rw [nextId, hc]; exact (h.cur id hc).2.2.1
    | none =>
      cases hg : w.info.get? (nextId w.chk) with
      | none => rfl
      | some pid =>
        have := (h.info _ pid hg).1
        rw [nextId, hc] at this
        simp only [Option.getD_none] at this
        omega
  -- the reports of this round so far
  have hrep : (∀ p ∈ w.chk.statuses.keys, Reported L (nextId w.chk) p.1 p.2) ∨ ∀ g < G, ∀ n < N, (g, n) ∈ w.chk.statuses.keys := by
    cases hc : w.chk.current with
    | none => left; rw [h.fresh hc]; intro p hp; cases hp
    | some id => rw [nextId, hc]; exact (h.cur id hc).2.2.2
  have hrep' : w.chk.statuses.has (g, n) = false → ∀ p ∈ w.chk.statuses.keys, Reported L (nextId w.chk) p.1 p.2 := by
    intro hh
    rcases hrep with hr | hr
    · exact hr
    · exact absurd (hr g hv.1 n hv.2) (get?_none_of_has hh)
  have hnode : ∀ (c : Chk) (x : Node) (id : Nat) (wt : Bool),
      (∀ id' wt', x = .waiting id' wt' → ¬ (n = 0 ∧ g = 0)) →
      (({ w with chk := c } : World Q S).setNode g n x).node 0 0 = .waiting id wt → w.idFile = some id := by
    intro c x id wt hx hw
    unfold World.setNode at hw
    dsimp only at hw
    split at hw
    · rename_i hgn
      exact absurd ⟨hgn.2.symm, hgn.1.symm⟩ (hx id wt hw)
    · exact h.file id wt hw
  have hxnode : ∀ (id : Nat) (id' : Nat) (wt' : Bool),
      (if n = 0 ∧ g = 0 then Node.writing id wait else Node.waiting id wait) = .waiting id' wt' → ¬ (n = 0 ∧ g = 0) := by
    intro id id' wt' hx hng
    rw [if_pos hng] at hx
    cases hx
  unfold World.call
  dsimp only
  rw [hcnt]
  rcases report_cases G N (aligned && (firstPc j (nextCounter w.chk)).isSome) w.chk g n st with
    ⟨hh, hr⟩ | ⟨hh, ⟨⟨hlen, hal⟩, hr⟩ | ⟨⟨hlen, hal⟩, hr⟩ | ⟨hlen, hr⟩⟩
  · rw [hr]
    exact h.keep (w' := { w with chk := w.chk }) _ h.disk rfl rfl (fun i p hp => ⟨p, hp, rfl, rfl⟩) h.file
  · -- the round is complete
    rw [hr]
    dsimp only
    have hsome : (firstPc j (nextCounter w.chk)).isSome = true := by
      cases aligned <;> simp at hal ⊢
      exact hal
    obtain ⟨pc, hpc⟩ := Option.isSome_iff_exists.1 hsome
    have hpc' : (∃ k, pc = .copy k) ∨ (pc = .check ∧ nextId w.chk ≠ 1) := by
      unfold firstPc at hpc
      split at hpc
      · cases hjc : j.cache with
        | none => rw [hjc] at hpc; cases hpc
        | some k => rw [hjc] at hpc; left; exact ⟨k, by simpa using hpc.symm⟩
      · rename_i hne
        right
        exact ⟨by simpa using hpc.symm, by rw [hid]; exact hne⟩
    rw [if_pos rfl, hpc]
    dsimp only
    have hall : ∀ g' < G, ∀ n' < N, (g', n') ∈ w.chk.statuses.keys ∨ (g', n') = (g, n) := by
      have := (covers_iff G N ((w.chk.statuses.set (g, n) st).keys) (by
          rw [Dict.set]; exact Dict.nodup_keys_upsert h.nodup _ _) (by
          intro p hp
          rw [keys_report hh] at hp
          rcases List.mem_append.1 hp with hp | hp
          · exact h.valid p hp
          · rw [List.mem_singleton] at hp; rw [hp]; exact hv)).1 (by rw [Dict.length_keys]; exact hlen)
      intro g' hg' n' hn'
      have := this g' hg' n' hn'
      rw [keys_report hh] at this
      rcases List.mem_append.1 this with hp | hp
      · exact .inl hp
      · exact .inr (by simpa using hp)
    refine ⟨?_, by simp [World.setNode, Dict.keys], by simp [World.setNode, Dict.keys], ?_, fun _ => rfl, ?_, ?_⟩
    · exact h.disk.start _ hpc'
    · intro id hid'; cases hid'
    · intro id pid hget
      dsimp only [World.setNode] at hget
      rw [Dict.get?_set] at hget
      split at hget
      · rename_i e
        have hpid : w.procs.length = pid := by simpa using hget
        subst e
        refine ⟨by dsimp only [World.setNode]; omega, ?_, ?_⟩
        · intro g' hg' n' hn'
          rcases hall g' hg' n' hn' with hm | hm
          · exact ((hrep' hh) _ hm).mono
          · have e1 : g' = g := congrArg Prod.fst hm
            have e2 : n' = n := congrArg Prod.snd hm
            rw [e1, e2]
            exact ⟨st, aligned, snap, wait, true, List.mem_append_right _ (List.mem_singleton.2 rfl)⟩
        · refine ⟨⟨nextId w.chk, snap, pc⟩, ?_, rfl, ?_⟩
          · dsimp only [World.setNode]
            rw [← hpid, List.getElem?_append_right (Nat.le_refl _)]
            simp
          · exact ⟨g, n, st, aligned, wait, List.mem_append_right _ (List.mem_singleton.2 rfl)⟩
      · obtain ⟨a, b, p, h1, h2, h3⟩ := h.info id pid hget
        refine ⟨by dsimp only [World.setNode]; omega, fun g hg n hn => (b g hg n hn).mono, p, ?_, h2, h3.mono⟩
        dsimp only [World.setNode]
        rw [List.getElem?_append_left]
        · exact h1
        · rw [List.getElem?_eq_some_iff] at h1; exact h1.1
    · intro id wt hw
      exact hnode _ _ id wt (hxnode _) hw
  · -- the validation fails
    rw [hr]
    have hall := (covers_iff G N ((w.chk.statuses.set (g, n) st).keys) (by
          rw [Dict.set]; exact Dict.nodup_keys_upsert h.nodup _ _) (by
          intro p hp
          rw [keys_report hh] at hp
          rcases List.mem_append.1 hp with hp | hp
          · exact h.valid p hp
          · rw [List.mem_singleton] at hp; rw [hp]; exact hv)).1 (by rw [Dict.length_keys]; exact hlen)
    refine ⟨h.disk, ?_, ?_, ?_, ?_, ?_, h.file⟩
    · dsimp only
      rw [Dict.set]; exact Dict.nodup_keys_upsert h.nodup _ _
    · intro p hp
      dsimp only at hp
      rw [keys_report hh] at hp
      rcases List.mem_append.1 hp with hp | hp
      · exact h.valid p hp
      · rw [List.mem_singleton] at hp; rw [hp]; exact hv
    · intro id hid'
      dsimp only at hid' ⊢
      have e : nextId w.chk = id := by simpa using hid'
      rw [← e]
      exact ⟨hid, by omega, hnew, .inr hall⟩
    · intro hc; cases hc
    · intro id pid hget
      obtain ⟨a, b, p, h1, h2, h3⟩ := h.info id pid hget
      exact ⟨by dsimp only; omega, fun g hg n hn => (b g hg n hn).mono, p, h1, h2, h3.mono⟩
  · -- one more report
    rw [hr]
    dsimp only
    rw [if_neg (by simp)]
    refine ⟨h.disk, ?_, ?_, ?_, ?_, ?_, ?_⟩
    · dsimp only [World.setNode]
      rw [Dict.set]; exact Dict.nodup_keys_upsert h.nodup _ _
    · intro p hp
      dsimp only [World.setNode] at hp
      rw [keys_report hh] at hp
      rcases List.mem_append.1 hp with hp | hp
      · exact h.valid p hp
      · rw [List.mem_singleton] at hp; rw [hp]; exact hv
    · intro id hid'
      dsimp only [World.setNode] at hid' ⊢
      have e : nextId w.chk = id := by simpa using hid'
      rw [← e]
      refine ⟨hid, by omega, hnew, .inl ?_⟩
      intro p hp
      rw [keys_report hh] at hp
      rcases List.mem_append.1 hp with hp | hp
      · exact (hrep' hh p hp).mono
      · rw [List.mem_singleton] at hp
        rw [hp]
        exact ⟨st, aligned, snap, wait, false, List.mem_append_right _ (List.mem_singleton.2 rfl)⟩
    · intro hc; cases hc
    · intro id pid hget
      obtain ⟨a, b, p, h1, h2, h3⟩ := h.info id pid hget
      exact ⟨by dsimp only [World.setNode]; omega, fun g hg n hn => (b g hg n hn).mono, p, h1, h2, h3.mono⟩
    · intro id wt hw
      exact hnode _ _ id wt (hxnode _) hw

theorem file_setNode {w : World Q S} {g n : Nat} {x : Node} (hx : ∀ id wt, x ≠ .waiting id wt)
    (h : ∀ id wait, w.node 0 0 = .waiting id wait → w.idFile = some id) :
    ∀ id wait, (w.setNode g n x).node 0 0 = .waiting id wait → (w.setNode g n x).idFile = some id := by
  intro id wt hw
  unfold World.setNode at hw ⊢
  dsimp only at hw ⊢
  split at hw
  · exact absurd hw (hx id wt)
  · exact h id wt hw

theorem begins_poll (w : World Q S) (g n id : Nat) (wt : Bool) : begins (Ev.poll g n, (w.poll g n id wt).2) = false := by
  unfold World.poll
  split <;> rfl

theorem begins_call (G N : Nat) (w : World Q S) (j : Job Q) (g n : Nat) (st : List Nat) (al : Bool) (s : S) (wt : Bool) :
    begins (Ev.call g n st al s wt, (w.call G N j g n st al s wt).2) = false := by
  unfold World.call
  dsimp only
  split
  · rfl
  · split
    · split <;> rfl
    · rfl

theorem kill_cases (p : Proc S) : p.kill = p ∨ (p.kill.id = p.id ∧ p.kill.pc = .failed) := by
  unfold Proc.kill
  split
  · exact .inl rfl
  · exact .inr ⟨rfl, rfl⟩

theorem kill_fields (p : Proc S) : p.kill.id = p.id ∧ p.kill.snap = p.snap := by
  unfold Proc.kill
  split <;> exact ⟨rfl, rfl⟩

theorem Inv.step {G N : Nat} {w : World Q S} {log : List (Ev Q S × Out Q S)} (h : Inv G N w (life log)) (e : Ev Q S)
    (hv : ValidEv G N e) : Inv G N (w.step G N e).1 (life (log ++ [(e, (w.step G N e).2)])) := by
  rw [life_snoc]
  have hsame : Inv G N w (life log ++ [(e, .nothing)]) :=
    h.keep (w' := w) _ h.disk rfl rfl (fun i p hp => ⟨p, hp, rfl, rfl⟩) h.file
  cases e with
  | call g n st al s wt =>
    rw [World.step]
    split
    · rename_i j hj hn
      rw [begins_call]
      exact h.call j g n st al s wt hv
    · exact hsame
  | writeId =>
    rw [World.step]
    split
    · rename_i id wt hn
      refine h.keep _ h.disk rfl rfl (fun i p hp => ⟨p, hp, rfl, rfl⟩) ?_
      intro id' wt' hw
      dsimp only [World.setNode] at hw ⊢
      rw [if_pos ⟨rfl, rfl⟩] at hw
      cases hw; rfl
    · exact hsame
  | poll g n =>
    rw [World.step]
    split
    · rename_i id wt hn
      rw [begins_poll]
      unfold World.poll
      split
      · exact hsame
      · exact h.keep _ h.disk rfl rfl (fun i p hp => ⟨p, hp, rfl, rfl⟩) (file_setNode (fun _ _ => (fun h => by cases h)) h.file)
      · exact h.keep _ h.disk rfl rfl (fun i p hp => ⟨p, hp, rfl, rfl⟩) (file_setNode (fun _ _ => (fun h => by cases h)) h.file)
    · exact hsame
  | die g n =>
    exact h.keep _ h.disk rfl rfl (fun i p hp => ⟨p, hp, rfl, rfl⟩) (file_setNode (fun _ _ => (fun h => by cases h)) h.file)
  | persist pid =>
    rw [World.step]
    split
    · rename_i p hp
      obtain ⟨h1, h2, h3, -⟩ := h.disk.persist w.caches pid p hp
      refine h.keep _ h1 rfl rfl ?_ h.file
      intro i x hx
      by_cases hi : i = pid
      · refine ⟨(p.step w.caches w.disk).2, ?_, ?_, ?_⟩
        · rw [hi]
          exact List.getElem?_set_self (by rw [List.getElem?_eq_some_iff] at hp; exact hp.1)
        · rw [hi, hp] at hx; cases hx; exact h2
        · rw [hi, hp] at hx; cases hx; exact h3
      · refine ⟨x, ?_, rfl, rfl⟩
        exact (List.getElem?_set_ne (Ne.symm hi)).trans hx
    · exact hsame
  | kill pid =>
    rw [World.step]
    split
    · rename_i p hp
      have hlt : pid < w.procs.length := by rw [List.getElem?_eq_some_iff] at hp; exact hp.1
      refine h.keep _ (h.disk.kill ?_) rfl rfl ?_ h.file
      · intro i x hx
        by_cases hi : i = pid
        · have : p.kill = x := by
            have : (w.procs.set pid p.kill)[i]? = some x := hx
            rw [hi, List.getElem?_set_self hlt] at this
            simpa using this
          rw [← this, hi]
          rcases kill_cases p with e | ⟨e1, e2⟩
          · rw [e]; exact .inl hp
          · exact .inr ⟨⟨p, hp, e1.symm⟩, e2⟩
        · left
          have : (w.procs.set pid p.kill)[i]? = some x := hx
          rwa [List.getElem?_set_ne (Ne.symm hi)] at this
      · intro i x hx
        by_cases hi : i = pid
        · rw [hi, hp] at hx
          cases hx
          exact ⟨p.kill, by rw [hi]; exact List.getElem?_set_self hlt, (kill_fields p).1, (kill_fields p).2⟩
        · exact ⟨x, (List.getElem?_set_ne (Ne.symm hi)).trans hx, rfl, rfl⟩
    · exact hsame
  | crash survive =>
    refine h.new ?_ ⟨rfl, rfl⟩ rfl rfl rfl
    apply h.disk.kill
    intro i x hx
    replace hx : (w.procs.mapIdx fun i p => if i ∈ survive then p else p.kill)[i]? = some x := hx
    rw [List.getElem?_mapIdx] at hx
    cases hp : w.procs[i]? with
    | none => rw [hp] at hx; cases hx
    | some p =>
      rw [hp] at hx
      simp only [Option.map_some, Option.some.injEq] at hx
      split at hx
      · rw [hx]; exact .inl rfl
      · rcases kill_cases p with e | ⟨e1, e2⟩
        · rw [e] at hx; rw [hx]; exact .inl rfl
        · rw [← hx]; exact .inr ⟨⟨p, rfl, e1.symm⟩, e2⟩
  | execute q cached =>
    rw [World.step]
    split
    · unfold World.execute
      split
      · exact h.new h.disk ⟨rfl, rfl⟩ rfl rfl rfl
      · exact h.new h.disk ⟨rfl, rfl⟩ rfl rfl rfl
    · exact hsame
  | restore id =>
    rw [World.step]
    unfold World.restore
    split
    · exact h.keep (w' := w) _ h.disk rfl rfl (fun i p hp => ⟨p, hp, rfl, rfl⟩) h.file
    · exact h.new h.disk ⟨rfl, rfl⟩ rfl rfl rfl
  | drop k =>
    exact h.keep _ h.disk rfl rfl (fun i p hp => ⟨p, hp, rfl, rfl⟩) h.file
  | recache k q =>
    exact h.keep _ h.disk rfl rfl (fun i p hp => ⟨p, hp, rfl, rfl⟩) h.file

theorem inv_init (G N : Nat) : Inv G N (World.init : World Q S) [] := by
  refine ⟨⟨?_, ?_, ?_, ?_, ?_, ?_⟩, by simp [World.init, Chk.init, Dict.keys], by simp [World.init, Chk.init, Dict.keys], ?_,
    fun _ => rfl, ?_, ?_⟩
  · intro i p f hi; simp [World.init] at hi
  · intro i j p q hi; simp [World.init] at hi
  · intro i p k hi; simp [World.init] at hi
  · intro i j p q k l hi; simp [World.init] at hi
  · intro i p hi; simp [World.init] at hi
  · intro i p hi; simp [World.init] at hi
  · intro id hid; cases hid
  · intro id pid hid; cases hid
  · intro id wt hw; cases hw

theorem inv_run {G N : Nat} (es : List (Ev Q S)) (hv : ∀ e ∈ es, ValidEv G N e) :
    Inv G N ((World.init : World Q S).run G N es).1 (life ((World.init : World Q S).run G N es).2) := by
  induction es using List.reverseRecOn with
  | nil => exact inv_init G N
  | append_singleton es e ih =>
    rw [run_snoc]
    exact (ih fun x hx => hv x (List.mem_append_left _ hx)).step e (hv e (List.mem_append_right _ (List.mem_singleton.2 rfl)))

/-! ## The theorems -/

theorem returned_of {G N : Nat} {w : World Q S} {e : Ev Q S} {id : Nat} {wait : Bool}
    (h : (w.step G N e).2 = .returned id wait) :
    ∃ g n, e = .poll g n ∧ w.node g n = .waiting id wait ∧ w.completed id wait = .yes := by
  cases e with
  | poll g n =>
    rw [World.step] at h
    split at h
    · rename_i id' wt' hn
      unfold World.poll at h
      split at h
      · cases h
      · rename_i hc
        cases h
        exact ⟨g, n, rfl, hn, hc⟩
      · cases h
    · cases h
  | call g n st al s wt =>
    rw [World.step] at h
    split at h
    · unfold World.call at h
      dsimp only at h
      split at h
      · cases h
      · split at h
        · split at h <;> cases h
        · cases h
    · cases h
  | writeId => rw [World.step] at h; split at h <;> cases h
  | die g n => cases h
  | persist pid => rw [World.step] at h; split at h <;> cases h
  | kill pid => rw [World.step] at h; split at h <;> cases h
  | crash sv => cases h
  | execute q c => rw [World.step] at h; split at h <;> cases h
  | restore i => rw [World.step] at h; unfold World.restore at h; split at h <;> cases h
  | drop k => cases h
  | recache k q => cases h

theorem completed_yes {w : World Q S} {id : Nat} {wait : Bool} (h : w.completed id wait = .yes) :
    ∃ pid p, w.info.get? id = some pid ∧ w.procs[pid]? = some p ∧ (wait = true → p.pc = .done) := by
  unfold World.completed at h
  split at h
  · cases h
  · rename_i p hp
    cases hi : w.info.get? id with
    | none => rw [hi] at hp; cases hp
    | some pid =>
      rw [hi] at hp
      refine ⟨pid, p, rfl, hp, ?_⟩
      intro hw
      rw [hw] at h
      simp only [Bool.true_eq_false, if_false] at h
      split at h
      · assumption
      · split at h <;> cases h

/-- **C70.** No node's call returns before all have made theirs: when `handle_mixtera_checkpoint` returns on a node, with
whatever flag and after whatever crashes and restores, every node of every group has reported for that very checkpoint to the
distributor that is in charge. -/
theorem c70_barrier (G N : Nat) (es : List (Ev Q S)) (e : Ev Q S) (hv : ∀ x ∈ es ++ [e], ValidEv G N x) (id : Nat) (wait : Bool)
    (h : (((World.init : World Q S).run G N es).1.step G N e).2 = .returned id wait) :
    ∀ g < G, ∀ n < N, Reported (life ((World.init : World Q S).run G N es).2) id g n := by
  have hinv := inv_run (Q := Q) (S := S) es (fun x hx => hv x (List.mem_append_left _ hx))
  obtain ⟨g, n, -, -, hc⟩ := returned_of h
  obtain ⟨pid, p, hi, -, -⟩ := completed_yes hc
  exact (hinv.info id pid hi).2.1

/-- **C70.** When the call of node 0 of group 0 returns, the file `mixtera.id` holds the number of that checkpoint. -/
theorem c70_id_file (G N : Nat) (es : List (Ev Q S)) (hv : ∀ x ∈ es, ValidEv G N x) (id : Nat) (wait : Bool)
    (h : (((World.init : World Q S).run G N es).1.step G N (.poll 0 0)).2 = .returned id wait) :
    (((World.init : World Q S).run G N es).1.step G N (.poll 0 0)).1.idFile = some id := by
  have hinv := inv_run (Q := Q) (S := S) es hv
  obtain ⟨g, n, he, hn, hc⟩ := returned_of h
  obtain ⟨rfl, rfl⟩ : 0 = g ∧ 0 = n := by simpa using he
  have := hinv.file id wait hn
  rw [World.step, hn]
  dsimp only
  unfold World.poll
  rw [hc]
  exact this

/-- What never changes any more once it is on disk. -/
theorem step_stable {G N : Nat} {w : World Q S} {L : List (Ev Q S × Out Q S)} (h : Inv G N w L) (e : Ev Q S) :
    (∀ id s t, w.disk.dirs.get? id = some (.full s, .full t) →
      (w.step G N e).1.disk.dirs.get? id = some (.full s, .full t)) ∧
    (∀ q, w.disk.query = .full q → (w.step G N e).1.disk.query = .full q) := by
  have hsame : ∀ w' : World Q S, w'.disk = w.disk →
      (∀ id s t, w.disk.dirs.get? id = some (.full s, .full t) → w'.disk.dirs.get? id = some (.full s, .full t)) ∧
      (∀ q, w.disk.query = .full q → w'.disk.query = .full q) := by
    intro w' hw'; rw [hw']; exact ⟨fun _ _ _ h => h, fun _ h => h⟩
  cases e with
  | persist pid =>
    rw [World.step]
    split
    · rename_i p hp
      obtain ⟨-, -, -, h4, -, h6⟩ := h.disk.persist w.caches pid p hp
      exact ⟨h6, h4⟩
    · exact hsame _ rfl
  | call g n st al s wt =>
    apply hsame
    rw [World.step]
    split
    · unfold World.call
      dsimp only
      split
      · rfl
      · split
        · split <;> rfl
        · rfl
    · rfl
  | writeId => apply hsame; rw [World.step]; split <;> rfl
  | poll g n =>
    apply hsame
    rw [World.step]
    split
    · unfold World.poll; split <;> rfl
    · rfl
  | die g n => exact hsame _ rfl
  | kill pid => apply hsame; rw [World.step]; split <;> rfl
  | crash sv => exact hsame _ rfl
  | execute q c =>
    apply hsame; rw [World.step]
    split
    · unfold World.execute; split <;> rfl
    · rfl
  | restore i => apply hsame; rw [World.step]; unfold World.restore; split <;> rfl
  | drop k => exact hsame _ rfl
  | recache k q => exact hsame _ rfl

theorem run_stable {G N : Nat} (es es' : List (Ev Q S)) (hv : ∀ x ∈ es ++ es', ValidEv G N x) :
    (∀ id s t, ((World.init : World Q S).run G N es).1.disk.dirs.get? id = some (.full s, .full t) →
      ((World.init : World Q S).run G N (es ++ es')).1.disk.dirs.get? id = some (.full s, .full t)) ∧
    (∀ q, ((World.init : World Q S).run G N es).1.disk.query = .full q →
      ((World.init : World Q S).run G N (es ++ es')).1.disk.query = .full q) := by
  induction es' using List.reverseRecOn with
  | nil => rw [List.append_nil]; exact ⟨fun _ _ _ h => h, fun _ h => h⟩
  | append_singleton es' e ih =>
    have hv' : ∀ x ∈ es ++ es', ValidEv G N x := fun x hx => hv x (by rw [← List.append_assoc]; exact List.mem_append_left _ hx)
    obtain ⟨h1, h2⟩ := ih hv'
    obtain ⟨g1, g2⟩ := step_stable (inv_run (Q := Q) (S := S) (es ++ es') hv') e
    rw [← List.append_assoc, run_snoc]
    exact ⟨fun id s t h => g1 id s t (h1 id s t h), fun q h => g2 q (h2 q h)⟩

/-- **C70.** When a call that waits for the disk returns, the state that was to be saved — the one in which the last node
reported — is completely on disk, and stays there unchanged whatever happens afterwards: crashes, restores, new executions of
the job, further checkpoints. -/
theorem c70_durable (G N : Nat) (es es' : List (Ev Q S)) (e : Ev Q S) (hv : ∀ x ∈ es ++ [e] ++ es', ValidEv G N x) (id : Nat)
    (h : (((World.init : World Q S).run G N es).1.step G N e).2 = .returned id true) :
    ∃ s : S, Started (life ((World.init : World Q S).run G N es).2) id s ∧
      ((World.init : World Q S).run G N (es ++ [e] ++ es')).1.disk.dirs.get? id = some (.full s, .full s) := by
  have hinv := inv_run (Q := Q) (S := S) es (fun x hx => hv x (by rw [List.append_assoc]; exact List.mem_append_left _ hx))
  obtain ⟨g, n, -, -, hc⟩ := returned_of h
  obtain ⟨pid, p, hi, hp, hd⟩ := completed_yes hc
  obtain ⟨-, -, p', hp', hid, hst⟩ := hinv.info id pid hi
  rw [hp] at hp'
  cases hp'
  refine ⟨p.snap, hst, ?_⟩
  rw [List.append_assoc]
  refine (run_stable es ([e] ++ es') (by rw [← List.append_assoc]; exact hv)).1 id p.snap p.snap ?_
  have := hinv.disk.owner pid p _ hp (by rw [hd rfl]; rfl)
  rw [← hid]; exact this

/-- Only query `q` is ever executed under this job id, and its cached result is not replaced by another one. -/
def OnlyQuery (q : Q) (es : List (Ev Q S)) : Prop :=
  (∀ q' cached, Ev.execute q' cached ∈ es → q' = q) ∧ ∀ k q', Ev.recache k q' ∈ es → q' = q

theorem run_query {G N : Nat} {q : Q} (es : List (Ev Q S)) (hv : ∀ x ∈ es, ValidEv G N x) (hq : OnlyQuery q es) :
    (∀ (k : Nat) q', ((World.init : World Q S).run G N es).1.caches[k]? = some (some q') → q' = q) ∧
    (∀ q', ((World.init : World Q S).run G N es).1.disk.query = .full q' → q' = q) := by
  induction es using List.reverseRecOn with
  | nil =>
    refine ⟨?_, ?_⟩
    · intro k q' h; simp [World.run, World.init] at h
    · intro q' h; simp [World.run, World.init] at h
  | append_singleton es e ih =>
    have hv' : ∀ x ∈ es, ValidEv G N x := fun x hx => hv x (List.mem_append_left _ hx)
    obtain ⟨h1, h2⟩ := ih hv' ⟨fun q' c h => hq.1 q' c (List.mem_append_left _ h), fun k q' h => hq.2 k q' (List.mem_append_left _ h)⟩
    have hinv := inv_run (Q := Q) (S := S) es hv'
    rw [run_snoc]
    generalize ((World.init : World Q S).run G N es).1 = w at h1 h2 hinv
    have hsame : ∀ w' : World Q S, w'.caches = w.caches → w'.disk = w.disk →
        (∀ (k : Nat) q', w'.caches[k]? = some (some q') → q' = q) ∧ (∀ q', w'.disk.query = .full q' → q' = q) := by
      intro w' e1 e2; rw [e1, e2]; exact ⟨h1, h2⟩
    dsimp only
    cases e with
    | persist pid =>
      rw [World.step]
      split
      · rename_i p hp
        obtain ⟨-, -, -, -, h5, -⟩ := hinv.disk.persist w.caches pid p hp
        refine ⟨h1, ?_⟩
        intro q' hq'
        rcases h5 q' hq' with h' | ⟨k, h'⟩
        · exact h2 q' h'
        · exact h1 k q' h'
      · exact hsame _ rfl rfl
    | call g n st al s wt =>
      apply hsame
      all_goals
        rw [World.step]
        split
        · unfold World.call
          dsimp only
          split
          · rfl
          · split
            · split <;> rfl
            · rfl
        · rfl
    | writeId => apply hsame <;> (rw [World.step]; split <;> rfl)
    | poll g n =>
      apply hsame
      all_goals
        rw [World.step]
        split
        · unfold World.poll; split <;> rfl
        · rfl
    | die g n => exact hsame _ rfl rfl
    | kill pid => apply hsame <;> (rw [World.step]; split <;> rfl)
    | crash sv => exact hsame _ rfl rfl
    | execute q0 c =>
      have hq0 : q0 = q := hq.1 q0 c (List.mem_append_right _ (List.mem_singleton.2 rfl))
      rw [World.step]
      split
      · unfold World.execute
        split
        · refine ⟨?_, h2⟩
          intro k q' hk
          dsimp only at hk
          rw [List.getElem?_append] at hk
          split at hk
          · exact h1 k q' hk
          · rw [List.getElem?_singleton] at hk
            split at hk
            · have : q0 = q' := by simpa using hk
              rw [← this, hq0]
            · cases hk
        · exact ⟨h1, h2⟩
      · exact ⟨h1, h2⟩
    | restore i => apply hsame <;> (rw [World.step]; unfold World.restore; split <;> rfl)
    | drop k =>
      refine ⟨?_, h2⟩
      intro i q' hi
      have hi' : (w.caches.set k none)[i]? = some (some q') := hi
      by_cases hik : i = k
      · rw [hik] at hi'
        by_cases hlt : k < w.caches.length
        · rw [List.getElem?_set_self hlt] at hi'; simp at hi'
        · rw [List.getElem?_eq_none (by rw [List.length_set]; omega)] at hi'; cases hi'
      · rw [List.getElem?_set_ne (Ne.symm hik)] at hi'
        exact h1 i q' hi'
    | recache k q1 =>
      refine ⟨?_, h2⟩
      intro i q' hi
      have hi' : (w.caches.set k (some q1))[i]? = some (some q') := hi
      by_cases hik : i = k
      · rw [hik] at hi'
        by_cases hlt : k < w.caches.length
        · rw [List.getElem?_set_self hlt] at hi'
          have := hq.2 k q1 (by simp)
          simp only [Option.some.injEq] at hi'
          rw [← hi']; exact this
        · rw [List.getElem?_eq_none (by rw [List.length_set]; omega)] at hi'; cases hi'
      · rw [List.getElem?_set_ne (Ne.symm hik)] at hi'
        exact h1 i q' hi'

/-- **C70.** If the job id was only ever used for one query, and the first checkpoint (of any life of the job) has been waited
for at the disk, then every checkpoint that has been waited for at the disk can be restored at any later time, and gives that
query's result and the state in which the last node reported.
Missing: checkpoints taken while the first one is still being written (`c70_first_unfinished_partial`), job ids used for
several queries (`c70_other_query_partial`), and jobs whose cached query result was replaced by that of another job with the
same query (`c70_cache_replaced_partial`). -/
theorem c70_restorable_partial (G N : Nat) (q : Q) (es0 es1 es es' : List (Ev Q S)) (e1 e : Ev Q S)
    (hes : es = es0 ++ [e1] ++ es1 ∨ (es = es0 ∧ e = e1))
    (hv : ∀ x ∈ es ++ [e] ++ es', ValidEv G N x) (hq : OnlyQuery q (es ++ [e] ++ es')) (id : Nat)
    (h1 : (((World.init : World Q S).run G N es0).1.step G N e1).2 = .returned 1 true)
    (h : (((World.init : World Q S).run G N es).1.step G N e).2 = .returned id true) :
    ∃ s : S, Started (life ((World.init : World Q S).run G N es).2) id s ∧
      (((World.init : World Q S).run G N (es ++ [e] ++ es')).1.step G N (.restore id)).2 = .restored q s := by
  obtain ⟨s, hs, hd⟩ := c70_durable G N es es' e hv id h
  refine ⟨s, hs, ?_⟩
  have hv0 : ∀ x ∈ es0, ValidEv G N x := by
    intro x hx
    apply hv
    rcases hes with e' | ⟨e', -⟩
    · rw [e']; simp [hx]
    · rw [e']; simp [hx]
  have hinv0 := inv_run (Q := Q) (S := S) es0 hv0
  obtain ⟨g, n, -, -, hc⟩ := returned_of h1
  obtain ⟨pid, p, hi, hp, hdn⟩ := completed_yes hc
  obtain ⟨-, -, p', hp', hid, -⟩ := hinv0.info 1 pid hi
  rw [hp] at hp'
  cases hp'
  obtain ⟨q', hq'⟩ := hinv0.disk.first pid p hp hid (.inr (.inr (by rw [hdn rfl]; rfl)))
  obtain ⟨tail, htail⟩ : ∃ tail, es ++ [e] ++ es' = es0 ++ tail := by
    rcases hes with e' | ⟨e', -⟩
    · exact ⟨[e1] ++ es1 ++ [e] ++ es', by rw [e']; simp⟩
    · exact ⟨[e] ++ es', by rw [e']; simp⟩
  have hquery := (run_stable es0 tail (by rw [← htail]; exact hv)).2 q' hq'
  rw [← htail] at hquery
  have hqq := (run_query (es ++ [e] ++ es') hv hq).2 q' hquery
  rw [World.step]
  unfold World.restore Disk.read
  rw [hquery, hd, hqq]

/-- **C70.** A node whose checkpoint was started gets `True` right away if it does not wait for the disk, and a report that
completes a round in a consistent state does start the checkpoint if the job has a query cache directory or has a checkpoint
already; so nobody waits longer than for the last node. -/
theorem c70_starts (G N : Nat) (w : World Q S) (j : Job Q) (hj : w.job = some j) (g n : Nat) (st : List Nat) (snap : S)
    (wait : Bool) (hidle : w.node g n = .idle) (hnew : w.chk.statuses.has (g, n) = false)
    (hlast : w.chk.statuses.length + 1 = G * N)
    (hc : j.cache.isSome = true ∨ 2 ≤ w.chk.counter ∨ w.chk.current = none ∧ 1 ≤ w.chk.counter) :
    ∃ id, (w.step G N (.call g n st true snap wait)).2 = .entered id true ∧
      (w.step G N (.call g n st true snap wait)).1.completed id false = .yes := by
  have hfirst : (firstPc j (nextCounter w.chk)).isSome = true := by
    unfold firstPc
    split
    · rename_i h1
      rcases hc with hc | hc | ⟨hc, hc'⟩
      · cases hjc : j.cache with
        | none => rw [hjc] at hc; cases hc
        | some k => rfl
      · unfold nextCounter at h1; split at h1 <;> omega
      · unfold nextCounter at h1; rw [hc] at h1; simp at h1; omega
    · rfl
  obtain ⟨pc, hpc⟩ := Option.isSome_iff_exists.1 hfirst
  have hlen : (w.chk.statuses.set (g, n) st).length = G * N := by
    rw [← Dict.length_keys, keys_report hnew, List.length_append, Dict.length_keys]
    exact hlast
  have hcnt : (if w.chk.current.isSome then w.chk.counter else w.chk.counter + 1) = nextCounter w.chk := rfl
  rw [World.step, hj, hidle]
  dsimp only
  unfold World.call
  dsimp only
  rw [hcnt, hpc]
  rcases report_cases G N (true && (some pc).isSome) w.chk g n st with
    ⟨hh, -⟩ | ⟨-, ⟨-, hr⟩ | ⟨⟨-, hal⟩, -⟩ | ⟨hne, -⟩⟩
  · rw [hnew] at hh; cases hh
  · rw [hr]
    dsimp only
    rw [if_pos rfl]
    refine ⟨_, rfl, ?_⟩
    unfold World.completed
    dsimp only [World.setNode]
    rw [Dict.get?_set, if_pos rfl]
    simp
  · cases hal
  · exact absurd hlen hne

/-- **C70.** An incomplete checkpoint is never restored: whatever happened before, restoring checkpoint `id` gives a job
exactly if the query result and both state files of `id` are completely on disk, and then it gives what is in these
files. -/
theorem c70_restore_complete (G N : Nat) (es : List (Ev Q S)) (hv : ∀ x ∈ es, ValidEv G N x) (id : Nat) (q : Q) (s : S) :
    (((World.init : World Q S).run G N es).1.step G N (.restore id)).2 = .restored q s ↔
      ((World.init : World Q S).run G N es).1.disk.query = .full q ∧
      ∃ s', ((World.init : World Q S).run G N es).1.disk.dirs.get? id = some (.full s, .full s') := by
  generalize ((World.init : World Q S).run G N es).1 = w
  show (w.restore id).2 = _ ↔ _
  unfold World.restore Disk.read
  constructor
  · intro h
    split at h
    · cases h
    · rename_i q' s' hr
      injection h with h1 h2
      subst h1 h2
      split at hr
      · rename_i q'' s'' s3 hq hd
        injection hr with hr
        injection hr with h1 h2
        subst h1 h2
        exact ⟨hq, s3, hd⟩
      · cases hr
  · rintro ⟨hq, s', hd⟩
    rw [hq, hd]

theorem le_foldl_max (l : List Nat) : ∀ a, a ≤ l.foldl max a ∧ ∀ x ∈ l, x ≤ l.foldl max a := by
  induction l with
  | nil => intro a; exact ⟨le_refl _, fun x hx => (by cases hx)⟩
  | cons y ys ih =>
    intro a
    obtain ⟨h1, h2⟩ := ih (max a y)
    refine ⟨le_trans (le_max_left _ _) h1, fun x hx => ?_⟩
    rcases List.mem_cons.1 hx with rfl | hx
    · exact le_trans (le_max_right _ _) h1
    · exact h2 x hx

/-- **C70.** After a checkpoint was restored, the next one gets a number that is larger than that of the restored checkpoint
and of every directory that exists, so it does not fail because of files that were left behind. -/
theorem c70_next_number (G N : Nat) (w : World Q S) (id : Nat) (q : Q) (s : S)
    (h : (w.step G N (.restore id)).2 = .restored q s) (g n : Nat) (st : List Nat) (al : Bool) (snap : S) (wait : Bool)
    (id' : Nat) (started : Bool)
    (hc : ((w.step G N (.restore id)).1.step G N (.call g n st al snap wait)).2 = .entered id' started) :
    id < id' ∧ ∀ k, (w.step G N (.restore id)).1.disk.dirs.has k = true → k < id' := by
  have hw : (w.step G N (.restore id)).1.chk = ⟨[], restoredCounter id w.disk.dirs.keys, none⟩ ∧
      (w.step G N (.restore id)).1.disk = w.disk := by
    change (w.restore id).2 = _ at h
    show (w.restore id).1.chk = _ ∧ (w.restore id).1.disk = _
    unfold World.restore at h ⊢
    split at h
    · cases h
    · rename_i hr
      exact ⟨rfl, rfl⟩
  generalize (w.step G N (.restore id)).1 = w' at hw hc
  obtain ⟨h1, h2⟩ := hw
  have hid : id' = restoredCounter id w.disk.dirs.keys + 1 := by
    rw [World.step] at hc
    split at hc
    · rename_i j hj hn
      unfold World.call at hc
      dsimp only at hc
      rcases report_cases G N (al && (firstPc j (if w'.chk.current.isSome then w'.chk.counter else w'.chk.counter + 1)).isSome)
          w'.chk g n st with ⟨-, hr⟩ | ⟨-, ⟨-, hr⟩ | ⟨-, hr⟩ | ⟨-, hr⟩⟩
      · rw [hr] at hc; cases hc
      · rw [hr] at hc
        dsimp only at hc
        rw [if_pos rfl] at hc
        have : nextId w'.chk = id' := by
          split at hc <;> (injection hc)
        rw [← this, h1]; rfl
      · rw [hr] at hc; cases hc
      · rw [hr] at hc
        dsimp only at hc
        rw [if_neg (by simp)] at hc
        injection hc with hc _
        rw [← hc, h1]; rfl
    · cases hc
  have hm := le_foldl_max w.disk.dirs.keys id
  rw [hid, h2]
  unfold restoredCounter
  exact ⟨by omega, fun k hk => by have := hm.2 k (mem_of_has hk); omega⟩

/-! ## What fails -/

/-- Ten steps of a persisting process. -/
def finishEvs (pid : Nat) : List (Ev Q S) := List.replicate 10 (.persist pid)

/-- The ordinary course with two nodes. -/
example : let r := (World.init : World Nat Nat).run 1 2 ([.execute 5 true, .call 0 1 [3] true 70 true, .poll 0 1,
      .call 0 0 [3] true 71 true, .writeId, .poll 0 0] ++ finishEvs 0 ++ [.poll 0 0, .poll 0 1, .crash [], .restore 1])
    r.1.idFile = some 1 ∧ r.2.getLast?.map (·.2) = some (.restored 5 71) ∧
      r.2.map (·.2) = [.executed, .entered 1 false, .nothing, .entered 1 true, .nothing, .nothing] ++
        List.replicate 10 .nothing ++ [.returned 1 true, .returned 1 true, .nothing, .restored 5 71] := by decide +kernel

/-- **C70, what fails.** A checkpoint that is taken while the first one is still copying the query result is reported as
complete on disk, but cannot be restored if the server dies before the copy is finished. -/
theorem c70_first_unfinished_partial : ∃ es : List (Ev Nat Nat),
    (((World.init : World Nat Nat).run 1 1 es).1.step 1 1 (.poll 0 0)).2 = .returned 2 true ∧
    ((((World.init : World Nat Nat).run 1 1 (es ++ [.poll 0 0, .crash []])).1).step 1 1 (.restore 2)).2 = .restoreFailed := by
  refine ⟨[.execute 5 true, .call 0 0 [3] true 70 false, .writeId, .poll 0 0, .persist 0, .call 0 0 [4] true 71 true, .writeId]
    ++ finishEvs 1, ?_⟩
  decide +kernel

/-- **C70, what fails.** If another query is executed under the same job id after the server was restarted, its checkpoints
use the stored result of the old query: the first ones fail until the numbers of the old checkpoints are used up, then a
checkpoint is reported as complete, and restoring it gives the old query's result with the new job's state. -/
theorem c70_other_query_partial : ∃ es : List (Ev Nat Nat),
    (((World.init : World Nat Nat).run 1 1 es).1.step 1 1 (.poll 0 0)).2 = .returned 2 true ∧
    ((((World.init : World Nat Nat).run 1 1 (es ++ [.poll 0 0, .crash []])).1).step 1 1 (.restore 2)).2 = .restored 5 91 ∧
    ((World.init : World Nat Nat).run 1 1 es).1.job.map (·.query) = some 6 ∧
    (es.any fun e => match e with | .call _ _ _ _ s _ => s == 91 | _ => false) = true := by
  refine ⟨[.execute 5 true, .call 0 0 [3] true 70 true, .writeId] ++ finishEvs 0 ++ [.poll 0 0, .crash [],
      .execute 6 true, .call 0 0 [3] true 90 true, .writeId] ++ finishEvs 1 ++ [.poll 0 0,
      .call 0 0 [3] true 91 true, .writeId] ++ finishEvs 2, ?_⟩
  decide +kernel

/-- **C70, what fails.** The file `mixtera.id` is written before the checkpoint is: after a crash it can name a checkpoint
that cannot be restored. -/
theorem c70_id_before_data_partial : ∃ es : List (Ev Nat Nat),
    ((World.init : World Nat Nat).run 1 1 (es ++ [.crash []])).1.idFile = some 1 ∧
    (((World.init : World Nat Nat).run 1 1 (es ++ [.crash []])).1.step 1 1 (.restore 1)).2 = .restoreFailed := by
  refine ⟨[.execute 5 true, .call 0 0 [3] true 70 true, .writeId, .persist 0, .persist 0], ?_⟩
  decide +kernel

/-- Without query cache nothing is ever stored. -/
structure NoCache (w : World Q S) : Prop where
  job : ∀ j, w.job = some j → j.cache = none
  chk : w.chk.counter = 0 ∧ w.chk.current = none ∨ w.chk.counter = 1 ∧ w.chk.current = some 1
  procs : w.procs = []
  info : w.info = []
  query : w.disk.query = .absent

theorem NoCache.step {G N : Nat} {w : World Q S} (h : NoCache w) (e : Ev Q S) (he : ∀ q, e ≠ .execute q true) :
    NoCache (w.step G N e).1 ∧ (∀ id, (w.step G N e).2 ≠ .entered id true) ∧ ∀ id wt, (w.step G N e).2 ≠ .returned id wt := by
  cases e with
  | call g n st al s wt =>
    rw [World.step]
    split
    · rename_i j hj hn
      have hcnt : (if w.chk.current.isSome then w.chk.counter else w.chk.counter + 1) = 1 := by
        rcases h.chk with ⟨h1, h2⟩ | ⟨h1, h2⟩ <;> simp [h1, h2]
      have hid : nextId w.chk = 1 := by
        unfold nextId
        rcases h.chk with ⟨h1, h2⟩ | ⟨h1, h2⟩ <;> simp [h1, h2]
      have hf : firstPc j 1 = none := by unfold firstPc; rw [if_pos rfl, h.job j hj]; rfl
      unfold World.call
      dsimp only
      rw [hcnt, hf]
      rcases report_cases G N (al && (none : Option Pc).isSome) w.chk g n st with
        ⟨hh, hr⟩ | ⟨hh, ⟨⟨-, hal⟩, hr⟩ | ⟨-, hr⟩ | ⟨hne, hr⟩⟩
      · rw [hr]
        exact ⟨⟨h.job, h.chk, h.procs, h.info, h.query⟩, fun _ => (fun h => by cases h), fun _ _ => (fun h => by cases h)⟩
      · simp at hal
      · rw [hr]
        exact ⟨⟨h.job, .inr ⟨hcnt, by rw [hid]⟩, h.procs, h.info, h.query⟩, fun _ => (fun h => by cases h),
          fun _ _ => (fun h => by cases h)⟩
      · rw [hr]
        exact ⟨⟨h.job, .inr ⟨hcnt, by simp [World.setNode, hid]⟩, h.procs, h.info, h.query⟩, fun _ => (fun h => by cases h),
          fun _ _ => (fun h => by cases h)⟩
    · exact ⟨h, fun _ => (fun h => by cases h), fun _ _ => (fun h => by cases h)⟩
  | writeId =>
    rw [World.step]
    split
    · exact ⟨⟨h.job, h.chk, h.procs, h.info, h.query⟩, fun _ => (fun h => by cases h), fun _ _ => (fun h => by cases h)⟩
    · exact ⟨h, fun _ => (fun h => by cases h), fun _ _ => (fun h => by cases h)⟩
  | poll g n =>
    rw [World.step]
    split
    · have hc : ∀ id wt, w.completed id wt = .no := by
        intro id wt; unfold World.completed; rw [h.info]; rfl
      unfold World.poll
      rw [hc]
      exact ⟨h, fun _ => (fun h => by cases h), fun _ _ => (fun h => by cases h)⟩
    · exact ⟨h, fun _ => (fun h => by cases h), fun _ _ => (fun h => by cases h)⟩
  | die g n =>
    exact ⟨⟨h.job, h.chk, h.procs, h.info, h.query⟩, fun _ => (fun h => by cases h), fun _ _ => (fun h => by cases h)⟩
  | persist pid =>
    rw [World.step, h.procs]
    exact ⟨h, fun _ => (fun h => by cases h), fun _ _ => (fun h => by cases h)⟩
  | kill pid =>
    rw [World.step, h.procs]
    exact ⟨h, fun _ => (fun h => by cases h), fun _ _ => (fun h => by cases h)⟩
  | crash sv =>
    refine ⟨⟨fun j hj => (by cases hj), .inl ⟨rfl, rfl⟩, ?_, rfl, h.query⟩, fun _ => (fun h => by cases h),
      fun _ _ => (fun h => by cases h)⟩
    show w.procs.mapIdx _ = []
    rw [h.procs]; rfl
  | execute q c =>
    have hcf : c = false := by
      cases c
      · rfl
      · exact absurd rfl (he q)
    rw [World.step, hcf]
    split
    · refine ⟨⟨?_, .inl ⟨rfl, rfl⟩, h.procs, rfl, h.query⟩, fun _ => (fun h => by cases h), fun _ _ => (fun h => by cases h)⟩
      intro j hj
      have : j = ⟨q, none⟩ := by
        have : some (⟨q, none⟩ : Job Q) = some j := hj
        simpa using this.symm
      rw [this]
    · exact ⟨h, fun _ => (fun h => by cases h), fun _ _ => (fun h => by cases h)⟩
  | restore id =>
    have : w.disk.read id = none := by unfold Disk.read; rw [h.query]
    rw [World.step]
    unfold World.restore
    rw [this]
    exact ⟨h, fun _ => (fun h => by cases h), fun _ _ => (fun h => by cases h)⟩
  | drop k =>
    exact ⟨⟨h.job, h.chk, h.procs, h.info, h.query⟩, fun _ => (fun h => by cases h), fun _ _ => (fun h => by cases h)⟩
  | recache k q =>
    exact ⟨⟨h.job, h.chk, h.procs, h.info, h.query⟩, fun _ => (fun h => by cases h), fun _ _ => (fun h => by cases h)⟩

/-- **C70, what fails.** With the query cache switched off no checkpoint can ever be taken: in no history is a checkpoint
started, and no call of a node returns (they raise or wait). -/
theorem c70_uncached_partial (G N : Nat) (es : List (Ev Q S)) (he : ∀ q, Ev.execute q true ∉ es) :
    ∀ x ∈ ((World.init : World Q S).run G N es).2, (∀ id, x.2 ≠ .entered id true) ∧ ∀ id wt, x.2 ≠ .returned id wt := by
  have key : ∀ (es : List (Ev Q S)) (w : World Q S), NoCache w → (∀ q, Ev.execute q true ∉ es) →
      ∀ x ∈ (w.run G N es).2, (∀ id, x.2 ≠ .entered id true) ∧ ∀ id wt, x.2 ≠ .returned id wt := by
    intro es
    induction es with
    | nil => intro w _ _ x hx; cases hx
    | cons e es ih =>
      intro w hw he x hx
      obtain ⟨h1, h2, h3⟩ := hw.step (G := G) (N := N) e (fun q hq => he q (by rw [hq]; exact List.mem_cons_self))
      rw [World.run] at hx
      rcases List.mem_cons.1 hx with e' | hx
      · rw [e']; exact ⟨h2, h3⟩
      · exact ih _ h1 (fun q hq => he q (List.mem_cons_of_mem _ hq)) x hx
  exact key es _ ⟨fun j hj => (by cases hj), .inl ⟨rfl, rfl⟩, rfl, rfl, rfl⟩ he

theorem firstPc_cases {j : Job Q} {c : Nat} {pc : Pc} (h : firstPc j c = some pc) : (∃ k, pc = .copy k) ∨ pc = .check := by
  unfold firstPc at h
  split at h
  · cases hjc : j.cache with
    | none => rw [hjc] at h; cases h
    | some k => rw [hjc] at h; exact .inl ⟨k, by simpa using h.symm⟩
  · exact .inr (by simpa using h.symm)

/-- The query cache directory is gone and nothing has been stored. -/
structure Gone (w : World Q S) : Prop where
  caches : ∀ (k : Nat) (q : Q), w.caches[k]? ≠ some (some q)
  procs : ∀ (i : Nat) (p : Proc S), w.procs[i]? = some p → (∃ k, p.pc = .copy k) ∨ p.pc = .check ∨ p.pc = .failed
  query : w.disk.query = .absent

theorem Gone.step {G N : Nat} {w : World Q S} (h : Gone w) (e : Ev Q S) (he : ∀ q c, e ≠ .execute q c)
    (hr : ∀ k q, e ≠ .recache k q) : Gone (w.step G N e).1 ∧ ∀ id, (w.step G N e).2 ≠ .returned id true := by
  refine ⟨?_, ?_⟩
  · have hget : ∀ (pid : Nat) (p' : Proc S), ((∃ k, p'.pc = .copy k) ∨ p'.pc = .check ∨ p'.pc = .failed) →
        ∀ (i : Nat) (p : Proc S), (w.procs.set pid p')[i]? = some p → (∃ k, p.pc = .copy k) ∨ p.pc = .check ∨ p.pc = .failed := by
      intro pid p' hp' i p hi
      by_cases hip : i = pid
      · rw [hip] at hi
        by_cases hlt : pid < w.procs.length
        · rw [List.getElem?_set_self hlt] at hi
          have : p' = p := by simpa using hi
          rw [← this]; exact hp'
        · rw [List.getElem?_eq_none (by rw [List.length_set]; omega)] at hi; cases hi
      · rw [List.getElem?_set_ne (Ne.symm hip)] at hi
        exact h.procs i p hi
    cases e with
    | call g n st al s wt =>
      rw [World.step]
      split
      · rename_i j hj hn
        unfold World.call
        dsimp only
        split
        · exact ⟨h.caches, h.procs, h.query⟩
        · split
          · split
            · rename_i pc hpc
              refine ⟨h.caches, ?_, h.query⟩
              intro i p hi
              have hi' : (w.procs ++ [⟨_, s, pc⟩])[i]? = some p := hi
              rw [List.getElem?_append] at hi'
              split at hi'
              · exact h.procs i p hi'
              · rw [List.getElem?_singleton] at hi'
                split at hi'
                · have e := Option.some.inj hi'
                  rw [← e]
                  dsimp only
                  rcases firstPc_cases hpc with ⟨k, hk⟩ | hk
                  · exact .inl ⟨k, hk⟩
                  · exact .inr (.inl hk)
                · cases hi'
            · exact ⟨h.caches, h.procs, h.query⟩
          · exact ⟨h.caches, h.procs, h.query⟩
      · exact h
    | writeId =>
      rw [World.step]
      split
      · exact ⟨h.caches, h.procs, h.query⟩
      · exact h
    | poll g n =>
      rw [World.step]
      split
      · unfold World.poll
        split <;> exact ⟨h.caches, h.procs, h.query⟩
      · exact h
    | die g n => exact ⟨h.caches, h.procs, h.query⟩
    | persist pid =>
      rw [World.step]
      split
      · rename_i p hp
        have hfail : (p.step w.caches w.disk).1 = w.disk ∧ (p.step w.caches w.disk).2.pc = .failed := by
          unfold Proc.step
          rcases h.procs pid p hp with ⟨k, hk⟩ | hk | hk
          · rw [hk]
            dsimp only
            unfold copyStep
            split
            · rename_i q hq _
              exfalso
              apply h.caches k q
              cases hc : w.caches[k]? with
              | none => rw [hc] at hq; cases hq
              | some o => rw [hc] at hq; simp at hq; rw [hq]
            · exact ⟨rfl, rfl⟩
          · rw [hk]
            dsimp only
            unfold checkStep
            rw [h.query]
            exact ⟨rfl, rfl⟩
          · rw [hk]
            exact ⟨rfl, hk⟩
        refine ⟨h.caches, ?_, ?_⟩
        · exact hget pid _ (.inr (.inr hfail.2))
        · show (p.step w.caches w.disk).1.query = .absent
          rw [hfail.1]; exact h.query
      · exact h
    | kill pid =>
      rw [World.step]
      split
      · rename_i p hp
        refine ⟨h.caches, hget pid _ ?_, h.query⟩
        rcases kill_cases p with e | ⟨-, e⟩
        · rw [e]; exact h.procs pid p hp
        · exact .inr (.inr e)
      · exact h
    | crash sv =>
      refine ⟨h.caches, ?_, h.query⟩
      intro i x hx
      replace hx : (w.procs.mapIdx fun i p => if i ∈ sv then p else p.kill)[i]? = some x := hx
      rw [List.getElem?_mapIdx] at hx
      cases hp : w.procs[i]? with
      | none => rw [hp] at hx; cases hx
      | some p =>
        rw [hp] at hx
        simp only [Option.map_some, Option.some.injEq] at hx
        split at hx
        · rw [← hx]; exact h.procs i p hp
        · rcases kill_cases p with e | ⟨-, e⟩
          · rw [e] at hx; rw [← hx]; exact h.procs i p hp
          · rw [← hx]; exact .inr (.inr e)
    | execute q c => exact absurd rfl (he q c)
    | restore id =>
      have : w.disk.read id = none := by unfold Disk.read; rw [h.query]
      rw [World.step]
      unfold World.restore
      rw [this]
      exact h
    | drop k =>
      refine ⟨?_, h.procs, h.query⟩
      intro i q hi
      have hi' : (w.caches.set k none)[i]? = some (some q) := hi
      by_cases hik : i = k
      · rw [hik] at hi'
        by_cases hlt : k < w.caches.length
        · rw [List.getElem?_set_self hlt] at hi'; simp at hi'
        · rw [List.getElem?_eq_none (by rw [List.length_set]; omega)] at hi'; cases hi'
      · rw [List.getElem?_set_ne (Ne.symm hik)] at hi'
        exact h.caches i q hi'
    | recache k q => exact absurd rfl (hr k q)
  · intro id hr
    obtain ⟨g, n, -, -, hc⟩ := returned_of hr
    obtain ⟨pid, p, -, hp, hd⟩ := completed_yes hc
    have := hd rfl
    rcases h.procs pid p hp with ⟨k, hk⟩ | hk | hk <;> rw [hk] at this <;> cases this

/-- **C70, what fails.** If the query cache directory of a running job is removed before the first checkpoint — because the
query is executed once more for another job after a dataset was added — and not replaced, then no call that waits for the disk ever returns for
this job, however often it is tried, with whatever crashes in between. -/
theorem c70_cache_removed_partial (G N : Nat) (q : Q) (es : List (Ev Q S)) (he : ∀ q' c, Ev.execute q' c ∉ es)
    (hr : ∀ k q', Ev.recache k q' ∉ es) :
    ∀ x ∈ (((World.init : World Q S).run G N [.execute q true, .drop 0]).1.run G N es).2, ∀ id, x.2 ≠ .returned id true := by
  have key : ∀ (es : List (Ev Q S)) (w : World Q S), Gone w → (∀ q' c, Ev.execute q' c ∉ es) →
      (∀ k q', Ev.recache k q' ∉ es) → ∀ x ∈ (w.run G N es).2, ∀ id, x.2 ≠ .returned id true := by
    intro es
    induction es with
    | nil => intro w _ _ _ x hx; cases hx
    | cons e es ih =>
      intro w hw he hr x hx
      obtain ⟨h1, h2⟩ := hw.step (G := G) (N := N) e (fun q c hq => he q c (by rw [hq]; exact List.mem_cons_self))
        (fun k q hq => hr k q (by rw [hq]; exact List.mem_cons_self))
      rw [World.run] at hx
      rcases List.mem_cons.1 hx with e' | hx
      · rw [e']; exact h2
      · exact ih _ h1 (fun q c hq => he q c (List.mem_cons_of_mem _ hq)) (fun k q hq => hr k q (List.mem_cons_of_mem _ hq)) x hx
  refine key es _ ⟨?_, ?_, rfl⟩ he hr
  · intro k q' hk
    have : ([none] : List (Option Q))[k]? = some (some q') := hk
    rw [List.getElem?_singleton] at this
    split at this <;> simp at this
  · intro i p hi
    have : ([] : List (Proc S))[i]? = some p := hi
    simp at this

/-- The checkpoint does start, but fails: the call raises. -/
example : ((World.init : World Nat Nat).run 1 1 ([.execute 5 true, .drop 0, .call 0 0 [3] true 70 true, .writeId] ++
    finishEvs 0 ++ [.poll 0 0])).2.getLast?.map (·.2) = some .raised := by decide +kernel

/-- **C70, what fails.** If the same query is executed for another job after a dataset was added, and before the first
checkpoint of this job, then its query cache directory holds the other job's result: the first checkpoint is reported as
complete on disk, and restoring it gives the state of this job on top of the other job's query result (6 instead of 5). -/
theorem c70_cache_replaced_partial : ∃ es : List (Ev Nat Nat),
    ((World.init : World Nat Nat).run 1 1 es).1.job.map (·.query) = some 5 ∧
    (∀ q c, Ev.execute q c ∈ es → q = 5) ∧
    (((World.init : World Nat Nat).run 1 1 es).1.step 1 1 (.poll 0 0)).2 = .returned 1 true ∧
    ((((World.init : World Nat Nat).run 1 1 (es ++ [.poll 0 0, .crash []])).1).step 1 1 (.restore 1)).2 = .restored 6 70 := by
  refine ⟨[.execute 5 true, .drop 0, .recache 0 6, .call 0 0 [3] true 70 true, .writeId] ++ finishEvs 0, ?_, ?_, ?_, ?_⟩
  · decide +kernel
  · intro q c h
    simp [finishEvs] at h
    exact h.1
  · decide +kernel
  · decide +kernel

end Mixtera.CkRun
