import Verif.Model.Opening
import Verif.Props.TableLinks

/-!
# C85: opening a directory

A crash can hit between any two statements of the first opening; afterwards the file exists and is never completed.
-/

set_option linter.unusedSectionVars false

namespace Mixtera.Opening

variable {α β : Type}

/-! ## Specification -/

/-- The program of an operation on an opened file. -/
def opF : DbOp → Prog DbFile Bool
  | .register a => registerF a
  | .remove n => removeF n

/-- What may be on disk after a history that begins with `d₀`: openings, registrations with arguments satisfying `H` and
removals, each completed or cut off by a crash after any of its statements. -/
inductive Reach (H : RegArgs → Prop) (d₀ : Dir) : Dir → Prop
  | start : Reach H d₀ d₀
  | opening {d t : Dir} : Reach H d₀ d → t ∈ openDir.states d → Reach H d₀ t
  | register {d : Dir} {f t : DbFile} (a : RegArgs) : Reach H d₀ d → d.file = some f → H a → t ∈ (registerF a).states f →
      Reach H d₀ { d with file := some t }
  | remove {d : Dir} {f t : DbFile} (n : PyStr) : Reach H d₀ d → d.file = some f → t ∈ (removeF n).states f →
      Reach H d₀ { d with file := some t }

/-! ## Programs that agree on some states -/

/-- The two programs do the same in every state satisfying `I`, and stay in such states. -/
inductive EqOn {σ : Type} (I : σ → Prop) : Prog σ α → Prog σ α → Prop
  | ret (r : Except Err α) : EqOn I (.ret r) (.ret r)
  | step {f g : σ → σ} {k l : σ → Prog σ α} (h1 : ∀ s, I s → f s = g s) (h2 : ∀ s, I s → I (f s))
      (h3 : ∀ s, I s → EqOn I (k s) (l s)) : EqOn I (.stmt f k) (.stmt g l)

theorem EqOn.stmt {σ : Type} {I : σ → Prop} {f g : σ → σ} {k l : σ → Prog σ α}
    (h : ∀ s, I s → f s = g s ∧ I (f s) ∧ EqOn I (k s) (l s)) : EqOn I (.stmt f k) (.stmt g l) :=
  .step (fun s hs => (h s hs).1) (fun s hs => (h s hs).2.1) fun s hs => (h s hs).2.2

theorem EqOn.bind {σ : Type} {I : σ → Prop} {p q : Prog σ α} {g h : α → Prog σ β} (e : EqOn I p q)
    (e' : ∀ a, EqOn I (g a) (h a)) : EqOn I (p.bind g) (q.bind h) := by
  induction e with
  | ret r =>
    cases r with
    | error x => exact .ret _
    | ok a => exact e' a
  | step h1 h2 _ ih => exact .step h1 h2 ih

theorem EqOn.forEach {σ : Type} {I : σ → Prop} {g h : β → Prog σ Unit} (e : ∀ b, EqOn I (g b) (h b)) :
    ∀ l : List β, EqOn I (Prog.forEach g l) (Prog.forEach h l)
  | [] => .ret _
  | b :: l => (e b).bind fun _ => EqOn.forEach e l

theorem EqOn.run {σ : Type} {I : σ → Prop} {p q : Prog σ α} (e : EqOn I p q) : ∀ s, I s → p.run s = q.run s := by
  induction e with
  | ret r => intro s _; rfl
  | step h1 h2 _ ih =>
    intro s hs
    simp only [Prog.run]
    rw [ih s hs _ (h2 s hs), h1 s hs]

theorem EqOn.states {σ : Type} {I : σ → Prop} {p q : Prog σ α} (e : EqOn I p q) :
    ∀ s, I s → p.states s = q.states s := by
  induction e with
  | ret r => intro s _; rfl
  | step h1 h2 _ ih =>
    intro s hs
    simp only [Prog.states]
    rw [ih s hs _ (h2 s hs), h1 s hs]

/-- The database program on the data of a file. -/
def onData : Prog Db α → Prog DbFile α
  | .ret r => .ret r
  | .stmt f k => .stmt (fun s => { s with data := f s.data }) fun s => onData (k s.data)

theorem onData_bind (p : Prog Db α) (g : α → Prog Db β) : onData (p.bind g) = (onData p).bind fun a => onData (g a) := by
  induction p with
  | ret r => cases r <;> rfl
  | stmt f k ih =>
    simp only [Prog.bind, onData]
    congr 1
    funext s
    exact ih s.data

theorem onData_forEach (g : β → Prog Db Unit) : ∀ l : List β,
    onData (Prog.forEach g l) = Prog.forEach (fun b => onData (g b)) l
  | [] => rfl
  | b :: l => by simp only [Prog.forEach, onData_bind, onData_forEach g l]

theorem onData_run (p : Prog Db α) : ∀ s : DbFile, (onData p).run s = (⟨s.stage, (p.run s.data).1⟩, (p.run s.data).2) := by
  induction p with
  | ret r => intro s; rfl
  | stmt f k ih => intro s; simp only [onData, Prog.run]; rw [ih]

theorem onData_states (p : Prog Db α) : ∀ s : DbFile, (onData p).states s = (p.states s.data).map (DbFile.mk s.stage) := by
  induction p with
  | ret r => intro s; rfl
  | stmt f k ih => intro s; simp only [onData, Prog.states, List.map_cons]; rw [ih]

/-! ## A complete file -/

/-- All statements of `_init_database` have been executed. -/
def Complete (s : DbFile) : Prop := s.stage = 8

theorem eqOn_sql_bind (n : Nat) (hn : n ≤ 8) (f : Db → Db) (g : Db → α) {k : Option α → Prog DbFile β}
    {l : α → Prog Db β} (h : ∀ a, EqOn Complete (k (some a)) (onData (l a))) :
    EqOn Complete ((sql n f g).bind k) (onData ((Prog.exec f g).bind l)) := by
  refine .stmt fun s hs => ?_
  have hle : n ≤ s.stage := by rw [hs]; exact hn
  refine ⟨by simp only [if_pos hle], ?_, ?_⟩
  · simp only [if_pos hle]; exact hs
  · simp only [if_pos hle]; exact h _

theorem eqOn_sql_raise (n : Nat) (hn : n ≤ 8) (f : Db → Db) (g : Db → α) :
    EqOn Complete (orRaise (sql n f g)) (onData (Prog.exec f g)) := by
  have := eqOn_sql_bind (β := α) (k := fun r => match r with
    | none => .ret (.error .runtimeError)
    | some a => .ret (.ok a)) (l := fun a => .ret (.ok a)) n hn f g (fun a => .ret _)
  exact this

theorem eqOn_incr_bind {k : Option Unit → Prog DbFile β} {l : Unit → Prog Db β}
    (h : ∀ u, EqOn Complete (k (some u)) (onData (l u))) :
    EqOn Complete (incrVersionF.bind k) (onData (incrVersion.bind l)) := by
  refine .stmt fun s hs => ⟨rfl, hs, ?_⟩
  have h8 : 8 ≤ s.stage := by rw [hs]
  simp only [if_pos h8, Prog.bind]
  exact eqOn_sql_bind 7 (by omega) _ _ h

theorem eqOn_incr_raise : EqOn Complete (orRaise incrVersionF) (onData incrVersion) := by
  rw [show incrVersion = incrVersion.bind (fun a => .ret (.ok a)) from rfl]
  unfold orRaise
  exact eqOn_incr_bind fun _ => .ret _

theorem eqOn_insertDataset (a : RegArgs) : EqOn Complete (insertDatasetF a) (onData (insertDataset a)) := by
  unfold insertDatasetF insertDataset
  by_cases hv : a.validType = true
  · simp only [if_pos hv]
    refine eqOn_sql_bind 2 (by omega) _ _ fun r => ?_
    cases r with
    | none => exact .ret _
    | some did => exact eqOn_incr_bind fun _ => .ret _
  · simp only [if_neg hv]
    exact .ret _

theorem eqOn_addColumns (props : List (PyStr × Bool)) : EqOn Complete (addColumnsF props) (onData (addColumns props)) := by
  unfold addColumnsF addColumns
  rw [Prog.bind_eq, onData_bind]
  refine (eqOn_sql_raise 6 (by omega) _ _).bind fun l => ?_
  rw [onData_forEach]
  exact EqOn.forEach (fun p => eqOn_sql_raise 6 (by omega) _ _) l

theorem eqOn_insertFiles (did : Nat) (locs : List PyStr) :
    EqOn Complete (insertFilesF did locs) (onData (insertFiles did locs)) := by
  unfold insertFilesF insertFiles
  refine eqOn_sql_bind 4 (by omega) _ _ fun r => ?_
  cases r with
  | none => exact .ret _
  | some ids =>
    simp only [Prog.bind_eq, onData_bind]
    exact eqOn_incr_raise.bind fun _ => .ret _

theorem eqOn_insertSamples (rows : List SampleRow) :
    EqOn Complete (insertSamplesF rows) (onData (insertSamples rows)) := by
  refine .stmt fun s hs => ?_
  have h6 : 6 ≤ s.stage := by rw [hs]; omega
  refine ⟨by simp only [if_pos h6], ?_, ?_⟩
  · simp only [if_pos h6]; exact hs
  · simp only [if_pos h6, Prog.bind]
    by_cases hk : keysFree s.data rows = true
    · simp only [if_pos hk]; exact .ret _
    · simp only [if_neg hk]; exact .ret _

theorem eqOn_register (a : RegArgs) : EqOn Complete (registerF a) (onData (registerDataset a)) := by
  unfold registerF registerDataset
  rw [Prog.bind_eq, onData_bind]
  refine (eqOn_insertDataset a).bind fun r => ?_
  cases r with
  | none => exact .ret _
  | some did =>
    dsimp only
    by_cases hf : a.files.isEmpty = true
    · simp only [if_pos hf]; exact .ret _
    · simp only [if_neg hf]
      cases hp : a.props with
      | none => exact .ret _
      | some props =>
        simp only [Prog.bind_eq, onData_bind]
        refine (eqOn_addColumns props).bind fun _ => (eqOn_insertFiles did a.files).bind fun ids => ?_
        by_cases hi : (ids.isEmpty || ids.length != a.files.length) = true
        · simp only [if_pos hi]; exact .ret _
        · simp only [if_neg hi, onData_bind, onData_forEach]
          refine EqOn.bind (EqOn.forEach (fun b => ?_) _) fun _ => eqOn_incr_raise.bind fun _ => .ret _
          unfold registerBatchF registerBatch
          cases parseBatch a did props b with
          | error e => exact .ret _
          | ok rows => exact eqOn_insertSamples rows

theorem eqOn_remove (n : PyStr) : EqOn Complete (removeF n) (onData (removeDataset n)) := by
  unfold removeF removeDataset checkF
  refine .stmt fun s hs => ?_
  have h2 : 2 ≤ s.stage := by rw [hs]; omega
  refine ⟨by simp only [if_pos h2], ?_, ?_⟩
  · simp only [if_pos h2]; exact hs
  simp only [if_pos h2, Option.getD_some, Prog.bind]
  by_cases hb : s.data.hasName n = true
  · simp only [if_pos hb]
    refine eqOn_sql_bind 6 (by omega) _ _ fun _ => eqOn_sql_bind 4 (by omega) _ _ fun _ =>
      eqOn_sql_bind 2 (by omega) _ _ fun ok => ?_
    cases ok with
    | false => exact .ret _
    | true => exact eqOn_incr_bind fun _ => .ret _
  · simp only [if_neg hb]
    exact .ret _

/-- **C85.** On a completely initialised file every operation behaves as on the database, with the same crash points. -/
theorem c85_complete_file (o : DbOp) (db : Db) :
    (opF o).run ⟨8, db⟩ = (⟨8, (o.prog.run db).1⟩, (o.prog.run db).2) ∧
    (opF o).states ⟨8, db⟩ = (o.prog.states db).map (DbFile.mk 8) ∧
    (listF.run ⟨8, db⟩) = (⟨8, db⟩, .ok (db.datasets.map DatasetRow.name)) := by
  have e : EqOn Complete (opF o) (onData o.prog) := by
    cases o with
    | register a => exact eqOn_register a
    | remove n => exact eqOn_remove n
  refine ⟨?_, ?_, rfl⟩
  · rw [e.run ⟨8, db⟩ (show Complete ⟨8, db⟩ from rfl), onData_run]
  · rw [e.states ⟨8, db⟩ (show Complete ⟨8, db⟩ from rfl), onData_states]

/-! ## Opening -/

/-- **C85.** Opening a directory that holds a database file always succeeds, and changes nothing (at no crash point). -/
theorem c85_reopen (f : DbFile) :
    openDir.run { file := some f } = ({ file := some f }, .ok ()) ∧
    ∀ t ∈ openDir.states { file := some f }, t = { file := some f } := by
  refine ⟨rfl, fun t ht => ?_⟩
  have : openDir.states { file := some f } = [{ file := some f }, { file := some f }, { file := some f }, { file := some f }] :=
    rfl
  rw [this] at ht
  simpa using ht

/-- **C85.** A directory that does not exist is refused, and not created. -/
theorem c85_missing (d : Dir) (h : d.found = false) :
    openDir.run d = (d, .error .runtimeError) ∧ ∀ t ∈ openDir.states d, t = d := by
  obtain ⟨b, f⟩ := d
  subst h
  refine ⟨rfl, fun t ht => ?_⟩
  have : openDir.states ⟨false, f⟩ = [⟨false, f⟩, ⟨false, f⟩] := rfl
  rw [this] at ht
  simpa using ht

/-- **C85.** The first opening of an empty directory, if it is not cut off, gives an empty database. -/
theorem c85_first_open : openDir.run {} = ({ file := some ⟨8, {}⟩ }, .ok ()) := by decide +kernel

/-- **C85.** What a crash during the first opening can leave behind: no file, or a file with the first `k` of the eight
objects, for any `k`. -/
theorem c85_first_open_crash (t : Dir) :
    t ∈ openDir.states {} ↔ t = {} ∨ ∃ k ≤ 8, t = { file := some ⟨k, {}⟩ } := by
  have : openDir.states {} = ([{}, {}, {}] : List Dir) ++ (List.range 9).map fun k => { file := some ⟨k, {}⟩ } := by decide +kernel
  rw [this]
  simp only [List.mem_append, List.mem_cons, List.not_mem_nil, or_false, or_self, List.mem_map, List.mem_range,
    Nat.lt_succ_iff]
  constructor
  · rintro (h | ⟨k, hk, e⟩)
    · exact .inl h
    · exact .inr ⟨k, hk, e.symm⟩
  · rintro (h | ⟨k, hk, e⟩)
    · exact .inl h
    · exact .inr ⟨k, hk, e.symm⟩

/-! ## After a completed first opening -/

/-- **C85 (partial).** Once the first opening has been completed, the directory can be opened at any time, whatever operations and
openings have been completed or cut off by crashes since: opening succeeds, changes nothing, and the database is one that the
same operations lead to without any reopening (so everything known about the database, C37 and C83, holds for it).
Missing: crashes during the first opening (`c85_never_repaired`). -/
theorem c85_reopen_any_time_partial (H : RegArgs → Prop) (d : Dir) (h : Reach H (openDir.run {}).1 d) :
    ∃ db, DbReach H db ∧ d = { file := some ⟨8, db⟩ } ∧ openDir.run d = (d, .ok ()) ∧
      (∀ o : DbOp, (opF o).run ⟨8, db⟩ = (⟨8, (o.prog.run db).1⟩, (o.prog.run db).2)) := by
  suffices hs : ∃ db, DbReach H db ∧ d = { file := some ⟨8, db⟩ } by
    obtain ⟨db, h1, h2⟩ := hs
    exact ⟨db, h1, h2, h2 ▸ (c85_reopen _).1, fun o => (c85_complete_file o db).1⟩
  induction h with
  | start => exact ⟨{}, .init, by rw [c85_first_open]⟩
  | opening _ ht ih =>
    obtain ⟨db, h1, rfl⟩ := ih
    exact ⟨db, h1, (c85_reopen _).2 _ ht⟩
  | register a _ hf ha ht ih =>
    obtain ⟨db, h1, rfl⟩ := ih
    cases hf
    have := (c85_complete_file (.register a) db).2.1
    rw [show registerF a = opF (.register a) from rfl, this] at ht
    obtain ⟨db', h2, rfl⟩ := List.mem_map.mp ht
    exact ⟨db', .register a h1 ha h2, rfl⟩
  | remove n _ hf ht ih =>
    obtain ⟨db, h1, rfl⟩ := ih
    cases hf
    have := (c85_complete_file (.remove n) db).2.1
    rw [show removeF n = opF (.remove n) from rfl, this] at ht
    obtain ⟨db', h2, rfl⟩ := List.mem_map.mp ht
    exact ⟨db', .remove n h1 h2, rfl⟩

/-! ## After a crash during the first opening -/

theorem holds_sql {k n : Nat} (f : Db → Db) (g : Db → α) (s : DbFile) (hs : s.stage = k) :
    Prog.Holds (fun t => t.stage = k) (fun r _ => k < n → r = none) (sql n f g) s := by
  refine ⟨?_, ?_⟩
  · intro t ht
    simp only [sql, Prog.states, List.mem_cons, List.not_mem_nil, or_false] at ht
    rcases ht with rfl | rfl
    · exact hs
    · split
      · exact hs
      · exact hs
  · intro r hr hk
    simp only [sql, Prog.run, Except.ok.injEq] at hr
    rw [← hr, if_neg (by omega)]

theorem holds_incr {k : Nat} (hk : k < 8) (s : DbFile) (hs : s.stage = k) :
    Prog.Holds (fun t => t.stage = k) (fun r _ => r = none) incrVersionF s := by
  unfold incrVersionF
  refine Prog.Holds.bind (post := fun r _ => r = none) ?_ fun r t ht hr => ?_
  · have h8 : ¬ 8 ≤ s.stage := by omega
    refine ⟨?_, ?_⟩
    · intro t ht
      simp only [getVersion, Prog.states, if_neg h8, List.mem_cons] at ht
      rcases ht with rfl | ht
      · exact hs
      · by_cases h7 : 7 ≤ s.stage
        · simp only [if_pos h7, Prog.states, List.mem_singleton] at ht; rw [ht]; exact hs
        · simp only [if_neg h7, Prog.states, List.mem_singleton] at ht; rw [ht]; exact hs
    · intro r hr
      simp only [getVersion, Prog.run, if_neg h8] at hr
      by_cases h7 : 7 ≤ s.stage
      · simp only [if_pos h7, Prog.run] at hr; cases hr
      · simp only [if_neg h7, Prog.run, Except.ok.injEq] at hr; exact hr.symm
  · subst hr
    exact .ret ht fun a ha => by cases ha; rfl

theorem holds_register {k : Nat} (hk : k < 8) (a : RegArgs) (s : DbFile) (hs : s.stage = k) :
    Prog.Holds (fun t => t.stage = k) (fun r _ => r = false) (registerF a) s := by
  unfold registerF
  refine Prog.Holds.bind (post := fun r _ => r = none) ?_ fun r t ht hr => ?_
  · unfold insertDatasetF
    by_cases hv : a.validType = true
    · rw [if_pos hv]
      refine (holds_sql (n := 2) _ _ s hs).bind fun r t ht _ => ?_
      match r with
      | none => exact .ret ht fun a ha => by cases ha; rfl
      | some none => exact .ret ht fun a ha => by cases ha; rfl
      | some (some did) =>
        refine (holds_incr hk t ht).bind fun v u hu hv => ?_
        subst hv
        exact .ret hu fun a ha => by cases ha; rfl
    · rw [if_neg hv]
      exact .ret hs fun a ha => by cases ha; rfl
  · subst hr
    exact .ret ht fun a ha => by cases ha; rfl

theorem holds_remove {k : Nat} (hk : k < 8) (n : PyStr) (s : DbFile) (hs : s.stage = k) :
    Prog.Holds (fun t => t.stage = k) (fun r _ => r = false) (removeF n) s := by
  have hret : ∀ (t : DbFile), t.stage = k →
      Prog.Holds (fun t => t.stage = k) (fun (r : Bool) _ => r = false) (.ret (.ok false)) t :=
    fun t ht => .ret ht fun a ha => by cases ha; rfl
  unfold removeF
  refine Prog.Holds.bind (post := fun _ _ => True) ?_ fun there t ht _ => ?_
  · exact (holds_sql (n := 2) _ _ s hs).bind fun r t ht _ => .ret ht fun _ _ => trivial
  · cases there with
    | false => exact hret t ht
    | true =>
      simp only [if_true]
      refine (holds_sql (n := 6) _ _ t ht).bind fun r u hu _ => ?_
      cases r with
      | none => exact hret u hu
      | some _ =>
        refine (holds_sql (n := 4) _ _ u hu).bind fun r v hv _ => ?_
        cases r with
        | none => exact hret v hv
        | some _ =>
          refine (holds_sql (n := 2) _ _ v hv).bind fun r w hw _ => ?_
          cases r with
          | none => exact hret w hw
          | some ok =>
            cases ok with
            | false => exact hret w hw
            | true =>
              refine (holds_incr hk w hw).bind fun r x hx hr => ?_
              subst hr
              exact hret x hx

theorem query_fails {k : Nat} (hk : k < 8) (eval : Db → Except Err α) (s : DbFile) (hs : s.stage = k) :
    ∃ e, ((queryF eval).run s).2 = .error e := by
  have h8 : ¬ 8 ≤ s.stage := by omega
  by_cases h6 : 6 ≤ s.stage
  · simp only [queryF, orRaise, sql, Prog.bind, Prog.run, if_pos h6]
    cases eval s.data with
    | error e => exact ⟨e, rfl⟩
    | ok a =>
      simp only [getVersion, Prog.bind, Prog.run, id, if_neg h8]
      by_cases h7 : 7 ≤ s.stage
      · simp only [if_pos h7]; exact ⟨_, rfl⟩
      · simp only [if_neg h7]; exact ⟨_, rfl⟩
  · simp only [queryF, orRaise, sql, Prog.bind, Prog.run, if_neg h6]
    exact ⟨_, rfl⟩

/-- What a history leaves of an incomplete file is an incomplete file. -/
theorem reach_incomplete {H : RegArgs → Prop} {k : Nat} (hk : k < 8) {db : Db} {d : Dir}
    (h : Reach H { file := some ⟨k, db⟩ } d) : ∃ db', d = { file := some ⟨k, db'⟩ } := by
  induction h with
  | start => exact ⟨db, rfl⟩
  | opening _ ht ih =>
    obtain ⟨db', rfl⟩ := ih
    exact ⟨db', (c85_reopen _).2 _ ht⟩
  | @register _ _ t a _ hf _ ht ih =>
    obtain ⟨db', rfl⟩ := ih
    cases hf
    have : t.stage = k := (holds_register hk a _ rfl).1 t ht
    subst this
    exact ⟨t.data, rfl⟩
  | @remove _ _ t n _ hf ht ih =>
    obtain ⟨db', rfl⟩ := ih
    cases hf
    have : t.stage = k := (holds_remove hk n _ rfl).1 t ht
    subst this
    exact ⟨t.data, rfl⟩

/-- **C85 (the full claim fails).** If the process dies during the first opening after the file has been created and before
the last statement, the directory is never usable: whatever is done to it afterwards, every opening reports success, but no
registration and no removal ever returns `True`, and every query raises. -/
theorem c85_never_repaired (H : RegArgs → Prop) (t d : Dir) (ht : t ∈ openDir.states {}) (h0 : t.file ≠ none)
    (h8 : t ≠ (openDir.run {}).1) (h : Reach H t d) :
    openDir.run d = (d, .ok ()) ∧ ∃ f, d.file = some f ∧
      (∀ a, ((registerF a).run f).2 ≠ .ok true) ∧ (∀ n, ((removeF n).run f).2 ≠ .ok true) ∧
      (∀ (α : Type) (eval : Db → Except Err α), ∃ e, ((queryF eval).run f).2 = .error e) := by
  rcases (c85_first_open_crash t).mp ht with rfl | ⟨k, hk, rfl⟩
  · exact absurd rfl h0
  have hk' : k < 8 := by
    refine lt_of_le_of_ne hk fun e => h8 ?_
    rw [c85_first_open, e]
  obtain ⟨db, rfl⟩ := reach_incomplete hk' h
  refine ⟨(c85_reopen _).1, _, rfl, fun a e => ?_, fun n e => ?_, fun α eval => query_fails hk' eval _ rfl⟩
  · exact Bool.noConfusion ((holds_register hk' a ⟨k, db⟩ rfl).2 _ e)
  · exact Bool.noConfusion ((holds_remove hk' n ⟨k, db⟩ rfl).2 _ e)

/-- A registration of one file without properties and samples. -/
def plainReg : RegArgs where
  name := ['d']
  loc := ['/', 'd']
  validType := true
  dtype := 1
  func := ['f']
  files := [['/', 'd']]
  props := some []
  parse := fun _ => .ok []

/-- **C85.** Exactly which crash points are harmless: a directory left behind by a crash of the first opening can ever be
registered in again iff the crash came before the file was created or after everything was done. -/
theorem c85_usable_iff (t : Dir) (ht : t ∈ openDir.states {}) :
    (∃ (d : Dir) (f : DbFile) (a : RegArgs), Reach (fun _ => True) t d ∧ d.file = some f ∧ ((registerF a).run f).2 = .ok true) ↔
    t.file = none ∨ t.file = some ⟨8, {}⟩ := by
  have good : ((registerF plainReg).run ⟨8, {}⟩).2 = .ok true := by
    have := (c85_complete_file (.register plainReg) {}).1
    rw [show opF (.register plainReg) = registerF plainReg from rfl] at this
    rw [this]
    decide +kernel
  constructor
  · rintro ⟨d, f, a, h, hf, hr⟩
    by_contra hne
    rw [not_or] at hne
    have h8 : t ≠ (openDir.run {}).1 := by
      rw [c85_first_open]
      rintro rfl
      exact hne.2 rfl
    obtain ⟨_, f', hf', hreg, _⟩ := c85_never_repaired _ t d ht hne.1 h8 h
    rw [hf] at hf'
    cases hf'
    exact hreg a hr
  · intro h
    have ht' : t = {} ∨ t = { file := some ⟨8, {}⟩ } := by
      rcases (c85_first_open_crash t).mp ht with rfl | ⟨k, _, rfl⟩
      · exact .inl rfl
      · rcases h with h | h
        · cases h
        · simp only [Option.some.injEq, DbFile.mk.injEq, and_true] at h
          exact .inr (by rw [h])
    rcases ht' with rfl | rfl
    · refine ⟨{ file := some ⟨8, {}⟩ }, ⟨8, {}⟩, plainReg, ?_, rfl, good⟩
      exact .opening .start ((c85_first_open_crash _).mpr (.inr ⟨8, le_rfl, rfl⟩))
    · exact ⟨_, ⟨8, {}⟩, plainReg, .start, rfl, good⟩

/-- **C85.** In such a directory a registration returns `False`, although the dataset is listed and found from then on. -/
theorem c85_false_but_listed (a : RegArgs) (k : Nat) (db : Db) (hk : 2 ≤ k) (hk' : k < 7) (hv : a.validType = true)
    (hn : ∀ r ∈ db.datasets, r.name ≠ a.name) :
    ∃ f, (registerF a).run ⟨k, db⟩ = (f, .ok false) ∧ (checkF a.name).run f = (f, .ok true) ∧
      ∃ names, listF.run f = (f, .ok names) ∧ a.name ∈ names := by
  have hn' : db.hasName a.name = false := by
    rw [Db.hasName, List.any_eq_false]
    exact fun r hr => by simpa using hn r hr
  have h8 : ¬ 8 ≤ k := by omega
  have h7 : ¬ 7 ≤ k := by omega
  refine ⟨⟨k, insertDatasetStmt a db⟩, ?_, ?_, ?_⟩
  · simp only [registerF, insertDatasetF, hv, if_true, sql, incrVersionF, getVersion, Prog.bind, Prog.run, if_pos hk, hn', id]
    simp [Prog.bind, Prog.run, h8, h7]
  · simp only [checkF, sql, Prog.bind, Prog.run, if_pos hk, id, Option.getD_some]
    have : (insertDatasetStmt a db).hasName a.name = true := by
      unfold insertDatasetStmt
      simp only [hn']
      simp [Db.hasName]
    rw [this]
  · refine ⟨(insertDatasetStmt a db).datasets.map DatasetRow.name, ?_, ?_⟩
    · simp only [listF, sql, Prog.bind, Prog.run, if_pos hk, id, Option.getD_some]
    · simp [insertDatasetStmt, hn']

/-- **C85.** If the crash came before the table of datasets was created, no dataset is found or listed, and asking changes nothing. -/
theorem c85_nothing_listed (k : Nat) (hk : k < 2) (db : Db) (n : PyStr) :
    (checkF n).run ⟨k, db⟩ = (⟨k, db⟩, .ok false) ∧ listF.run ⟨k, db⟩ = (⟨k, db⟩, .ok []) := by
  have h2 : ¬ 2 ≤ k := by omega
  constructor <;> simp [checkF, listF, sql, Prog.bind, Prog.run, h2]

/-- **C85.** Two processes open an empty directory for the first time, and this one finds no file while the other one has created it
by the time this one connects: the creation of the tables raises and, at every crash point, leaves the file as the other process
left it. -/
theorem c85_late_first_opening (b : Bool) (f : DbFile) (h : 1 ≤ f.stage) :
    (initDatabase.run ⟨b, some f⟩ = (⟨b, some f⟩, .error .runtimeError)) ∧
    ∀ t ∈ initDatabase.states ⟨b, some f⟩, t = ⟨b, some f⟩ := by
  obtain ⟨k, db⟩ := f
  have h0 : ¬ k = 0 := by simp only at h; omega
  have e : initDatabase = connect.bind fun _ => (createStmt 0).bind fun _ => Prog.forEach createStmt [1, 2, 3, 4, 5, 6, 7] := rfl
  have e1 : connect.states ⟨b, some ⟨k, db⟩⟩ = [⟨b, some ⟨k, db⟩⟩, ⟨b, some ⟨k, db⟩⟩] := rfl
  constructor
  · rw [e]
    simp [connect, Prog.exec, createStmt, Prog.bind, Prog.run, h0]
  · rw [e]
    intro t ht
    simp [connect, Prog.exec, createStmt, Prog.bind, Prog.states, h0] at ht
    exact ht

/-! ## Concrete cases -/

/-- After a completed opening and a registration the directory is reachable and holds the dataset. -/
example : ∃ d f, Reach (fun _ => True) (openDir.run {}).1 d ∧ d.file = some f ∧ f.data.datasets.length = 1 := by
  refine ⟨_, ((registerF plainReg).run ⟨8, {}⟩).1, .register plainReg .start (f := ⟨8, {}⟩) ?_ trivial
    (Prog.run_mem_states _ _), rfl, ?_⟩
  · rw [c85_first_open]
  · decide +kernel

/-- A crash after the table of datasets has been created satisfies the hypotheses of `c85_never_repaired`. -/
example : ({ file := some ⟨2, {}⟩ } : Dir) ∈ openDir.states {} ∧ ({ file := some ⟨2, {}⟩ } : Dir) ≠ (openDir.run {}).1 :=
  ⟨(c85_first_open_crash _).mpr (.inr ⟨2, by omega, rfl⟩), by decide +kernel⟩

end Mixtera.Opening
