import Verif.Props.Database
import Verif.Model.QueryCache

set_option linter.unusedSectionVars false

/-! # C36: cached query results -/

namespace Mixtera

/-! ## The text determines the query -/

/-- Texts that can be told apart whatever follows them. -/
def SelfDelim {α : Type} (f : α → PyStr) : Prop := ∀ a b x y, f a ++ x = f b ++ y → a = b ∧ x = y

theorem reprQuote_ne (s : PyStr) : reprQuote s ≠ '\\' ∧ reprQuote s ≠ '\n' := by
  unfold reprQuote; split <;> decide

theorem reprBody {q : Char} (hq : q ≠ '\\') (hn : q ≠ 'n') : ∀ (s t x y : PyStr),
    s.flatMap (reprChar q) ++ q :: x = t.flatMap (reprChar q) ++ q :: y → s = t ∧ x = y
  | [], [], x, y, h => by simpa using h
  | [], c :: t, x, y, h => by
    exfalso
    simp only [List.flatMap_nil, List.nil_append, List.flatMap_cons, reprChar] at h
    split at h
    · simp only [List.cons_append, List.cons.injEq] at h; exact hq h.1
    · split at h
      · simp only [List.cons_append, List.cons.injEq] at h; exact hq h.1
      · split at h
        · simp only [List.cons_append, List.cons.injEq] at h; exact hq h.1
        · rename_i h2 _
          simp only [List.cons_append, List.cons.injEq] at h; exact h2 h.1.symm
  | c :: s, [], x, y, h => by
    exfalso
    simp only [List.flatMap_nil, List.nil_append, List.flatMap_cons, reprChar] at h
    split at h
    · simp only [List.cons_append, List.cons.injEq] at h; exact hq h.1.symm
    · split at h
      · simp only [List.cons_append, List.cons.injEq] at h; exact hq h.1.symm
      · split at h
        · simp only [List.cons_append, List.cons.injEq] at h; exact hq h.1.symm
        · rename_i h2 _
          simp only [List.cons_append, List.cons.injEq] at h; exact h2 h.1
  | c :: s, d :: t, x, y, h => by
    have key : ∀ u v : PyStr, reprChar q c ++ u = reprChar q d ++ v → c = d ∧ u = v := by
      clear h
      intro u v e
      unfold reprChar at e
      by_cases c1 : c = '\\' <;> by_cases c2 : c = q <;> by_cases c3 : c = '\n' <;>
        by_cases d1 : d = '\\' <;> by_cases d2 : d = q <;> by_cases d3 : d = '\n' <;>
        simp only [c1, c2, c3, d1, d2, d3, if_true, if_false, List.cons_append, List.nil_append, List.cons.injEq] at e <;>
        grind
    simp only [List.flatMap_cons, List.append_assoc] at h
    obtain ⟨h1, h2⟩ := key _ _ h
    obtain ⟨h3, h4⟩ := reprBody hq hn s t x y h2
    exact ⟨by rw [h1, h3], h4⟩

theorem reprStr_delim : SelfDelim reprStr := by
  intro a b x y h
  simp only [reprStr, List.cons_append, List.append_assoc, List.cons.injEq, List.nil_append] at h
  obtain ⟨h1, h2⟩ := h
  rw [← h1] at h2
  refine reprBody (reprQuote_ne a).1 ?_ a b x y h2
  unfold reprQuote; split <;> decide

theorem reprStr_head (s x : PyStr) : ∃ c l, reprStr s ++ x = c :: l ∧ (c = '\'' ∨ c = '"') := by
  refine ⟨_, _, rfl, ?_⟩
  unfold reprQuote; split <;> simp

theorem reprOpt_delim : SelfDelim reprOpt := by
  intro a b x y h
  cases a with
  | none =>
    cases b with
    | none => simpa [reprOpt] using h
    | some t =>
      obtain ⟨c, l, e, hc⟩ := reprStr_head t y
      simp only [reprOpt, e, List.cons_append, List.cons.injEq] at h
      rcases hc with rfl | rfl <;> exact absurd h.1 (by decide)
  | some s =>
    cases b with
    | none =>
      obtain ⟨c, l, e, hc⟩ := reprStr_head s x
      simp only [reprOpt, e, List.cons_append, List.cons.injEq] at h
      rcases hc with rfl | rfl <;> exact absurd h.1 (by decide)
    | some t =>
      obtain ⟨h1, h2⟩ := reprStr_delim s t x y h
      exact ⟨by rw [h1], h2⟩

/-- A list of self-delimiting texts that never start with `]` is self-delimiting. -/
theorem reprList_delim {α : Type} {f : α → PyStr} (hf : SelfDelim f) (hh : ∀ a x, ∃ c l, f a ++ x = c :: l ∧ c ≠ ']') :
    SelfDelim (reprList f) := by
  have key : ∀ (l m : List α) (x y : PyStr), reprSep f l ++ (']' :: x) = reprSep f m ++ (']' :: y) → l = m ∧ x = y := by
    intro l
    induction l with
    | nil =>
      intro m x y h
      cases m with
      | nil => simpa [reprSep] using h
      | cons b m =>
        exfalso
        cases m with
        | nil =>
          obtain ⟨c, l, e, hc⟩ := hh b (']' :: y)
          simp only [reprSep, List.nil_append, e, List.cons.injEq] at h
          exact hc h.1.symm
        | cons b2 m =>
          obtain ⟨c, l, e, hc⟩ := hh b ([',', ' '] ++ reprSep f (b2 :: m) ++ (']' :: y))
          simp only [reprSep, List.nil_append, List.append_assoc] at h e
          rw [e] at h
          simp only [List.cons.injEq] at h
          exact hc h.1.symm
    | cons a l ih =>
      intro m x y h
      cases m with
      | nil =>
        exfalso
        cases l with
        | nil =>
          obtain ⟨c, l, e, hc⟩ := hh a (']' :: x)
          simp only [reprSep, List.nil_append, e, List.cons.injEq] at h
          exact hc h.1
        | cons a2 l =>
          obtain ⟨c, l', e, hc⟩ := hh a ([',', ' '] ++ reprSep f (a2 :: l) ++ (']' :: x))
          simp only [reprSep, List.nil_append, List.append_assoc] at h e
          rw [e] at h
          simp only [List.cons.injEq] at h
          exact hc h.1
      | cons b m =>
        cases l with
        | nil =>
          cases m with
          | nil =>
            obtain ⟨h1, h2⟩ := hf a b _ _ (by simpa only [reprSep] using h)
            simp only [List.cons.injEq, true_and] at h2
            exact ⟨by rw [h1], h2⟩
          | cons b2 m =>
            obtain ⟨h1, h2⟩ := hf a b _ _ (by simpa only [reprSep, List.append_assoc] using h)
            simp at h2
        | cons a2 l =>
          cases m with
          | nil =>
            obtain ⟨h1, h2⟩ := hf a b _ _ (by simpa only [reprSep, List.append_assoc] using h)
            simp at h2
          | cons b2 m =>
            obtain ⟨h1, h2⟩ := hf a b _ _ (by simpa only [reprSep, List.append_assoc] using h)
            simp only [List.cons_append, List.nil_append, List.cons.injEq, true_and] at h2
            obtain ⟨h3, h4⟩ := ih _ _ _ h2
            exact ⟨by rw [h1, h3], h4⟩
  intro l m x y h
  simp only [reprList, List.cons_append, List.append_assoc, List.nil_append, List.cons.injEq, true_and] at h
  exact key l m x y h

theorem reprOpt_head (a : Option PyStr) (x : PyStr) : ∃ c l, reprOpt a ++ x = c :: l ∧ c ≠ ']' := by
  cases a with
  | none => exact ⟨'N', _, rfl, by decide⟩
  | some s =>
    obtain ⟨c, l, e, hc⟩ := reprStr_head s x
    exact ⟨c, l, e, by rcases hc with rfl | rfl <;> decide⟩

theorem reprVal_delim : SelfDelim reprVal := by
  intro a b x y h
  cases a with
  | none =>
    cases b with
    | none => simpa [reprVal] using h
    | one t =>
      obtain ⟨c, l, e, hc⟩ := reprStr_head t y
      simp only [reprVal, e, List.cons_append, List.cons.injEq] at h
      rcases hc with rfl | rfl <;> exact absurd h.1 (by decide)
    | many m => simp [reprVal, reprList] at h
  | one s =>
    obtain ⟨c, l, e, hc⟩ := reprStr_head s x
    cases b with
    | none =>
      simp only [reprVal, e, List.cons_append, List.cons.injEq] at h
      rcases hc with rfl | rfl <;> exact absurd h.1 (by decide)
    | one t =>
      obtain ⟨h1, h2⟩ := reprStr_delim s t x y h
      exact ⟨by rw [h1], h2⟩
    | many m =>
      simp only [reprVal, e, reprList, List.cons_append, List.cons.injEq] at h
      rcases hc with rfl | rfl <;> exact absurd h.1 (by decide)
  | many l =>
    cases b with
    | none => simp [reprVal, reprList] at h
    | one t =>
      obtain ⟨c, l, e, hc⟩ := reprStr_head t y
      simp only [reprVal, e, reprList, List.cons_append, List.cons.injEq] at h
      rcases hc with rfl | rfl <;> exact absurd h.1 (by decide)
    | many m =>
      obtain ⟨h1, h2⟩ := reprList_delim reprOpt_delim reprOpt_head l m x y h
      exact ⟨by rw [h1], h2⟩

theorem reprCond_delim : SelfDelim reprCond := by
  intro a b x y h
  obtain ⟨af, ao, av⟩ := a
  obtain ⟨bf, bo, bv⟩ := b
  simp only [reprCond, List.cons_append, List.append_assoc, List.cons.injEq, true_and] at h
  obtain ⟨h1, h⟩ := reprStr_delim _ _ _ _ h
  simp only [List.nil_append, List.cons.injEq, true_and] at h
  obtain ⟨h2, h⟩ := reprStr_delim _ _ _ _ h
  simp only [List.nil_append, List.cons.injEq, true_and] at h
  obtain ⟨h3, h⟩ := reprVal_delim _ _ _ _ h
  simp only [List.nil_append, List.cons.injEq, true_and] at h
  exact ⟨by rw [h1, h2, h3], h⟩

theorem reprCond_head (a : Cond) (x : PyStr) : ∃ c l, reprCond a ++ x = c :: l ∧ c ≠ ']' := by
  unfold reprCond
  exact ⟨'(', _, List.cons_append, by decide⟩

theorem reprConds_delim : SelfDelim (reprList reprCond) := reprList_delim reprCond_delim reprCond_head

theorem selectStr_delim : SelfDelim selectStr := by
  intro a b x y h
  unfold selectStr at h
  rw [List.append_assoc, List.append_assoc, List.append_assoc, List.append_assoc, List.append_cancel_left_eq] at h
  obtain ⟨h1, h2⟩ := reprConds_delim a b _ _ h
  simp only [List.cons_append, List.nil_append, List.cons.injEq, true_and] at h2
  exact ⟨h1, h2⟩

/-- **C36, same text, same query**: two different queries never have the same text. -/
theorem c36_text_identifies_query : Function.Injective queryText := by
  rintro ⟨a, as⟩ ⟨b, bs⟩ h
  obtain ⟨h1, h2⟩ := selectStr_delim a b _ _ h
  simp only at h2
  have key : ∀ l m : List (List Cond), l.flatMap (fun c => ['\n', '-', '>', ' '] ++ selectStr c) =
      m.flatMap (fun c => ['\n', '-', '>', ' '] ++ selectStr c) → l = m := by
    intro l
    induction l with
    | nil =>
      intro m h
      cases m with
      | nil => rfl
      | cons b m => simp at h
    | cons a l ih =>
      intro m h
      cases m with
      | nil => simp at h
      | cons b m =>
        simp only [List.flatMap_cons, List.append_assoc] at h
        rw [List.append_cancel_left_eq] at h
        obtain ⟨h3, h4⟩ := selectStr_delim a b _ _ h
        rw [h3, ih m h4]
  rw [h1, key as bs h2]

/-! ## Soundness of the cache -/

namespace Dict
variable {α β : Type} [DecidableEq α]

theorem mem_upsert {d : Dict α β} {k : α} {f : Option β → β} {p : α × β} (h : p ∈ d.upsert k f) :
    p ∈ d ∨ p = (k, f (d.get? k)) := by
  induction d with
  | nil => simpa [upsert] using h
  | cons ab d ih =>
    obtain ⟨a, b⟩ := ab
    simp only [upsert] at h
    split at h
    · rename_i e
      subst e
      simp only [List.mem_cons] at h
      rcases h with h | h
      · right; simp [get?_cons, h]
      · left; simp [h]
    · rename_i e
      simp only [List.mem_cons] at h
      rcases h with h | h
      · left; simp [h]
      · rcases ih h with h | h
        · left; simp [h]
        · right; rw [h, get?_cons, if_neg e]

theorem mem_of_mem_pop {d : Dict α β} {k : α} {p : α × β} (h : p ∈ d.pop k) : p ∈ d := by
  induction d with
  | nil => simp [pop] at h
  | cons ab d ih =>
    obtain ⟨a, b⟩ := ab
    simp only [pop] at h
    split at h
    · simp [h]
    · simp only [List.mem_cons] at h ⊢
      rcases h with h | h
      · exact Or.inl h
      · exact Or.inr (ih h)

theorem upsert_upsert (d : Dict α β) (k : α) (f g : Option β → β) :
    (d.upsert k f).upsert k g = d.upsert k fun o => g (some (f o)) := by
  induction d with
  | nil => simp [upsert]
  | cons ab d ih =>
    obtain ⟨a, b⟩ := ab
    simp only [upsert]
    split
    · rename_i e; simp [upsert, e]
    · rename_i e; simp [upsert, e, ih]

end Dict

/-- What a query can see of the database: the columns, the samples, and the files and datasets samples belong to. -/
def Db.visible (db : Db) : Dict PyStr Bool × List SampleRow × List FileRow × List DatasetRow :=
  (db.columns, db.samples, db.files.filter fun f => db.samples.any fun s => s.file == f.id,
    db.datasets.filter fun d => db.samples.any fun s => s.dataset == d.id)

variable {Q R : Type}

/-- What is assumed of the surroundings of the cache: different queries have different texts, listing a directory shows
its entries in some order, and a query's result depends on what it can see. Nothing is assumed of the hash. -/
structure CacheEnv.OK (E : CacheEnv Q R) : Prop where
  inj : Function.Injective E.text
  order : ∀ l d, d ∈ E.order l ↔ d ∈ l
  sees : ∀ db db' q, db.visible = db'.visible → E.eval db q = E.eval db' q

/-- The states of the system after any sequence of completed registrations and removals (successful or not),
registrations that crashed anywhere, and queries that completed or crashed anywhere. -/
inductive CacheReach (E : CacheEnv Q R) : Sys R → Prop where
  | init : CacheReach E ⟨{}, []⟩
  | op {s : Sys R} (o : DbOp) : CacheReach E s → CacheReach E { s with db := (o.prog.run s.db).1 }
  | crashedRegister {s : Sys R} {t : Db} (a : RegArgs) : CacheReach E s → t ∈ (registerDataset a).states s.db →
      CacheReach E { s with db := t }
  | query {s t : Sys R} (q : Q) : CacheReach E s → t ∈ (executeQuery E q).states s → CacheReach E t

/-! ### Registrations -/

theorem states_incrVersion (s t : Db) (h : t ∈ incrVersion.states s) :
    t = s ∨ t = { s with version := s.version + 1 } := by
  simp only [incrVersion, Prog.bind_eq, Prog.exec, Prog.bind, Prog.states, List.mem_cons, List.not_mem_nil, or_false,
    id] at h
  tauto

/-- All states of the program are related to the one it started in. -/
def Prog.Keeps {σ α : Type} (R : σ → σ → Prop) (x : Prog σ α) : Prop := ∀ s, ∀ t ∈ x.states s, R s t

theorem Prog.Keeps.bind {σ α β : Type} {R : σ → σ → Prop} (ht : ∀ a b c, R a b → R b c → R a c) {x : Prog σ α}
    {g : α → Prog σ β} (hx : Prog.Keeps R x) (hg : ∀ a, Prog.Keeps R (g a)) : Prog.Keeps R (x.bind g) := by
  intro s t h
  rw [Prog.mem_states_bind] at h
  rcases h with h | ⟨a, _, h⟩
  · exact hx s t h
  · exact ht _ _ _ (hx s _ (Prog.run_mem_states x s)) (hg a _ t h)

theorem Prog.Keeps.forEach {σ β : Type} {R : σ → σ → Prop} (hr : ∀ a, R a a) (ht : ∀ a b c, R a b → R b c → R a c)
    {g : β → Prog σ Unit} (hg : ∀ b, Prog.Keeps R (g b)) : ∀ l, Prog.Keeps R (Prog.forEach g l)
  | [] => by intro s t h; simp only [Prog.forEach, Prog.states, List.mem_singleton] at h; rw [h]; exact hr s
  | b :: l => by
    rw [Prog.forEach]
    exact .bind ht (hg b) fun _ => .forEach hr ht hg l

theorem Prog.Keeps.exec {σ α : Type} {R : σ → σ → Prop} (hr : ∀ a, R a a) {f : σ → σ} {g : σ → α} (hf : ∀ s, R s (f s)) :
    Prog.Keeps R (Prog.exec f g) := by
  intro s t h
  simp only [Prog.exec, Prog.states, List.mem_cons, List.not_mem_nil, or_false] at h
  rcases h with rfl | rfl
  · exact hr _
  · exact hf s

theorem Prog.Keeps.ret {σ α : Type} {R : σ → σ → Prop} (hr : ∀ a, R a a) (r : Except Err α) :
    Prog.Keeps R (Prog.ret r) := by
  intro s t h
  simp only [Prog.states, List.mem_singleton] at h
  rw [h]; exact hr s

/-- The version does not go back. -/
def VersionLe (s t : Db) : Prop := s.version ≤ t.version

theorem VersionLe.trans' (a b c : Db) (h : VersionLe a b) (h2 : VersionLe b c) : VersionLe a c := Nat.le_trans h h2
theorem VersionLe.refl' (a : Db) : VersionLe a a := Nat.le_refl _

theorem keeps_incrVersion : Prog.Keeps VersionLe incrVersion := by
  intro s t h
  rcases states_incrVersion s t h with rfl | rfl
  · exact Nat.le_refl _
  · exact Nat.le_succ _

theorem keeps_rest (a : RegArgs) (did : Nat) (props : List (PyStr × Bool)) :
    Prog.Keeps VersionLe ((addColumns props).bind fun _ => (insertFiles did a.files).bind fun ids =>
      if ids.isEmpty || ids.length != a.files.length then (.ret (.ok false) : Prog Db Bool)
      else (Prog.forEach (registerBatch a did props) (slices 2000 a.files.length (ids.zip a.files))).bind fun _ =>
        incrVersion.bind fun _ => .ret (.ok true)) := by
  have ht := VersionLe.trans'
  have hr := VersionLe.refl'
  refine .bind ht ?_ fun _ => .bind ht ?_ fun ids => ?_
  · unfold addColumns
    rw [Prog.bind_eq]
    refine .bind ht (.exec hr fun s => Nat.le_refl _) fun _ => .forEach hr ht (fun b => .exec hr ?_) _
    exact fun s => Nat.le_refl s.version
  · unfold insertFiles
    rw [Prog.bind_eq]
    refine .bind ht (.exec hr fun s => ?_) fun o => ?_
    · unfold VersionLe; split <;> exact Nat.le_refl _
    · cases o with
      | none => exact .ret hr _
      | some l => exact .bind ht keeps_incrVersion fun _ => .ret hr _
  · split
    · exact .ret hr _
    · refine .bind ht (.forEach hr ht (fun tasks => ?_) _) fun _ => .bind ht keeps_incrVersion fun _ => .ret hr _
      unfold registerBatch
      split
      · exact .ret hr _
      · intro s t h
        simp only [insertSamples, Prog.states, List.mem_cons] at h
        rcases h with rfl | h
        · exact hr _
        · split at h <;> simp only [Prog.states, List.mem_singleton] at h <;> subst h <;> exact Nat.le_refl _

theorem insertDataset_states (a : RegArgs) (db t : Db) (h : db.WF) (ht : t ∈ (insertDataset a).states db) :
    (t.visible = db.visible ∧ t.version = db.version) ∨ db.version < t.version := by
  have key : (insertDatasetStmt a db).visible = db.visible ∧ (insertDatasetStmt a db).version = db.version := by
    unfold insertDatasetStmt
    split
    · exact ⟨rfl, rfl⟩
    · refine ⟨?_, rfl⟩
      simp only [Db.visible, List.filter_append, Prod.mk.injEq, true_and]
      conv_rhs => rw [← List.append_nil (db.datasets.filter _)]
      congr 1
      rw [List.filter_eq_nil_iff]
      intro d hd
      simp only [List.mem_singleton] at hd
      subst hd
      simp only [List.any_eq_true, beq_iff_eq, not_exists, not_and]
      intro s hs e
      have := h.sampleDs s hs
      omega
  unfold insertDataset at ht
  split at ht
  · rw [Prog.bind_eq, Prog.mem_states_bind] at ht
    rcases ht with ht | ⟨o, h1, h2⟩
    · simp only [Prog.exec, Prog.states, List.mem_cons, List.not_mem_nil, or_false] at ht
      rcases ht with rfl | rfl
      · exact Or.inl ⟨rfl, rfl⟩
      · exact Or.inl key
    · simp only [Prog.run_exec] at h1 h2
      cases o with
      | none =>
        simp only [Prog.pure_eq, Prog.states, List.mem_singleton] at h2
        subst h2; exact Or.inl key
      | some did =>
        simp only [Prog.bind_eq] at h2
        rw [Prog.mem_states_bind] at h2
        have h3 : t ∈ incrVersion.states (insertDatasetStmt a db) ∨ t = { insertDatasetStmt a db with version := (insertDatasetStmt a db).version + 1 } := by
          rcases h2 with h2 | ⟨_, _, h2⟩
          · exact Or.inl h2
          · right
            simpa [Prog.pure_eq, Prog.states, run_incrVersion] using h2
        rcases h3 with h3 | rfl
        · rcases states_incrVersion _ _ h3 with rfl | rfl
          · exact Or.inl key
          · right; simp [key.2]
        · right; simp [key.2]
  · simp only [Prog.pure_eq, Prog.states, List.mem_singleton] at ht
    subst ht; exact Or.inl ⟨rfl, rfl⟩

/-- Wherever a registration is stopped: queries see what they saw before and the version is the same, or the version
has grown. -/
theorem register_states (a : RegArgs) (db t : Db) (h : db.WF) (ht : t ∈ (registerDataset a).states db) :
    (t.visible = db.visible ∧ t.version = db.version) ∨ db.version < t.version := by
  unfold registerDataset at ht
  rw [Prog.bind_eq, Prog.mem_states_bind] at ht
  rcases ht with ht | ⟨o, h1, h2⟩
  · exact insertDataset_states a db t h ht
  · have h0 := insertDataset_states a db _ h (Prog.run_mem_states (insertDataset a) db)
    cases o with
    | none =>
      simp only [Prog.pure_eq, Prog.states, List.mem_singleton] at h2
      subst h2; exact h0
    | some did =>
      have hlt : db.version < ((insertDataset a).run db).1.version := by
        by_cases hv : a.validType = true
        · cases hn : db.hasName a.name with
          | true => rw [insertDataset_none (Or.inr hn)] at h1; simp at h1
          | false => rw [run_insertDataset a db hv hn]; simp
        · rw [insertDataset_none (Or.inl (by simpa using hv))] at h1; simp at h1
      right
      refine Nat.lt_of_lt_of_le hlt ?_
      dsimp only at h2
      split at h2
      · simp only [Prog.pure_eq, Prog.states, List.mem_singleton] at h2
        subst h2; exact Nat.le_refl _
      · split at h2
        · simp only [Prog.raise, Prog.states, List.mem_singleton] at h2
          subst h2; exact Nat.le_refl _
        · rename_i props _
          exact keeps_rest a did props _ t h2

theorem op_run (o : DbOp) (db : Db) (h : db.WF) :
    ((o.prog.run db).1.visible = db.visible ∧ (o.prog.run db).1.version = db.version) ∨
      db.version < (o.prog.run db).1.version := by
  cases o with
  | register a => exact register_states a db _ h (Prog.run_mem_states _ _)
  | remove n =>
    show ((((removeDataset n).run db).1.visible = _ ∧ ((removeDataset n).run db).1.version = _) ∨
      _ < ((removeDataset n).run db).1.version)
    rw [run_remove]
    split
    · right; simp [afterRemove]
    · exact Or.inl ⟨rfl, rfl⟩

/-! ### The invariant -/

/-- What is known of a directory when the database is `db`. -/
def DirOk (E : CacheEnv Q R) (db : Db) (d : CacheDir R) : Prop :=
  ∀ v t, d.info = .full v t → v ≤ db.version ∧
    (v = db.version → ∀ q, E.text q = t → ∀ r, d.results = some r → r = E.eval db q)

/-- The invariant of the cache. -/
structure CacheInv (E : CacheEnv Q R) (s : Sys R) : Prop where
  wf : s.db.WF
  dirs : ∀ p ∈ s.cache, ∀ d ∈ p.2, DirOk E s.db d

theorem CacheInv.db {E : CacheEnv Q R} (hE : E.OK) {s : Sys R} (h : CacheInv E s) {t : Db} (hw : t.WF)
    (hv : (t.visible = s.db.visible ∧ t.version = s.db.version) ∨ s.db.version < t.version) :
    CacheInv E { s with db := t } := by
  refine ⟨hw, fun p hp d hd v x e => ?_⟩
  obtain ⟨h1, h2⟩ := h.dirs p hp d hd v x e
  rcases hv with ⟨hv1, hv2⟩ | hv
  · refine ⟨by simp only; omega, fun ev q eq r er => ?_⟩
    rw [hE.sees t s.db q hv1]
    exact h2 (by simp only at ev; omega) q eq r er
  · exact ⟨by simp only; omega, fun ev => by simp only at ev; omega⟩

theorem lt_nextNumber {l : List (CacheDir R)} : ∀ d ∈ l, d.num < nextNumber l := by
  induction l with
  | nil => simp
  | cons a l ih =>
    intro d hd
    simp only [List.mem_cons] at hd
    simp only [nextNumber]
    rcases hd with rfl | hd
    · omega
    · have := ih d hd; omega

theorem lookupCache_inv {E : CacheEnv Q R} {s : Sys R} (h : CacheInv E s) (q : Q) :
    CacheInv E (lookupCache E q s) ∧ (lookupCache E q s).db = s.db := by
  unfold lookupCache
  dsimp only
  have hpop : ∀ k, CacheInv E { s with cache := s.cache.pop k } := fun k =>
    ⟨h.wf, fun p hp d hd => h.dirs p (Dict.mem_of_mem_pop hp) d hd⟩
  split
  · exact ⟨h, rfl⟩
  · rename_i dirs hg
    split
    · exact ⟨hpop _, rfl⟩
    · split
      · split
        · exact ⟨hpop _, rfl⟩
        · refine ⟨⟨h.wf, fun p hp d hd => ?_⟩, rfl⟩
          rcases Dict.mem_upsert hp with hp | hp
          · exact h.dirs p hp d hd
          · subst hp
            exact h.dirs _ (Dict.mem_of_get? hg) d (List.mem_filter.mp hd).1
      · exact ⟨h, rfl⟩

/-- The cache with one more directory for `q`. -/
def withDir (E : CacheEnv Q R) (q : Q) (info : MetaFile) (res : Option R) (s : Sys R) : Sys R :=
  { s with cache := s.cache.upsert (E.hash (E.text q)) fun o =>
      o.getD [] ++ [⟨nextNumber (o.getD []), info, res⟩] }

theorem cacheMkdir_eq (E : CacheEnv Q R) (q : Q) (s : Sys R) : cacheMkdir E q s = withDir E q .missing none s := rfl

theorem cacheUpdate_withDir (E : CacheEnv Q R) (q : Q) (info info' : MetaFile) (res res' : Option R) (s : Sys R)
    (f : CacheDir R → CacheDir R) (hf : ∀ n, f ⟨n, info, res⟩ = ⟨n, info', res'⟩) :
    cacheUpdate E q (nextNumber ((s.cache.get? (E.hash (E.text q))).getD [])) f (withDir E q info res s) =
      withDir E q info' res' s := by
  unfold cacheUpdate withDir
  simp only [Sys.mk.injEq, true_and]
  rw [Dict.upsert_upsert]
  have : ∀ (c : Dict PyStr (List (CacheDir R))) (k : PyStr) (f g : Option (List (CacheDir R)) → List (CacheDir R)),
      f (c.get? k) = g (c.get? k) → c.upsert k f = c.upsert k g := by
    intro c k f g e
    induction c with
    | nil => simpa [Dict.upsert] using e
    | cons ab c ih =>
      obtain ⟨a, b⟩ := ab
      simp only [Dict.upsert, Dict.get?_cons] at e ⊢
      split
      · rename_i h; rw [if_pos h] at e; rw [e]
      · rename_i h; rw [if_neg h] at e; rw [ih e]
  apply this
  simp only [Option.getD_some, List.map_append, List.map_cons, List.map_nil, if_true, hf]
  congr 1
  conv_rhs => rw [← List.map_id' ((s.cache.get? (E.hash (E.text q))).getD [])]
  apply List.map_congr_left
  intro d hd
  rw [if_neg (Nat.ne_of_lt (lt_nextNumber d hd))]

theorem withDir_inv {E : CacheEnv Q R} {s : Sys R} (h : CacheInv E s) (q : Q) (info : MetaFile) (res : Option R)
    (hd : ∀ n, DirOk E s.db ⟨n, info, res⟩) : CacheInv E (withDir E q info res s) := by
  refine ⟨h.wf, fun p hp d hd' => ?_⟩
  rcases Dict.mem_upsert hp with hp | hp
  · exact h.dirs p hp d hd'
  · subst hp
    simp only [List.mem_append, List.mem_singleton] at hd'
    rcases hd' with hd' | rfl
    · cases hg : s.cache.get? (E.hash (E.text q)) with
      | none => rw [hg] at hd'; simp at hd'
      | some l => rw [hg] at hd'; exact h.dirs _ (Dict.mem_of_get? hg) d hd'
    · exact hd _

theorem cacheQuery_states {E : CacheEnv Q R} (hE : E.OK) {s t : Sys R} (h : CacheInv E s) (q : Q)
    (ht : t ∈ (cacheQuery E q (E.eval s.db q)).states s) : CacheInv E t := by
  have hd1 : ∀ n, DirOk E s.db (⟨n, .missing, none⟩ : CacheDir R) := fun n v t e => by simp at e
  have hd2 : ∀ n, DirOk E s.db (⟨n, .torn, none⟩ : CacheDir R) := fun n v t e => by simp at e
  have hd3 : ∀ n, DirOk E s.db (⟨n, .full s.db.version (E.text q), none⟩ : CacheDir R) := by
    intro n v t e
    simp only [MetaFile.full.injEq] at e
    exact ⟨by omega, by simp⟩
  have hd4 : ∀ n, DirOk E s.db ⟨n, .full s.db.version (E.text q), some (E.eval s.db q)⟩ := by
    intro n v t e
    simp only [MetaFile.full.injEq] at e
    refine ⟨by omega, fun _ q' eq r er => ?_⟩
    simp only [Option.some.injEq] at er
    rw [hE.inj (eq.trans e.2.symm), er]
  unfold cacheQuery at ht
  simp only [Prog.bind_eq, Prog.exec, Prog.bind, Prog.states, List.mem_cons, List.not_mem_nil, or_false, id] at ht
  have hdb : (cacheMkdir E q s).db.version = s.db.version := rfl
  rw [hdb, cacheMkdir_eq] at ht
  rw [cacheUpdate_withDir E q .missing .torn none none s _ fun n => rfl] at ht
  rw [cacheUpdate_withDir E q .torn (.full s.db.version (E.text q)) none none s _ fun n => rfl] at ht
  rw [cacheUpdate_withDir E q _ (.full s.db.version (E.text q)) none (some (E.eval s.db q)) s _ fun n => rfl] at ht
  rcases ht with rfl | rfl | rfl | rfl | rfl | rfl
  · exact h
  · exact withDir_inv h q _ _ hd1
  · exact withDir_inv h q _ _ hd1
  · exact withDir_inv h q _ _ hd2
  · exact withDir_inv h q _ _ hd3
  · exact withDir_inv h q _ _ hd4

theorem executeQuery_states {E : CacheEnv Q R} (hE : E.OK) {s t : Sys R} (h : CacheInv E s) (q : Q)
    (ht : t ∈ (executeQuery E q).states s) : CacheInv E t := by
  obtain ⟨h1, h2⟩ := lookupCache_inv h q
  unfold executeQuery at ht
  simp only [Prog.states, List.mem_cons] at ht
  rcases ht with rfl | ht
  · exact h
  · have key : ∀ t ∈ ((Prog.exec id fun s => E.eval s.db q).bind fun r =>
        (cacheQuery E q r).bind fun _ => (.ret (.ok r) : Prog (Sys R) R)).states (lookupCache E q s), CacheInv E t := by
      intro t ht
      rw [Prog.mem_states_bind] at ht
      rcases ht with ht | ⟨r, h3, ht⟩
      · simp only [Prog.exec, Prog.states, List.mem_cons, List.not_mem_nil, or_false, id] at ht
        rcases ht with rfl | rfl <;> exact h1
      · simp only [Prog.run_exec, Except.ok.injEq, id] at h3 ht
        subst h3
        rw [Prog.mem_states_bind] at ht
        rcases ht with ht | ⟨_, _, ht⟩
        · exact cacheQuery_states hE h1 q ht
        · simp only [Prog.states, List.mem_singleton] at ht
          subst ht
          exact cacheQuery_states hE h1 q (Prog.run_mem_states _ _)
    split at ht
    · simp only [Prog.states, List.mem_singleton] at ht; subst ht; exact h1
    · simp only [Prog.states, List.mem_singleton] at ht; subst ht; exact h1
    · exact key t ht

theorem cacheReach_inv {E : CacheEnv Q R} (hE : E.OK) {s : Sys R} (h : CacheReach E s) : CacheInv E s := by
  induction h with
  | init => exact ⟨Ex.emptyDb_wf, by simp⟩
  | @op s o _ ih =>
    exact ih.db hE (c37_crash o s.db ih.wf _ (Prog.run_mem_states _ _)).1 (op_run o s.db ih.wf)
  | @crashedRegister s t a _ ht ih =>
    exact ih.db hE (c37_crash (.register a) s.db ih.wf t ht).1 (register_states a s.db t ih.wf ht)
  | query q _ ht ih => exact executeQuery_states hE ih q ht

theorem scan_hit {text : PyStr} {v : Nat} {r : R} : ∀ {l : List (CacheDir R)}, scan text v l = .hit r →
    ∃ d ∈ l, d.info = .full v text ∧ d.results = some r
  | [], h => by simp [scan] at h
  | d :: l, h => by
    rw [scan] at h
    split at h
    · obtain ⟨d', hd, h'⟩ := scan_hit h; exact ⟨d', by simp [hd], h'⟩
    · simp at h
    · rename_i v' t' he
      split at h
      · rename_i ht
        split at h
        · simp at h
        · rename_i hv
          split at h
          · rename_i r' hr
            simp only [Found.hit.injEq] at h
            simp only [ne_eq, not_not] at hv
            exact ⟨d, by simp, by rw [he, hv, ht], by rw [hr, h]⟩
          · simp at h
      · obtain ⟨d', hd, h'⟩ := scan_hit h; exact ⟨d', by simp [hd], h'⟩

/-- **C36, hits**: a result is taken from the cache only if it was stored there under the query's own text and the
database's current version. -/
theorem c36_hit (E : CacheEnv Q R) (hE : E.OK) (s : Sys R) (q : Q) (r : R) (h : lookup E q s = .hit r) :
    ∃ dirs, s.cache.get? (E.hash (E.text q)) = some dirs ∧
      ∃ d ∈ dirs, d.info = .full s.db.version (E.text q) ∧ d.results = some r := by
  unfold lookup at h
  split at h
  · simp at h
  · rename_i dirs hg
    obtain ⟨d, hd, h1, h2⟩ := scan_hit h
    exact ⟨dirs, hg, d, (hE.order dirs d).mp hd, h1, h2⟩

/-- **C36**: after any history of completed registrations and removals, crashed registrations, and completed or crashed
queries, a query that returns gives what it evaluates to on the current database — never an older result. (The full
property also covers removals that crash and operations that run at the same time as a query; both fail, see
`c36_crashed_remove`, `c36_race` and `c36_lost_update`.) -/
theorem c36_current_result_partial (E : CacheEnv Q R) (hE : E.OK) {s : Sys R} (h : CacheReach E s) (q : Q) (r : R)
    (hr : ((executeQuery E q).run s).2 = .ok r) : r = E.eval s.db q := by
  have hinv := cacheReach_inv hE h
  obtain ⟨_, h2⟩ := lookupCache_inv hinv q
  unfold executeQuery at hr
  simp only [Prog.run] at hr
  have key : (((Prog.exec id fun s => E.eval s.db q).bind fun r =>
        (cacheQuery E q r).bind fun _ => (.ret (.ok r) : Prog (Sys R) R)).run (lookupCache E q s)).2 = .ok r →
        r = E.eval s.db q := by
    intro hr
    rw [Prog.run_bind_ok (Prog.run_exec _ _ _), id] at hr
    rcases hc : (cacheQuery E q (E.eval (lookupCache E q s).db q)).run (lookupCache E q s) with ⟨s', o⟩
    cases o with
    | error e => rw [Prog.run_bind_error hc] at hr; simp at hr
    | ok u =>
      rw [Prog.run_bind_ok hc] at hr
      simp only [Prog.run_ret, Except.ok.injEq] at hr
      rw [← hr, h2]
  split at hr
  · rename_i r' hl
    simp only [Prog.run_ret, Except.ok.injEq] at hr
    subst hr
    obtain ⟨dirs, hg, d, hd, h3, h4⟩ := c36_hit E hE s q r' hl
    exact (hinv.dirs _ (Dict.mem_of_get? hg) d hd _ _ h3).2 rfl q rfl r' h4
  · simp at hr
  · exact key hr

/-! ## Non-vacuity, and where the property fails -/

namespace Ex

/-- Queries are chains of selects; a query returns the keys of all samples (enough for examples). -/
def cacheEnv : CacheEnv SelectChain (List (Nat × Nat × Nat)) where
  text := queryText
  hash := fun _ => ['h']
  order := id
  eval := fun db _ => db.samples.map SampleRow.key

theorem cacheEnv_ok : cacheEnv.OK where
  inj := c36_text_identifies_query
  order := fun _ _ => Iff.rfl
  sees := by
    intro db db' q h
    simp only [Db.visible, Prod.mk.injEq] at h
    simp only [cacheEnv, h.2.1]

/-- `select(None)` -/
def q0 : SelectChain := ([], [])

/-- Dataset `a` registered and `q0` executed. -/
def sysA : Sys (List (Nat × Nat × Nat)) :=
  ((executeQuery cacheEnv q0).run ⟨((registerDataset regA).run {}).1, []⟩).1

theorem sysA_reach : CacheReach cacheEnv sysA :=
  .query q0 (.op (.register regA) .init) (Prog.run_mem_states _ _)

-- the second execution is a hit, and registering `b` invalidates it
example : lookup cacheEnv q0 sysA = .hit [(1, 1, 0), (1, 1, 1), (1, 2, 0)] := by rfl
example : ((executeQuery cacheEnv q0).run { sysA with db := ((registerDataset regB).run sysA.db).1 }).2 =
    .ok [(1, 1, 0), (1, 1, 1), (1, 2, 0), (2, 3, 0), (2, 3, 1)] := by rfl

/-- A thread whose outcome is not looked at. -/
def thread {σ α : Type} (p : Prog σ α) : Prog σ Unit := p.bind fun _ => .ret (.ok ())

end Ex

/-- **C36 fails when a removal crashes**: the samples are deleted by the first statement, the version is only changed
by the last one; in between queries get the removed samples from the cache. -/
theorem c36_crashed_remove : ∃ (s : Sys (List (Nat × Nat × Nat))) (t : Db) (r : List (Nat × Nat × Nat)),
    CacheReach Ex.cacheEnv s ∧ t ∈ (removeDataset ['a']).states s.db ∧
    ((executeQuery Ex.cacheEnv Ex.q0).run { s with db := t }).2 = .ok r ∧ Ex.cacheEnv.eval t Ex.q0 = [] ∧ r ≠ [] :=
  ⟨Ex.sysA, (((removeDataset ['a']).states Ex.sysA.db)[2]?).getD {}, [(1, 1, 0), (1, 1, 1), (1, 2, 0)], Ex.sysA_reach,
    List.mem_of_getElem? (i := 2) (by rfl), by rfl, by rfl, by decide⟩

/-- **C36 fails when a registration completes between the execution of a query and the writing of its result**: the old
result is stored under the new version. The query is thread 0, the registration thread 1; both have completed. -/
theorem c36_race : ∃ (sched : List Nat),
    let fin := interleave sched [Ex.thread (executeQuery Ex.cacheEnv Ex.q0), Ex.thread (onDb (registerDataset Ex.regA))]
      (⟨{}, []⟩ : Sys (List (Nat × Nat × Nat)))
    (∀ p ∈ fin.1, ∃ r, p = .ret r) ∧ fin.2.db.datasets.length = 1 ∧
      ((executeQuery Ex.cacheEnv Ex.q0).run fin.2).2 = .ok [] ∧
      Ex.cacheEnv.eval fin.2.db Ex.q0 = [(1, 1, 0), (1, 1, 1), (1, 2, 0)] := by
  refine ⟨[0, 0] ++ List.replicate 20 1 ++ List.replicate 10 0, ?_, by rfl, by rfl, by rfl⟩
  intro p hp
  have : (interleave ([0, 0] ++ List.replicate 20 1 ++ List.replicate 10 0)
      [Ex.thread (executeQuery Ex.cacheEnv Ex.q0), Ex.thread (onDb (registerDataset Ex.regA))]
      (⟨{}, []⟩ : Sys (List (Nat × Nat × Nat)))).1 = [.ret (.ok ()), .ret (.ok ())] := by rfl
  rw [this] at hp
  simp only [List.mem_cons, List.not_mem_nil, or_false, or_self] at hp
  exact ⟨_, hp⟩

/-- **C36 fails with two registrations at the same time**: the version is read and written in separate statements, so a
slow registration (thread 1) can set it back to a value under which a result was stored (by the query, thread 2) before
the other registration (thread 0) completed. -/
theorem c36_lost_update : ∃ (sched : List Nat),
    let fin := interleave sched [Ex.thread (onDb (registerDataset Ex.regA)), Ex.thread (onDb (registerDataset Ex.regB)),
      Ex.thread (executeQuery Ex.cacheEnv Ex.q0)] (⟨{}, []⟩ : Sys (List (Nat × Nat × Nat)))
    (∃ r, fin.1[0]? = some (.ret r)) ∧ (∃ r, fin.1[2]? = some (.ret r)) ∧
      ((executeQuery Ex.cacheEnv Ex.q0).run fin.2).2 = .ok [] ∧
      Ex.cacheEnv.eval fin.2.db Ex.q0 = [(2, 1, 0), (2, 1, 1), (2, 2, 0)] :=
  ⟨[1, 1] ++ [0, 0, 0] ++ List.replicate 10 2 ++ List.replicate 20 0 ++ [1], ⟨.ok (), by rfl⟩, ⟨.ok (), by rfl⟩, by rfl,
    by rfl⟩

/-- A crash while the metadata of a cached result is written makes the query fail from then on, whatever is done to the
database. -/
theorem c36_torn_metadata_blocks : ∃ s : Sys (List (Nat × Nat × Nat)), CacheReach Ex.cacheEnv s ∧
    ∀ db, ((executeQuery Ex.cacheEnv Ex.q0).run { s with db := db }).2 = .error .runtimeError := by
  refine ⟨(((executeQuery Ex.cacheEnv Ex.q0).states ⟨{}, []⟩)[5]?).getD ⟨{}, []⟩, .query Ex.q0 .init ?_, fun db => rfl⟩
  exact List.mem_of_getElem? (i := 5) (by rfl)

end Mixtera
