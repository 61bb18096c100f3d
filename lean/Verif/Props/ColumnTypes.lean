import Verif.Model.ColumnTypes
import Verif.Props.TableLinks
import Verif.Props.MixtureKey
import Verif.Model.ParserCollection

/-!
# What is stored of a property depends on who declared it first (C84)

Two datasets whose parsers declare a property of the same name share a column. Its type is that of the first declaration, for
ever: the values of the second dataset are cast to it, or its registration fails half-way.
-/

set_option linter.unusedSectionVars false

namespace Mixtera.Typed

/-! ## Specification -/

/-- The type a property gets if it is declared like this in a database without that property. -/
def TProp.type (p : TProp) : ColType := ⟨p.multiple, if p.enum then some (enumValues (p.options.getD [])) else none⟩

/-- The type under which the values of property `p` are stored when a dataset declaring `p` is registered: that of the column if
there is one; the enumeration of this name if there is one (a crash may have left it without a column); else the declared one. -/
def typeIn (t : TDb) (p : TProp) : ColType :=
  match Dict.get? t.cols p.name with
  | some ty => ty
  | none => ⟨p.multiple, if p.enum then some ((Dict.get? t.types p.name).getD (enumValues (p.options.getD []))) else none⟩

/-- The value of a parsed sample for a property; NULL if the parser found none. -/
def valueOf (s : ParsedSample) (p : TProp) : Cell := (Dict.get? s.2 p.name).getD .null

/-- The value `v` is stored as `w` in a column of type `ty`. -/
inductive StoredAs (c : Casts) (ty : ColType) : Cell → Cell → Prop
  | null : StoredAs c ty .null .null
  /-- a single value in a column of single values -/
  | one {s : PyStr} (h : ty.list = false) (h' : ∀ o, ty.values = some o → s ∈ o) : StoredAs c ty (.str s) (.str s)
  /-- a list in a column of lists -/
  | many {l : List (Option PyStr)} (h : ty.list = true) (h' : ∀ o, ty.values = some o → ∀ s, some s ∈ l → s ∈ o) :
      StoredAs c ty (.list l) (.list l)
  /-- a list in a column of texts: DuckDB's text form of the list -/
  | text {l : List (Option PyStr)} (h : ty.list = false) (h' : ty.values = none) : StoredAs c ty (.list l) (.str (c.toText l))
  /-- a single value in a column of lists: the list it is the text form of -/
  | read {s : PyStr} {l : List (Option PyStr)} (h : ty.list = true) (hl : c.ofText s = some l)
      (h' : ∀ o, ty.values = some o → ∀ x, some x ∈ l → x ∈ o) : StoredAs c ty (.str s) (.list l)

/-- The value has the shape its own parser declared. -/
def Shaped (p : TProp) : Cell → Prop
  | .null => True
  | .str _ => p.multiple = false
  | .list _ => p.multiple = true

/-- The missing columns can be added: a declared enumeration that does not exist yet has options, each once, and without
quotation marks. -/
def ColumnsOk (t : TDb) (props : List TProp) : Prop :=
  ∀ p ∈ props, Dict.get? t.cols p.name = none → p.enum = true → Dict.get? t.types p.name = none →
    ∃ o, p.options = some o ∧ o.Nodup ∧ ∀ s ∈ o, '\'' ∉ s

/-- The parser declares every property once. -/
def DeclaredOnce (a : TArgs) : Prop := ∀ props, a.props = some props → (props.map TProp.name).Nodup

/-- The two tables of columns agree. -/
def TDb.WF (t : TDb) : Prop := t.db.WF ∧ t.db.columns = t.cols.map fun x => (x.1, x.2.list)

/-- The row of a parsed sample in a database with column types. -/
structure TRowOf (c : Casts) (t : TDb) (did fid : Nat) (props : List TProp) (s : ParsedSample) (r : SampleRow) : Prop where
  dataset : r.dataset = did
  file : r.file = fid
  sample : r.sample = s.1
  value : ∀ p ∈ props, ∃ w, Dict.get? r.cells p.name = some w ∧ StoredAs c (typeIn t p) (valueOf s p) w
  others : ∀ n, n ∉ props.map TProp.name → Dict.get? r.cells n = none

/-- What a successful registration does to the tables: one new dataset, one row per file, and for every file the rows of the samples
its parser returned, their values stored as the columns' types demand. -/
structure RegisteredT (c : Casts) (a : TArgs) (t t' : TDb) : Prop where
  datasets : t'.db.datasets = t.db.datasets ++ [⟨t.db.nextDataset, a.base.name, a.base.loc, a.base.dtype, a.base.func⟩]
  fresh : ∀ d ∈ t.db.datasets, d.id ≠ t.db.nextDataset
  content : ∃ props fs ps, a.props = some props ∧
    t'.db.files = t.db.files ++ fs ∧ fs.map FileRow.loc = a.base.files ∧
    (∀ f ∈ fs, f.dataset = t.db.nextDataset ∧ ∀ g ∈ t.db.files, g.id ≠ f.id) ∧ (fs.map FileRow.id).Nodup ∧
    List.Forall₂ (fun f p => a.base.parse f = .ok p) a.base.files ps ∧
    ∃ rows : List (List SampleRow), t'.db.samples = t.db.samples ++ rows.flatten ∧
      List.Forall₂ (fun fp rs => List.Forall₂ (TRowOf c t t.db.nextDataset fp.1.id props) fp.2 rs) (fs.zip ps) rows

/-- A value as `add_metadata` lets it through (C51): of the declared shape, and one of the options if there are any. -/
def Valid (p : TProp) : Cell → Prop
  | .null => True
  | .str s => p.multiple = false ∧ (p.enum = true → ∃ o, p.options = some o ∧ s ∈ o)
  | .list l => p.multiple = true ∧ (p.enum = true → ∃ o, p.options = some o ∧ ∀ x ∈ l, ∃ s ∈ o, x = some s)

/-- A column of type `ty` takes all values of property `p` as they are. -/
def Accepts (ty : ColType) (p : TProp) : Prop :=
  ty.list = p.multiple ∧ ∀ o, ty.values = some o → p.enum = true ∧ ∀ s ∈ p.options.getD [], s ∈ o

/-- The parser of the call returns valid values only. -/
def ParsesValid (a : TArgs) : Prop :=
  ∀ props, a.props = some props → ∀ f l, a.base.parse f = .ok l → ∀ s ∈ l, ∀ p ∈ props, Valid p (valueOf s p)

/-! ## Casting -/

theorem castCell_iff (c : Casts) (ty : ColType) (v w : Cell) : castCell c ty v = some w ↔ StoredAs c ty v w := by
  have hall : ∀ l : List (Option PyStr), l.all (allowed ty) = true ↔ ∀ o, ty.values = some o → ∀ s, some s ∈ l → s ∈ o := by
    intro l
    rw [List.all_eq_true]
    constructor
    · intro h o ho s hs
      have := h _ hs
      simp only [allowed, ho] at this
      simpa using this
    · intro h x hx
      cases x with
      | none => rfl
      | some s =>
        unfold allowed
        cases ho : ty.values with
        | none => rfl
        | some o => simpa using h o ho s hx
  cases v with
  | null =>
    simp only [castCell, Option.some.injEq]
    constructor
    · rintro rfl; exact .null
    · intro h; cases h; rfl
  | str s =>
    unfold castCell
    cases hl : ty.list with
    | true =>
      simp only [if_true]
      constructor
      · intro h
        obtain ⟨l, h1, h2⟩ := Option.bind_eq_some_iff.mp h
        split at h2
        · rename_i ha
          cases h2
          exact .read hl h1 ((hall l).mp ha)
        · cases h2
      · intro h
        cases h with
        | one h => rw [hl] at h; cases h
        | read _ h1 h2 =>
          rw [h1]
          simp only [Option.bind_some]
          rw [if_pos ((hall _).mpr h2)]
    | false =>
      simp only [Bool.false_eq_true, if_false]
      have h1 : allowed ty (some s) = true ↔ ∀ o, ty.values = some o → s ∈ o := by
        have := hall [some s]
        simp only [List.all_cons, List.all_nil, Bool.and_true, List.mem_singleton, Option.some.injEq, forall_eq] at this
        exact this
      constructor
      · intro h
        split at h
        · rename_i ha; cases h; exact .one hl (h1.mp ha)
        · cases h
      · intro h
        cases h with
        | one _ h' => rw [if_pos (h1.mpr h')]
        | read h => rw [hl] at h; cases h
  | list l =>
    unfold castCell
    cases hl : ty.list with
    | true =>
      simp only [if_true]
      constructor
      · intro h
        split at h
        · rename_i ha; cases h; exact .many hl ((hall l).mp ha)
        · cases h
      · intro h
        cases h with
        | many _ h' => rw [if_pos ((hall l).mpr h')]
        | text h => rw [hl] at h; cases h
    | false =>
      simp only [Bool.false_eq_true, if_false]
      constructor
      · intro h
        split at h
        · rename_i ha; cases h; exact .text hl (by simpa using ha)
        · cases h
      · intro h
        cases h with
        | many h => rw [hl] at h; cases h
        | text _ h' => rw [h']; rfl

theorem arrowOk_iff (p : TProp) (v : Cell) : arrowOk p.multiple v = true ↔ Shaped p v := by
  cases v <;> simp [arrowOk, Shaped]

/-! ## Lists -/

theorem mapM_guard {α β : Type} (P : α → Bool) (f : α → Option β) (l : List α) :
    (if l.all P then l.mapM f else none) = l.mapM fun x => if P x then f x else none := by
  induction l with
  | nil => rfl
  | cons x l ih =>
    rw [List.mapM_cons, List.mapM_cons, ← ih, List.all_cons]
    cases P x
    · rfl
    · cases l.all P
      · simp only [Bool.and_false, Bool.false_eq_true, if_false, if_true]
        cases f x <;> rfl
      · simp only [Bool.and_true, if_true]

theorem mapM_map_opt {α β γ : Type} (g : γ → α) (f : α → Option β) (l : List γ) :
    (l.map g).mapM f = l.mapM fun x => f (g x) := by
  induction l with
  | nil => rfl
  | cons x l ih => rw [List.map_cons, List.mapM_cons, List.mapM_cons, ih]

theorem mapM_append_opt {α β : Type} (f : α → Option β) (l l' : List α) :
    (l ++ l').mapM f = (l.mapM f).bind fun r => (l'.mapM f).map fun r' => r ++ r' := by
  induction l with
  | nil =>
    rw [List.nil_append, List.mapM_nil]
    cases l'.mapM f <;> rfl
  | cons x l ih =>
    rw [List.cons_append, List.mapM_cons, List.mapM_cons, ih]
    cases f x with
    | none => rfl
    | some y =>
      cases l.mapM f with
      | none => rfl
      | some r => cases l'.mapM f <;> rfl

theorem mapM_toOption {α β : Type} (f : α → Except Err β) (l : List α) :
    (l.mapM f).toOption = l.mapM fun x => (f x).toOption := by
  induction l with
  | nil => rfl
  | cons x l ih =>
    rw [List.mapM_cons, List.mapM_cons, ← ih]
    cases f x with
    | error e => rfl
    | ok y => cases l.mapM f <;> rfl

theorem mapM_some_map {α β : Type} (f : α → Option β) (l : List α) (r : List β) :
    l.mapM f = some r ↔ List.Forall₂ (fun x y => f x = some y) l r := by
  induction l generalizing r with
  | nil =>
    rw [List.mapM_nil]
    constructor
    · intro h; cases h; exact .nil
    · intro h; cases h; rfl
  | cons x l ih =>
    rw [List.mapM_cons]
    constructor
    · intro h
      cases hx : f x with
      | none => rw [hx] at h; cases h
      | some y =>
        cases hl : l.mapM f with
        | none => rw [hx, hl] at h; cases h
        | some r' =>
          rw [hx, hl] at h
          cases h
          exact .cons hx ((ih r').mp hl)
    · intro h
      cases h with
      | cons h1 h2 => rw [h1, (ih _).mpr h2]; rfl

theorem mapM_named {β : Type} (k : PyStr → Option β) (d : β) (names : List PyStr) (l : List (PyStr × β)) :
    names.mapM (fun p => (k p).map fun v => (p, v)) = some l → l = names.map fun p => (p, (k p).getD d) := by
  intro h
  rw [mapM_some_map] at h
  induction h with
  | nil => rfl
  | @cons p x ps xs h1 _ ih =>
    rw [List.map_cons, ih]
    cases hk : k p with
    | none => rw [hk] at h1; cases h1
    | some v =>
      rw [hk] at h1
      cases h1
      rfl

/-! ## A call with the values cast -/

/-- The value of one property as it is stored; `none` if it is refused. -/
def castName (c : Casts) (cols : Dict PyStr ColType) (props : List TProp) (x : PyStr × Cell) : Option Cell :=
  match props.find? (fun p => p.name == x.1) with
  | none => none
  | some p => if arrowOk p.multiple x.2 then (cols.get? x.1).bind fun ty => castCell c ty x.2 else none

/-- The sample as it is stored. -/
def castSample (c : Casts) (cols : Dict PyStr ColType) (props : List TProp) (s : ParsedSample) : Option ParsedSample :=
  ((sortStr (props.map TProp.name)).mapM fun n =>
    (castName c cols props (n, (Dict.get? s.2 n).getD .null)).map fun v => (n, v)).map fun l => (s.1, l)

/-- The call of `register_dataset` whose parser returns what is stored, and refuses what is refused. -/
def TArgs.cast (c : Casts) (cols : Dict PyStr ColType) (props : List TProp) (a : TArgs) : RegArgs :=
  { a.plain with
    parse := fun f => match a.base.parse f with
      | .error e => .error e
      | .ok l => match l.mapM (castSample c cols props) with
        | none => .error .runtimeError
        | some l' => .ok l' }

/-- The checked cast of a row. -/
def castChecked (c : Casts) (cols : Dict PyStr ColType) (props : List TProp) (r : SampleRow) : Option SampleRow :=
  (r.cells.mapM fun x => (castName c cols props x).map fun v => (x.1, v)).map fun l => { r with cells := l }

theorem castRows_eq (c : Casts) (cols : Dict PyStr ColType) (props : List TProp) (rows : List SampleRow) :
    (if arrowRows props rows then rows.mapM (castRow c cols) else none) = rows.mapM (castChecked c cols props) := by
  unfold arrowRows
  rw [mapM_guard]
  congr 1
  funext r
  unfold castRow castChecked
  have : (if r.cells.all (fun x => match props.find? (fun p => p.name == x.1) with
      | none => false
      | some p => arrowOk p.multiple x.2) then
      r.cells.mapM fun x => (cols.get? x.1).bind fun ty => (castCell c ty x.2).map fun v => (x.1, v) else none) =
      r.cells.mapM fun x => (castName c cols props x).map fun v => (x.1, v) := by
    rw [mapM_guard]
    congr 1
    funext x
    unfold castName
    cases props.find? (fun p => p.name == x.1) with
    | none => rfl
    | some p =>
      simp only
      by_cases h : arrowOk p.multiple x.2 = true
      · rw [if_pos h, if_pos h]
        cases cols.get? x.1 with
        | none => rfl
        | some ty => rfl
      · rw [if_neg h, if_neg h]
        rfl
  rw [← this]
  rw [apply_ite (Option.map _)]
  rfl

theorem names_plain (props : List TProp) : (props.map TProp.plain).map Prod.fst = props.map TProp.name := by
  rw [List.map_map]; rfl

theorem castChecked_row (c : Casts) (cols : Dict PyStr ColType) (props : List TProp) (did fid : Nat) (l : List ParsedSample) :
    (sampleRows did (props.map TProp.plain) fid l).mapM (castChecked c cols props) =
      (l.mapM (castSample c cols props)).map (sampleRows did (props.map TProp.plain) fid) := by
  induction l with
  | nil => rfl
  | cons s l ih =>
    have hs : sampleRows did (props.map TProp.plain) fid (s :: l) =
        ⟨did, fid, s.1, (sortStr ((props.map TProp.plain).map Prod.fst)).map fun p => (p, (s.2.get? p).getD .null)⟩ ::
          sampleRows did (props.map TProp.plain) fid l := rfl
    rw [hs, List.mapM_cons, List.mapM_cons, ih, names_plain]
    have key : castChecked c cols props ⟨did, fid, s.1, (sortStr (props.map TProp.name)).map fun p =>
        (p, (Dict.get? s.2 p).getD .null)⟩ = (castSample c cols props s).map fun s' =>
          ⟨did, fid, s'.1, (sortStr (props.map TProp.name)).map fun p => (p, (Dict.get? s'.2 p).getD .null)⟩ := by
      unfold castChecked castSample
      rw [mapM_map_opt]
      dsimp only
      cases h : (sortStr (props.map TProp.name)).mapM fun n =>
          (castName c cols props (n, (Dict.get? s.2 n).getD .null)).map fun v => (n, v) with
      | none => rfl
      | some r =>
        have hr := mapM_named (fun n => castName c cols props (n, (Dict.get? s.2 n).getD .null)) .null _ r h
        simp only [Option.map_some, Option.some.injEq, SampleRow.mk.injEq, true_and]
        subst hr
        refine List.map_congr_left fun n hn => ?_
        rw [get?_map_self, if_pos hn]
        rfl
    rw [key]
    cases castSample c cols props s with
    | none => rfl
    | some s' =>
      cases l.mapM (castSample c cols props) with
      | none => rfl
      | some l' =>
        have e : (sampleRows did (props.map TProp.plain) fid (s' :: l')) =
            ⟨did, fid, s'.1, (sortStr (props.map TProp.name)).map fun p => (p, (Dict.get? s'.2 p).getD .null)⟩ ::
              sampleRows did (props.map TProp.plain) fid l' := by
          simp only [sampleRows, names_plain, List.map_cons]
        change some _ = some _
        rw [e]

/-- Casting the rows of a batch is parsing the batch with the casting parser. -/
theorem parseBatch_cast (c : Casts) (cols : Dict PyStr ColType) (props : List TProp) (a : TArgs) (did : Nat)
    (tasks : List (Nat × PyStr)) :
    (parseBatch (a.cast c cols props) did (props.map TProp.plain) tasks).toOption =
      (parseBatch a.plain did (props.map TProp.plain) tasks).toOption.bind fun rows => rows.mapM (castChecked c cols props) := by
  have hmap : ∀ (e : Except Err (List (List SampleRow))), (e.map List.flatten).toOption = e.toOption.map List.flatten := by
    intro e; cases e <;> rfl
  unfold parseBatch
  rw [hmap, hmap, mapM_toOption, mapM_toOption]
  induction tasks with
  | nil => rfl
  | cons x tasks ih =>
    rw [List.mapM_cons, List.mapM_cons]
    have h1 : (((a.cast c cols props).parse x.2).map fun l => sampleRows did (props.map TProp.plain) x.1 l).toOption =
        ((a.plain.parse x.2).map fun l => sampleRows did (props.map TProp.plain) x.1 l).toOption.bind
          fun rows => rows.mapM (castChecked c cols props) := by
      have : a.plain.parse = a.base.parse := rfl
      rw [this]
      unfold TArgs.cast
      dsimp only
      cases a.base.parse x.2 with
      | error e => rfl
      | ok l =>
        simp only [Except.map, Except.toOption, Option.bind_some]
        rw [castChecked_row]
        cases l.mapM (castSample c cols props) <;> rfl
    rw [h1]
    cases ((a.plain.parse x.2).map fun l => sampleRows did (props.map TProp.plain) x.1 l).toOption with
    | none => rfl
    | some rows =>
      simp only [Option.bind_some]
      revert ih
      generalize tasks.mapM (fun x => (((a.cast c cols props).parse x.2).map
        fun l => sampleRows did (props.map TProp.plain) x.1 l).toOption) = A
      generalize tasks.mapM (fun x => ((a.plain.parse x.2).map
        fun l => sampleRows did (props.map TProp.plain) x.1 l).toOption) = B
      intro ih
      cases B with
      | none =>
        cases A with
        | none => cases rows.mapM (castChecked c cols props) <;> rfl
        | some A => cases ih
      | some B =>
        simp only [Option.map_some, Option.bind_some] at ih
        have hgoal : (Option.map List.flatten (do let a ← some rows; let b ← some B; pure (a :: b))).bind
            (fun rows => rows.mapM (castChecked c cols props)) = (rows ++ B.flatten).mapM (castChecked c cols props) := rfl
        rw [hgoal, mapM_append_opt, ← ih]
        cases rows.mapM (castChecked c cols props) with
        | none => rfl
        | some r => cases A <;> rfl

/-! ## Programs on the typed database -/

theorem run_onTables {α : Type} (x : Prog Db α) (t : TDb) :
    (onTables x).run t = ({ t with db := (x.run t.db).1 }, (x.run t.db).2) := by
  induction x generalizing t with
  | ret r => rfl
  | stmt f k ih =>
    rw [onTables, Prog.run, ih]
    rfl

theorem states_onTables {α : Type} (x : Prog Db α) (t : TDb) :
    (onTables x).states t = (x.states t.db).map fun d => { t with db := d } := by
  induction x generalizing t with
  | ret r => rfl
  | stmt f k ih =>
    rw [onTables, Prog.states, ih]
    rfl

/-- `x` does to the tables what `y` does, up to the kind of an exception and steps that leave the tables alone. -/
structure Sim {α : Type} (x : Prog TDb α) (y : Prog Db α) (t : TDb) : Prop where
  states : ∀ t' ∈ x.states t, t'.db ∈ y.states t.db
  db : (x.run t).1.db = (y.run t.db).1
  ok : ∀ r, (x.run t).2 = .ok r ↔ (y.run t.db).2 = .ok r

theorem Sim.onTables {α : Type} (y : Prog Db α) (t : TDb) : Sim (onTables y) y t := by
  refine ⟨?_, by rw [run_onTables], fun r => by rw [run_onTables]⟩
  intro t' ht
  rw [states_onTables] at ht
  obtain ⟨d, hd, rfl⟩ := List.mem_map.mp ht
  exact hd

theorem Sim.ret {α : Type} (r : Except Err α) (t : TDb) : Sim (.ret r) (.ret r) t :=
  ⟨fun t' ht => by simp only [Prog.states, List.mem_singleton] at ht ⊢; rw [ht], rfl, fun _ => Iff.rfl⟩

theorem Sim.error {α : Type} (e e' : Err) (t : TDb) : Sim (.ret (.error e) : Prog TDb α) (.ret (.error e')) t :=
  ⟨fun t' ht => by simp only [Prog.states, List.mem_singleton] at ht ⊢; rw [ht], rfl,
    fun _ => ⟨fun h => (by cases h), fun h => (by cases h)⟩⟩

theorem Sim.bind {α β : Type} {x : Prog TDb α} {y : Prog Db α} {g : α → Prog TDb β} {h : α → Prog Db β} {t : TDb}
    (hx : Sim x y t) (hg : ∀ a, (x.run t).2 = .ok a → Sim (g a) (h a) (x.run t).1) : Sim (x.bind g) (y.bind h) t := by
  refine ⟨?_, ?_, ?_⟩
  · intro t' ht
    rw [Prog.mem_states_bind] at ht ⊢
    rcases ht with ht | ⟨a, ha, ht⟩
    · exact Or.inl (hx.states t' ht)
    · refine Or.inr ⟨a, (hx.ok a).mp ha, ?_⟩
      rw [← hx.db]
      exact (hg a ha).states t' ht
  · rw [Prog.run_bind, Prog.run_bind]
    cases hr : (x.run t).2 with
    | ok a =>
      rw [(hx.ok a).mp hr, ← hx.db]
      exact (hg a hr).db
    | error e =>
      cases hy : (y.run t.db).2 with
      | ok b => rw [(hx.ok b).mpr hy] at hr; cases hr
      | error e' => exact hx.db
  · intro r
    rw [Prog.run_bind, Prog.run_bind]
    cases hr : (x.run t).2 with
    | ok a =>
      rw [(hx.ok a).mp hr, ← hx.db]
      exact (hg a hr).ok r
    | error e =>
      cases hy : (y.run t.db).2 with
      | ok b => rw [(hx.ok b).mpr hy] at hr; cases hr
      | error e' => exact ⟨fun h => (by cases h), fun h => (by cases h)⟩

/-! ## The samples -/

theorem insertSamplesT_types (c : Casts) (props : List TProp) (rows : List SampleRow) (t : TDb) :
    ∀ t' ∈ (insertSamplesT c props rows).states t, t'.cols = t.cols ∧ t'.types = t.types ∧ t'.db.columns = t.db.columns := by
  intro t' ht
  unfold insertSamplesT at ht
  split at ht
  · simp only [Prog.states, List.mem_cons] at ht
    rcases ht with rfl | ht
    · exact ⟨rfl, rfl, rfl⟩
    · revert ht
      cases rows.mapM (castRow c t.cols) with
      | none =>
        simp only [Prog.states, List.mem_singleton]
        rintro rfl; exact ⟨rfl, rfl, rfl⟩
      | some rs =>
        simp only
        cases keysFree t.db rs <;>
          simp only [Prog.states, List.mem_singleton, if_true, Bool.false_eq_true, if_false] <;> rintro rfl <;> exact ⟨rfl, rfl, rfl⟩
  · simp only [Prog.states, List.mem_singleton] at ht
    rw [ht]; exact ⟨rfl, rfl, rfl⟩

theorem registerBatchT_types (c : Casts) (a : TArgs) (did : Nat) (props : List TProp) (tasks : List (Nat × PyStr)) (t : TDb) :
    ∀ t' ∈ (registerBatchT c a did props tasks).states t, t'.cols = t.cols ∧ t'.types = t.types ∧ t'.db.columns = t.db.columns := by
  intro t' ht
  unfold registerBatchT at ht
  split at ht
  · simp only [Prog.states, List.mem_singleton] at ht
    rw [ht]; exact ⟨rfl, rfl, rfl⟩
  · exact insertSamplesT_types c props _ t t' ht

theorem sim_insertSamples_none (c : Casts) (props : List TProp) (rows : List SampleRow) (t : TDb) (e : Err)
    (h : rows.mapM (castChecked c t.cols props) = none) :
    Sim (insertSamplesT c props rows) (.ret (.error e)) t := by
  rw [← castRows_eq] at h
  unfold insertSamplesT
  split at h
  · rename_i ha
    rw [if_pos ha]
    refine ⟨?_, ?_, ?_⟩
    · intro t' ht
      simp only [Prog.states, h, List.mem_cons, List.not_mem_nil, or_false, or_self] at ht
      rw [ht]; simp [Prog.states]
    · simp only [Prog.run, h]
    · intro r
      simp only [Prog.run, h]
      exact ⟨fun h => (by cases h), fun h => (by cases h)⟩
  · rename_i ha
    rw [if_neg ha]
    exact Sim.error _ _ t

theorem sim_insertSamples_some (c : Casts) (props : List TProp) (rows rs : List SampleRow) (t : TDb)
    (h : rows.mapM (castChecked c t.cols props) = some rs) :
    Sim (insertSamplesT c props rows) (insertSamples rs) t := by
  rw [← castRows_eq] at h
  unfold insertSamplesT insertSamples
  split at h
  · rename_i ha
    rw [if_pos ha]
    by_cases hk : keysFree t.db rs = true
    · refine ⟨?_, ?_, ?_⟩
      · intro t' ht
        simp only [Prog.states, h, hk, if_true, List.mem_cons, List.not_mem_nil, or_false] at ht ⊢
        rcases ht with rfl | rfl
        · exact Or.inl rfl
        · exact Or.inr rfl
      · simp only [Prog.run, h, hk, if_true]
      · intro r
        simp only [Prog.run, h, hk, if_true]
    · refine ⟨?_, ?_, ?_⟩
      · intro t' ht
        simp only [Prog.states, h, hk, Bool.false_eq_true, if_false, List.mem_cons, List.not_mem_nil, or_false] at ht ⊢
        rcases ht with rfl | rfl
        · exact Or.inl rfl
        · exact Or.inr rfl
      · simp only [Prog.run, h, hk, Bool.false_eq_true, if_false]
      · intro r
        simp only [Prog.run, h, hk, Bool.false_eq_true, if_false]
  · cases h

theorem sim_batch (c : Casts) (a : TArgs) (did : Nat) (props : List TProp) (tasks : List (Nat × PyStr)) (t : TDb) :
    Sim (registerBatchT c a did props tasks) (registerBatch (a.cast c t.cols props) did (props.map TProp.plain) tasks) t := by
  have key := parseBatch_cast c t.cols props a did tasks
  unfold registerBatchT registerBatch
  cases h1 : parseBatch a.plain did (props.map TProp.plain) tasks with
  | error e =>
    rw [h1] at key
    cases h2 : parseBatch (a.cast c t.cols props) did (props.map TProp.plain) tasks with
    | error e' => exact Sim.error e e' t
    | ok r => rw [h2] at key; cases key
  | ok rows =>
    rw [h1] at key
    simp only [Except.toOption, Option.bind_some] at key
    cases h2 : parseBatch (a.cast c t.cols props) did (props.map TProp.plain) tasks with
    | error e' =>
      rw [h2] at key
      exact sim_insertSamples_none c props rows t e' key.symm
    | ok rs =>
      rw [h2] at key
      exact sim_insertSamples_some c props rows rs t key.symm

theorem sim_batches (c : Casts) (a : TArgs) (did : Nat) (props : List TProp) (cols : Dict PyStr ColType) :
    ∀ (l : List (List (Nat × PyStr))) (t : TDb), t.cols = cols →
      Sim (Prog.forEach (registerBatchT c a did props) l)
        (Prog.forEach (registerBatch (a.cast c cols props) did (props.map TProp.plain)) l) t
  | [], t, _ => Sim.ret _ t
  | tasks :: l, t, h => by
    rw [Prog.forEach, Prog.forEach]
    refine Sim.bind (by rw [← h]; exact sim_batch c a did props tasks t) fun _ _ => sim_batches c a did props cols l _ ?_
    rw [(registerBatchT_types c a did props tasks t _ (Prog.run_mem_states _ _)).1, h]

/-! ## The columns -/

theorem get?_append {β : Type} (d d' : Dict PyStr β) (n : PyStr) :
    Dict.get? (d ++ d' : Dict PyStr β) n = (Dict.get? d n).or (Dict.get? d' n) := by
  induction d with
  | nil => rfl
  | cons x d ih =>
    rw [List.cons_append, Dict.get?, Dict.get?]
    split
    · rfl
    · exact ih

theorem get?_snoc {β : Type} (d : Dict PyStr β) (m n : PyStr) (v : β) :
    Dict.get? (d ++ [(m, v)] : Dict PyStr β) n = (Dict.get? d n).or (if m = n then some v else none) := by
  rw [get?_append]
  rfl

theorem has_eq {β : Type} (d : Dict PyStr β) (n : PyStr) : d.has n = (Dict.get? d n).isSome := rfl

/-- The column of `p` can be added. -/
def ColumnOk (t : TDb) (p : TProp) : Prop :=
  p.enum = true → Dict.get? t.types p.name = none → ∃ o, p.options = some o ∧ o.Nodup ∧ ∀ s ∈ o, '\'' ∉ s

theorem goodOptions_iff (o : List PyStr) : goodOptions o = true ↔ o.Nodup ∧ ∀ s ∈ o, '\'' ∉ s := by
  simp [goodOptions]

/-- What adding the columns `l` makes of the database. -/
structure Added (t t' : TDb) (l : List TProp) : Prop where
  cols : t'.cols = t.cols ++ l.map fun p => (p.name, typeIn t p)
  db : t'.db = { t.db with columns := t.db.columns ++ l.map TProp.plain }
  types : ∀ n, n ∉ l.map TProp.name → Dict.get? t'.types n = Dict.get? t.types n

theorem run_alterTable {t : TDb} {p : TProp} {ty : ColType} (hc : Dict.get? t.cols p.name = none) (hn : newType t p = some ty) :
    (alterTable p).run t = (t.addColumn p ty, .ok ()) ∧ (alterTable p).states t = [t, t.addColumn p ty] := by
  unfold alterTable
  simp [Prog.run, Prog.states, has_eq, hc, hn]

theorem run_addColumn {t : TDb} {p : TProp} (hc : Dict.get? t.cols p.name = none) (hok : ColumnOk t p) :
    ∃ t', (addColumn p).run t = (t', .ok ()) ∧ Added t t' [p] ∧ ∀ s ∈ (addColumn p).states t, s.db = t.db ∨ s.db = t'.db := by
  unfold addColumn
  cases he : p.enum with
  | false =>
    simp only [Bool.false_eq_true, if_false]
    have h1 := run_alterTable (ty := ⟨p.multiple, none⟩) hc (by simp [newType, he])
    refine ⟨_, h1.1, ⟨?_, rfl, fun n _ => rfl⟩, ?_⟩
    · simp [TDb.addColumn, typeIn, hc, he]
    · rw [h1.2]
      intro s hs
      simp only [List.mem_cons, List.not_mem_nil, or_false] at hs
      rcases hs with rfl | rfl
      · exact Or.inl rfl
      · exact Or.inr rfl
  | true =>
    simp only [if_true]
    rw [Prog.run_bind_ok (Prog.run_exec _ _ _)]
    have hst : ∀ s, s ∈ ((Prog.exec id fun t : TDb => t.types.has p.name).bind fun there =>
        if there then alterTable p else (createType p).bind fun _ => alterTable p).states t ↔
        s = t ∨ s ∈ (if t.types.has p.name then alterTable p else (createType p).bind fun _ => alterTable p).states t := by
      intro s
      simp [Prog.exec, Prog.bind, Prog.states]
    cases hty : Dict.get? t.types p.name with
    | some o =>
      have h1 := run_alterTable (ty := ⟨p.multiple, some o⟩) hc (by simp [newType, he, hty])
      have hh : t.types.has p.name = true := by rw [has_eq, hty]; rfl
      rw [hh]
      refine ⟨_, h1.1, ⟨?_, rfl, fun n _ => rfl⟩, ?_⟩
      · simp [TDb.addColumn, typeIn, hc, he, hty]
      · intro s hs
        rw [hst, hh] at hs
        simp only [if_true, h1.2, List.mem_cons, List.not_mem_nil, or_false] at hs
        rcases hs with rfl | rfl | rfl
        · exact Or.inl rfl
        · exact Or.inl rfl
        · exact Or.inr rfl
    | none =>
      obtain ⟨o, ho, hg⟩ := hok he hty
      have hg' := (goodOptions_iff o).mpr hg
      have hh : t.types.has p.name = false := by rw [has_eq, hty]; rfl
      rw [hh]
      have hcr : (createType p).run t = ({ t with types := t.types ++ [(p.name, enumValues o)] }, .ok ()) := by
        unfold createType
        simp [ho, Prog.run, hg', hh]
      have hcs : (createType p).states t = [t, { t with types := t.types ++ [(p.name, enumValues o)] }] := by
        unfold createType
        simp [ho, Prog.states, hg', hh]
      generalize ht1 : ({ t with types := t.types ++ [(p.name, enumValues o)] } : TDb) = t1 at hcr hcs
      have e1 : t1.cols = t.cols := by rw [← ht1]
      have e2 : t1.db = t.db := by rw [← ht1]
      have e3 : t1.types = t.types ++ [(p.name, enumValues o)] := by rw [← ht1]
      have h1 := run_alterTable (t := t1) (ty := ⟨p.multiple, some (enumValues o)⟩) (by rw [e1]; exact hc)
        (by simp [newType, he, e3, get?_snoc, hty])
      refine ⟨t1.addColumn p ⟨p.multiple, some (enumValues o)⟩, ?_, ⟨?_, ?_, ?_⟩, ?_⟩
      · simp only [id, Bool.false_eq_true, if_false]
        rw [Prog.run_bind_ok hcr]
        exact h1.1
      · simp [TDb.addColumn, typeIn, hc, he, hty, ho, e1]
      · simp [TDb.addColumn, e2]
      · intro n hn
        simp only [List.map_cons, List.map_nil, List.mem_singleton] at hn
        have : (t1.addColumn p ⟨p.multiple, some (enumValues o)⟩).types = t1.types := rfl
        rw [this, e3, get?_snoc, if_neg (fun h => hn h.symm)]
        cases Dict.get? t.types n <;> rfl
      · intro s hs
        rw [hst, hh] at hs
        simp only [Bool.false_eq_true, if_false] at hs
        rw [Prog.mem_states_bind, hcr, hcs, h1.2] at hs
        simp only [List.mem_cons, List.not_mem_nil, or_false] at hs
        rcases hs with rfl | (rfl | rfl) | ⟨_, _, rfl | rfl⟩
        · exact Or.inl rfl
        · exact Or.inl rfl
        · exact Or.inl e2
        · exact Or.inl e2
        · exact Or.inr rfl

theorem run_addColumn_bad {t : TDb} {p : TProp} (hok : ¬ ColumnOk t p) :
    (addColumn p).run t = (t, .error .runtimeError) ∨ (addColumn p).run t = (t, .error .typeError) := by
  unfold ColumnOk at hok
  push_neg at hok
  obtain ⟨he, hty, hbad⟩ := hok
  have hh : t.types.has p.name = false := by rw [has_eq, hty]; rfl
  unfold addColumn
  rw [if_pos he, Prog.run_bind_ok (Prog.run_exec _ _ _)]
  simp only [id, hh, Bool.false_eq_true, if_false]
  cases ho : p.options with
  | none =>
    right
    have : (createType p).run t = (t, .error .typeError) := by unfold createType; rw [ho]; rfl
    rw [Prog.run_bind_error this]
  | some o =>
    left
    have hg : goodOptions o = false := by
      by_contra hc
      have := (goodOptions_iff o).mp (by simpa using hc)
      obtain ⟨s, h1, h2⟩ := hbad o ho this.1
      exact this.2 s h1 h2
    have : (createType p).run t = (t, .error .runtimeError) := by unfold createType; simp [ho, Prog.run, hg]
    rw [Prog.run_bind_error this]

/-- The types of other properties are as before. -/
theorem Added.typeIn {t t' : TDb} {l : List TProp} (h : Added t t' l) {q : TProp} (hq : q.name ∉ l.map TProp.name) :
    typeIn t' q = typeIn t q ∧ Dict.get? t'.cols q.name = Dict.get? t.cols q.name := by
  have h1 : Dict.get? t'.cols q.name = Dict.get? t.cols q.name := by
    rw [h.cols, get?_append]
    have : Dict.get? (l.map fun p => (p.name, Typed.typeIn t p) : Dict PyStr ColType) q.name = none := by
      induction l with
      | nil => rfl
      | cons p l ih =>
        simp only [List.map_cons, List.mem_cons, not_or] at hq
        rw [List.map_cons, Dict.get?, if_neg (fun e => hq.1 e.symm)]
        clear h
        have hq2 := hq.2
        clear ih hq
        induction l with
        | nil => rfl
        | cons p l ih =>
          simp only [List.map_cons, List.mem_cons, not_or] at hq2
          rw [List.map_cons, Dict.get?, if_neg (fun e => hq2.1 e.symm)]
          exact ih hq2.2
    rw [this]
    cases Dict.get? t.cols q.name <;> rfl
  refine ⟨?_, h1⟩
  unfold Typed.typeIn
  rw [h1, h.types _ hq]

theorem Added.cons {t t1 t' : TDb} {p : TProp} {l : List TProp} (h1 : Added t t1 [p]) (h2 : Added t1 t' l)
    (hp : p.name ∉ l.map TProp.name) : Added t t' (p :: l) := by
  refine ⟨?_, ?_, ?_⟩
  · rw [h2.cols, h1.cols, List.append_assoc]
    congr 1
    change (p.name, Typed.typeIn t p) :: _ = (p.name, Typed.typeIn t p) :: _
    congr 1
    refine List.map_congr_left fun q hq => ?_
    rw [(h1.typeIn (q := q) (by
      simp only [List.map_cons, List.map_nil, List.mem_singleton]
      exact fun e => hp (e ▸ List.mem_map_of_mem hq))).1]
  · rw [h2.db, h1.db]
    simp
  · intro n hn
    simp only [List.map_cons, List.mem_cons, not_or] at hn
    rw [h2.types n hn.2, h1.types n (by simpa using hn.1)]

theorem addColumns_loop : ∀ (l : List TProp) (t : TDb), (l.map TProp.name).Nodup → (∀ p ∈ l, Dict.get? t.cols p.name = none) →
    (∀ p ∈ l, ColumnOk t p) →
    ∃ t', (Prog.forEach addColumn l).run t = (t', .ok ()) ∧ Added t t' l ∧
      ∀ s ∈ (Prog.forEach addColumn l).states t,
        s.db ∈ (Prog.forEach (fun p => Prog.exec (fun db : Db => { db with columns := db.columns ++ [p] }) fun _ => ())
          (l.map TProp.plain)).states t.db
  | [], t, _, _, _ => ⟨t, rfl, ⟨by simp, by simp, fun _ _ => rfl⟩, fun s hs => by
      simp only [Prog.forEach, Prog.states, List.mem_singleton] at hs
      rw [hs]; simp [Prog.forEach, Prog.states]⟩
  | p :: l, t, hnd, hm, hok => by
    simp only [List.map_cons, List.nodup_cons] at hnd
    obtain ⟨t1, hr, ha, hs⟩ := run_addColumn (hm p (by simp)) (hok p (by simp))
    have hne : ∀ q ∈ l, q.name ∉ [p].map TProp.name := fun q hq => by
      simp only [List.map_cons, List.map_nil, List.mem_singleton]
      exact fun e => hnd.1 (e ▸ List.mem_map_of_mem hq)
    obtain ⟨t', hr', ha', hs'⟩ := addColumns_loop l t1 hnd.2
      (fun q hq => by rw [(ha.typeIn (hne q hq)).2]; exact hm q (by simp [hq]))
      (fun q hq h1 h2 => hok q (by simp [hq]) h1 (by rw [← ha.types _ (hne q hq)]; exact h2))
    refine ⟨t', ?_, ha.cons ha' hnd.1, ?_⟩
    · rw [Prog.forEach, Prog.run_bind_ok hr, hr']
    · intro s hs1
      rw [Prog.forEach, Prog.mem_states_bind, hr] at hs1
      rw [List.map_cons, Prog.forEach, Prog.mem_states_bind, Prog.run_exec]
      have e : t1.db = { t.db with columns := t.db.columns ++ [p.plain] } := by rw [ha.db]; rfl
      rcases hs1 with hs1 | ⟨_, _, hs1⟩
      · left
        simp only [Prog.exec, Prog.states, List.mem_cons, List.not_mem_nil, or_false]
        rcases hs s hs1 with h | h
        · exact Or.inl h
        · exact Or.inr (by rw [h, e])
      · right
        refine ⟨(), rfl, ?_⟩
        have := hs' s hs1
        rw [e] at this
        exact this

theorem addColumns_loop_bad : ∀ (l : List TProp) (t : TDb), (l.map TProp.name).Nodup →
    (∀ p ∈ l, Dict.get? t.cols p.name = none) → (¬ ∀ p ∈ l, ColumnOk t p) →
    ∃ e, ((Prog.forEach addColumn l).run t).2 = .error e ∧ ((Prog.forEach addColumn l).run t).1.db.samples = t.db.samples ∧
      ((Prog.forEach addColumn l).run t).1.db.datasets = t.db.datasets ∧
      ((Prog.forEach addColumn l).run t).1.db.files = t.db.files
  | [], t, _, _, hok => absurd (fun p hp => by cases hp) hok
  | p :: l, t, hnd, hm, hok => by
    simp only [List.map_cons, List.nodup_cons] at hnd
    by_cases hp : ColumnOk t p
    · obtain ⟨t1, hr, ha, -⟩ := run_addColumn (hm p (by simp)) hp
      have hne : ∀ q ∈ l, q.name ∉ [p].map TProp.name := fun q hq => by
        simp only [List.map_cons, List.map_nil, List.mem_singleton]
        exact fun e => hnd.1 (e ▸ List.mem_map_of_mem hq)
      rw [Prog.forEach, Prog.run_bind_ok hr]
      obtain ⟨e, h1, h2, h3, h4⟩ := addColumns_loop_bad l t1 hnd.2
        (fun q hq => by rw [(ha.typeIn (hne q hq)).2]; exact hm q (by simp [hq]))
        (fun hall => hok fun q hq => by
          rcases List.mem_cons.mp hq with rfl | hq
          · exact hp
          · intro h1 h2
            exact hall q hq h1 (by rw [ha.types _ (hne q hq)]; exact h2))
      refine ⟨e, h1, ?_, ?_, ?_⟩
      · rw [h2, ha.db]
      · rw [h3, ha.db]
      · rw [h4, ha.db]
    · rcases run_addColumn_bad hp with h | h
      · exact ⟨_, by rw [Prog.forEach, Prog.run_bind_error h], by rw [Prog.forEach, Prog.run_bind_error h],
          by rw [Prog.forEach, Prog.run_bind_error h], by rw [Prog.forEach, Prog.run_bind_error h]⟩
      · exact ⟨_, by rw [Prog.forEach, Prog.run_bind_error h], by rw [Prog.forEach, Prog.run_bind_error h],
          by rw [Prog.forEach, Prog.run_bind_error h], by rw [Prog.forEach, Prog.run_bind_error h]⟩

theorem get?_typed {ty : TProp → ColType} : ∀ {l : List TProp}, (l.map TProp.name).Nodup → ∀ {p : TProp}, p ∈ l →
    Dict.get? (l.map fun p => (p.name, ty p) : Dict PyStr ColType) p.name = some (ty p)
  | q :: l, hnd, p, hp => by
    simp only [List.map_cons, List.nodup_cons] at hnd
    rw [List.map_cons, Dict.get?]
    rcases List.mem_cons.mp hp with rfl | hp
    · rw [if_pos rfl]
    · rw [if_neg (fun e : q.name = p.name => hnd.1 (by rw [e]; exact List.mem_map_of_mem hp))]
      exact get?_typed hnd.2 hp

theorem columns_has {t : TDb} (h : t.db.columns = t.cols.map fun x => (x.1, x.2.list)) (n : PyStr) :
    t.db.columns.has n = t.cols.has n := by
  rw [has_eq, has_eq, h]
  generalize t.cols = d
  induction d with
  | nil => rfl
  | cons x d ih =>
    rw [List.map_cons, Dict.get?, Dict.get?]
    split
    · rfl
    · exact ih

/-- What is known after `_add_columns_to_samples_table`. -/
structure AddedAll (t t' : TDb) (props : List TProp) : Prop where
  db : t'.db = { t.db with columns := t.db.columns ++ (props.map TProp.plain).filter fun p => !(t.db.columns.has p.1) }
  type : ∀ p ∈ props, Dict.get? t'.cols p.name = some (typeIn t p)
  agree : t'.db.columns = t'.cols.map fun x => (x.1, x.2.list)
  old : ∀ n ty, Dict.get? t.cols n = some ty → Dict.get? t'.cols n = some ty

theorem typeIn_list {t : TDb} {p : TProp} (h : Dict.get? t.cols p.name = none) : (typeIn t p).list = p.multiple := by
  unfold typeIn
  rw [h]

theorem sim_addColumns {t : TDb} {props : List TProp} (hw : t.db.columns = t.cols.map fun x => (x.1, x.2.list))
    (hnd : (props.map TProp.name).Nodup) (hok : ColumnsOk t props) :
    Sim (addColumnsT props) (addColumns (props.map TProp.plain)) t ∧
      ((addColumnsT props).run t).2 = .ok () ∧ AddedAll t ((addColumnsT props).run t).1 props := by
  have hfil : (props.map TProp.plain).filter (fun p => !(t.db.columns.has p.1)) =
      (props.filter fun p => !(t.cols.has p.name)).map TProp.plain := by
    rw [List.filter_map]
    congr 1
    refine List.filter_congr fun p _ => ?_
    simp only [Function.comp_apply]
    rw [columns_has hw]
    rfl
  have hmem : ∀ p ∈ props.filter (fun p => !(t.cols.has p.name)), p ∈ props ∧ Dict.get? t.cols p.name = none := by
    intro p hp
    rw [List.mem_filter] at hp
    refine ⟨hp.1, ?_⟩
    have := hp.2
    rw [has_eq] at this
    simpa using this
  obtain ⟨t', hr, ha, hs⟩ := addColumns_loop (props.filter fun p => !(t.cols.has p.name)) t
    (hnd.sublist (List.filter_sublist.map _)) (fun p hp => (hmem p hp).2)
    (fun p hp h1 h2 => hok p (hmem p hp).1 (hmem p hp).2 h1 h2)
  have hrun : (addColumnsT props).run t = (t', .ok ()) := by
    unfold addColumnsT
    rw [Prog.run_bind_ok (Prog.run_exec _ _ _)]
    exact hr
  have hdb : t'.db = { t.db with columns := t.db.columns ++ (props.map TProp.plain).filter fun p => !(t.db.columns.has p.1) } := by
    rw [ha.db, hfil]
  refine ⟨⟨?_, ?_, ?_⟩, by rw [hrun], ?_⟩
  · intro s hs1
    unfold addColumnsT at hs1
    unfold addColumns
    rw [Prog.bind_eq, Prog.mem_states_bind, Prog.run_exec]
    rw [Prog.mem_states_bind, Prog.run_exec] at hs1
    rcases hs1 with hs1 | ⟨_, h1, hs1⟩
    · left
      simp only [Prog.exec, Prog.states, id, List.mem_cons, List.not_mem_nil, or_false, or_self] at hs1 ⊢
      rw [hs1]
    · right
      simp only [Except.ok.injEq] at h1
      subst h1
      refine ⟨_, rfl, ?_⟩
      rw [hfil]
      exact hs s hs1
  · rw [hrun, run_addColumns, ← hdb]
  · intro r
    rw [hrun, run_addColumns]
  · rw [hrun]
    refine ⟨hdb, ?_, ?_, ?_⟩
    · intro p hp
      rw [ha.cols, get?_append]
      cases hc : Dict.get? t.cols p.name with
      | some ty =>
        unfold typeIn
        rw [hc]
        rfl
      | none =>
        rw [get?_typed (hnd.sublist (List.filter_sublist.map _)) (List.mem_filter.mpr ⟨hp, by rw [has_eq, hc]; rfl⟩)]
        rfl
    · rw [ha.db, ha.cols, List.map_append, hw, List.map_map]
      dsimp only
      congr 1
      refine List.map_congr_left fun p hp => ?_
      simp only [Function.comp_apply, TProp.plain]
      rw [typeIn_list (hmem p hp).2]
    · intro n ty h
      rw [ha.cols, get?_append, h]
      rfl

theorem addColumns_bad {t : TDb} {props : List TProp} (hnd : (props.map TProp.name).Nodup) (hok : ¬ ColumnsOk t props) :
    ∃ e, ((addColumnsT props).run t).2 = .error e ∧ ((addColumnsT props).run t).1.db.samples = t.db.samples ∧
      ((addColumnsT props).run t).1.db.datasets = t.db.datasets ∧ ((addColumnsT props).run t).1.db.files = t.db.files := by
  unfold addColumnsT
  rw [Prog.run_bind_ok (Prog.run_exec _ _ _)]
  refine addColumns_loop_bad _ t (hnd.sublist (List.filter_sublist.map _)) ?_ ?_
  · intro p hp
    rw [List.mem_filter] at hp
    have := hp.2
    rw [has_eq] at this
    simpa using this
  · intro hall
    refine hok fun p hp hc h1 h2 => hall p ?_ h1 h2
    rw [List.mem_filter]
    exact ⟨hp, by rw [has_eq, hc]; rfl⟩

/-! ## Registration -/

/-- After the columns: `registerT` is `register_dataset` with the casting parser. -/
theorem sim_register (c : Casts) (a : TArgs) (t : TDb) (props : List TProp) (hp : a.props = some props)
    (hw : t.db.columns = t.cols.map fun x => (x.1, x.2.list)) (hnd : (props.map TProp.name).Nodup) (hok : ColumnsOk t props) :
    ∃ cols, (∀ p ∈ props, Dict.get? cols p.name = some (typeIn t p)) ∧
      Sim (registerT c a) (registerDataset (a.cast c cols props)) t := by
  -- the state in which the columns are added
  have hcol : ∀ x : Db, (insertDataset a.plain).run t.db = (x, ((insertDataset a.plain).run t.db).2) → x.columns = t.db.columns := by
    intro x hx
    have h1 : ((insertDataset a.plain).run t.db).1 = x := by rw [hx]
    rw [← h1]
    unfold insertDataset
    split
    · rw [Prog.bind_eq, Prog.run_bind_ok (Prog.run_exec _ _ _)]
      split
      · unfold insertDatasetStmt; simp only [Prog.pure_eq, Prog.run_ret]; split <;> rfl
      · rw [Prog.bind_eq, Prog.run_bind_ok (run_incrVersion _)]
        unfold insertDatasetStmt; simp only [Prog.pure_eq, Prog.run_ret]; split <;> rfl
    · rfl
  generalize ht1 : ((onTables (insertDataset a.plain)).run t).1 = t1
  have e1 : t1.cols = t.cols := by rw [← ht1, run_onTables]
  have e2 : t1.types = t.types := by rw [← ht1, run_onTables]
  have e3 : t1.db = ((insertDataset a.plain).run t.db).1 := by rw [← ht1, run_onTables]
  have hw1 : t1.db.columns = t1.cols.map fun x => (x.1, x.2.list) := by
    rw [e1, ← hw, e3]; exact hcol _ rfl
  have ety : ∀ p, typeIn t1 p = typeIn t p := by intro p; unfold typeIn; rw [e1, e2]
  have hok1 : ColumnsOk t1 props := by
    intro p h1 h2 h3 h4
    exact hok p h1 (by rw [← e1]; exact h2) h3 (by rw [← e2]; exact h4)
  obtain ⟨hsim, hrun, hadd⟩ := sim_addColumns hw1 hnd hok1
  refine ⟨((addColumnsT props).run t1).1.cols, fun p hp => by rw [← ety]; exact hadd.type p hp, ?_⟩
  unfold registerT registerDataset
  rw [Prog.bind_eq]
  refine Sim.bind (Sim.onTables (insertDataset a.plain) t) fun r _ => ?_
  rw [ht1]
  cases r with
  | none => exact Sim.ret _ _
  | some did =>
    have hf : (a.cast c ((addColumnsT props).run t1).1.cols props).files = a.base.files := rfl
    have hps : (a.cast c ((addColumnsT props).run t1).1.cols props).props = some (props.map TProp.plain) := by
      change a.props.map _ = _
      rw [hp]; rfl
    simp only [hf, hps, hp]
    by_cases he : a.base.files.isEmpty = true
    · rw [if_pos he, if_pos he]
      exact Sim.ret _ _
    · rw [if_neg he, if_neg he, Prog.bind_eq]
      refine Sim.bind hsim fun _ _ => ?_
      rw [Prog.bind_eq]
      refine Sim.bind (Sim.onTables _ _) fun ids _ => ?_
      by_cases hi : (ids.isEmpty || ids.length != a.base.files.length) = true
      · rw [if_pos hi, if_pos hi]
        exact Sim.ret _ _
      · rw [if_neg hi, if_neg hi, Prog.bind_eq]
        refine Sim.bind (sim_batches c a did props _ _ _ (by rw [run_onTables])) fun _ _ => ?_
        rw [Prog.bind_eq]
        exact Sim.bind (Sim.onTables _ _) fun _ _ => Sim.ret _ _

theorem find?_declared {props : List TProp} (hnd : (props.map TProp.name).Nodup) {p : TProp} (hp : p ∈ props) :
    props.find? (fun q => q.name == p.name) = some p := by
  induction props with
  | nil => cases hp
  | cons q l ih =>
    simp only [List.map_cons, List.nodup_cons] at hnd
    rw [List.find?_cons]
    rcases List.mem_cons.mp hp with rfl | hp
    · simp
    · have : (q.name == p.name) = false := by
        rw [beq_eq_false_iff_ne]
        exact fun e => hnd.1 (by rw [e]; exact List.mem_map_of_mem hp)
      rw [this]
      exact ih hnd.2 hp

/-- What `castName` does for a declared property. -/
theorem castName_iff {c : Casts} {cols : Dict PyStr ColType} {props : List TProp} (hnd : (props.map TProp.name).Nodup)
    {p : TProp} (hp : p ∈ props) {ty : ColType} (hc : Dict.get? cols p.name = some ty) (v w : Cell) :
    castName c cols props (p.name, v) = some w ↔ Shaped p v ∧ StoredAs c ty v w := by
  unfold castName
  dsimp only
  rw [find?_declared hnd hp]
  simp only
  by_cases h : arrowOk p.multiple v = true
  · rw [if_pos h, hc]
    simp only [Option.bind_some]
    rw [castCell_iff]
    exact ⟨fun h1 => ⟨(arrowOk_iff p v).mp h, h1⟩, fun h1 => h1.2⟩
  · rw [if_neg h]
    exact ⟨fun h1 => (by cases h1), fun h1 => absurd ((arrowOk_iff p v).mpr h1.1) h⟩

theorem castSample_iff {c : Casts} {cols : Dict PyStr ColType} {props : List TProp} {t : TDb}
    (hnd : (props.map TProp.name).Nodup) (hc : ∀ p ∈ props, Dict.get? cols p.name = some (typeIn t p)) (s : ParsedSample) :
    (∃ s', castSample c cols props s = some s') ↔
      ∀ p ∈ props, ∃ w, Shaped p (valueOf s p) ∧ StoredAs c (typeIn t p) (valueOf s p) w := by
  unfold castSample
  constructor
  · rintro ⟨s', h⟩ p hp
    obtain ⟨l, h1, -⟩ := Option.map_eq_some_iff.mp h
    rw [mapM_some_map] at h1
    have hn : p.name ∈ sortStr (props.map TProp.name) := (sortStr_perm _).mem_iff.mpr (List.mem_map_of_mem hp)
    obtain ⟨i, hi, e⟩ := List.mem_iff_getElem.mp hn
    have h2 := (List.forall₂_iff_get.mp h1).2 i hi (by rw [← h1.length_eq]; exact hi)
    simp only [List.get_eq_getElem, e] at h2
    obtain ⟨w, h3, -⟩ := Option.map_eq_some_iff.mp h2
    exact ⟨w, (castName_iff hnd hp (hc p hp) _ w).mp h3⟩
  · intro h
    have : ∃ l, (sortStr (props.map TProp.name)).mapM (fun n =>
        (castName c cols props (n, (Dict.get? s.2 n).getD .null)).map fun v => (n, v)) = some l := by
      have hall : ∀ n ∈ sortStr (props.map TProp.name), ∃ y,
          (castName c cols props (n, (Dict.get? s.2 n).getD .null)).map (fun v => (n, v)) = some y := by
        intro n hn
        rw [(sortStr_perm _).mem_iff] at hn
        obtain ⟨p, hp, rfl⟩ := List.mem_map.mp hn
        obtain ⟨w, hw⟩ := h p hp
        have hcw := (castName_iff hnd hp (hc p hp) _ w).mpr hw
        unfold valueOf at hcw
        exact ⟨(p.name, w), by rw [hcw]; rfl⟩
      revert hall
      generalize sortStr (props.map TProp.name) = ns
      intro hall
      induction ns with
      | nil => exact ⟨[], rfl⟩
      | cons n ns ih =>
        obtain ⟨y, hy⟩ := hall n (by simp)
        obtain ⟨l, hl⟩ := ih fun m hm => hall m (by simp [hm])
        exact ⟨y :: l, by rw [List.mapM_cons, hy, hl]; rfl⟩
    obtain ⟨l, hl⟩ := this
    exact ⟨(s.1, l), by rw [hl]; rfl⟩

/-- The samples keep their numbers. -/
theorem castSample_fst {c : Casts} {cols : Dict PyStr ColType} {props : List TProp} {s s' : ParsedSample}
    (h : castSample c cols props s = some s') : s'.1 = s.1 := by
  unfold castSample at h
  obtain ⟨l, -, rfl⟩ := Option.map_eq_some_iff.mp h
  rfl

theorem castSamples_fst {c : Casts} {cols : Dict PyStr ColType} {props : List TProp} {l l' : List ParsedSample}
    (h : l.mapM (castSample c cols props) = some l') : l'.map Prod.fst = l.map Prod.fst := by
  rw [mapM_some_map] at h
  induction h with
  | nil => rfl
  | cons h1 _ ih => rw [List.map_cons, List.map_cons, ih, castSample_fst h1]

theorem cast_parse_ok {c : Casts} {cols : Dict PyStr ColType} {props : List TProp} {a : TArgs} {f : PyStr} {l' : List ParsedSample} :
    (a.cast c cols props).parse f = .ok l' ↔ ∃ l, a.base.parse f = .ok l ∧ l.mapM (castSample c cols props) = some l' := by
  unfold TArgs.cast
  dsimp only
  cases a.base.parse f with
  | error e => simp
  | ok l =>
    simp only [Except.ok.injEq, exists_eq_left']
    cases l.mapM (castSample c cols props) with
    | none => simp
    | some r => simp

theorem mapM_exists {α β : Type} (f : α → Option β) (l : List α) : (∃ r, l.mapM f = some r) ↔ ∀ x ∈ l, ∃ y, f x = some y := by
  induction l with
  | nil => exact ⟨fun _ x hx => (by cases hx), fun _ => ⟨[], rfl⟩⟩
  | cons x l ih =>
    rw [List.mapM_cons]
    constructor
    · rintro ⟨r, h⟩ z hz
      cases hx : f x with
      | none => rw [hx] at h; cases h
      | some y =>
        cases hl : l.mapM f with
        | none => rw [hx, hl] at h; cases h
        | some r' =>
          rcases List.mem_cons.mp hz with rfl | hz
          · exact ⟨y, hx⟩
          · exact ih.mp ⟨r', hl⟩ z hz
    · intro h
      obtain ⟨y, hy⟩ := h x (by simp)
      obtain ⟨r, hr⟩ := ih.mpr fun z hz => h z (by simp [hz])
      exact ⟨y :: r, by rw [hy, hr]; rfl⟩

/-- Without a parser the types do not matter. -/
theorem sim_register_none (c : Casts) (a : TArgs) (t : TDb) (hp : a.props = none) :
    Sim (registerT c a) (registerDataset a.plain) t := by
  unfold registerT registerDataset
  rw [Prog.bind_eq]
  refine Sim.bind (Sim.onTables (insertDataset a.plain) t) fun r _ => ?_
  cases r with
  | none => exact Sim.ret _ _
  | some did =>
    have hf : a.plain.files = a.base.files := rfl
    have hps : a.plain.props = none := by
      change a.props.map _ = _
      rw [hp]; rfl
    simp only [hf, hps, hp]
    by_cases he : a.base.files.isEmpty = true
    · rw [if_pos he, if_pos he]
      exact Sim.ret _ _
    · rw [if_neg he, if_neg he]
      exact Sim.error _ _ _

/-- If a column cannot be added the registration does not return True. -/
theorem register_bad (c : Casts) (a : TArgs) (t : TDb) (props : List TProp) (hp : a.props = some props)
    (hnd : (props.map TProp.name).Nodup) (hok : ¬ ColumnsOk t props) : ((registerT c a).run t).2 ≠ .ok true := by
  unfold registerT
  rw [Prog.run_bind]
  cases h : ((onTables (insertDataset a.plain)).run t).2 with
  | error e => simp
  | ok r =>
    cases r with
    | none => simp
    | some did =>
      simp only [hp]
      split
      · simp
      · generalize ht1 : ((onTables (insertDataset a.plain)).run t).1 = t1
        have e1 : t1.cols = t.cols := by rw [← ht1, run_onTables]
        have e2 : t1.types = t.types := by rw [← ht1, run_onTables]
        obtain ⟨e, he, -⟩ := addColumns_bad (t := t1) hnd fun hall => hok fun p h1 h2 h3 h4 =>
          hall p h1 (by rw [e1]; exact h2) h3 (by rw [e2]; exact h4)
        rw [Prog.run_bind, he]
        simp

/-- **C84, when a registration succeeds.** `register_dataset` returns True exactly if it would without types, the missing columns can be
added, and every value has the shape its parser declared and can be stored in the column of its name. -/
theorem c84_register_iff (c : Casts) (a : TArgs) (t : TDb) (hw : t.WF) (hd : DeclaredOnce a) (hfd : a.base.files.Nodup) :
    ((registerT c a).run t).2 = .ok true ↔ Registrable a.plain t.db ∧ ∀ props, a.props = some props → ColumnsOk t props ∧
      ∀ f ∈ a.base.files, ∀ l, a.base.parse f = .ok l → ∀ s ∈ l, ∀ p ∈ props,
        Shaped p (valueOf s p) ∧ ∃ w, StoredAs c (typeIn t p) (valueOf s p) w := by
  cases hp : a.props with
  | none =>
    rw [(sim_register_none c a t hp).ok, c37_register_iff a.plain t.db hw.1 hfd]
    refine ⟨fun h => ⟨h, fun props h1 => (by cases h1)⟩, fun h => h.1⟩
  | some props =>
    have hnd := hd props hp
    by_cases hok : ColumnsOk t props
    · obtain ⟨cols, hc, hsim⟩ := sim_register c a t props hp hw.2 hnd hok
      rw [hsim.ok, c37_register_iff (a.cast c cols props) t.db hw.1 hfd]
      constructor
      · intro h
        refine ⟨⟨h.validType, h.free, h.files, h.parser, ?_⟩, ?_⟩
        · intro f hf
          obtain ⟨l', h1, h2⟩ := h.parses f hf
          obtain ⟨l, h3, h4⟩ := cast_parse_ok.mp h1
          exact ⟨l, h3, by rw [← castSamples_fst h4]; exact h2⟩
        · rintro _ ⟨rfl⟩
          refine ⟨hok, fun f hf l hl s hs p hps => ?_⟩
          obtain ⟨l', h1, -⟩ := h.parses f hf
          obtain ⟨l2, h3, h4⟩ := cast_parse_ok.mp h1
          rw [hl] at h3
          cases h3
          obtain ⟨w, h5, h6⟩ := (castSample_iff hnd hc s).mp ((mapM_exists _ _).mp ⟨l', h4⟩ s hs) p hps
          exact ⟨h5, w, h6⟩
      · rintro ⟨h, h'⟩
        refine ⟨h.validType, h.free, h.files, h.parser, ?_⟩
        intro f hf
        obtain ⟨l, h1, h2⟩ := h.parses f hf
        obtain ⟨l', h3⟩ := (mapM_exists (castSample c cols props) l).mpr fun s hs => (castSample_iff hnd hc s).mpr fun p hps => by
          obtain ⟨h5, w, h6⟩ := (h' props rfl).2 f hf l h1 s hs p hps
          exact ⟨w, h5, h6⟩
        exact ⟨l', cast_parse_ok.mpr ⟨l, h1, h3⟩, by rw [castSamples_fst h3]; exact h2⟩
    · constructor
      · exact fun h => absurd h (register_bad c a t props hp hnd hok)
      · exact fun h => absurd (h.2 props rfl).1 hok

theorem rowOf_cast {c : Casts} {cols : Dict PyStr ColType} {props : List TProp} {t : TDb} (hnd : (props.map TProp.name).Nodup)
    (hc : ∀ p ∈ props, Dict.get? cols p.name = some (typeIn t p)) {did fid : Nat} {s s' : ParsedSample} {r : SampleRow}
    (hs : castSample c cols props s = some s') (hr : RowOf did fid (props.map TProp.plain) s' r) : TRowOf c t did fid props s r := by
  refine ⟨hr.dataset, hr.file, by rw [hr.sample, castSample_fst hs], ?_, ?_⟩
  · intro p hp
    have h1 := hr.value p.name (by rw [names_plain]; exact List.mem_map_of_mem hp)
    unfold castSample at hs
    obtain ⟨l, h2, rfl⟩ := Option.map_eq_some_iff.mp hs
    have h3 := mapM_named (fun n => castName c cols props (n, (Dict.get? s.2 n).getD .null)) .null _ l h2
    have hn : p.name ∈ sortStr (props.map TProp.name) := (sortStr_perm _).mem_iff.mpr (List.mem_map_of_mem hp)
    obtain ⟨w, hw⟩ : ∃ w, castName c cols props (p.name, (Dict.get? s.2 p.name).getD .null) = some w := by
      rw [mapM_some_map] at h2
      obtain ⟨i, hi, e⟩ := List.mem_iff_getElem.mp hn
      have h4 := (List.forall₂_iff_get.mp h2).2 i hi (by rw [← h2.length_eq]; exact hi)
      simp only [List.get_eq_getElem, e] at h4
      obtain ⟨w, h5, -⟩ := Option.map_eq_some_iff.mp h4
      exact ⟨w, h5⟩
    refine ⟨w, ?_, ((castName_iff hnd hp (hc p hp) _ w).mp hw).2⟩
    rw [h1]
    dsimp only
    rw [h3, get?_map_self, if_pos hn, hw]
    rfl
  · intro n hn
    exact hr.others n (by rw [names_plain]; exact hn)

/-- **C84, what a registration stores.** -/
theorem c84_register_adds (c : Casts) (a : TArgs) (t : TDb) (hw : t.WF) (hd : DeclaredOnce a) (hfd : a.base.files.Nodup)
    (hr : ((registerT c a).run t).2 = .ok true) : RegisteredT c a t ((registerT c a).run t).1 := by
  have hR := (c84_register_iff c a t hw hd hfd).mp hr
  cases hp : a.props with
  | none => exact absurd (show a.plain.props = none by change a.props.map _ = _; rw [hp]; rfl) hR.1.parser
  | some props =>
    have hnd := hd props hp
    have hok := (hR.2 props hp).1
    obtain ⟨cols, hc, hsim⟩ := sim_register c a t props hp hw.2 hnd hok
    have hreg := c37_register_adds (a.cast c cols props) t.db hw.1 hfd ((hsim.ok true).mp hr)
    rw [← hsim.db] at hreg
    refine ⟨hreg.datasets, hreg.fresh, ?_⟩
    obtain ⟨props', fs, ps', h1, h2, h3, h4, h5, h6, rows, h7, h8⟩ := hreg.content
    have hps : (a.cast c cols props).props = some (props.map TProp.plain) := by
      change a.props.map _ = _
      rw [hp]; rfl
    rw [hps] at h1
    cases h1
    obtain ⟨ps, g1, g2⟩ : ∃ ps, List.Forall₂ (fun f p => a.base.parse f = .ok p) a.base.files ps ∧
        List.Forall₂ (fun p p' => List.mapM (castSample c cols props) p = some p') ps ps' := by
      clear hR hfd h2 h3 h4 h5 h7 h8 hr hreg hsim
      have h6' : List.Forall₂ (fun f p => (a.cast c cols props).parse f = .ok p) a.base.files ps' := h6
      clear h6
      revert h6'
      generalize a.base.files = files
      intro h6'
      induction h6' with
      | nil => exact ⟨[], .nil, .nil⟩
      | cons h _ ih =>
        obtain ⟨l, e1, e2⟩ := cast_parse_ok.mp h
        obtain ⟨ps, e3, e4⟩ := ih
        exact ⟨l :: ps, .cons e1 e3, .cons e2 e4⟩
    refine ⟨props, fs, ps, hp, h2, h3, h4, h5, g1, rows, h7, ?_⟩
    clear g1 h6 h7 h2 h3 h4 h5
    generalize t.db.nextDataset = did at h8 ⊢
    induction g2 generalizing fs rows with
    | nil =>
      simp only [List.zip_nil_right] at h8 ⊢
      cases h8
      exact .nil
    | @cons p p' ps ps' e1 _ ih =>
      cases fs with
      | nil => cases h8; exact .nil
      | cons f fs =>
        simp only [List.zip_cons_cons] at h8 ⊢
        cases h8 with
        | @cons _ rs _ _ h9 h10 =>
          refine .cons ?_ (ih fs _ h10)
          rw [mapM_some_map] at e1
          dsimp only at h9 ⊢
          clear h10 ih
          induction e1 generalizing rs with
          | nil => cases h9; exact .nil
          | cons e2 _ ih2 =>
            cases h9 with
            | cons h11 h12 => exact .cons (rowOf_cast hnd hc e2 h11) (ih2 h12)

/-! ## A type is for ever -/

/-- The columns of `t` are there in `t'`, with the same types. -/
def KeepsTypes (t t' : TDb) : Prop := ∀ n ty, Dict.get? t.cols n = some ty → Dict.get? t'.cols n = some ty

theorem KeepsTypes.refl (t : TDb) : KeepsTypes t t := fun _ _ h => h

theorem keeps_onTables {α : Type} {t0 t : TDb} (h : KeepsTypes t0 t) (x : Prog Db α) :
    Prog.Holds (KeepsTypes t0) (fun _ _ => True) (onTables x) t := by
  refine ⟨?_, fun _ _ => trivial⟩
  intro t' ht
  rw [states_onTables] at ht
  obtain ⟨d, -, rfl⟩ := List.mem_map.mp ht
  exact h

theorem keeps_alter {t0 t : TDb} (h : KeepsTypes t0 t) (p : TProp) :
    Prog.Holds (KeepsTypes t0) (fun _ _ => True) (alterTable p) t := by
  refine ⟨?_, fun _ _ => trivial⟩
  intro t' ht
  unfold alterTable at ht
  simp only [Prog.states, List.mem_cons] at ht
  rcases ht with rfl | ht
  · exact h
  · have key : ∀ e : Prog TDb Unit, (∃ r, e = .ret r) → ∀ s u, u ∈ e.states s → u = s := by
      rintro e ⟨r, rfl⟩ s u hu
      simpa [Prog.states] using hu
    have := key _ (by split <;> exact ⟨_, rfl⟩) _ _ ht
    rw [this]
    split
    · exact h
    · split
      · exact h
      · intro n ty hn
        unfold TDb.addColumn
        dsimp only
        rw [get?_snoc, h n ty hn]
        rfl

theorem keeps_create {t0 t : TDb} (h : KeepsTypes t0 t) (p : TProp) :
    Prog.Holds (KeepsTypes t0) (fun _ _ => True) (createType p) t := by
  refine ⟨?_, fun _ _ => trivial⟩
  intro t' ht
  unfold createType at ht
  split at ht
  · simp only [Prog.states, List.mem_singleton] at ht
    rw [ht]; exact h
  · rename_i o _
    simp only [Prog.states, List.mem_cons] at ht
    rcases ht with rfl | ht
    · exact h
    · cases hg : (goodOptions o && !(t.types.has p.name)) <;>
        simp only [hg, if_true, Bool.false_eq_true, if_false, Prog.states, List.mem_singleton] at ht <;> rw [ht] <;> exact h

theorem keeps_addColumn {t0 t : TDb} (h : KeepsTypes t0 t) (p : TProp) :
    Prog.Holds (KeepsTypes t0) (fun _ _ => True) (addColumn p) t := by
  unfold addColumn
  split
  · refine Prog.Holds.bind (post := fun _ _ => True) (Prog.Holds.exec h h trivial) fun b t1 h1 _ => ?_
    split
    · exact keeps_alter h1 p
    · exact Prog.Holds.bind (keeps_create h1 p) fun _ t2 h2 _ => keeps_alter h2 p
  · exact keeps_alter h p

theorem keeps_forEach {β : Type} {t0 : TDb} {g : β → Prog TDb Unit}
    (hg : ∀ b t, KeepsTypes t0 t → Prog.Holds (KeepsTypes t0) (fun _ _ => True) (g b) t) :
    ∀ (l : List β) (t : TDb), KeepsTypes t0 t → Prog.Holds (KeepsTypes t0) (fun _ _ => True) (Prog.forEach g l) t
  | [], t, h => Prog.Holds.ret h fun _ _ => trivial
  | b :: l, t, h => by
    rw [Prog.forEach]
    exact Prog.Holds.bind (hg b t h) fun _ t1 h1 _ => keeps_forEach hg l t1 h1

theorem keeps_register (c : Casts) (a : TArgs) {t0 t : TDb} (h : KeepsTypes t0 t) :
    Prog.Holds (KeepsTypes t0) (fun _ _ => True) (registerT c a) t := by
  unfold registerT
  refine Prog.Holds.bind (keeps_onTables h _) fun r t1 h1 _ => ?_
  cases r with
  | none => exact Prog.Holds.ret h1 fun _ _ => trivial
  | some did =>
    simp only
    split
    · exact Prog.Holds.ret h1 fun _ _ => trivial
    · split
      · exact Prog.Holds.ret h1 fun _ _ => trivial
      · refine Prog.Holds.bind (post := fun _ _ => True) ?_ fun _ t2 h2 _ => ?_
        · unfold addColumnsT
          exact Prog.Holds.bind (post := fun _ _ => True) (Prog.Holds.exec h1 h1 trivial) fun l t2 h2 _ =>
            keeps_forEach (fun p t h => keeps_addColumn h p) l t2 h2
        · refine Prog.Holds.bind (keeps_onTables h2 _) fun ids t3 h3 _ => ?_
          split
          · exact Prog.Holds.ret h3 fun _ _ => trivial
          · refine Prog.Holds.bind (keeps_forEach (fun tasks t h => ⟨fun t' ht => ?_, fun _ _ => trivial⟩) _ t3 h3)
              fun _ t4 h4 _ => ?_
            · intro n ty hn
              rw [(registerBatchT_types c a did _ tasks t t' ht).1]
              exact h n ty hn
            · exact Prog.Holds.bind (keeps_onTables h4 _) fun _ t5 h5 _ => Prog.Holds.ret h5 fun _ _ => trivial

/-- An operation on the data collection. -/
inductive TOp
  | register (a : TArgs)
  | remove (n : PyStr)

/-- The program of an operation. -/
def TOp.prog (c : Casts) : TOp → Prog TDb Bool
  | .register a => registerT c a
  | .remove n => removeT n

/-- The databases that can arise from `t` by operations, each of which a crash may cut off after any statement. -/
inductive TSteps (c : Casts) (t : TDb) : TDb → Prop
  | refl : TSteps c t t
  | step {u v : TDb} (op : TOp) : TSteps c t u → v ∈ (op.prog c).states u → TSteps c t v

/-- **C84, the first declaration decides for ever.** Once there is a column for a property its type never changes, whatever is registered or
removed later — not even if every dataset with that property is removed —, and whenever a crash happens. -/
theorem c84_type_for_ever (c : Casts) {t u : TDb} (h : TSteps c t u) {n : PyStr} {ty : ColType}
    (hn : Dict.get? t.cols n = some ty) : Dict.get? u.cols n = some ty := by
  have key : KeepsTypes t u := by
    induction h with
    | refl => exact KeepsTypes.refl t
    | step op _ hv ih =>
      cases op with
      | register a => exact (keeps_register c a ih).1 _ hv
      | remove m => exact (keeps_onTables ih _).1 _ hv
  exact key n ty hn

/-! ## If all declare a property alike -/

theorem castCell_self (c : Casts) {ty : ColType} {p : TProp} (ha : Accepts ty p) {v : Cell} (hv : Valid p v) :
    castCell c ty v = some v ∧ arrowOk p.multiple v = true := by
  refine ⟨(castCell_iff c ty v v).mpr ?_, ?_⟩
  · cases v with
    | null => exact .null
    | str s =>
      refine .one (ha.1.trans hv.1) fun o ho => ?_
      obtain ⟨he, hsub⟩ := ha.2 o ho
      obtain ⟨o', ho', hs⟩ := hv.2 he
      exact hsub s (by rw [ho']; exact hs)
    | list l =>
      refine .many (ha.1.trans hv.1) fun o ho s hs => ?_
      obtain ⟨he, hsub⟩ := ha.2 o ho
      obtain ⟨o', ho', hl⟩ := hv.2 he
      obtain ⟨s', hs', e⟩ := hl _ hs
      cases e
      exact hsub s (by rw [ho']; exact hs')
  · cases v with
    | null => rfl
    | str s => simp [arrowOk, hv.1]
    | list l => simp [arrowOk, hv.1]

theorem registerDataset_congr (a : RegArgs) (g : PyStr → Except Err (List ParsedSample))
    (h : ∀ props, a.props = some props → ∀ did tasks, registerBatch { a with parse := g } did props tasks = registerBatch a did props tasks) :
    registerDataset { a with parse := g } = registerDataset a := by
  unfold registerDataset
  have h1 : insertDataset { a with parse := g } = insertDataset a := rfl
  rw [h1]
  congr 1
  funext r
  cases r with
  | none => rfl
  | some did =>
    dsimp only
    cases hp : a.props with
    | none => rfl
    | some props =>
      have h2 : registerBatch { a with parse := g } did props = registerBatch a did props := funext fun tasks => h props hp did tasks
      simp only
      rw [← hp]
      rw [h2]

theorem cast_same (c : Casts) {a : TArgs} {t : TDb} {props : List TProp} {cols : Dict PyStr ColType} (hp : a.props = some props)
    (hnd : (props.map TProp.name).Nodup) (hc : ∀ p ∈ props, Dict.get? cols p.name = some (typeIn t p))
    (hacc : ∀ p ∈ props, Accepts (typeIn t p) p) (hv : ParsesValid a) :
    registerDataset (a.cast c cols props) = registerDataset a.plain := by
  refine registerDataset_congr a.plain _ fun props' hp' did tasks => ?_
  have hps : a.plain.props = some (props.map TProp.plain) := by
    change a.props.map _ = _
    rw [hp]; rfl
  rw [hps] at hp'
  cases hp'
  unfold registerBatch
  have key : parseBatch (a.cast c cols props) did (props.map TProp.plain) tasks =
      parseBatch a.plain did (props.map TProp.plain) tasks := by
    unfold parseBatch
    congr 2
    funext x
    have e : a.plain.parse = a.base.parse := rfl
    rw [e]
    unfold TArgs.cast
    dsimp only
    cases hl : a.base.parse x.2 with
    | error e => rfl
    | ok l =>
      have hval := hv props hp x.2 l hl
      clear hl e
      have : ∃ l', l.mapM (castSample c cols props) = some l' ∧
          sampleRows did (props.map TProp.plain) x.1 l' = sampleRows did (props.map TProp.plain) x.1 l := by
        induction l with
        | nil => exact ⟨[], rfl, rfl⟩
        | cons s l ih =>
          obtain ⟨l', h1, h2⟩ := ih fun s hs => hval s (by simp [hs])
          have hs : castSample c cols props s = some (s.1, (sortStr (props.map TProp.name)).map fun n =>
              (n, (Dict.get? s.2 n).getD .null)) := by
            unfold castSample
            have : (sortStr (props.map TProp.name)).mapM (fun n =>
                (castName c cols props (n, (Dict.get? s.2 n).getD .null)).map fun v => (n, v)) =
                some ((sortStr (props.map TProp.name)).map fun n => (n, (Dict.get? s.2 n).getD .null)) := by
              rw [mapM_some_map, List.forall₂_map_right_iff, List.forall₂_same]
              intro n hn
              rw [(sortStr_perm _).mem_iff] at hn
              obtain ⟨p, hpp, rfl⟩ := List.mem_map.mp hn
              have h3 := castCell_self c (hacc p hpp) (hval s (by simp) p hpp)
              have h4 : castName c cols props (p.name, (Dict.get? s.2 p.name).getD .null) = some (valueOf s p) :=
                (castName_iff hnd hpp (hc p hpp) _ _).mpr ⟨(arrowOk_iff p _).mp h3.2, (castCell_iff _ _ _ _).mp h3.1⟩
              rw [h4]
              rfl
            rw [this]
            rfl
          refine ⟨_ :: l', by rw [List.mapM_cons, hs, h1]; rfl, ?_⟩
          simp only [sampleRows, List.map_cons] at h2 ⊢
          rw [h2, names_plain]
          congr 2
          refine List.map_congr_left fun n hn => ?_
          rw [get?_map_self, if_pos hn]
          rfl
      obtain ⟨l', h1, h2⟩ := this
      simp only [h1, Except.map]
      rw [h2]
  have key' : parseBatch { a.plain with parse := (a.cast c cols props).parse } did (props.map TProp.plain) tasks =
      parseBatch a.plain did (props.map TProp.plain) tasks := key
  exact congrArg (fun r => match r with
    | .error e => Prog.raise e
    | .ok rows => insertSamples rows) key'

/-- **C84, the part that holds.** If every column with the name of a declared property takes the values that the declaration allows, then
`register_dataset` does to the tables what it would do without types: at every crash point, in the end, and in its result. -/
theorem c84_unchanged_partial (c : Casts) (a : TArgs) (t : TDb) (props : List TProp) (hp : a.props = some props) (hw : t.WF)
    (hd : DeclaredOnce a) (hv : ParsesValid a) (hok : ColumnsOk t props) (hacc : ∀ p ∈ props, Accepts (typeIn t p) p) :
    ((registerT c a).run t).1.db = ((registerDataset a.plain).run t.db).1 ∧
      (∀ b, ((registerT c a).run t).2 = .ok b ↔ ((registerDataset a.plain).run t.db).2 = .ok b) ∧
      ∀ t' ∈ (registerT c a).states t, t'.db ∈ (registerDataset a.plain).states t.db := by
  obtain ⟨cols, hc, hsim⟩ := sim_register c a t props hp hw.2 (hd props hp) hok
  rw [cast_same c hp (hd props hp) hc hacc hv] at hsim
  exact ⟨hsim.db, hsim.ok, hsim.states⟩

/-! ## Histories -/

/-- `p` is declared by the parser of a call in `H`. -/
def Declared (H : TArgs → Prop) (p : TProp) : Prop := ∃ a props, H a ∧ a.props = some props ∧ p ∈ props

/-- All calls in `H` declare a property of a name alike. -/
def Agreed (H : TArgs → Prop) : Prop := ∀ p q, Declared H p → Declared H q → p.name = q.name → p = q

/-- Enumerations have options, each once, and without quotation marks. -/
def SoundOptions (H : TArgs → Prop) : Prop :=
  ∀ p, Declared H p → p.enum = true → ∃ o, p.options = some o ∧ o.Nodup ∧ ∀ s ∈ o, '\'' ∉ s

/-- The databases that arise from an empty one by registering (calls in `H`) and removing datasets, each operation possibly cut off by a
crash. -/
inductive TReach (c : Casts) (H : TArgs → Prop) : TDb → Prop
  | init : TReach c H {}
  | register {t t' : TDb} (a : TArgs) : TReach c H t → H a → t' ∈ (registerT c a).states t → TReach c H t'
  | remove {t t' : TDb} (n : PyStr) : TReach c H t → t' ∈ (removeT n).states t → TReach c H t'

/-- The columns and types come from declarations. -/
structure FromDecl (H : TArgs → Prop) (t : TDb) : Prop where
  agree : t.db.columns = t.cols.map fun x => (x.1, x.2.list)
  cols : ∀ n ty, Dict.get? t.cols n = some ty → ∃ p, Declared H p ∧ p.name = n ∧ ty = p.type
  types : ∀ n o, Dict.get? t.types n = some o → ∃ p, Declared H p ∧ p.name = n ∧ p.enum = true ∧ o = enumValues (p.options.getD [])

theorem fromDecl_onTables {α : Type} {H : TArgs → Prop} {t : TDb} (h : FromDecl H t) (x : Prog Db α)
    (hx : ∀ d ∈ x.states t.db, d.columns = t.db.columns) : Prog.Holds (FromDecl H) (fun _ _ => True) (onTables x) t := by
  refine ⟨?_, fun _ _ => trivial⟩
  intro t' ht
  rw [states_onTables] at ht
  obtain ⟨d, hd, rfl⟩ := List.mem_map.mp ht
  exact ⟨by rw [hx d hd]; exact h.agree, h.cols, h.types⟩

theorem columns_incrVersion (d : Db) : ∀ x ∈ incrVersion.states d, x.columns = d.columns := by
  intro x hx
  have : x = d ∨ x = d ∨ x = { d with version := d.version + 1 } := by
    simpa [incrVersion, Prog.exec, Prog.bind_eq, Prog.bind, Prog.states] using hx
  rcases this with rfl | rfl | rfl <;> rfl

theorem columns_insertDataset (a : RegArgs) (d : Db) : ∀ x ∈ (insertDataset a).states d, x.columns = d.columns := by
  have hs : (insertDatasetStmt a d).columns = d.columns := by unfold insertDatasetStmt; split <;> rfl
  intro x hx
  unfold insertDataset at hx
  split at hx
  · rw [Prog.bind_eq, Prog.mem_states_bind, Prog.run_exec] at hx
    rcases hx with hx | ⟨r, _, hx⟩
    · simp only [Prog.exec, Prog.states, List.mem_cons, List.not_mem_nil, or_false] at hx
      rcases hx with rfl | rfl
      · rfl
      · exact hs
    · cases r with
      | none =>
        simp only [Prog.pure_eq, Prog.states, List.mem_singleton] at hx
        rw [hx]; exact hs
      | some did =>
        dsimp only at hx
        rw [Prog.bind_eq, Prog.mem_states_bind, run_incrVersion] at hx
        rcases hx with hx | ⟨_, _, hx⟩
        · rw [columns_incrVersion _ x hx]; exact hs
        · simp only [Prog.pure_eq, Prog.states, List.mem_singleton] at hx
          rw [hx]; exact hs
  · simp only [Prog.pure_eq, Prog.states, List.mem_singleton] at hx
    rw [hx]

theorem columns_insertFiles (did : Nat) (locs : List PyStr) (d : Db) : ∀ x ∈ (insertFiles did locs).states d, x.columns = d.columns := by
  intro x hx
  unfold insertFiles at hx
  rw [Prog.bind_eq, Prog.mem_states_bind, Prog.run_exec] at hx
  have hs : ∀ y : Db, y = (if d.hasDataset did then
        { d with files := d.files ++ newFiles did d.nextFile locs, nextFile := d.nextFile + locs.length } else d) →
      y.columns = d.columns := by
    rintro y rfl; split <;> rfl
  rcases hx with hx | ⟨r, _, hx⟩
  · simp only [Prog.exec, Prog.states, List.mem_cons, List.not_mem_nil, or_false] at hx
    rcases hx with rfl | rfl
    · rfl
    · exact hs _ rfl
  · cases r with
    | none =>
      simp only [Prog.pure_eq, Prog.states, List.mem_singleton] at hx
      rw [hx]; exact hs _ rfl
    | some ids =>
      dsimp only at hx
      rw [Prog.bind_eq, Prog.mem_states_bind, run_incrVersion] at hx
      rcases hx with hx | ⟨_, _, hx⟩
      · rw [columns_incrVersion _ x hx]; exact hs _ rfl
      · simp only [Prog.pure_eq, Prog.states, List.mem_singleton] at hx
        rw [hx]; dsimp only; split <;> rfl

theorem columns_remove (n : PyStr) (d : Db) : ∀ x ∈ (removeDataset n).states d, x.columns = d.columns := by
  have key : Prog.Holds (fun x : Db => x.columns = d.columns) (fun _ _ => True) (removeDataset n) d := by
    unfold removeDataset
    rw [Prog.bind_eq]
    refine Prog.Holds.bind (post := fun _ _ => True) (Prog.Holds.exec rfl rfl trivial) fun b t h _ => ?_
    cases b with
    | false => exact Prog.Holds.ret h fun _ _ => trivial
    | true =>
      simp only [if_true]
      rw [Prog.bind_eq]
      refine Prog.Holds.bind (post := fun _ _ => True) (Prog.Holds.exec h h trivial) fun _ t1 h1 _ => ?_
      rw [Prog.bind_eq]
      refine Prog.Holds.bind (post := fun _ _ => True) (Prog.Holds.exec h1 h1 trivial) fun _ t2 h2 _ => ?_
      rw [Prog.bind_eq]
      refine Prog.Holds.bind (post := fun _ _ => True) (Prog.Holds.exec h2 (by split <;> exact h2) trivial) fun ok t3 h3 _ => ?_
      cases ok with
      | false => exact Prog.Holds.ret h3 fun _ _ => trivial
      | true =>
        simp only [if_true]
        rw [Prog.bind_eq]
        refine Prog.Holds.bind (post := fun _ _ => True) ⟨fun x hx => ?_, fun _ _ => trivial⟩
          fun _ t4 h4 _ => Prog.Holds.ret h4 fun _ _ => trivial
        change x.columns = _
        rw [columns_incrVersion _ x hx]
        exact h3
  exact key.1

theorem fromDecl_alter {H : TArgs → Prop} (hA : Agreed H) {t : TDb} (h : FromDecl H t) {p : TProp} (hp : Declared H p) :
    Prog.Holds (FromDecl H) (fun _ _ => True) (alterTable p) t := by
  refine ⟨?_, fun _ _ => trivial⟩
  intro t' ht
  unfold alterTable at ht
  simp only [Prog.states, List.mem_cons] at ht
  rcases ht with rfl | ht
  · exact h
  · have key : ∀ e : Prog TDb Unit, (∃ r, e = .ret r) → ∀ s u, u ∈ e.states s → u = s := by
      rintro e ⟨r, rfl⟩ s u hu
      simpa [Prog.states] using hu
    have := key _ (by split <;> exact ⟨_, rfl⟩) _ _ ht
    rw [this]
    split
    · exact h
    · split
      · exact h
      · rename_i ty hty
        have hpt : ty = p.type := by
          unfold newType at hty
          cases he : p.enum with
          | false =>
            simp only [he, Bool.false_eq_true, if_false, Option.some.injEq] at hty
            rw [← hty]; simp [TProp.type, he]
          | true =>
            simp only [he, if_true] at hty
            obtain ⟨o, ho, rfl⟩ := Option.map_eq_some_iff.mp hty
            obtain ⟨q, hq, e1, -, rfl⟩ := h.types _ _ ho
            rw [hA q p hq hp e1]
            simp [TProp.type, he]
        refine ⟨?_, ?_, h.types⟩
        · unfold TDb.addColumn
          dsimp only
          rw [h.agree, List.map_append, hpt]
          rfl
        · intro n ty' hn
          unfold TDb.addColumn at hn
          dsimp only at hn
          rw [get?_snoc] at hn
          cases hc : Dict.get? t.cols n with
          | some x =>
            rw [hc] at hn
            cases hn
            exact h.cols n _ hc
          | none =>
            rw [hc] at hn
            simp only [Option.none_or] at hn
            split at hn
            · rename_i e
              cases hn
              exact ⟨p, hp, e, hpt⟩
            · cases hn

theorem fromDecl_create {H : TArgs → Prop} {t : TDb} (h : FromDecl H t) {p : TProp} (hp : Declared H p) (he : p.enum = true) :
    Prog.Holds (FromDecl H) (fun _ _ => True) (createType p) t := by
  refine ⟨?_, fun _ _ => trivial⟩
  intro t' ht
  unfold createType at ht
  split at ht
  · simp only [Prog.states, List.mem_singleton] at ht
    rw [ht]; exact h
  · rename_i o ho
    simp only [Prog.states, List.mem_cons] at ht
    rcases ht with rfl | ht
    · exact h
    · cases hg : (goodOptions o && !(t.types.has p.name)) with
      | false =>
        simp only [hg, Bool.false_eq_true, if_false, Prog.states, List.mem_singleton] at ht
        rw [ht]; exact h
      | true =>
        simp only [hg, if_true, Prog.states, List.mem_singleton] at ht
        rw [ht]
        refine ⟨h.agree, h.cols, ?_⟩
        intro n o' hn
        dsimp only at hn
        rw [get?_snoc] at hn
        cases hc : Dict.get? t.types n with
        | some x =>
          rw [hc] at hn
          cases hn
          exact h.types n _ hc
        | none =>
          rw [hc] at hn
          simp only [Option.none_or] at hn
          split at hn
          · rename_i e
            cases hn
            exact ⟨p, hp, e, he, by rw [ho]; rfl⟩
          · cases hn

theorem fromDecl_addColumn {H : TArgs → Prop} (hA : Agreed H) {t : TDb} (h : FromDecl H t) {p : TProp} (hp : Declared H p) :
    Prog.Holds (FromDecl H) (fun _ _ => True) (addColumn p) t := by
  unfold addColumn
  split
  · rename_i he
    refine Prog.Holds.bind (post := fun _ _ => True) (Prog.Holds.exec h h trivial) fun b t1 h1 _ => ?_
    split
    · exact fromDecl_alter hA h1 hp
    · exact Prog.Holds.bind (fromDecl_create h1 hp he) fun _ t2 h2 _ => fromDecl_alter hA h2 hp
  · exact fromDecl_alter hA h hp

theorem fromDecl_register (c : Casts) {H : TArgs → Prop} (hA : Agreed H) {a : TArgs} (ha : H a) {t : TDb} (h : FromDecl H t) :
    Prog.Holds (FromDecl H) (fun _ _ => True) (registerT c a) t := by
  unfold registerT
  refine Prog.Holds.bind (fromDecl_onTables h _ (columns_insertDataset _ _)) fun r t1 h1 _ => ?_
  cases r with
  | none => exact Prog.Holds.ret h1 fun _ _ => trivial
  | some did =>
    simp only
    split
    · exact Prog.Holds.ret h1 fun _ _ => trivial
    · split
      · exact Prog.Holds.ret h1 fun _ _ => trivial
      · rename_i props hprops
        refine Prog.Holds.bind (post := fun _ _ => True) ?_ fun _ t2 h2 _ => ?_
        · unfold addColumnsT
          refine Prog.Holds.bind (post := fun l _ => ∀ p ∈ l, p ∈ props)
            (Prog.Holds.exec h1 h1 fun p hp => (List.mem_filter.mp hp).1) fun l t2 h2 hl => ?_
          exact Prog.Holds.mono (Prog.Holds.forEach (J := fun _ => True) h2 trivial fun p hp t3 h3 _ =>
            fromDecl_addColumn hA h3 ⟨a, props, ha, hprops, hl p hp⟩) fun _ _ _ _ => trivial
        · refine Prog.Holds.bind (fromDecl_onTables h2 _ (columns_insertFiles _ _ _)) fun ids t3 h3 _ => ?_
          split
          · exact Prog.Holds.ret h3 fun _ _ => trivial
          · refine Prog.Holds.bind (post := fun _ _ => True) (Prog.Holds.forEach (J := fun _ => True) h3 trivial
              fun tasks _ t4 h4 _ => ⟨fun t' ht => ?_, fun _ _ => trivial⟩) fun _ t4 h4 _ => ?_
            · obtain ⟨e1, e2, e3⟩ := registerBatchT_types c a did props tasks t4 t' ht
              exact ⟨by rw [e3, e1]; exact h4.agree, by rw [e1]; exact h4.cols, by rw [e2]; exact h4.types⟩
            · exact Prog.Holds.bind (fromDecl_onTables h4 _ (columns_incrVersion _)) fun _ t5 h5 _ =>
                Prog.Holds.ret h5 fun _ _ => trivial

theorem enumValues_sub (o : List PyStr) : ∀ s ∈ o, s ∈ enumValues o := by
  intro s hs
  unfold enumValues
  split
  · rename_i h
    rw [List.isEmpty_iff] at h
    rw [h] at hs; cases hs
  · exact (sortStr_perm _).mem_iff.mpr hs

theorem typeIn_declared {H : TArgs → Prop} (hA : Agreed H) {t : TDb} (h : FromDecl H t) {p : TProp} (hp : Declared H p) :
    typeIn t p = p.type := by
  unfold typeIn
  cases hc : Dict.get? t.cols p.name with
  | some ty =>
    obtain ⟨q, hq, e1, e2⟩ := h.cols _ _ hc
    dsimp only
    rw [e2, hA q p hq hp e1]
  | none =>
    dsimp only
    cases hty : Dict.get? t.types p.name with
    | none => rfl
    | some o =>
      obtain ⟨q, hq, e1, -, e2⟩ := h.types _ _ hty
      rw [hA q p hq hp e1] at e2
      rw [e2]
      rfl

theorem accepts_self (p : TProp) : Accepts p.type p := by
  refine ⟨rfl, fun o ho => ?_⟩
  unfold TProp.type at ho
  dsimp only at ho
  split at ho
  · rename_i he
    cases ho
    exact ⟨he, enumValues_sub _⟩
  · cases ho

/-- **C84, what holds of whole histories.** If all parsers declare a property of a name alike, then the tables are those of a history without
types, whatever is registered and removed and wherever crashes happen; so all that is proved about the data collection without
types (C36, C37, C63, C78, C82, C83) holds of it. -/
theorem c84_history_partial (c : Casts) {H : TArgs → Prop} (hA : Agreed H) (ho : SoundOptions H) (hd : ∀ a, H a → DeclaredOnce a)
    (hv : ∀ a, H a → ParsesValid a) {t : TDb} (h : TReach c H t) :
    DbReach (fun r => ∃ a, H a ∧ r = a.plain) t.db ∧ ∀ n ty, Dict.get? t.cols n = some ty → ∃ p, Declared H p ∧ p.name = n ∧ ty = p.type := by
  have key : DbReach (fun r => ∃ a, H a ∧ r = a.plain) t.db ∧ FromDecl H t ∧ t.db.WF := by
    induction h with
    | init => exact ⟨.init, ⟨rfl, fun n ty hn => (by cases hn), fun n o hn => (by cases hn)⟩, Ex.emptyDb_wf⟩
    | @register t t' a _ ha ht ih =>
      obtain ⟨h1, h2, h3⟩ := ih
      have hF := (fromDecl_register c hA ha h2).1 t' ht
      have hst : t'.db ∈ (registerDataset a.plain).states t.db := by
        cases hp : a.props with
        | none => exact (sim_register_none c a t hp).states t' ht
        | some props =>
          have hdecl : ∀ p ∈ props, Declared H p := fun p hpp => ⟨a, props, ha, hp, hpp⟩
          exact (c84_unchanged_partial c a t props hp ⟨h3, h2.agree⟩ (hd a ha) (hv a ha)
            (fun p hpp _ he _ => ho p (hdecl p hpp) he)
            (fun p hpp => by rw [typeIn_declared hA h2 (hdecl p hpp)]; exact accepts_self p)).2.2 t' ht
      exact ⟨.register a.plain h1 ⟨a, ha, rfl⟩ hst, hF, (c37_crash (.register a.plain) _ h3 _ hst).1⟩
    | @remove t t' n _ ht ih =>
      obtain ⟨h1, h2, h3⟩ := ih
      have hF := (fromDecl_onTables h2 (removeDataset n) (columns_remove n _)).1 t' ht
      have hst := (Sim.onTables (removeDataset n) t).states t' ht
      exact ⟨.remove n h1 hst, hF, (c37_crash (.remove n) _ h3 _ hst).1⟩
  exact ⟨key.1, key.2.1.cols⟩

/-! ## What does not hold -/

theorem taken_false (c : Casts) (b : TArgs) (t : TDb) (h : b.base.name ∈ t.db.datasets.map DatasetRow.name) :
    ((registerT c b).run t).2 = .ok false := by
  unfold registerT
  have h1 : (onTables (insertDataset b.plain)).run t = (((onTables (insertDataset b.plain)).run t).1, .ok none) := by
    have h2 : ((onTables (insertDataset b.plain)).run t).2 = .ok none := by
      rw [run_onTables]
      exact insertDataset_none (Or.inr ((hasName_iff t.db b.base.name).mpr h))
    rw [← h2]
  rw [Prog.run_bind_ok h1]
  rfl

theorem slices_one {α : Type} {n : Nat} {l : List α} (h1 : l ≠ []) (h2 : l.length ≤ n) : ∀ k, 0 < k → slices n k l = [l]
  | k + 1, _ => by
    rw [slices, if_neg (by simpa using h1), List.take_of_length_le h2, List.drop_eq_nil_of_le h2]
    cases k <;> rfl

/-- **C84, a conflict leaves a dataset without samples.** If a dataset of at most 2000 files, with a free name and a parser that accepts
all its files, has a value that the column of an earlier dataset does not take, then `register_dataset` raises; afterwards the
dataset is registered, with its files, but without samples, and its name cannot be registered again. -/
theorem c84_conflict (c : Casts) (a : TArgs) (t : TDb) (hw : t.WF) (hd : DeclaredOnce a) (hfd : a.base.files.Nodup)
    (hR : Registrable a.plain t.db) (props : List TProp) (hp : a.props = some props) (hok : ColumnsOk t props)
    (hlen : a.base.files.length ≤ 2000) (f : PyStr) (hf : f ∈ a.base.files) (l : List ParsedSample) (hl : a.base.parse f = .ok l)
    (s : ParsedSample) (hs : s ∈ l) (p : TProp) (hpp : p ∈ props) (hbad : ∀ w, ¬ StoredAs c (typeIn t p) (valueOf s p) w) :
    (∃ e, ((registerT c a).run t).2 = .error e) ∧
      ((registerT c a).run t).1.db.samples = t.db.samples ∧
      ((registerT c a).run t).1.db.datasets = t.db.datasets ++ [⟨t.db.nextDataset, a.base.name, a.base.loc, a.base.dtype, a.base.func⟩] ∧
      ((registerT c a).run t).1.db.files.map FileRow.loc = t.db.files.map FileRow.loc ++ a.base.files ∧
      ∀ b : TArgs, b.base.name = a.base.name → ((registerT c b).run ((registerT c a).run t).1).2 = .ok false := by
  have hnd := hd props hp
  obtain ⟨cols, hc, hsim⟩ := sim_register c a t props hp hw.2 hnd hok
  have hps : (a.cast c cols props).props = some (props.map TProp.plain) := by
    change a.props.map _ = _
    rw [hp]; rfl
  have hn : t.db.hasName a.base.name = false := by
    by_contra hx
    exact hR.free ((hasName_iff t.db a.base.name).mp (by simpa using hx))
  have hrun := run_register (a.cast c cols props) t.db _ hR.validType hn hR.files hps hfd
  have hne : a.base.files ≠ [] := hR.files
  have hlen' : (newFiles t.db.nextDataset t.db.nextFile (a.cast c cols props).files).length = a.base.files.length :=
    newFiles_length _ _ _
  have hsl : slices 2000 (a.cast c cols props).files.length
      ((newFiles t.db.nextDataset t.db.nextFile (a.cast c cols props).files).map fun f => (f.id, f.loc)) =
      [(newFiles t.db.nextDataset t.db.nextFile (a.cast c cols props).files).map fun f => (f.id, f.loc)] := by
    refine slices_one ?_ (by rw [List.length_map, hlen']; exact hlen) _ (List.length_pos_of_ne_nil hR.files)
    intro e
    have := congrArg List.length e
    rw [List.length_map, hlen'] at this
    exact hne (List.eq_nil_of_length_eq_zero this)
  have herr : ∃ e, parseBatch (a.cast c cols props) t.db.nextDataset (props.map TProp.plain)
      ((newFiles t.db.nextDataset t.db.nextFile (a.cast c cols props).files).map fun f => (f.id, f.loc)) = .error e := by
    cases hb : parseBatch (a.cast c cols props) t.db.nextDataset (props.map TProp.plain)
        ((newFiles t.db.nextDataset t.db.nextFile (a.cast c cols props).files).map fun f => (f.id, f.loc)) with
    | error e => exact ⟨e, rfl⟩
    | ok rows =>
      exfalso
      obtain ⟨ps, h1, -⟩ := parseBatch_ok hb
      rw [forall2_tasks, newFiles_loc] at h1
      obtain ⟨i, hi, rfl⟩ := List.mem_iff_getElem.mp hf
      have h2 := (List.forall₂_iff_get.mp h1).2 i hi (by rw [← h1.length_eq]; exact hi)
      simp only [List.get_eq_getElem] at h2
      obtain ⟨l2, h3, h4⟩ := cast_parse_ok.mp h2
      have hl' : a.base.parse (a.base.files[i]) = .ok l2 := h3
      rw [hl] at hl'
      cases hl'
      obtain ⟨w, -, h6⟩ := (castSample_iff hnd hc s).mp ((mapM_exists _ _).mp ⟨_, h4⟩ s hs) p hpp
      exact hbad w h6
  obtain ⟨e, he⟩ := herr
  have hfin : (registerDataset (a.cast c cols props)).run t.db =
      (beforeSamples (a.cast c cols props) (props.map TProp.plain) t.db, .error e) := by
    rw [hrun, hsl]
    have hb : registerBatch (a.cast c cols props) t.db.nextDataset (props.map TProp.plain)
        ((newFiles t.db.nextDataset t.db.nextFile (a.cast c cols props).files).map fun f => (f.id, f.loc)) = Prog.raise e := by
      unfold registerBatch
      rw [he]
    simp only [Prog.forEach]
    rw [hb]
    rfl
  have hdb : ((registerT c a).run t).1.db = beforeSamples (a.cast c cols props) (props.map TProp.plain) t.db := by
    rw [hsim.db, hfin]
  have hds : ((registerT c a).run t).1.db.datasets =
      t.db.datasets ++ [⟨t.db.nextDataset, a.base.name, a.base.loc, a.base.dtype, a.base.func⟩] := by rw [hdb]; rfl
  refine ⟨?_, by rw [hdb]; rfl, hds, ?_, ?_⟩
  · cases hr : ((registerT c a).run t).2 with
    | error e' => exact ⟨e', rfl⟩
    | ok b =>
      have := (hsim.ok b).mp hr
      rw [hfin] at this
      cases this
  · rw [hdb]
    unfold beforeSamples
    dsimp only
    rw [List.map_append, newFiles_loc]
    rfl
  · intro b hb
    refine taken_false c b _ ?_
    rw [hds, hb]
    simp

/-- The properties of `RedPajamaMetadataParser` (parser_collection.py:9-14). -/
def redPajama : List TProp := [⟨"language".toList, false, true, none⟩, ⟨"publication_date".toList, false, false, none⟩]

/-- The properties of `FineWebMetadataParser` (parser_collection.py:89-94). -/
def fineWeb : List TProp := [⟨"dump".toList, false, false, none⟩, ⟨"language".toList, true, false, some ["en".toList]⟩]

example : redPajama.map (fun p => (p.name, p.enum, p.multiple)) = Meta.redProps.map (fun p => (p.name, p.isEnum, p.multiple)) ∧
    fineWeb.map (fun p => (p.name, p.enum, p.multiple)) = Meta.fineProps.map (fun p => (p.name, p.isEnum, p.multiple)) := ⟨rfl, rfl⟩

/-- **C84, FineWeb cannot be registered beside RedPajama.** Both built-in parsers declare `language`, RedPajama as a list of strings, FineWeb as
an enumeration. Where RedPajama came first, every FineWeb dataset with an English sample raises when it is registered (the text
`en` is not the text form of a list) and is left registered without samples. -/
theorem c84_fineweb_after_redpajama (c : Casts) (hen : c.ofText "en".toList = none) (t : TDb) (hw : t.WF)
    (hcol : Dict.get? t.cols "language".toList = some ⟨true, none⟩) (a : TArgs) (hp : a.props = some fineWeb)
    (hR : Registrable a.plain t.db) (hfd : a.base.files.Nodup) (hlen : a.base.files.length ≤ 2000)
    (f : PyStr) (hf : f ∈ a.base.files) (l : List ParsedSample) (hl : a.base.parse f = .ok l) (s : ParsedSample) (hs : s ∈ l)
    (hv : Dict.get? s.2 "language".toList = some (.str "en".toList)) :
    (∃ e, ((registerT c a).run t).2 = .error e) ∧
      ((registerT c a).run t).1.db.samples = t.db.samples ∧
      ∀ b : TArgs, b.base.name = a.base.name → ((registerT c b).run ((registerT c a).run t).1).2 = .ok false := by
  have hd : DeclaredOnce a := by
    intro props h
    rw [hp] at h
    cases h
    decide
  have hok : ColumnsOk t fineWeb := by
    intro p hpp h1 h2 _
    simp only [fineWeb, List.mem_cons, List.not_mem_nil, or_false] at hpp
    rcases hpp with rfl | rfl
    · cases h2
    · rw [hcol] at h1; cases h1
  have := c84_conflict c a t hw hd hfd hR fineWeb hp hok hlen f hf l hl s hs
    ⟨"language".toList, true, false, some ["en".toList]⟩ (by simp [fineWeb]) (by
      intro w h
      unfold typeIn valueOf at h
      dsimp only at h
      rw [hcol, hv] at h
      dsimp only [Option.getD_some] at h
      cases h with
      | one h => cases h
      | read _ h => rw [hen] at h; cases h)
  exact ⟨this.1, this.2.1, this.2.2.2.2⟩

/-- **C84, nor RedPajama beside FineWeb**: where the column is FineWeb's enumeration, every RedPajama dataset that names a language raises. -/
theorem c84_redpajama_after_fineweb (c : Casts) (t : TDb) (hw : t.WF)
    (hcol : Dict.get? t.cols "language".toList = some ⟨false, some ["en".toList]⟩) (a : TArgs) (hp : a.props = some redPajama)
    (hR : Registrable a.plain t.db) (hfd : a.base.files.Nodup) (hlen : a.base.files.length ≤ 2000)
    (f : PyStr) (hf : f ∈ a.base.files) (l : List ParsedSample) (hl : a.base.parse f = .ok l) (s : ParsedSample) (hs : s ∈ l)
    (langs : List (Option PyStr)) (hv : Dict.get? s.2 "language".toList = some (.list langs)) :
    (∃ e, ((registerT c a).run t).2 = .error e) ∧
      ((registerT c a).run t).1.db.samples = t.db.samples ∧
      ∀ b : TArgs, b.base.name = a.base.name → ((registerT c b).run ((registerT c a).run t).1).2 = .ok false := by
  have hd : DeclaredOnce a := by
    intro props h
    rw [hp] at h
    cases h
    decide
  have hok : ColumnsOk t redPajama := by
    intro p hpp h1 h2 _
    simp only [redPajama, List.mem_cons, List.not_mem_nil, or_false] at hpp
    rcases hpp with rfl | rfl <;> cases h2
  have := c84_conflict c a t hw hd hfd hR redPajama hp hok hlen f hf l hl s hs
    ⟨"language".toList, false, true, none⟩ (by simp [redPajama]) (by
      intro w h
      unfold typeIn valueOf at h
      dsimp only at h
      rw [hcol, hv] at h
      dsimp only [Option.getD_some] at h
      cases h with
      | many h => cases h
      | text _ h => cases h)
  exact ⟨this.1, this.2.1, this.2.2.2.2⟩

namespace Ex84

/-- DuckDB's text form of a list of plain words. -/
def casts : Casts where
  toText := fun l => '[' :: ((l.map fun x => x.getD "NULL".toList).intersperse ", ".toList).flatten ++ [']']
  ofText := fun s => match s with
    | '[' :: r => some [some (r.dropLast)]
    | _ => none

/-- A RedPajama dataset. -/
def red : TArgs where
  base := {
    name := "red".toList, loc := "/r".toList, validType := true, dtype := 1, func := [], files := ["/r/1".toList]
    props := none
    parse := fun _ => .ok [(0, [("language".toList, .list [some "en".toList, some "de".toList])]), (1, [])] }
  props := some redPajama

/-- A FineWeb dataset. -/
def fine : TArgs where
  base := {
    name := "fine".toList, loc := "/f".toList, validType := true, dtype := 1, func := [], files := ["/f/1".toList]
    props := none
    parse := fun _ => .ok [(0, [("language".toList, .str "en".toList), ("dump".toList, .str "d".toList)])] }
  props := some fineWeb

/-- A dataset whose language is one text. -/
def single : TArgs where
  base := {
    name := "single".toList, loc := "/s".toList, validType := true, dtype := 1, func := [], files := ["/s/1".toList]
    props := none
    parse := fun _ => .ok [(0, [("language".toList, .str "en".toList)])] }
  props := some [⟨"language".toList, false, false, none⟩]

def redDb : TDb := ((registerT casts red).run {}).1
def fineDb : TDb := ((registerT casts fine).run {}).1
def singleDb : TDb := ((registerT casts single).run {}).1

end Ex84

theorem emptyT_wf : ({} : TDb).WF := ⟨Ex.emptyDb_wf, rfl⟩

/-- Both register in an empty data collection, with the columns the two theorems ask for, and then fail in the other's. -/
example : ((registerT Ex84.casts Ex84.red).run {}).2 = .ok true ∧ Dict.get? Ex84.redDb.cols "language".toList = some ⟨true, none⟩ ∧
    ((registerT Ex84.casts Ex84.fine).run {}).2 = .ok true ∧
    Dict.get? Ex84.fineDb.cols "language".toList = some ⟨false, some ["en".toList]⟩ ∧
    ((registerT Ex84.casts Ex84.fine).run Ex84.redDb).2 = .error .runtimeError ∧
    ((registerT Ex84.casts Ex84.red).run Ex84.fineDb).2 = .error .runtimeError ∧
    Ex84.casts.ofText "en".toList = none := by decide +kernel

/-- **C84, a list becomes a text.** RedPajama after a dataset with single languages: the registration succeeds, but what is stored for the
sample with the languages `en` and `de` is the one text `[en, de]`, and removing the first dataset beforehand does not help. -/
theorem c84_list_as_text :
    ((registerT Ex84.casts Ex84.red).run Ex84.singleDb).2 = .ok true ∧
      (((registerT Ex84.casts Ex84.red).run Ex84.singleDb).1.db.samples.map fun r => Dict.get? r.cells "language".toList) =
        [some (.str "en".toList), some (.str "[en, de]".toList), some .null] ∧
      (((registerT Ex84.casts Ex84.red).run ((removeT "single".toList).run Ex84.singleDb).1).1.db.samples.map
        fun r => Dict.get? r.cells "language".toList) = [some (.str "[en, de]".toList), some .null] := by decide +kernel

/-- The hypotheses of `c84_history_partial` are met by histories with RedPajama. -/
example : Agreed (fun a => a = Ex84.red) ∧ SoundOptions (fun a => a = Ex84.red) ∧ DeclaredOnce Ex84.red ∧
    ParsesValid Ex84.red ∧ TReach Ex84.casts (fun a => a = Ex84.red) Ex84.redDb ∧ Ex84.redDb.db.samples.length = 2 := by
  have hdecl : ∀ p, Declared (fun a => a = Ex84.red) p → p ∈ redPajama := by
    rintro p ⟨a, props, rfl, h1, h2⟩
    cases h1
    exact h2
  refine ⟨?_, ?_, ?_, ?_, .register Ex84.red .init rfl (Prog.run_mem_states _ _), by decide +kernel⟩
  · intro p q hp hq h
    have h1 := hdecl p hp
    have h2 := hdecl q hq
    simp only [redPajama, List.mem_cons, List.not_mem_nil, or_false] at h1 h2
    rcases h1 with rfl | rfl <;> rcases h2 with rfl | rfl
    · rfl
    · exact absurd h (by decide)
    · exact absurd h (by decide)
    · rfl
  · intro p hp he
    have h1 := hdecl p hp
    simp only [redPajama, List.mem_cons, List.not_mem_nil, or_false] at h1
    rcases h1 with rfl | rfl <;> cases he
  · intro props h
    cases h
    decide
  · intro props h f l hl s hs p hp
    cases h
    cases hl
    simp only [redPajama, List.mem_cons, List.not_mem_nil, or_false] at hp hs
    rcases hs with rfl | rfl <;> rcases hp with rfl | rfl
    · exact ⟨rfl, fun h => (by cases h)⟩
    · exact trivial
    · exact trivial
    · exact trivial

/-- The hypotheses of `c84_register_iff` and `c84_register_adds`. -/
example : DeclaredOnce Ex84.fine ∧ Ex84.fine.base.files.Nodup ∧ ((registerT Ex84.casts Ex84.fine).run {}).2 = .ok true ∧
    Ex84.fineDb.db.samples.length = 1 := by
  refine ⟨?_, by decide, by decide +kernel, by decide +kernel⟩
  intro props h
  cases h
  decide

/-- The hypotheses of `c84_type_for_ever`. -/
example : TSteps Ex84.casts Ex84.redDb ((removeT "red".toList).run Ex84.redDb).1 ∧
    ((removeT "red".toList).run Ex84.redDb).1.db.datasets = [] :=
  ⟨.step (.remove "red".toList) .refl (Prog.run_mem_states _ _), by decide +kernel⟩

end Mixtera.Typed
