import Verif.Model.ResultMeta
import Verif.Props.TableLinks
import Verif.Props.EndToEndAny
import Verif.Props.Readable
import Verif.Props.Parser
import Verif.Props.ChunkConfig

/-!
# A model is trained on the registered records (C83)

From the files that were registered to what a reader yields for a chunk of a query: the tables, the metadata of the query
result, the ranges of the chunk and the readers of the datasets together.
-/

set_option linter.unusedSectionVars false

namespace Mixtera

variable {β ρ α : Type}

/-! ## Specification -/

/-- The records of a file of a dataset: the lines, the samples of the tar file, the rows of the Parquet file. -/
def FileWorld.records (w : FileWorld β ρ) (loc : PyStr) : DsClass → List ρ
  | .generic => []
  | .jsonl => w.lines (w.content loc)
  | .web => w.tar (w.content loc)
  | .parquet => (w.groups (w.content loc)).flatten

/-- Cutting rows into batches neither loses rows nor reorders them. -/
structure FileWorld.Faithful (w : FileWorld β ρ) : Prop where
  iter : ∀ gs, (w.iterBatches gs).flatten = gs.flatten
  table : ∀ l, (w.toBatches l).flatten = l

/-- A metadata parser that declares every property once and does not use a reserved name (C51 shows what happens otherwise). -/
structure ParserClass.Proper (p : ParserClass ρ) : Prop where
  names : (p.props.map Meta.MProp.name).Nodup
  reserved : ∀ q ∈ p.props, q.name ∉ Meta.reservedNames

/-- The databases that arise from calls of `register_dataset` (those in `Made`) and `remove_dataset`, with crashes. -/
def Reachable (w : FileWorld β ρ) (Made : RegCall ρ → Prop) : Db → Prop :=
  DbReach fun a => ∃ k : RegCall ρ, Made k ∧ a = k.args w

/-- Specification: the cell that holds a property value - NULL for no value, the value itself, or the list of values in order. -/
inductive Holds : Meta.MVal PyStr → Cell → Prop
  | null : Holds .null .null
  | one (v : PyStr) : Holds (.one v) (.str v)
  | many (vs : List PyStr) : Holds (.many vs) (.list (vs.map some))

theorem holds_cellOf (v : Meta.MVal PyStr) : Holds v (cellOf v) := by
  cases v <;> constructor

/-- The row `r` of the sample table stands for the record `x`: one of the registration calls was for the dataset of the row, with
`func` as its parsing function; one of its files is the file of the row; `x` is record number `r.sample` of this file; and the
row's property values are those that the call's metadata parser extracts from `x`. -/
def StandsFor (w : FileWorld β ρ) (Made : RegCall ρ → Prop) (db : Db) (r : SampleRow) (func : PyStr) (x : ρ) : Prop :=
  ∃ (k : RegCall ρ) (p : ParserClass ρ) (path : PyStr) (kwargs : Dict PyStr (Meta.MVal PyStr)),
    Made k ∧ k.parser = some p ∧ k.func = func ∧
    (∃ d ∈ db.datasets, d.id = r.dataset ∧ d.name = k.name ∧ d.func = func) ∧
    (∃ f ∈ db.files, f.id = r.file ∧ f.dataset = r.dataset ∧ f.loc = path) ∧ path ∈ k.files ∧
    (w.records path k.cls)[r.sample]? = some x ∧
    p.extract r.sample x = .ok kwargs ∧
    ∀ q ∈ p.props, ∃ c, Dict.get? r.cells q.name = some c ∧ Holds (Meta.stored q (Meta.given kwargs q.name)) c

/-- The row numbers in a list of ranges, range by range. -/
def rowNumbers (ranges : List (Nat × Nat)) : List Nat := ranges.flatMap fun r => List.range' r.1 (r.2 - r.1)

/-! ## Registration -/

theorem informFile_eq {w : FileWorld β ρ} (hw : w.Faithful) {p : ParserClass ρ} {schema : Dict PyStr (Meta.MProp PyStr)}
    {loc : PyStr} {c : DsClass} {rs : List (Meta.Record PyStr)} (h : informFile w p schema loc c = .ok rs) :
    Meta.inform schema p.extract (w.records loc c) = .ok rs := by
  cases c with
  | generic => cases h
  | jsonl => exact h
  | web => exact h
  | parquet =>
    simp only [informFile, Meta.c55_batches, hw.iter] at h
    exact h

theorem dictGet?_map {α β γ : Type} [DecidableEq α] (l : Dict α β) (g : β → γ) (k : α) :
    Dict.get? (l.map fun kv => (kv.1, g kv.2)) k = (Dict.get? l k).map g := by
  induction l with
  | nil => rfl
  | cons kv l ih =>
    obtain ⟨a, b⟩ := kv
    by_cases h : a = k
    · simp [Dict.get?, h]
    · simp [Dict.get?, h, ih]

/-- A parsed sample is a record of the file with its number. -/
theorem processFile_spec {w : FileWorld β ρ} (hw : w.Faithful) {p : ParserClass ρ} (hp : p.Proper) {c : DsClass} {loc : PyStr}
    {l : List ParsedSample} (h : processFile w p c loc = .ok l) {s : ParsedSample} (hs : s ∈ l) :
    ∃ x kwargs, (w.records loc c)[s.1]? = some x ∧ p.extract s.1 x = .ok kwargs ∧
      ∀ q ∈ p.props, Dict.get? s.2 q.name = some (cellOf (Meta.stored q (Meta.given kwargs q.name))) := by
  unfold processFile at h
  obtain ⟨schema, hsch, -⟩ := Meta.c51_accepts_partial p.props hp.names hp.reserved 0 []
  rw [hsch] at h
  have hpm : schema = Meta.propertyMap p.props := by
    unfold Meta.newParser at hsch
    split at hsch
    · cases hsch
    · injection hsch with e; exact e.symm
  dsimp only at h
  split at h
  · cases h
  · rename_i rs hrs
    rw [hpm] at hrs
    obtain ⟨hlen, hnum⟩ := Meta.c55_numbering p.props hp.names hp.reserved p.extract _ rs (informFile_eq hw hrs)
    have h2 := mapM_ok h
    obtain ⟨i, hi, rfl⟩ := List.mem_iff_getElem.mp hs
    have hli : i < rs.length := by rw [h2.length_eq]; exact hi
    have hri : i < (w.records loc c).length := by rw [← hlen]; exact hli
    obtain ⟨kwargs, r, e1, e2, e3, e4⟩ := hnum i _ (List.getElem?_eq_getElem hri)
    have er : rs[i] = r := by rw [List.getElem?_eq_getElem hli] at e2; exact Option.some.inj e2
    have h3 : parsedOf rs[i] = .ok l[i] := by
      have := List.forall₂_iff_get.mp h2
      exact this.2 i hli hi
    rw [er] at h3
    unfold parsedOf at h3
    rw [e3] at h3
    simp only [Except.ok.injEq] at h3
    rw [← h3]
    refine ⟨_, kwargs, List.getElem?_eq_getElem hri, e1, ?_⟩
    intro q hq
    obtain ⟨schema', hs1, hs2⟩ := Meta.c51_accepts_partial p.props hp.names hp.reserved i kwargs
    rw [hsch] at hs1
    injection hs1 with hs1
    rw [← hs1, hpm] at hs2
    obtain ⟨-, rfl⟩ := (hs2 r).mp e4
    rw [dictGet?_map]
    have hne : Meta.sampleId ≠ q.name := fun e => hp.reserved q hq (by rw [← e]; exact List.mem_cons_self)
    have hgo : ∀ (ps : List (Meta.MProp PyStr)), (ps.map Meta.MProp.name).Nodup → q ∈ ps →
        Dict.get? (ps.map fun p => (p.name, Meta.Field.val (Meta.stored p (Meta.given kwargs p.name)))) q.name =
          some (Meta.Field.val (Meta.stored q (Meta.given kwargs q.name))) := by
      intro ps
      induction ps with
      | nil => intro _ h; cases h
      | cons p ps ih =>
        intro hn hmem
        rw [List.map_cons, List.nodup_cons] at hn
        rcases List.mem_cons.mp hmem with rfl | hmem
        · simp [Dict.get?]
        · have : p.name ≠ q.name := fun e => hn.1 (e ▸ List.mem_map_of_mem hmem)
          rw [List.map_cons, Dict.get?, if_neg this]
          exact ih hn.2 hmem
    rw [Dict.get?, if_neg hne, hgo p.props hp.names hq]
    rfl

/-- A row of a reachable database stands for a record. -/
theorem row_standsFor {w : FileWorld β ρ} (hw : w.Faithful) {Made : RegCall ρ → Prop}
    (hmade : ∀ k, Made k → ∀ p, k.parser = some p → p.Proper) {db : Db} (hdb : Reachable w Made db) {r : SampleRow}
    (hr : r ∈ db.samples) :
    ∃ (k : RegCall ρ) (d : DatasetRow) (f : FileRow) (x : ρ), d ∈ db.datasets ∧ f ∈ db.files ∧ d.id = r.dataset ∧
      f.id = r.file ∧ d.dtype = k.cls.typeId ∧ k.cls ≠ .generic ∧ d.func = k.func ∧
      (w.records f.loc k.cls)[r.sample]? = some x ∧ StandsFor w Made db r k.func x := by
  obtain ⟨-, hl⟩ := c83_no_dangling _ db hdb
  obtain ⟨a, props, d, f, l, p, ⟨k, hk, rfl⟩, h1, h2, h3, h4, h5, h6, h7, h8, h9, h10, h11, h12, h13, h14⟩ := hl r hr
  have hc : k.cls ≠ .generic := by
    rintro e
    simp [RegCall.args, e, DsClass.typeId] at h9
  cases hp : k.parser with
  | none => simp [RegCall.args, hp] at h11
  | some pc =>
    have hparse : processFile w pc k.cls f.loc = .ok l := by
      simpa [RegCall.args, hp] using h12
    have hprops : props = pc.props.map fun q => (q.name, q.multiple) := by
      simpa [RegCall.args, hp, eq_comm] using h11
    obtain ⟨x, kwargs, e1, e2, e3⟩ := processFile_spec hw (hmade k hk pc hp) hparse h13
    rw [← h14.sample] at e1 e2
    refine ⟨k, d, f, x, h1, h2, h3, h4, h7, hc, h8, e1, k, pc, f.loc, kwargs, hk, hp, rfl, ⟨d, h1, h3, h6, h8⟩,
      ⟨f, h2, h4, h5.trans h3, rfl⟩, h10, e1, e2, ?_⟩
    intro q hq
    refine ⟨_, ?_, holds_cellOf _⟩
    rw [h14.value q.name (by rw [hprops, List.map_map]; exact List.mem_map_of_mem (f := fun q => q.name) hq), e3 q hq]
    rfl

/-! ## The metadata of a query result -/

theorem lookupAll_ok {γ : Type} (get : Nat → Except Err γ) : ∀ (ids : List Nat), (∀ i ∈ ids, ∃ a, get i = .ok a) →
    ∃ d, lookupAll get ids = .ok d ∧ ∀ i ∈ ids, ∀ a, get i = .ok a → d.get? i = some a
  | [], _ => ⟨[], rfl, by simp⟩
  | i :: ids, h => by
    obtain ⟨a, ha⟩ := h i (by simp)
    obtain ⟨d, h1, h2⟩ := lookupAll_ok get ids fun j hj => h j (by simp [hj])
    refine ⟨(i, a) :: d, by simp only [lookupAll, ha, h1], ?_⟩
    intro j hj b hb
    by_cases e : i = j
    · subst e
      rw [ha] at hb
      injection hb with hb
      rw [Dict.get?, if_pos rfl, hb]
    · rw [Dict.get?, if_neg e]
      rcases List.mem_cons.mp hj with rfl | hj
      · exact absurd rfl e
      · exact h2 j hj b hb

theorem find?_id {γ : Type} (id : γ → Nat) {l : List γ} (hn : (l.map id).Nodup) {x : γ} (hx : x ∈ l) {i : Nat} (hi : id x = i) :
    (l.find? fun y => id y == i) = some x := by
  induction l with
  | nil => cases hx
  | cons y l ih =>
    rw [List.map_cons, List.nodup_cons] at hn
    rcases List.mem_cons.mp hx with rfl | hx'
    · simp [hi]
    · have : id y ≠ i := fun e => hn.1 (e.trans hi.symm ▸ List.mem_map_of_mem hx')
      rw [List.find?_cons_of_neg (by simpa using this)]
      exact ih hn.2 hx'

theorem fromTypeId_typeId (c : DsClass) : fromTypeId c.typeId = .ok c := by cases c <;> rfl

/-- The metadata of a table all of whose rows belong to registered samples. -/
theorem parseMeta_ok {w : FileWorld β ρ} (hw : w.Faithful) {Made : RegCall ρ → Prop}
    (hmade : ∀ k, Made k → ∀ p, k.parser = some p → p.Proper) {db : Db} (hdb : Reachable w Made db)
    (enum : List Nat → List Nat) (henum : ∀ l, (enum l).Perm l) {table : List TRow}
    (ht : ∀ t ∈ table, ∃ r ∈ db.samples, r.dataset = t.ds ∧ r.file = t.file) :
    ∃ m, parseMeta enum db table = .ok m ∧ m.length = table.length ∧ ∀ t ∈ table, ∀ c func loc,
      db.typeById t.ds = .ok c → db.funcById t.ds = .ok func → db.pathById t.file = .ok loc →
      m.dtype.get? t.ds = some c ∧ m.func.get? t.ds = some func ∧ m.path.get? t.file = some loc := by
  have hwf := (c83_no_dangling _ db hdb).1
  have hmem : ∀ (g : TRow → Nat) (i : Nat), i ∈ enum (table.map g).dedup ↔ ∃ t ∈ table, g t = i := by
    intro g i
    rw [(henum _).mem_iff, List.mem_dedup, List.mem_map]
  have hall : ∀ t ∈ table, (∃ c, db.typeById t.ds = .ok c) ∧ (∃ func, db.funcById t.ds = .ok func) ∧
      ∃ loc, db.pathById t.file = .ok loc := by
    intro t htm
    obtain ⟨r, hr, e1, e2⟩ := ht t htm
    obtain ⟨k, d, f, x, h1, h2, h3, h4, h5, h6, -⟩ := row_standsFor hw hmade hdb hr
    have hd := find?_id DatasetRow.id hwf.ids h1 (h3.trans e1)
    have hf := find?_id FileRow.id hwf.fileIds h2 (h4.trans e2)
    exact ⟨⟨k.cls, by simp only [Db.typeById, hd, h5, fromTypeId_typeId]⟩, ⟨_, by rw [Db.funcById, hd]⟩,
      ⟨_, by rw [Db.pathById, hf]⟩⟩
  obtain ⟨ts, ht1, ht2⟩ := lookupAll_ok db.typeById (enum (table.map TRow.ds).dedup) (by
    intro i hi; obtain ⟨t, htm, rfl⟩ := (hmem _ i).mp hi; exact (hall t htm).1)
  obtain ⟨fs, hf1, hf2⟩ := lookupAll_ok db.funcById (enum (table.map TRow.ds).dedup) (by
    intro i hi; obtain ⟨t, htm, rfl⟩ := (hmem _ i).mp hi; exact (hall t htm).2.1)
  obtain ⟨ps, hp1, hp2⟩ := lookupAll_ok db.pathById (enum (table.map TRow.file).dedup) (by
    intro i hi; obtain ⟨t, htm, rfl⟩ := (hmem _ i).mp hi; exact (hall t htm).2.2)
  refine ⟨⟨ts, fs, ps, table.length⟩, by simp only [parseMeta, ht1, hf1, hp1], rfl, ?_⟩
  intro t htm c func loc e1 e2 e3
  exact ⟨ht2 _ ((hmem _ _).mpr ⟨t, htm, rfl⟩) _ e1, hf2 _ ((hmem _ _).mpr ⟨t, htm, rfl⟩) _ e2,
    hp2 _ ((hmem _ _).mpr ⟨t, htm, rfl⟩) _ e3⟩

/-! ## Reading -/

theorem take_drop_range {γ : Type} (l : List γ) : ∀ (n s : Nat), s + n ≤ l.length →
    List.Forall₂ (fun i x => l[i]? = some x) (List.range' s n) ((l.drop s).take n)
  | 0, s, _ => by simp
  | n + 1, s, h => by
    rw [List.range'_succ, List.drop_eq_getElem_cons (by omega), List.take_succ_cons]
    exact .cons (List.getElem?_eq_getElem (by omega)) (take_drop_range l n (s + 1) (by omega))

/-- The requested rows, number by number. -/
theorem requestedRows_forall₂ {γ : Type} (rows : List γ) : ∀ (ranges : List (Nat × Nat)) (n : Nat), SortedFrom n ranges →
    (∀ r ∈ ranges, r.1 < r.2 → r.2 ≤ rows.length) →
    List.Forall₂ (fun i x => rows[i]? = some x) (rowNumbers ranges) (requestedRows rows ranges)
  | [], _, _, _ => by
    rw [requestedRows_eq, selFrom_false]
    · exact .nil
    · intro i _ _; rfl
  | (s, e) :: ranges, n, h, hb => by
    obtain ⟨h1, h2, h3⟩ := h
    have ih := requestedRows_forall₂ rows ranges e h3 fun r hr => hb r (by simp [hr])
    rw [requestedRows_eq] at ih ⊢
    rw [selFrom_ranges_cons h3, selFrom_interval s e rows 0 (by omega)]
    refine List.rel_append ?_ ih
    simp only at h1 h2 ⊢
    rcases Nat.lt_or_ge s e with hse | hse
    · exact take_drop_range rows (e - s) s (by have := hb (s, e) (by simp) hse; simp only at this; omega)
    · have : e - s = 0 := by omega
      rw [this]; simp

theorem readFile_ok {w : FileWorld β ρ} (hw : w.Faithful) (parse : ρ → α) (loc : PyStr) {ranges : List (Nat × Nat)} {c : DsClass}
    (hc : c ≠ .generic) (hs : SortedFrom 0 ranges) (hb : ∀ r ∈ ranges, r.1 < r.2 → r.2 ≤ (w.records loc c).length) :
    readFile w parse loc ranges c = ((requestedRows (w.records loc c) ranges).map parse, none) := by
  cases c with
  | generic => exact absurd rfl hc
  | jsonl => exact c45_lines parse _ _ hs
  | web => exact c45_web parse _ _ hs hb
  | parquet => simp only [readFile, FileWorld.records, c46_rows parse w.toBatches hw.table _ _ hs]

/-- The item at a position. -/
def itemAt (w : FileWorld β ρ) (apply : PyStr → ρ → α) (m : ResultMeta) (p : Pos) : Option α :=
  match m.path.get? p.2.1, m.dtype.get? p.1, m.func.get? p.1 with
  | some loc, some c, some func => ((w.records loc c)[p.2.2]?).map (apply func)
  | _, _, _ => none

/-- Reading the ranges of a file whose row numbers are all registered. -/
theorem readItem_ok {w : FileWorld β ρ} (hw : w.Faithful) {Made : RegCall ρ → Prop}
    (hmade : ∀ k, Made k → ∀ p, k.parser = some p → p.Proper) {db : Db} (hdb : Reachable w Made db) (apply : PyStr → ρ → α)
    {m : ResultMeta} {d f : Nat} {ranges : List (Nat × Nat)} (hs : SortedFrom 0 ranges)
    (hne : ∃ r ∈ db.samples, r.dataset = d ∧ r.file = f)
    (hm : ∀ c func loc, db.typeById d = .ok c → db.funcById d = .ok func → db.pathById f = .ok loc →
      m.dtype.get? d = some c ∧ m.func.get? d = some func ∧ m.path.get? f = some loc)
    (hr : ∀ i ∈ rowNumbers ranges, ∃ r ∈ db.samples, r.dataset = d ∧ r.file = f ∧ r.sample = i) :
    ∃ ys, readItem w apply m d f ranges = (ys, none) ∧
      List.Forall₂ (fun i y => itemAt w apply m (d, f, i) = some y ∧ ∀ r ∈ db.samples, r.dataset = d → r.file = f → r.sample = i →
        ∃ func x, StandsFor w Made db r func x ∧ y = apply func x) (rowNumbers ranges) ys := by
  have hwf := (c83_no_dangling _ db hdb).1
  -- the dataset and the file are the same for all rows
  have hsame : ∀ r ∈ db.samples, r.dataset = d → r.file = f → ∃ (k : RegCall ρ) (x : ρ) (dr : DatasetRow) (fr : FileRow),
      (db.datasets.find? fun y => y.id == d) = some dr ∧ (db.files.find? fun y => y.id == f) = some fr ∧
      dr.dtype = k.cls.typeId ∧ k.cls ≠ .generic ∧ dr.func = k.func ∧
      (w.records fr.loc k.cls)[r.sample]? = some x ∧ StandsFor w Made db r k.func x := by
    intro r hr e1 e2
    obtain ⟨k, dr, fr, x, h1, h2, h3, h4, h5, h6, h7, h8, h9⟩ := row_standsFor hw hmade hdb hr
    exact ⟨k, x, dr, fr, find?_id DatasetRow.id hwf.ids h1 (h3.trans e1), find?_id FileRow.id hwf.fileIds h2 (h4.trans e2),
      h5, h6, h7, h8, h9⟩
  obtain ⟨r0, hr0, e1, e2⟩ := hne
  obtain ⟨k, x0, dr, fr, h1, h2, h3, h4, h5, -, -⟩ := hsame r0 hr0 e1 e2
  have hinj : ∀ c : DsClass, c.typeId = k.cls.typeId → c = k.cls := by
    intro c hc
    have := fromTypeId_typeId c
    rw [hc, fromTypeId_typeId] at this
    injection this with this; exact this.symm
  obtain ⟨g1, g2, g3⟩ := hm k.cls dr.func fr.loc (by simp only [Db.typeById, h1, h3, fromTypeId_typeId])
    (by rw [Db.funcById, h1]) (by rw [Db.pathById, h2])
  have hrow : ∀ i ∈ rowNumbers ranges, ∃ x, (w.records fr.loc k.cls)[i]? = some x := by
    intro i hi
    obtain ⟨r, hr', e1, e2, rfl⟩ := hr i hi
    obtain ⟨k', x, dr', fr', q1, q2, q3, -, -, q6, -⟩ := hsame r hr' e1 e2
    rw [h1] at q1; rw [h2] at q2
    injection q1 with q1; injection q2 with q2
    subst q1; subst q2
    rw [hinj k'.cls (q3.symm.trans h3)] at q6
    exact ⟨x, q6⟩
  have hb : ∀ r ∈ ranges, r.1 < r.2 → r.2 ≤ (w.records fr.loc k.cls).length := by
    intro r hrr hlt
    obtain ⟨x, hx⟩ := hrow (r.2 - 1) (List.mem_flatMap.mpr ⟨r, hrr, by rw [List.mem_range'_1]; omega⟩)
    have := (List.getElem?_eq_some_iff.mp hx).1
    omega
  refine ⟨(requestedRows (w.records fr.loc k.cls) ranges).map (apply dr.func), ?_, ?_⟩
  · simp only [readItem, g1, g2, g3]
    exact readFile_ok hw _ _ h4 hs hb
  · rw [List.forall₂_map_right_iff]
    refine (requestedRows_forall₂ _ ranges 0 hs hb).imp ?_
    rintro i x hx
    refine ⟨by simp only [itemAt, g1, g2, g3, hx, Option.map_some], ?_⟩
    rintro r hr' e1 e2 rfl
    obtain ⟨k', x', dr', fr', q1, q2, q3, -, q5, q6, q7⟩ := hsame r hr' e1 e2
    rw [h1] at q1; rw [h2] at q2
    injection q1 with q1; injection q2 with q2
    subst q1; subst q2
    rw [hinj k'.cls (q3.symm.trans h3), hx] at q6
    injection q6 with q6
    subst q6
    exact ⟨k'.func, x, q7, by rw [q5]⟩

/-! ## The query -/

/-- Every row of the result table belongs to a selected sample. -/
theorem table_rows {db : Db} (hwf : db.WF) (hp : ReadableDb db) {sels : List (List Cond)} (hq : GoodQuery db sels) {q : Sel}
    (hb : buildQuery sels = some q) {leG : Group → Group → Bool} (hle : TotalOrder leG) {base : List (Group × Nat)}
    (h : baseData db q db.samples = .ok base) :
    ∀ t ∈ (queryIntervals leG base).map rowOf, ∃ r ∈ db.samples, r.dataset = t.ds ∧ r.file = t.file := by
  obtain ⟨base', h1, l', hsub, hbase, hmem⟩ := baseData_eq hq hb db.samples hp.types
  rw [h] at h1
  injection h1 with h1
  subst h1
  have hkeys : (l'.map SampleRow.key).Nodup := (hsub.map _).nodup hwf.keys
  have hn : base.Nodup := by
    rw [hbase]
    apply List.Nodup.of_map (fun s : Group × Nat => (s.1.1, s.1.2.1, s.2))
    rw [List.map_map]
    exact hkeys
  have hsd := c32_sorted_disjoint_maximal leG hle.total hle.trans hle.antisymm base hn
  intro t ht
  obtain ⟨r0, hr0, rfl⟩ := List.mem_map.mp ht
  have hin := (c32_coverage leG base r0.g r0.start).mpr ⟨r0, hr0, rfl, Nat.le_refl _, hsd.1 r0 hr0⟩
  rw [hbase, List.mem_map] at hin
  obtain ⟨r, hr, e⟩ := hin
  simp only [Prod.mk.injEq] at e
  exact ⟨r, ((hmem r).mp hr).1, by rw [rowOf, ← e.1]; rfl, by rw [rowOf, ← e.1]; rfl⟩

/-- Every selected sample lies in a row of the result table. -/
theorem selected_in_table {db : Db} (hp : ReadableDb db) {sels : List (List Cond)} (hq : GoodQuery db sels) {q : Sel}
    (hb : buildQuery sels = some q) {leG : Group → Group → Bool} {base : List (Group × Nat)}
    (h : baseData db q db.samples = .ok base) {r : SampleRow} (hr : r ∈ db.samples) (hw : r.Wanted sels) :
    ∃ t ∈ (queryIntervals leG base).map rowOf, t.ds = r.dataset ∧ t.file = r.file := by
  obtain ⟨base', h1, l', hsub, hbase, hmem⟩ := baseData_eq hq hb db.samples hp.types
  rw [h] at h1
  injection h1 with h1
  subst h1
  have hin : ((r.dataset, r.file, r.cellsOf db), r.sample) ∈ base := by
    rw [hbase]; exact List.mem_map_of_mem (f := fun r : SampleRow => ((r.dataset, r.file, r.cellsOf db), r.sample))
      ((hmem r).mpr ⟨hr, hw⟩)
  obtain ⟨r0, hr0, e, -⟩ := (c32_coverage leG base _ _).mp hin
  refine ⟨rowOf r0, List.mem_map_of_mem hr0, ?_, ?_⟩
  · rw [rowOf, e]
  · rw [rowOf, e]

theorem forall₂_and_left {α β : Type} {P : α → Prop} {R S : α → β → Prop} {l : List α} {m : List β} (hp : ∀ a ∈ l, P a)
    (h : List.Forall₂ R l m) (hs : ∀ a b, P a → R a b → S a b) : List.Forall₂ S l m := by
  induction h with
  | nil => exact .nil
  | cons h1 _ ih => exact .cons (hs _ _ (hp _ (by simp)) h1) (ih fun a ha => hp a (by simp [ha]))

theorem delivered_keys_nodup {K : Type} [DecidableEq K] (ops : KeyOps K) (replay : Bool) {index : Dict K Entries} {order : List K}
    (hi : IndexOk index order) {history : List (Req K)} (hh : ∀ r ∈ history, HeapOk r.heap)
    {r : Req K} (hr : HeapOk r.heap) {g g' : Gen K} {c : RChunk K} (hg : g = after ops replay index order history)
    (h : g.send ops r.fuel replay r.heap r.mix r.target = (g', .chunk c)) : c.content.keys.Nodup := by
  have hgi : GenInv g := hg ▸ after_inv ops replay hi history hh
  obtain ⟨g1, _, _, ⟨_, hm⟩ | ⟨h0, hm⟩⟩ := chunk_facts ops replay hgi r hr h
  · obtain ⟨m, -, -, -, h4, -⟩ := mix_listed (hr _) hm
    exact h4
  · obtain ⟨key, out, hc, -⟩ := hm.ex
    rw [hc]; simp [Dict.keys]

/-- Specification: what a query result with index `idx` and metadata `m` delivers are records. Whatever the sequence of chunk
requests with whatever mixtures: for every chunk, reading the ranges that it lists for a file under a key succeeds and yields one
item per row number, in order. The item at a position is always the same one (`item`), whatever the chunk and the ranges through
which it is read. It is the parsing function of the dataset, applied to the record that was registered under this number. The row
of that record satisfies the query, and has the properties of the key. -/
def DeliversRecords (w : FileWorld β ρ) (Made : RegCall ρ → Prop) (db : Db) (sels : List (List Cond)) (apply : PyStr → ρ → α)
    (idx : Dict CKey Entries) (m : ResultMeta) (item : Pos → Option α) : Prop :=
  ∀ (order : List CKey), order.Perm idx.keys → ∀ (replay : Bool) (history : List (Req CKey)), (∀ r ∈ history, HeapOk r.heap) →
    ∀ (rq : Req CKey), HeapOk rq.heap → ∀ (g g' : Gen CKey) (ch : RChunk CKey),
      g = after ckeyOps replay idx order history →
      g.send ckeyOps rq.fuel replay rq.heap rq.mix rq.target = (g', .chunk ch) →
      ∀ (k : CKey) (e : Entries), (k, e) ∈ ch.content → ∀ (d : Nat) (fs : Dict Nat (List Rng)), (d, fs) ∈ e →
      ∀ (f : Nat) (ranges : List Rng), (f, ranges) ∈ fs →
        ∃ ys, readItem w apply m d f ranges = (ys, none) ∧
          List.Forall₂ (fun i y => item (d, f, i) = some y ∧
              ∃ r ∈ db.samples, (r.dataset, r.file, r.sample) = (d, f, i) ∧ r.Wanted sels ∧
              (if (g.eff rq).rows = [] then r.Has db k.1
               else ∀ n vs, k.1.get? n = some vs → ∃ ws, r.prop db n = some ws ∧
                ((∃ v, v ∈ vs ∧ v ∈ ws) ∨ (vs = [] ∧ ws = []))) ∧
              ∃ func x, StandsFor w Made db r func x ∧ y = apply func x)
            (rowNumbers ranges) ys

/-- **C83**. Take any database that arises from registering and removing datasets (with crashes at any points), and a query on
it. Executing the query succeeds, and what a model is trained on under a key are registered records from which the metadata
parser extracted the properties of the key: see `DeliversRecords`.

`_partial`: for the queries and property values of C63 (values may be listed in any order), and as long as the files do not change (`w` is the same throughout). -/
theorem c83_trained_records_partial (w : FileWorld β ρ) (hw : w.Faithful) (Made : RegCall ρ → Prop)
    (hmade : ∀ k, Made k → ∀ p, k.parser = some p → p.Proper) (db : Db) (hdb : Reachable w Made db) (hp : ReadableDb db)
    (sels : List (List Cond)) (hq : GoodQuery db sels) (q : Sel) (hb : buildQuery sels = some q)
    (leG : Group → Group → Bool) (hle : TotalOrder leG)
    (split : List TRow → List (List TRow)) (hsplit : ∀ l, (split l).flatten = l)
    (reorder : CppIndex → CppIndex) (hre : ∀ i xs, Describes i xs → SameIndex i (reorder i))
    (threads : Int) (hth : 0 ≤ threads) (enum : List Nat → List Nat) (henum : ∀ l, (enum l).Perm l)
    (apply : PyStr → ρ → α) :
    ∃ idx m, ∃ item : Pos → Option α, queryResult leG split reorder ckeyOf threads enum db q = .ok (idx, m) ∧
      DeliversRecords w Made db sels apply idx m item := by
  have hwf := (c83_no_dangling _ db hdb).1
  obtain ⟨idx, kept, hidx, hok, hso, hnd, -, hks⟩ := c63_index_value_orders db hwf hp sels hq q hb leG hle split hsplit reorder hre
    threads hth
  obtain ⟨idx2, hidx2, htr⟩ := c63_training_value_orders db hwf hp sels hq q hb leG hle split hsplit reorder hre threads hth
  rw [hidx] at hidx2
  injection hidx2 with hidx2
  subst hidx2
  obtain ⟨base, hbase, -⟩ := baseData_eq hq hb db.samples hp.types
  have hrows := table_rows hwf hp hq hb hle hbase
  obtain ⟨m, hm1, -, hm2⟩ := parseMeta_ok hw hmade hdb enum henum hrows
  refine ⟨idx, m, itemAt w apply m, ?_, ?_⟩
  · unfold queryIndex at hidx
    rw [hbase] at hidx
    simp only [queryResult, hbase, hm1]
    have hidx' : createChunkerIndex reorder ckeyOf (split ((queryIntervals leG base).map rowOf)) threads = .ok idx := hidx
    rw [hidx']
  · intro order ho replay history hh rq hrq g g' ch hg hsend k e hk d fs hd f ranges hf
    have hi := hok order ho
    have hsort := c06_ranges_readable ckeyOps replay idx order hi hso hnd history hh rq hrq g g' ch hg hsend k e hk d fs hd f
      ranges hf
    have hnk := delivered_keys_nodup ckeyOps replay hi hh hrq hg hsend
    have hrow : ∀ i ∈ rowNumbers ranges, (d, f, i) ∈ keySamples ch.content k := by
      intro i hi'
      unfold keySamples
      rw [Dict.get?_of_mem hnk hk]
      refine mem_entriesSamples.mpr ⟨fs, ranges, hd, hf, ?_⟩
      obtain ⟨r, hr, hir⟩ := List.mem_flatMap.mp hi'
      rw [List.mem_range'_1] at hir
      exact ⟨r, hr, hir.1, by omega⟩
    have htrain := fun i hi' => (htr order ho replay history hh).2.2 rq hrq g g' ch hg hsend k (d, f, i) (hrow i hi')
    obtain ⟨i0, hi0⟩ := c06_files_listed ckeyOps replay idx order hi hso history hh rq hrq g g' ch hg hsend k e hk d fs hd f
      ranges hf
    obtain ⟨c0, hc0⟩ := (mem_contentSamples hi.keys).mp hi0
    obtain ⟨r0, hr0, er0, hw0, hh0, -⟩ := (hks c0 _).mp hc0
    simp only [Prod.mk.injEq] at er0
    have htab := selected_in_table hp hq hb (leG := leG) hbase hr0 hw0
    obtain ⟨ys, hy1, hy2⟩ := readItem_ok hw hmade hdb apply (m := m) (d := d) (f := f) hsort ⟨r0, hr0, er0.1, er0.2.1⟩
      (by obtain ⟨t, ht, e1, e2⟩ := htab
          intro c func loc q1 q2 q3
          have := hm2 t ht c func loc
          rw [e1, e2, er0.1, er0.2.1] at this
          exact this q1 q2 q3)
      (by intro i hi'
          obtain ⟨r, hr, er, -⟩ := htrain i hi'
          simp only [Prod.mk.injEq] at er
          exact ⟨r, hr, er.1, er.2.1, er.2.2⟩)
    refine ⟨ys, hy1, ?_⟩
    refine forall₂_and_left (fun i hi' => htrain i hi') hy2 ?_
    rintro i y ⟨r, hr, er, hw', hkey⟩ ⟨hitem, hy⟩
    have er' := er
    simp only [Prod.mk.injEq] at er'
    exact ⟨hitem, r, hr, er, hw', hkey, hy r hr er'.1 er'.2.1 er'.2.2⟩


/-! ## Examples -/

namespace Ex83

/-- A file is a list of texts; a Parquet file has one row in its first row group. -/
def world : FileWorld (List PyStr) PyStr where
  content := fun loc => if loc = "x".toList then ["de1".toList, "en2".toList, "de3".toList, "de4".toList]
    else ["fr5".toList, "de6".toList, "de7".toList]
  lines := id
  tar := id
  groups := fun l => [l.take 1, l.drop 1]
  iterBatches := fun gs => [gs.flatten]
  toBatches := fun l => l.map fun x => [x]

/-- The parser takes the first two characters as the language. -/
def parser : ParserClass PyStr where
  props := [⟨"lang".toList, false, false, false, none⟩]
  extract := fun _ x => .ok [("lang".toList, .one (x.take 2))]

/-- A JSONL dataset. -/
def callA : RegCall PyStr := ⟨"a".toList, "/x".toList, .jsonl, "f".toList, ["x".toList], some parser⟩

/-- A Parquet dataset. -/
def callB : RegCall PyStr := ⟨"b".toList, "/y".toList, .parquet, "g".toList, ["y".toList], some parser⟩

/-- Both registered. -/
def db : Db := ((registerDataset (callB.args world)).run ((registerDataset (callA.args world)).run {}).1).1

/-- `select(lang == de)` -/
def sels : List (List Cond) := [[⟨"lang".toList, "==".toList, .one "de".toList⟩]]

/-- The name of the function and the text. -/
def apply (func x : PyStr) : PyStr := func ++ x

/-- The query, its result and what is read for each range list of the index. -/
def answers : Option (List (List Nat × List String)) :=
  (buildQuery sels).bind fun q =>
    match queryResult e2eLe (fun l => [l]) id ckeyOf 1 id db q with
    | .error _ => none
    | .ok (idx, m) => some (idx.flatMap fun ke => ke.2.flatMap fun df => df.2.map fun fr =>
        (fr.2.flatMap fun r => [r.1, r.2], (readItem world apply m df.1 fr.1 fr.2).1.map String.ofList))

/-- The tables after the registrations. -/
def tables : Db where
  datasets := [⟨1, "a".toList, "/x".toList, 1, "f".toList⟩, ⟨2, "b".toList, "/y".toList, 4, "g".toList⟩]
  files := [⟨1, 1, "x".toList⟩, ⟨2, 2, "y".toList⟩]
  samples :=
    [⟨1, 1, 0, [("lang".toList, .str "de".toList)]⟩, ⟨1, 1, 1, [("lang".toList, .str "en".toList)]⟩,
     ⟨1, 1, 2, [("lang".toList, .str "de".toList)]⟩, ⟨1, 1, 3, [("lang".toList, .str "de".toList)]⟩,
     ⟨2, 2, 0, [("lang".toList, .str "fr".toList)]⟩, ⟨2, 2, 1, [("lang".toList, .str "de".toList)]⟩,
     ⟨2, 2, 2, [("lang".toList, .str "de".toList)]⟩]
  columns := [("lang".toList, false)]
  nextDataset := 3
  nextFile := 3
  version := 7

theorem db_eq : db = tables := by decide +kernel

theorem faithful : world.Faithful := ⟨fun gs => by simp [world], fun l => by
  induction l with
  | nil => rfl
  | cons x l ih => simpa [world] using ih⟩

theorem proper : parser.Proper := ⟨by decide, by decide⟩

theorem reachable : Reachable world (fun k => k = callA ∨ k = callB) db :=
  .register _ (.register _ .init ⟨callA, Or.inl rfl, rfl⟩ (Prog.run_mem_states _ _)) ⟨callB, Or.inr rfl, rfl⟩
    (Prog.run_mem_states _ _)

theorem plain : PlainDb db := by
  rw [db_eq]
  refine ⟨?_, by decide, by decide, ?_, order_of_check _ (by decide +kernel)⟩
  · intro r hr f arr hf
    have hf' := Dict.mem_of_get? hf
    simp only [tables, List.mem_cons, List.not_mem_nil, or_false, Prod.mk.injEq] at hr hf'
    rcases hr with rfl | rfl | rfl | rfl | rfl | rfl | rfl <;> obtain ⟨rfl, rfl⟩ := hf' <;> exact Or.inr ⟨_, rfl⟩
  · intro r hr n vs hv
    have hn : n ∈ tables.columns.keys := by
      by_contra hc
      simp [SampleRow.prop, hc] at hv
    have key : ∀ r ∈ tables.samples, ∀ n ∈ tables.columns.keys, ∀ vs ∈ (r.prop tables n).toList,
        (∀ v ∈ vs, ',' ∉ v ∧ ';' ∉ v) ∧ vs.getLast? ≠ some [] := by decide +kernel
    exact key r hr n hn vs (by rw [hv]; simp)

theorem good : GoodQuery db sels := by
  rw [db_eq]
  refine ⟨by decide, ?_, ?_⟩
  · intro s hs c hc
    rw [usable_iff]
    revert s c
    decide
  · intro s hs c hc
    simp only [sels, List.mem_singleton] at hs
    subst hs
    simp only [List.mem_singleton] at hc
    subst hc
    refine ⟨?_, fun _ _ => Or.inl (by decide)⟩
    intro l hl; cases hl

/-- Non-vacuity: all hypotheses of `c83_trained_records_partial` about the database hold. -/
example : world.Faithful ∧ (∀ k, k = callA ∨ k = callB → ∀ p, k.parser = some p → p.Proper) ∧
    Reachable world (fun k => k = callA ∨ k = callB) db ∧ PlainDb db ∧ GoodQuery db sels ∧ (buildQuery sels).isSome = true := by
  refine ⟨faithful, ?_, reachable, plain, good, by decide⟩
  rintro k (rfl | rfl) p hp <;> cases hp <;> exact proper

/-- What is read: only the German records, those of the JSONL file with the function `f`, those of the Parquet file with `g`. -/
example : answers = some [([0, 1, 2, 4], ["fde1", "fde3", "fde4"]), ([1, 3], ["gde6", "gde7"])] := by decide +kernel

/-- A crash in the middle of removing dataset `a`: its samples are gone, its files are still there. -/
example : ∃ t ∈ (removeDataset "a".toList).states db, t.samples.length = 3 ∧ t.files.length = 2 ∧ t.datasets.length = 2 := by
  decide +kernel

end Ex83

/-- C83 needs the operations to come one after the other: if `remove_dataset` runs while the same dataset is being registered,
samples can be left whose dataset and file are gone (the sample table has no foreign keys). Every query that selects one of them
then fails, and `remove_dataset` cannot remove them. -/
theorem c83_concurrent_dangling :
    let ops := [registerDataset (Ex83.callA.args Ex83.world), removeDataset "a".toList]
    let db := (interleave (List.replicate 6 0 ++ List.replicate 6 1 ++ List.replicate 6 0) ops {}).2
    db.samples.length = 4 ∧ db.datasets = [] ∧ db.files = [] ∧
    ((removeDataset "a".toList).run db).1 = db ∧
    (buildQuery Ex83.sels).map (fun q =>
      match queryResult e2eLe (fun l => [l]) id ckeyOf 1 id db q with
      | .ok _ => none
      | .error e => some e) = some (some Err.runtimeError) := by
  decide +kernel

end Mixtera
