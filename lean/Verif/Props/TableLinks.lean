import Verif.Props.Database

/-!
# Where a row of the sample table comes from (C83)

The sample table has no foreign keys. That a sample's dataset and file can be looked up follows from the order of the statements
of `register_dataset` and `remove_dataset`, and holds at every crash point.
-/

set_option linter.unusedSectionVars false

namespace Mixtera

/-! ## Specification -/

/-- The databases that arise from an empty one by registering (calls that satisfy `H`) and removing datasets one after the other;
each operation may have been cut off by a crash after any of its statements. -/
inductive DbReach (H : RegArgs → Prop) : Db → Prop
  | init : DbReach H {}
  | register {db t : Db} (a : RegArgs) : DbReach H db → H a → t ∈ (registerDataset a).states db → DbReach H t
  | remove {db t : Db} (n : PyStr) : DbReach H db → t ∈ (removeDataset n).states db → DbReach H t

/-- The row `r` of the sample table belongs to a dataset and a file in the tables, and it is the row of a sample that the metadata
parser of a registration of that dataset returned for that file. -/
def ComesFrom (H : RegArgs → Prop) (db : Db) (r : SampleRow) : Prop :=
  ∃ (a : RegArgs) (props : List (PyStr × Bool)) (d : DatasetRow) (f : FileRow) (l : List ParsedSample) (p : ParsedSample),
    H a ∧ d ∈ db.datasets ∧ f ∈ db.files ∧ d.id = r.dataset ∧ f.id = r.file ∧ f.dataset = d.id ∧
    d.name = a.name ∧ d.dtype = a.dtype ∧ d.func = a.func ∧ a.validType = true ∧
    f.loc ∈ a.files ∧ a.props = some props ∧ a.parse f.loc = .ok l ∧ p ∈ l ∧ RowOf d.id f.id props p r

/-! ## Programs -/

namespace Prog

variable {σ α β : Type}

/-- From `s`, every state of the program satisfies `I`, and if it returns `a`, then `post a` holds. -/
def Holds (I : σ → Prop) (post : α → σ → Prop) (x : Prog σ α) (s : σ) : Prop :=
  (∀ t ∈ x.states s, I t) ∧ ∀ a, (x.run s).2 = .ok a → post a (x.run s).1

theorem Holds.bind {I : σ → Prop} {post : α → σ → Prop} {post' : β → σ → Prop} {x : Prog σ α} {g : α → Prog σ β} {s : σ}
    (h : Holds I post x s) (h' : ∀ a t, I t → post a t → Holds I post' (g a) t) : Holds I post' (x.bind g) s := by
  refine ⟨?_, ?_⟩
  · intro t ht
    rcases (mem_states_bind x g s t).mp ht with ht | ⟨a, ha, ht⟩
    · exact h.1 t ht
    · exact (h' a _ (h.1 _ (run_mem_states x s)) (h.2 a ha)).1 t ht
  · intro b hb
    rw [run_bind] at hb ⊢
    cases hx : (x.run s).2 with
    | error e => rw [hx] at hb; cases hb
    | ok a =>
      rw [hx] at hb
      exact (h' a _ (h.1 _ (run_mem_states x s)) (h.2 a hx)).2 b hb

theorem Holds.ret {I : σ → Prop} {post : α → σ → Prop} {s : σ} {r : Except Err α} (hi : I s)
    (h : ∀ a, r = .ok a → post a s) : Holds I post (.ret r) s :=
  ⟨fun t ht => by simp only [states, List.mem_singleton] at ht; exact ht ▸ hi, fun a ha => h a ha⟩

theorem Holds.exec {I : σ → Prop} {post : α → σ → Prop} {f : σ → σ} {g : σ → α} {s : σ} (hi : I s) (hf : I (f s))
    (hp : post (g s) (f s)) : Holds I post (Prog.exec f g) s := by
  refine ⟨?_, ?_⟩
  · intro t ht
    simp only [Prog.exec, states, List.mem_cons, List.not_mem_nil, or_false] at ht
    rcases ht with rfl | rfl
    · exact hi
    · exact hf
  · intro a ha
    simp only [run_exec, Except.ok.injEq] at ha ⊢
    exact ha ▸ hp

theorem Holds.mono {I : σ → Prop} {post post' : α → σ → Prop} {x : Prog σ α} {s : σ} (h : Holds I post x s)
    (hp : ∀ a t, I t → post a t → post' a t) : Holds I post' x s :=
  ⟨h.1, fun a ha => hp a _ (h.1 _ (run_mem_states x s)) (h.2 a ha)⟩

theorem Holds.forEach {I : σ → Prop} {J : σ → Prop} {g : β → Prog σ Unit} : ∀ {l : List β} {s : σ}, I s → J s →
    (∀ b ∈ l, ∀ t, I t → J t → Holds I (fun _ u => J u) (g b) t) → Holds I (fun _ u => J u) (Prog.forEach g l) s
  | [], _, hi, hj, _ => Holds.ret hi fun _ _ => hj
  | b :: l, s, hi, hj, h =>
    Holds.bind (h b (by simp) s hi hj) fun _ t ht hjt => Holds.forEach ht hjt fun b' hb' => h b' (by simp [hb'])

end Prog

/-! ## The statements -/

/-- All rows come from somewhere. -/
def Linked (H : RegArgs → Prop) (db : Db) : Prop := ∀ r ∈ db.samples, ComesFrom H db r

theorem ComesFrom.mono {H : RegArgs → Prop} {s t : Db} {r : SampleRow} (h : ComesFrom H s r)
    (hd : ∀ d ∈ s.datasets, d.id = r.dataset → d ∈ t.datasets)
    (hf : ∀ f ∈ s.files, f.dataset = r.dataset → f ∈ t.files) : ComesFrom H t r := by
  obtain ⟨a, props, d, f, l, p, h1, h2, h3, h4, h5, h6, h7⟩ := h
  exact ⟨a, props, d, f, l, p, h1, hd d h2 h4, hf f h3 (h6.trans h4), h4, h5, h6, h7⟩

theorem Linked.grow {H : RegArgs → Prop} {s t : Db} (h : Linked H s) (hs : t.samples = s.samples)
    (hd : ∀ d ∈ s.datasets, d ∈ t.datasets) (hf : ∀ f ∈ s.files, f ∈ t.files) : Linked H t := by
  intro r hr
  rw [hs] at hr
  exact (h r hr).mono (fun d hd' _ => hd d hd') (fun f hf' _ => hf f hf')

theorem linked_incrVersion {H : RegArgs → Prop} {J : Db → Prop} (hJ : ∀ db v, J db → J { db with version := v }) {s : Db}
    (hs : Linked H s) (hj : J s) : Prog.Holds (Linked H) (fun _ t => J t) incrVersion s := by
  have hv : ∀ (db : Db) (v : Nat), Linked H db → Linked H { db with version := v } :=
    fun db v h => h.grow rfl (fun _ h => h) (fun _ h => h)
  refine Prog.Holds.bind (x := Prog.exec id Db.version) (post := fun _ t => J t) (Prog.Holds.exec hs hs hj) ?_
  intro v t ht hjt
  exact Prog.Holds.exec ht (hv t _ ht) (hJ t _ hjt)

/-- The dataset row of the registration is there. -/
def HasRow (a : RegArgs) (did : Nat) (db : Db) : Prop :=
  ⟨did, a.name, a.loc, a.dtype, a.func⟩ ∈ db.datasets

theorem linked_insertDataset {H : RegArgs → Prop} (a : RegArgs) {s : Db} (hs : Linked H s) :
    Prog.Holds (Linked H) (fun o t => ∀ did, o = some did → a.validType = true ∧ HasRow a did t) (insertDataset a) s := by
  unfold insertDataset
  split
  · rename_i hv
    refine Prog.Holds.bind (post := fun o t => ∀ did, o = some did → HasRow a did t) (Prog.Holds.exec hs ?_ ?_) ?_
    · unfold insertDatasetStmt
      split
      · exact hs.grow rfl (fun _ h => h) (fun _ h => h)
      · exact hs.grow rfl (fun _ h => by simp [h]) (fun _ h => h)
    · intro did hd
      unfold insertDatasetStmt
      split
      · rename_i hn
        rw [if_pos hn] at hd
        cases hd
      · rename_i hn
        rw [if_neg hn] at hd
        simp only [Option.some.injEq] at hd
        subst hd
        simp [HasRow]
    · intro o t ht hp
      cases o with
      | none => exact Prog.Holds.ret ht fun _ h => by cases h; intro _ h; cases h
      | some did =>
        refine Prog.Holds.bind (linked_incrVersion (J := HasRow a did) (fun _ _ h => h) ht (hp did rfl)) ?_
        intro _ u hu hj
        exact Prog.Holds.ret hu fun o ho => by
          cases ho; intro d hd; cases hd; exact ⟨hv, hj⟩
  · exact Prog.Holds.ret hs fun _ h => by cases h; intro _ h; cases h

theorem linked_addColumns {H : RegArgs → Prop} {a : RegArgs} {did : Nat} (props : List (PyStr × Bool)) {s : Db}
    (hs : Linked H s) (hd : HasRow a did s) : Prog.Holds (Linked H) (fun _ t => HasRow a did t) (addColumns props) s := by
  refine Prog.Holds.bind (post := fun _ t => HasRow a did t) (Prog.Holds.exec hs hs hd) ?_
  intro missing t ht hdt
  refine Prog.Holds.forEach ht hdt ?_
  intro p _ u hu hdu
  exact Prog.Holds.exec hu (hu.grow rfl (fun _ h => h) (fun _ h => h)) hdu

/-! ## Files -/

theorem foldl_set_get? {rows : List FileRow} : ∀ {m : Dict PyStr Nat} {l : PyStr} {i : Nat},
    (rows.foldl (fun m r => Dict.set m r.loc r.id) m).get? l = some i →
    m.get? l = some i ∨ ∃ r ∈ rows, r.loc = l ∧ r.id = i := by
  induction rows with
  | nil => intro m l i h; exact Or.inl h
  | cons r rows ih =>
    intro m l i h
    rw [List.foldl_cons] at h
    rcases ih h with h | ⟨r', hr', e⟩
    · rw [Dict.get?_set] at h
      split at h
      · rename_i e
        exact Or.inr ⟨r, by simp, by simpa using e, by simpa using h⟩
      · exact Or.inl h
    · exact Or.inr ⟨r', by simp [hr'], e⟩

theorem foldl_set_some {rows : List FileRow} : ∀ {m : Dict PyStr Nat} {l : PyStr},
    (l ∈ rows.map FileRow.loc ∨ ∃ i, m.get? l = some i) →
    ∃ i, (rows.foldl (fun m r => Dict.set m r.loc r.id) m).get? l = some i := by
  induction rows with
  | nil => intro m l h; rcases h with h | h; cases h; exact h
  | cons r rows ih =>
    intro m l h
    rw [List.foldl_cons]
    apply ih
    rw [Dict.get?_set]
    rcases h with h | ⟨i, h⟩
    · rw [List.map_cons, List.mem_cons] at h
      rcases h with rfl | h
      · exact Or.inr ⟨r.id, by simp⟩
      · exact Or.inl h
    · by_cases e : r.loc = l
      · exact Or.inr ⟨r.id, by simp [e]⟩
      · exact Or.inr ⟨i, by simp [e, h]⟩

theorem fileIds_zip (did next : Nat) (locs : List PyStr) {t : Nat × PyStr}
    (h : t ∈ (fileIds (newFiles did next locs) locs).zip locs) : ⟨t.1, did, t.2⟩ ∈ newFiles did next locs := by
  have key : ∀ ls : List PyStr, (∀ l ∈ ls, l ∈ locs) →
      ∀ t ∈ (fileIds (newFiles did next locs) ls).zip ls, ⟨t.1, did, t.2⟩ ∈ newFiles did next locs := by
    intro ls
    induction ls with
    | nil => intro _ t ht; simp at ht
    | cons l ls ih =>
      intro hl t ht
      obtain ⟨i, hi⟩ := foldl_set_some (rows := newFiles did next locs) (m := []) (l := l)
        (Or.inl (by rw [newFiles_loc]; exact hl l (by simp)))
      have e : fileIds (newFiles did next locs) (l :: ls) = i :: fileIds (newFiles did next locs) ls := by
        unfold fileIds
        simp only [List.filterMap_cons, hi]
      rw [e, List.zip_cons_cons, List.mem_cons] at ht
      rcases ht with rfl | ht
      · rcases foldl_set_get? hi with h0 | ⟨r, hr, e1, e2⟩
        · cases h0
        · have e3 := newFiles_ds did next locs r hr
          cases r
          simp only at e1 e2 e3
          subst e1; subst e2; subst e3
          exact hr
      · exact ih (fun x hx => hl x (by simp [hx])) t ht
  exact key locs (fun _ h => h) t h

theorem linked_insertFiles {H : RegArgs → Prop} {a : RegArgs} {did : Nat} (locs : List PyStr) {s : Db}
    (hs : Linked H s) (hd : HasRow a did s) :
    Prog.Holds (Linked H) (fun ids t => HasRow a did t ∧ ∀ fl ∈ ids.zip locs, ⟨fl.1, did, fl.2⟩ ∈ t.files)
      (insertFiles did locs) s := by
  unfold insertFiles
  refine Prog.Holds.bind (post := fun o t => HasRow a did t ∧ ∀ ids, o = some ids →
    ∀ fl ∈ ids.zip locs, (⟨fl.1, did, fl.2⟩ : FileRow) ∈ t.files) (Prog.Holds.exec hs ?_ ?_) ?_
  · split
    · exact hs.grow rfl (fun _ h => h) (fun _ h => by simp [h])
    · exact hs
  · split
    · refine ⟨hd, ?_⟩
      intro ids hids fl hfl
      simp only [Option.some.injEq] at hids
      subst hids
      exact List.mem_append_right _ (fileIds_zip did _ locs hfl)
    · exact ⟨hd, fun ids h => by cases h⟩
  · intro o t ht hp
    cases o with
    | none => exact Prog.Holds.ret ht fun ids h => by cases h; exact ⟨hp.1, by simp⟩
    | some ids =>
      refine Prog.Holds.bind (linked_incrVersion
        (J := fun t => HasRow a did t ∧ ∀ fl ∈ ids.zip locs, (⟨fl.1, did, fl.2⟩ : FileRow) ∈ t.files)
        (fun _ _ h => h) ht ⟨hp.1, hp.2 ids rfl⟩) ?_
      intro _ u hu hj
      exact Prog.Holds.ret hu fun ids' h => by cases h; exact hj

/-! ## Samples -/

theorem mem_slices {α : Type} (n : Nat) : ∀ (k : Nat) (l : List α) (c : List α), c ∈ slices n k l → ∀ x ∈ c, x ∈ l
  | 0, _, _, h, _, _ => by cases h
  | k + 1, l, c, h, x, hx => by
    unfold slices at h
    split at h
    · cases h
    · rw [List.mem_cons] at h
      rcases h with rfl | h
      · exact List.mem_of_mem_take hx
      · exact List.mem_of_mem_drop (mem_slices n k _ c h x hx)

theorem parseBatch_from {a : RegArgs} {did : Nat} {props : List (PyStr × Bool)} {tasks : List (Nat × PyStr)}
    {rows : List SampleRow} (h : parseBatch a did props tasks = .ok rows) :
    ∀ r ∈ rows, ∃ t ∈ tasks, ∃ l p, a.parse t.2 = .ok l ∧ p ∈ l ∧ RowOf did t.1 props p r := by
  obtain ⟨ps, h1, rfl⟩ := parseBatch_ok h
  intro r hr
  obtain ⟨tp, htp, hr⟩ := List.mem_flatMap.mp hr
  have hp : a.parse tp.1.2 = .ok tp.2 := List.forall₂_zip h1 htp
  have h2 := sampleRows_rowOf did tp.1.1 props tp.2
  obtain ⟨p, hp2, hrow⟩ : ∃ p ∈ tp.2, RowOf did tp.1.1 props p r := by
    revert hr
    generalize sampleRows did props tp.1.1 tp.2 = rows at h2 ⊢
    generalize tp.2 = l at h2 ⊢
    intro hr
    induction h2 with
    | nil => cases hr
    | cons hx _ ih =>
      rcases List.mem_cons.mp hr with rfl | hr
      · exact ⟨_, by simp, hx⟩
      · obtain ⟨p, hp, h⟩ := ih hr
        exact ⟨p, by simp [hp], h⟩
  exact ⟨tp.1, (List.of_mem_zip htp).1, tp.2, p, hp, hp2, hrow⟩

theorem linked_registerBatch {H : RegArgs → Prop} {a : RegArgs} (ha : H a) (hv : a.validType = true) {did : Nat}
    {props : List (PyStr × Bool)} (hprops : a.props = some props) {ids : List Nat} {tasks : List (Nat × PyStr)}
    (ht : ∀ t ∈ tasks, t ∈ ids.zip a.files) {s : Db} (hs : Linked H s)
    (hj : HasRow a did s ∧ ∀ fl ∈ ids.zip a.files, (⟨fl.1, did, fl.2⟩ : FileRow) ∈ s.files) :
    Prog.Holds (Linked H)
      (fun _ t => HasRow a did t ∧ ∀ fl ∈ ids.zip a.files, (⟨fl.1, did, fl.2⟩ : FileRow) ∈ t.files)
      (registerBatch a did props tasks) s := by
  unfold registerBatch
  cases hp : parseBatch a did props tasks with
  | error e => exact Prog.Holds.ret hs fun _ h => by cases h
  | ok rows =>
    have hlink : Linked H (if keysFree s rows then { s with samples := s.samples ++ rows } else s) := by
      split
      · intro r hr
        rcases List.mem_append.mp hr with hr | hr
        · exact (hs r hr).mono (fun _ h _ => h) (fun _ h _ => h)
        · obtain ⟨t, htm, l, p, h1, h2, h3⟩ := parseBatch_from hp r hr
          have hz := ht t htm
          refine ⟨a, props, _, _, l, p, ha, hj.1, hj.2 t hz, h3.dataset.symm, h3.file.symm, rfl, rfl, rfl, rfl, hv,
            (List.of_mem_zip hz).2, hprops, h1, h2, h3⟩
      · exact hs
    refine ⟨?_, ?_⟩
    · intro t hts
      simp only [insertSamples, Prog.states, List.mem_cons] at hts
      rcases hts with rfl | hts
      · exact hs
      · have e : t = if keysFree s rows then { s with samples := s.samples ++ rows } else s := by
          by_cases hk : keysFree s rows = true
          · simpa only [hk, if_true, Prog.states, List.mem_singleton] using hts
          · simpa [hk, Prog.states] using hts
        exact e ▸ hlink
    · intro u hu
      dsimp only
      rw [run_insertSamples]
      split
      · exact hj
      · exact hj

theorem linked_register {H : RegArgs → Prop} (a : RegArgs) (ha : H a) {s : Db} (hs : Linked H s) :
    Prog.Holds (Linked H) (fun _ _ => True) (registerDataset a) s := by
  refine Prog.Holds.bind (linked_insertDataset a hs) ?_
  intro o t ht hp
  cases o with
  | none => exact Prog.Holds.ret ht fun _ _ => trivial
  | some did =>
    obtain ⟨hv, hd⟩ := hp did rfl
    dsimp only
    split
    · exact Prog.Holds.ret ht fun _ _ => trivial
    · split
      · exact Prog.Holds.ret ht fun _ _ => trivial
      · rename_i props hprops
        refine Prog.Holds.bind (linked_addColumns props ht hd) ?_
        intro _ u hu hdu
        refine Prog.Holds.bind (linked_insertFiles a.files hu hdu) ?_
        intro ids v hv' hj
        split
        · exact Prog.Holds.ret hv' fun _ _ => trivial
        · refine Prog.Holds.bind (post := fun _ _ => True) ?_ ?_
          · refine Prog.Holds.mono (Prog.Holds.forEach
              (J := fun t => HasRow a did t ∧ ∀ fl ∈ ids.zip a.files, (⟨fl.1, did, fl.2⟩ : FileRow) ∈ t.files) hv' hj ?_) (fun _ _ _ _ => trivial)
            intro tasks htasks w hw hjw
            exact linked_registerBatch ha hv hprops (mem_slices _ _ _ _ htasks) hw hjw
          · intro _ w hw _
            refine Prog.Holds.bind (linked_incrVersion (J := fun _ => True) (fun _ _ _ => trivial) hw trivial) ?_
            intro _ x hx _
            exact Prog.Holds.ret hx fun _ _ => trivial

theorem linked_remove {H : RegArgs → Prop} (n : PyStr) {s : Db} (hs : Linked H s) :
    Prog.Holds (Linked H) (fun _ _ => True) (removeDataset n) s := by
  refine Prog.Holds.bind (post := fun _ _ => True) (Prog.Holds.exec hs hs trivial) ?_
  intro b t ht _
  split
  · refine Prog.Holds.bind (post := fun _ u => ∀ r ∈ u.samples, r.dataset ∉ u.idsOf n) (Prog.Holds.exec ht ?_ ?_) ?_
    · intro r hr
      exact (ht r (List.mem_of_mem_filter hr)).mono (fun _ h _ => h) (fun _ h _ => h)
    · intro r hr
      have : r.dataset ∉ t.idsOf n := by simpa using (List.mem_filter.mp hr).2
      exact this
    · intro _ u hu hno
      refine Prog.Holds.bind (post := fun _ u => ∀ r ∈ u.samples, r.dataset ∉ u.idsOf n) (Prog.Holds.exec hu ?_ hno) ?_
      · intro r hr
        refine (hu r hr).mono (fun _ h _ => h) (fun f hf e => List.mem_filter.mpr ⟨hf, ?_⟩)
        rw [e]
        simpa using hno r hr
      · intro _ v hv hno2
        refine Prog.Holds.bind (post := fun _ _ => True) (Prog.Holds.exec hv ?_ trivial) ?_
        · split
          · exact hv
          · intro r hr
            refine (hv r hr).mono (fun d hd e => List.mem_filter.mpr ⟨hd, ?_⟩) (fun _ h _ => h)
            have h1 := hno2 r hr
            rw [mem_idsOf] at h1
            simp only [bne_iff_ne, ne_eq]
            exact fun e2 => h1 ⟨d, hd, e2, e⟩
        · intro ok w hw _
          split
          · refine Prog.Holds.bind (linked_incrVersion (J := fun _ => True) (fun _ _ _ => trivial) hw trivial) ?_
            intro _ x hx _
            exact Prog.Holds.ret hx fun _ _ => trivial
          · exact Prog.Holds.ret hw fun _ _ => trivial
  · exact Prog.Holds.ret ht fun _ _ => trivial

/-- **C83** (no dangling samples). In every database that arises from registering and removing datasets one after the other, with
crashes at any points: every row of the sample table belongs to a dataset and a file that can be looked up, the dataset has the
type and the parsing function it was registered with, and the row is that of a sample the metadata parser returned for this file.
The tables' constraints hold as well. -/
theorem c83_no_dangling (H : RegArgs → Prop) (db : Db) (h : DbReach H db) :
    db.WF ∧ ∀ r ∈ db.samples, ComesFrom H db r := by
  induction h with
  | init => exact ⟨Ex.emptyDb_wf, by intro r hr; cases hr⟩
  | register a _ ha ht ih =>
    exact ⟨(c37_crash (.register a) _ ih.1 _ ht).1, (linked_register a ha ih.2).1 _ ht⟩
  | remove n _ ht ih =>
    exact ⟨(c37_crash (.remove n) _ ih.1 _ ht).1, (linked_remove n ih.2).1 _ ht⟩

end Mixtera
