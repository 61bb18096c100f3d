import Verif.Lemmas.Prog
import Verif.Lemmas.Sort
import Mathlib.Data.List.Forall2

set_option linter.unusedSectionVars false

/-! # C37: registering and removing datasets -/

namespace Mixtera

/-! ## Every statement concerns one dataset only -/

/-- What every statement of an operation on a dataset in `N` does: it keeps the constraints, never reuses an id and
does not touch datasets outside `N`. -/
structure DbStep (N : List PyStr) (s t : Db) : Prop where
  wf : t.WF
  next : s.nextDataset ≤ t.nextDataset
  fresh : ∀ d ∈ t.datasets, d ∈ s.datasets ∨ s.nextDataset ≤ d.id
  frame : ∀ m, m ∉ N → t.view m = s.view m

theorem stable_wf (N : List PyStr) : Prog.Stable (DbStep N) Db.WF := fun _ _ h _ => h.wf

/-- The id belongs to the dataset `n` or to a dataset that was removed. -/
def Owned (did : Nat) (n : PyStr) (s : Db) : Prop :=
  s.WF ∧ did < s.nextDataset ∧ ∀ d ∈ s.datasets, d.id = did → d.name = n

theorem stable_owned (N : List PyStr) (did : Nat) (n : PyStr) : Prog.Stable (DbStep N) (Owned did n) := by
  intro s t h ho
  refine ⟨h.wf, lt_of_lt_of_le ho.2.1 h.next, fun d hd e => ?_⟩
  rcases h.fresh d hd with h1 | h1
  · exact ho.2.2 d h1 e
  · have := ho.2.1; omega

theorem DbStep.same {N : List PyStr} {s t : Db} (h : s.WF) (h1 : t.datasets = s.datasets) (h2 : t.files = s.files)
    (h3 : t.samples = s.samples) (h4 : t.nextDataset = s.nextDataset) (h5 : t.nextFile = s.nextFile) : DbStep N s t := by
  refine ⟨⟨?_, ?_, ?_, ?_, ?_, ?_, ?_, ?_⟩, by omega, ?_, ?_⟩
  · rw [h1]; exact h.names
  · rw [h1]; exact h.ids
  · rw [h1, h4]; exact h.idsLt
  · rw [h2]; exact h.fileIds
  · rw [h2, h5]; exact h.fileIdsLt
  · rw [h1, h2]; exact h.fileDs
  · rw [h3]; exact h.keys
  · rw [h3, h4]; exact h.sampleDs
  · rw [h1]; exact fun d hd => Or.inl hd
  · intro m _; simp only [Db.view, Db.idsOf, h1, h2, h3]

theorem rg_incrVersion (N : List PyStr) (P : Db → Prop) (hP : Prog.Stable (DbStep N) P) (hw : ∀ s, P s → s.WF) :
    Prog.RGP (DbStep N) (fun _ => P) P incrVersion := by
  unfold incrVersion
  rw [Prog.bind_eq]
  refine Prog.RGP.bind (mid := fun _ => P) (Prog.RGP.exec (fun s hs => ?_) (fun _ => hP) fun s hs => hs) fun v => ?_
  · exact .same (hw s hs) rfl rfl rfl rfl rfl
  · refine Prog.RGP.exec (fun s hs => ?_) (fun _ => hP) fun s hs => ?_
    · exact .same (hw s hs) rfl rfl rfl rfl rfl
    · exact hP _ _ (.same (hw s hs) rfl rfl rfl rfl rfl) hs

theorem hasName_iff (db : Db) (n : PyStr) : db.hasName n = true ↔ n ∈ db.datasets.map DatasetRow.name := by
  simp [Db.hasName, List.any_eq_true]

theorem mem_idsOf (db : Db) (n : PyStr) (i : Nat) : i ∈ db.idsOf n ↔ ∃ d ∈ db.datasets, d.name = n ∧ d.id = i := by
  simp [Db.idsOf, and_assoc]

theorem insertDatasetStmt_wf (a : RegArgs) {s : Db} (h : s.WF) : (insertDatasetStmt a s).WF := by
  unfold insertDatasetStmt
  split
  · exact ⟨h.names, h.ids, fun d hd => Nat.lt_succ_of_lt (h.idsLt d hd), h.fileIds, h.fileIdsLt, h.fileDs, h.keys,
      fun s hs => Nat.lt_succ_of_lt (h.sampleDs s hs)⟩
  · rename_i hn
    have hn' : a.name ∉ s.datasets.map DatasetRow.name := fun hc => hn ((hasName_iff s a.name).mpr hc)
    refine ⟨?_, ?_, ?_, h.fileIds, h.fileIdsLt, ?_, h.keys, fun s hs => Nat.lt_succ_of_lt (h.sampleDs s hs)⟩
    · simp only [List.map_append, List.map_cons, List.map_nil]
      rw [List.nodup_append]
      refine ⟨h.names, by simp, ?_⟩
      simp only [List.mem_singleton]
      rintro x hx y rfl rfl
      exact hn' hx
    · simp only [List.map_append, List.map_cons, List.map_nil]
      rw [List.nodup_append]
      refine ⟨h.ids, by simp, ?_⟩
      simp only [List.mem_singleton]
      rintro x hx y rfl rfl
      obtain ⟨d, hd, e⟩ := List.mem_map.mp hx
      have := h.idsLt d hd
      omega
    · intro d hd
      simp only [List.mem_append, List.mem_singleton] at hd
      rcases hd with hd | rfl
      · exact Nat.lt_succ_of_lt (h.idsLt d hd)
      · simp
    · intro f hf
      obtain ⟨d, hd, e⟩ := h.fileDs f hf
      exact ⟨d, by simp [hd], e⟩

theorem insertDatasetStmt_step (a : RegArgs) {N : List PyStr} (hN : a.name ∈ N) {s : Db} (h : s.WF) :
    DbStep N s (insertDatasetStmt a s) := by
  refine ⟨insertDatasetStmt_wf a h, ?_, ?_, ?_⟩
  · unfold insertDatasetStmt; split <;> simp
  · unfold insertDatasetStmt
    split
    · exact fun d hd => Or.inl hd
    · intro d hd
      simp only [List.mem_append, List.mem_singleton] at hd
      rcases hd with hd | rfl
      · exact Or.inl hd
      · exact Or.inr (Nat.le_refl _)
  · intro m hm
    have hne : a.name ≠ m := fun e => hm (e ▸ hN)
    unfold insertDatasetStmt
    split
    · rfl
    · simp [Db.view, Db.idsOf, List.filter_append, hne]

theorem rg_insertDataset (a : RegArgs) {N : List PyStr} (hN : a.name ∈ N) :
    Prog.RGP (DbStep N) (fun r s => s.WF ∧ ∀ did, r = some did → Owned did a.name s) Db.WF (insertDataset a) := by
  unfold insertDataset
  have hst : ∀ r : Option Nat, Prog.Stable (DbStep N) fun s => s.WF ∧ ∀ did, r = some did → Owned did a.name s :=
    fun r s t hR hs => ⟨hR.wf, fun did e => stable_owned N did a.name s t hR (hs.2 did e)⟩
  split
  · rw [Prog.bind_eq]
    refine Prog.RGP.bind (Prog.RGP.exec (fun s hs => insertDatasetStmt_step a hN hs) hst fun s hs => ?_) fun r => ?_
    · refine ⟨insertDatasetStmt_wf a hs, fun did e => ?_⟩
      split at e
      · exact absurd e (by simp)
      · rename_i hn
        simp only [Option.some.injEq] at e
        refine ⟨insertDatasetStmt_wf a hs, ?_, ?_⟩
        · simp [insertDatasetStmt, hn, ← e]
        · intro d hd e2
          simp only [insertDatasetStmt, hn, Bool.false_eq_true, if_false, List.mem_append, List.mem_singleton] at hd
          rcases hd with hd | rfl
          · have := hs.idsLt d hd; omega
          · rfl
    · cases r with
      | none => exact fun s hs => hs
      | some did =>
        simp only
        rw [Prog.bind_eq]
        exact Prog.RGP.bind (mid := fun _ s => s.WF ∧ ∀ d, some did = some d → Owned d a.name s)
          (rg_incrVersion N _ (hst (some did)) fun s hs => hs.1) fun _ s hs => hs
  · exact fun s hs => ⟨hs, by simp⟩

theorem rg_addColumns (N : List PyStr) (P : Db → Prop) (hP : Prog.Stable (DbStep N) P) (hw : ∀ s, P s → s.WF)
    (props : List (PyStr × Bool)) : Prog.RGP (DbStep N) (fun _ => P) P (addColumns props) := by
  unfold addColumns
  rw [Prog.bind_eq]
  refine Prog.RGP.bind (mid := fun _ => P) (Prog.RGP.exec (fun s hs => ?_) (fun _ => hP) fun s hs => hs) fun v => ?_
  · exact .same (hw s hs) rfl rfl rfl rfl rfl
  · refine Prog.RGP.forEach _ fun b _ => Prog.RGP.exec (fun s hs => ?_) (fun _ => hP) fun s hs => ?_
    · exact .same (hw s hs) rfl rfl rfl rfl rfl
    · exact hP _ _ (.same (hw s hs) rfl rfl rfl rfl rfl) hs

theorem newFiles_ids (did next : Nat) (locs : List PyStr) :
    (newFiles did next locs).map FileRow.id = List.range' next locs.length := by
  induction locs generalizing next with
  | nil => rfl
  | cons l ls ih => simp [newFiles, ih, List.range'_succ]

theorem newFiles_loc (did next : Nat) (locs : List PyStr) : (newFiles did next locs).map FileRow.loc = locs := by
  induction locs generalizing next with
  | nil => rfl
  | cons l ls ih => simp [newFiles, ih]

theorem newFiles_ds (did next : Nat) (locs : List PyStr) : ∀ f ∈ newFiles did next locs, f.dataset = did := by
  induction locs generalizing next with
  | nil => simp [newFiles]
  | cons l ls ih =>
    intro f hf
    simp only [newFiles, List.mem_cons] at hf
    rcases hf with rfl | hf
    · rfl
    · exact ih _ f hf

/-- A dataset that is not called `n` does not have the id `did`. -/
theorem Owned.not_mem {did : Nat} {n m : PyStr} {s : Db} (h : Owned did n s) (hm : m ≠ n) : did ∉ s.idsOf m := by
  rw [mem_idsOf]
  rintro ⟨d, hd, e1, e2⟩
  exact hm (e1.symm.trans (h.2.2 d hd e2))

theorem insertFiles_step {did : Nat} {n : PyStr} {N : List PyStr} (hN : n ∈ N) (locs : List PyStr) {s : Db}
    (h : Owned did n s) : DbStep N s (if s.hasDataset did then
        { s with files := s.files ++ newFiles did s.nextFile locs, nextFile := s.nextFile + locs.length } else s) := by
  split
  · rename_i hd
    obtain ⟨d, hd, e⟩ := List.any_eq_true.mp hd
    have hmem : ∀ f ∈ newFiles did s.nextFile locs, s.nextFile ≤ f.id ∧ f.id < s.nextFile + locs.length := by
      intro f hf
      have : f.id ∈ List.range' s.nextFile locs.length := by
        rw [← newFiles_ids did]; exact List.mem_map_of_mem hf
      simpa [List.mem_range'_1] using this
    refine ⟨⟨h.1.names, h.1.ids, h.1.idsLt, ?_, ?_, ?_, h.1.keys, h.1.sampleDs⟩, Nat.le_refl _, fun d hd => Or.inl hd, ?_⟩
    · simp only [List.map_append, newFiles_ids]
      rw [List.nodup_append]
      refine ⟨h.1.fileIds, List.nodup_range', ?_⟩
      rintro x hx y hy rfl
      obtain ⟨f, hf, rfl⟩ := List.mem_map.mp hx
      have h1 := h.1.fileIdsLt f hf
      rw [List.mem_range'_1] at hy
      omega
    · intro f hf
      simp only [List.mem_append] at hf
      rcases hf with hf | hf
      · have := h.1.fileIdsLt f hf; simp only; omega
      · exact (hmem f hf).2
    · intro f hf
      simp only [List.mem_append] at hf
      rcases hf with hf | hf
      · exact h.1.fileDs f hf
      · exact ⟨d, hd, by rw [newFiles_ds did _ locs f hf]; simpa using e⟩
    · intro m hm
      have hne : m ≠ n := fun e => hm (e ▸ hN)
      have hnot := h.not_mem hne
      have : (newFiles did s.nextFile locs).filter (fun f => (s.idsOf m).contains f.dataset) = [] := by
        rw [List.filter_eq_nil_iff]
        intro f hf
        rw [newFiles_ds did _ locs f hf]
        simpa using hnot
      show DatasetView.mk _ _ _ = DatasetView.mk _ _ _
      congr 1
      show (s.files ++ newFiles did s.nextFile locs).filter (fun f => (s.idsOf m).contains f.dataset) = _
      rw [List.filter_append, this, List.append_nil]
  · exact .same h.1 rfl rfl rfl rfl rfl

theorem rg_insertFiles {did : Nat} {n : PyStr} {N : List PyStr} (hN : n ∈ N) (locs : List PyStr) :
    Prog.RGP (DbStep N) (fun _ => Owned did n) (Owned did n) (insertFiles did locs) := by
  unfold insertFiles
  rw [Prog.bind_eq]
  refine Prog.RGP.bind (mid := fun _ => Owned did n)
    (Prog.RGP.exec (fun s hs => insertFiles_step hN locs hs) (fun _ => stable_owned N did n) fun s hs =>
      stable_owned N did n _ _ (insertFiles_step hN locs hs) hs) fun r => ?_
  cases r with
  | none => exact fun s hs => hs
  | some ids =>
    simp only
    rw [Prog.bind_eq]
    exact Prog.RGP.bind (rg_incrVersion N _ (stable_owned N did n) fun s hs => hs.1) fun _ s hs => hs

theorem insertSamples_step {did : Nat} {n : PyStr} {N : List PyStr} (hN : n ∈ N) {rows : List SampleRow}
    (hr : ∀ r ∈ rows, r.dataset = did) {s : Db} (h : Owned did n s) :
    DbStep N s (if keysFree s rows then { s with samples := s.samples ++ rows } else s) := by
  split
  · rename_i hk
    simp only [keysFree, Bool.and_eq_true, decide_eq_true_eq, List.all_eq_true, bne_iff_ne, ne_eq] at hk
    refine ⟨⟨h.1.names, h.1.ids, h.1.idsLt, h.1.fileIds, h.1.fileIdsLt, h.1.fileDs, ?_, ?_⟩, Nat.le_refl _,
      fun d hd => Or.inl hd, ?_⟩
    · simp only [List.map_append]
      rw [List.nodup_append]
      refine ⟨h.1.keys, hk.1, ?_⟩
      rintro x hx y hy rfl
      obtain ⟨a, ha, rfl⟩ := List.mem_map.mp hx
      obtain ⟨b, hb, e⟩ := List.mem_map.mp hy
      exact hk.2 b hb a ha e.symm
    · intro r hr'
      simp only [List.mem_append] at hr'
      rcases hr' with hr' | hr'
      · exact h.1.sampleDs r hr'
      · rw [hr r hr']; exact h.2.1
    · intro m hm
      have hne : m ≠ n := fun e => hm (e ▸ hN)
      have hnot := h.not_mem hne
      have : rows.filter (fun f => (s.idsOf m).contains f.dataset) = [] := by
        rw [List.filter_eq_nil_iff]
        intro f hf
        rw [hr f hf]
        simpa using hnot
      show DatasetView.mk _ _ _ = DatasetView.mk _ _ _
      congr 1
      show (s.samples ++ rows).filter (fun f => (s.idsOf m).contains f.dataset) = _
      rw [List.filter_append, this, List.append_nil]
  · exact .same h.1 rfl rfl rfl rfl rfl

theorem rg_insertSamples {did : Nat} {n : PyStr} {N : List PyStr} (hN : n ∈ N) {rows : List SampleRow}
    (hr : ∀ r ∈ rows, r.dataset = did) :
    Prog.RGP (DbStep N) (fun _ => Owned did n) (Owned did n) (insertSamples rows) := by
  intro s hs
  refine ⟨insertSamples_step hN hr hs, Owned did n, stable_owned N did n,
    stable_owned N did n _ _ (insertSamples_step hN hr hs) hs, ?_⟩
  dsimp only
  split
  · exact fun s hs => hs
  · trivial

theorem mapM_ok {ε α β : Type} {f : α → Except ε β} : ∀ {l : List α} {r : List β}, l.mapM f = .ok r →
    List.Forall₂ (fun x y => f x = .ok y) l r
  | [], r, h => by
    simp only [List.mapM_nil, pure, Except.pure, Except.ok.injEq] at h
    subst h; exact .nil
  | x :: l, r, h => by
    rw [List.mapM_cons] at h
    cases hx : f x with
    | error e => rw [hx] at h; simp [bind, Except.bind] at h
    | ok y =>
      rw [hx] at h
      cases hl : l.mapM f with
      | error e => rw [hl] at h; simp [bind, Except.bind] at h
      | ok ys =>
        rw [hl] at h
        simp only [bind, Except.bind, pure, Except.pure, Except.ok.injEq] at h
        subst h
        exact .cons hx (mapM_ok hl)

theorem mapM_of_forall {ε α β : Type} {f : α → Except ε β} : ∀ {l : List α} {r : List β},
    List.Forall₂ (fun x y => f x = .ok y) l r → l.mapM f = .ok r
  | _, _, .nil => rfl
  | _, _, .cons hx h => by
    rw [List.mapM_cons, hx, mapM_of_forall h]; rfl

theorem parseBatch_ok {a : RegArgs} {did : Nat} {props : List (PyStr × Bool)} {tasks : List (Nat × PyStr)}
    {rows : List SampleRow} (h : parseBatch a did props tasks = .ok rows) :
    ∃ ps, List.Forall₂ (fun t p => a.parse t.2 = .ok p) tasks ps ∧
      rows = (tasks.zip ps).flatMap fun tp => sampleRows did props tp.1.1 tp.2 := by
  unfold parseBatch at h
  cases hm : tasks.mapM (fun t => (a.parse t.2).map fun l => sampleRows did props t.1 l) with
  | error e => rw [hm] at h; simp [Except.map] at h
  | ok ls =>
    rw [hm] at h
    simp only [Except.map, Except.ok.injEq] at h
    subst h
    have h2 := mapM_ok hm
    clear hm
    induction h2 with
    | nil => exact ⟨[], .nil, rfl⟩
    | @cons t l ts ls hx _ ih =>
      obtain ⟨ps, h3, h4⟩ := ih
      cases hp : a.parse t.2 with
      | error e => rw [hp] at hx; simp [Except.map] at hx
      | ok p =>
        rw [hp] at hx
        simp only [Except.map, Except.ok.injEq] at hx
        refine ⟨p :: ps, .cons hp h3, ?_⟩
        rw [List.flatten_cons, h4, ← hx]; rfl

theorem parseBatch_of {a : RegArgs} {did : Nat} {props : List (PyStr × Bool)} {tasks : List (Nat × PyStr)}
    {ps : List (List ParsedSample)} (h : List.Forall₂ (fun t p => a.parse t.2 = .ok p) tasks ps) :
    parseBatch a did props tasks = .ok ((tasks.zip ps).flatMap fun tp => sampleRows did props tp.1.1 tp.2) := by
  have : tasks.mapM (fun t => (a.parse t.2).map fun l => sampleRows did props t.1 l) =
      .ok ((tasks.zip ps).map fun tp => sampleRows did props tp.1.1 tp.2) := by
    apply mapM_of_forall
    induction h with
    | nil => exact .nil
    | cons hx _ ih => exact .cons (by rw [hx]; rfl) ih
  unfold parseBatch
  rw [this]
  simp [Except.map, List.flatMap]

theorem sampleRows_ds {did : Nat} {props : List (PyStr × Bool)} {fid : Nat} {l : List ParsedSample} :
    ∀ r ∈ sampleRows did props fid l, r.dataset = did ∧ r.file = fid := by
  intro r hr
  simp only [sampleRows, List.mem_map] at hr
  obtain ⟨s, _, rfl⟩ := hr
  exact ⟨rfl, rfl⟩

theorem parseBatch_ds {a : RegArgs} {did : Nat} {props : List (PyStr × Bool)} {tasks : List (Nat × PyStr)}
    {rows : List SampleRow} (h : parseBatch a did props tasks = .ok rows) : ∀ r ∈ rows, r.dataset = did := by
  obtain ⟨ps, _, rfl⟩ := parseBatch_ok h
  intro r hr
  obtain ⟨tp, _, h2⟩ := List.mem_flatMap.mp hr
  exact (sampleRows_ds r h2).1

theorem rg_register (a : RegArgs) {N : List PyStr} (hN : a.name ∈ N) :
    Prog.RGP (DbStep N) (fun _ => Db.WF) Db.WF (registerDataset a) := by
  unfold registerDataset
  rw [Prog.bind_eq]
  refine Prog.RGP.bind (rg_insertDataset a hN) fun r => ?_
  cases r with
  | none => exact fun s hs => hs.1
  | some did =>
    refine Prog.RGP.weaken (P := Owned did a.name) ?_ fun s hs => hs.2 did rfl
    have hO := stable_owned N did a.name
    dsimp only
    split
    · exact fun s hs => hs.1
    · split
      · trivial
      · rename_i props _
        rw [Prog.bind_eq]
        refine Prog.RGP.bind (rg_addColumns N _ hO (fun s hs => hs.1) props) fun _ => ?_
        rw [Prog.bind_eq]
        refine Prog.RGP.bind (rg_insertFiles hN a.files) fun ids => ?_
        split
        · exact fun s hs => hs.1
        · rw [Prog.bind_eq]
          refine Prog.RGP.bind (mid := fun _ => Owned did a.name) (Prog.RGP.forEach _ fun tasks _ => ?_) fun _ => ?_
          · unfold registerBatch
            split
            · trivial
            · rename_i rows hrows
              exact rg_insertSamples hN (parseBatch_ds hrows)
          · rw [Prog.bind_eq]
            exact Prog.RGP.bind (rg_incrVersion N _ hO fun s hs => hs.1) fun _ s hs => hs.1

theorem idsOf_disjoint {s : Db} (h : s.WF) {n m : PyStr} (hm : m ≠ n) {i : Nat} (hi : i ∈ s.idsOf n) : i ∉ s.idsOf m := by
  rw [mem_idsOf] at hi ⊢
  obtain ⟨d, hd, e1, e2⟩ := hi
  rintro ⟨d', hd', e3, e4⟩
  have : d = d' := List.inj_on_of_nodup_map h.ids hd hd' (e2.trans e4.symm)
  exact hm (e3.symm.trans (this ▸ e1))

theorem filter_frame {s : Db} (h : s.WF) {n m : PyStr} (hm : m ≠ n) {α : Type} (l : List α) (g : α → Nat) :
    (l.filter fun x => !((s.idsOf n).contains (g x))).filter (fun x => (s.idsOf m).contains (g x)) =
      l.filter fun x => (s.idsOf m).contains (g x) := by
  rw [List.filter_filter]
  apply List.filter_congr
  intro x _
  by_cases hx : g x ∈ s.idsOf m
  · have : g x ∉ s.idsOf n := idsOf_disjoint h (Ne.symm hm) hx
    simp [hx, this]
  · simp [hx]

theorem deleteSamples_step (n : PyStr) {N : List PyStr} (hN : n ∈ N) {s : Db} (h : s.WF) :
    DbStep N s { s with samples := s.samples.filter fun x => !((s.idsOf n).contains x.dataset) } := by
  refine ⟨⟨h.names, h.ids, h.idsLt, h.fileIds, h.fileIdsLt, h.fileDs, ?_, ?_⟩, Nat.le_refl _,
    fun d hd => Or.inl hd, ?_⟩
  · exact (List.filter_sublist.map _).nodup h.keys
  · exact fun r hr => h.sampleDs r (List.mem_filter.mp hr).1
  · intro m hm
    have hne : m ≠ n := fun e => hm (e ▸ hN)
    show DatasetView.mk _ _ _ = DatasetView.mk _ _ _
    congr 1
    exact filter_frame h hne s.samples SampleRow.dataset

theorem deleteFiles_step (n : PyStr) {N : List PyStr} (hN : n ∈ N) {s : Db} (h : s.WF) :
    DbStep N s { s with files := s.files.filter fun x => !((s.idsOf n).contains x.dataset) } := by
  refine ⟨⟨h.names, h.ids, h.idsLt, ?_, ?_, ?_, h.keys, h.sampleDs⟩, Nat.le_refl _, fun d hd => Or.inl hd, ?_⟩
  · exact (List.filter_sublist.map _).nodup h.fileIds
  · exact fun r hr => h.fileIdsLt r (List.mem_filter.mp hr).1
  · exact fun r hr => h.fileDs r (List.mem_filter.mp hr).1
  · intro m hm
    have hne : m ≠ n := fun e => hm (e ▸ hN)
    show DatasetView.mk _ _ _ = DatasetView.mk _ _ _
    congr 1
    exact filter_frame h hne s.files FileRow.dataset

theorem deleteDataset_step (n : PyStr) {N : List PyStr} (hN : n ∈ N) {s : Db} (h : s.WF) :
    DbStep N s (if s.files.any (fun f => (s.idsOf n).contains f.dataset) then s
        else { s with datasets := s.datasets.filter fun d => d.name != n }) := by
  split
  · exact .same h rfl rfl rfl rfl rfl
  · rename_i hf
    refine ⟨⟨?_, ?_, ?_, h.fileIds, h.fileIdsLt, ?_, h.keys, h.sampleDs⟩, Nat.le_refl _,
      fun d hd => Or.inl (List.mem_filter.mp hd).1, ?_⟩
    · exact (List.filter_sublist.map _).nodup h.names
    · exact (List.filter_sublist.map _).nodup h.ids
    · exact fun r hr => h.idsLt r (List.mem_filter.mp hr).1
    · intro f hf'
      obtain ⟨d, hd, e⟩ := h.fileDs f hf'
      refine ⟨d, ?_, e⟩
      rw [List.mem_filter]
      refine ⟨hd, ?_⟩
      by_contra hc
      apply hf
      rw [List.any_eq_true]
      refine ⟨f, hf', ?_⟩
      simp only [bne_iff_ne, ne_eq, not_not] at hc
      simp only [List.contains_iff_mem]
      rw [mem_idsOf]
      exact ⟨d, hd, hc, e⟩
    · intro m hm
      have hne : m ≠ n := fun e => hm (e ▸ hN)
      have e : (s.datasets.filter fun d => d.name != n).filter (fun d => d.name == m) =
          s.datasets.filter fun d => d.name == m := by
        rw [List.filter_filter]
        apply List.filter_congr
        intro x _
        by_cases hx : x.name = m
        · simp [hx, hne]
        · simp [hx]
      simp only [Db.view, Db.idsOf, e]

theorem rg_remove (n : PyStr) {N : List PyStr} (hN : n ∈ N) :
    Prog.RGP (DbStep N) (fun _ => Db.WF) Db.WF (removeDataset n) := by
  have hW := stable_wf N
  unfold removeDataset
  rw [Prog.bind_eq]
  refine Prog.RGP.bind (mid := fun _ => Db.WF) (Prog.RGP.exec (fun s hs => .same hs rfl rfl rfl rfl rfl) (fun _ => hW)
    fun s hs => hs) fun b => ?_
  split
  · rw [Prog.bind_eq]
    refine Prog.RGP.bind (mid := fun _ => Db.WF) (Prog.RGP.exec (fun s hs => deleteSamples_step n hN hs) (fun _ => hW)
      fun s hs => (deleteSamples_step n hN hs).wf) fun _ => ?_
    rw [Prog.bind_eq]
    refine Prog.RGP.bind (mid := fun _ => Db.WF) (Prog.RGP.exec (fun s hs => deleteFiles_step n hN hs) (fun _ => hW)
      fun s hs => (deleteFiles_step n hN hs).wf) fun _ => ?_
    rw [Prog.bind_eq]
    refine Prog.RGP.bind (mid := fun _ => Db.WF) (Prog.RGP.exec (fun s hs => deleteDataset_step n hN hs) (fun _ => hW)
      fun s hs => (deleteDataset_step n hN hs).wf) fun ok => ?_
    split
    · rw [Prog.bind_eq]
      exact Prog.RGP.bind (rg_incrVersion N _ hW fun s hs => hs) fun _ s hs => hs
    · exact fun s hs => hs
  · exact fun s hs => hs

/-- **C37, only that dataset**: however many registrations and removals run at the same time, in whatever order their
SQL statements are executed, and wherever they are interrupted, the row, the files and the samples of a dataset none of
them is about do not change, and the tables' constraints hold. -/
theorem c37_only_that_dataset (ops : List DbOp) (db : Db) (h : db.WF) (sched : List Nat) :
    let s := (interleave sched (ops.map DbOp.prog) db).2
    s.WF ∧ ∀ m, m ∉ ops.map DbOp.name → s.view m = db.view m := by
  refine Prog.schedule_steps (R := DbStep (ops.map DbOp.name))
    (I := fun s0 s => s.WF ∧ ∀ m, m ∉ ops.map DbOp.name → s.view m = s0.view m) ?_ sched _ db ?_ db ⟨h, fun _ _ => rfl⟩
  · intro s0 s t h1 h2
    exact ⟨h2.wf, fun m hm => (h2.frame m hm).trans (h1.2 m hm)⟩
  · intro p hp
    obtain ⟨op, hop, rfl⟩ := List.mem_map.mp hp
    refine ⟨Db.WF, stable_wf _, h, ?_⟩
    have hN : op.name ∈ ops.map DbOp.name := List.mem_map_of_mem hop
    cases op with
    | register a => exact .of_post (rg_register a hN)
    | remove n => exact .of_post (rg_remove n hN)

/-- The same for one operation at every crash point. -/
theorem c37_crash (op : DbOp) (db : Db) (h : db.WF) (t : Db) (ht : t ∈ op.prog.states db) :
    t.WF ∧ ∀ m, m ≠ op.name → t.view m = db.view m := by
  obtain ⟨n, hn⟩ := Prog.states_schedule _ _ _ ht
  have := c37_only_that_dataset [op] db h (List.replicate n 0)
  simp only [List.map_cons, List.map_nil, List.mem_singleton] at this
  rw [hn] at this
  exact this

/-! ## One registration -/

theorem run_incrVersion (s : Db) : incrVersion.run s = ({ s with version := s.version + 1 }, .ok ()) := rfl

theorem run_insertDataset (a : RegArgs) (s : Db) (hv : a.validType = true) (hn : s.hasName a.name = false) :
    (insertDataset a).run s = ({ s with
      datasets := s.datasets ++ [⟨s.nextDataset, a.name, a.loc, a.dtype, a.func⟩]
      nextDataset := s.nextDataset + 1, version := s.version + 1 }, .ok (some s.nextDataset)) := by
  unfold insertDataset
  rw [if_pos hv, Prog.bind_eq, Prog.run_bind_ok (Prog.run_exec _ _ _)]
  simp only [hn, Bool.false_eq_true, if_false]
  rw [Prog.bind_eq, Prog.run_bind_ok (run_incrVersion _)]
  simp [insertDatasetStmt, hn, Prog.pure_eq]

theorem run_addColumns (props : List (PyStr × Bool)) (s : Db) :
    (addColumns props).run s =
      ({ s with columns := s.columns ++ props.filter fun p => !(s.columns.has p.1) }, .ok ()) := by
  unfold addColumns
  rw [Prog.bind_eq, Prog.run_bind_ok (Prog.run_exec _ _ _)]
  generalize props.filter (fun p => !(s.columns.has p.1)) = l
  simp only [id]
  induction l generalizing s with
  | nil => simp [Prog.forEach]
  | cons p l ih =>
    rw [Prog.forEach, Prog.run_bind_ok (Prog.run_exec _ _ _), ih]
    simp

theorem run_insertFiles (did : Nat) (locs : List PyStr) (s : Db) (h : s.hasDataset did = true) :
    (insertFiles did locs).run s = ({ s with
      files := s.files ++ newFiles did s.nextFile locs, nextFile := s.nextFile + locs.length,
      version := s.version + 1 }, .ok (fileIds (newFiles did s.nextFile locs) locs)) := by
  unfold insertFiles
  rw [Prog.bind_eq, Prog.run_bind_ok (Prog.run_exec _ _ _)]
  simp only [h, if_true]
  rw [Prog.bind_eq, Prog.run_bind_ok (run_incrVersion _)]
  rfl

theorem get?_foldl_not_mem (did next : Nat) (locs : List PyStr) (m : Dict PyStr Nat) {l : PyStr} (hl : l ∉ locs) :
    ((newFiles did next locs).foldl (fun m r => Dict.set m r.loc r.id) m).get? l = m.get? l := by
  induction locs generalizing next m with
  | nil => rfl
  | cons x xs ih =>
    simp only [List.mem_cons, not_or] at hl
    simp only [newFiles, List.foldl_cons]
    rw [ih _ _ hl.2, Dict.get?_set, if_neg (Ne.symm hl.1)]

theorem fileIds_eq (did next : Nat) (locs : List PyStr) (h : locs.Nodup) :
    fileIds (newFiles did next locs) locs = List.range' next locs.length := by
  unfold fileIds
  dsimp only
  generalize ([] : Dict PyStr Nat) = m
  induction locs generalizing next m with
  | nil => rfl
  | cons x xs ih =>
    rw [List.nodup_cons] at h
    simp only [newFiles, List.foldl_cons, List.length_cons, List.range'_succ]
    rw [List.filterMap_cons, get?_foldl_not_mem did _ xs _ h.1, Dict.get?_set, if_pos rfl]
    simp only
    rw [ih _ h.2]

theorem slices_flatten {α : Type} (n : Nat) (hn : 0 < n) : ∀ (k : Nat) (l : List α), l.length ≤ k → (slices n k l).flatten = l
  | 0, l, h => by
    have : l = [] := List.eq_nil_of_length_eq_zero (by omega)
    subst this; rfl
  | k + 1, l, h => by
    rw [slices]
    split
    · rename_i he
      have : l = [] := by simpa using he
      subst this; rfl
    · rename_i he
      have hl : 0 < l.length := by
        rcases l with _ | _
        · simp at he
        · simp
      rw [List.flatten_cons, slices_flatten n hn k (l.drop n) (by rw [List.length_drop]; omega), List.take_append_drop]

theorem run_insertSamples (rows : List SampleRow) (s : Db) :
    (insertSamples rows).run s = if keysFree s rows then ({ s with samples := s.samples ++ rows }, .ok ())
      else (s, .error .runtimeError) := by
  unfold insertSamples
  simp only [Prog.run]
  split <;> simp

/-- The rows of the samples of several files. -/
def rowsOf (did : Nat) (props : List (PyStr × Bool)) (tasks : List (Nat × PyStr)) (ps : List (List ParsedSample)) :
    List SampleRow := (tasks.zip ps).flatMap fun tp => sampleRows did props tp.1.1 tp.2

theorem rowsOf_append (did : Nat) (props : List (PyStr × Bool)) {t1 t2 : List (Nat × PyStr)}
    {p1 p2 : List (List ParsedSample)} (h : t1.length = p1.length) :
    rowsOf did props (t1 ++ t2) (p1 ++ p2) = rowsOf did props t1 p1 ++ rowsOf did props t2 p2 := by
  simp [rowsOf, List.zip_append h]

theorem run_batches_ok {a : RegArgs} {did : Nat} {props : List (PyStr × Bool)} :
    ∀ (bs : List (List (Nat × PyStr))) (s s' : Db),
      (Prog.forEach (registerBatch a did props) bs).run s = (s', .ok ()) →
      ∃ ps, List.Forall₂ (fun t p => a.parse t.2 = .ok p) bs.flatten ps ∧
        s' = { s with samples := s.samples ++ rowsOf did props bs.flatten ps }
  | [], s, s', h => by
    simp only [Prog.forEach, Prog.run_ret, Prod.mk.injEq] at h
    exact ⟨[], .nil, by simp [rowsOf, h.1]⟩
  | b :: bs, s, s', h => by
    rw [Prog.forEach, registerBatch] at h
    cases hb : parseBatch a did props b with
    | error e =>
      rw [hb] at h
      simp only at h
      rw [Prog.run_bind_error (Prog.run_raise e s)] at h
      simp at h
    | ok rows =>
      rw [hb] at h
      simp only at h
      by_cases hk : keysFree s rows = true
      · have hi := run_insertSamples rows s
        rw [if_pos hk] at hi
        rw [Prog.run_bind_ok hi] at h
        obtain ⟨ps, h1, h2⟩ := run_batches_ok bs _ _ h
        obtain ⟨p1, h3, h4⟩ := parseBatch_ok hb
        refine ⟨p1 ++ ps, ?_, ?_⟩
        · rw [List.flatten_cons]; exact List.rel_append h3 h1
        · rw [List.flatten_cons, rowsOf_append did props h3.length_eq, h2]
          simp only [List.append_assoc]
          rw [h4]; rfl
      · have hi := run_insertSamples rows s
        rw [if_neg hk] at hi
        rw [Prog.run_bind_error hi] at h
        simp at h

theorem keysFree_of_nodup {s : Db} {rows : List SampleRow} (h : ((s.samples ++ rows).map SampleRow.key).Nodup) :
    keysFree s rows = true := by
  rw [List.map_append, List.nodup_append] at h
  simp only [keysFree, Bool.and_eq_true, decide_eq_true_eq, List.all_eq_true, bne_iff_ne, ne_eq]
  refine ⟨h.2.1, fun r hr x hx e => ?_⟩
  exact h.2.2 _ (List.mem_map_of_mem hx) _ (List.mem_map_of_mem hr) e

theorem run_batches_of {a : RegArgs} {did : Nat} {props : List (PyStr × Bool)} :
    ∀ (bs : List (List (Nat × PyStr))) (ps : List (List ParsedSample)) (s : Db),
      List.Forall₂ (fun t p => a.parse t.2 = .ok p) bs.flatten ps →
      ((s.samples ++ rowsOf did props bs.flatten ps).map SampleRow.key).Nodup →
      (Prog.forEach (registerBatch a did props) bs).run s =
        ({ s with samples := s.samples ++ rowsOf did props bs.flatten ps }, .ok ())
  | [], ps, s, h, _ => by
    cases h
    simp [Prog.forEach, rowsOf]
  | b :: bs, ps, s, h, hk => by
    rw [List.flatten_cons] at h hk ⊢
    obtain ⟨p1, p2, rfl, h1, h2⟩ : ∃ p1 p2, ps = p1 ++ p2 ∧ List.Forall₂ (fun t p => a.parse t.2 = .ok p) b p1 ∧
        List.Forall₂ (fun t p => a.parse t.2 = .ok p) bs.flatten p2 := by
      refine ⟨ps.take b.length, ps.drop b.length, (List.take_append_drop _ _).symm, ?_, ?_⟩
      · have := List.forall₂_take b.length h
        simpa using this
      · have := List.forall₂_drop b.length h
        simpa using this
    rw [rowsOf_append did props h1.length_eq] at hk ⊢
    rw [← List.append_assoc] at hk
    rw [Prog.forEach, registerBatch, parseBatch_of h1]
    simp only
    have hi := run_insertSamples (rowsOf did props b p1) s
    rw [if_pos (keysFree_of_nodup ((List.sublist_append_left _ _).map _ |>.nodup hk))] at hi
    unfold rowsOf at hi
    rw [Prog.run_bind_ok hi, run_batches_of bs p2 _ h2 hk]
    simp [rowsOf, List.append_assoc]

theorem zip_newFiles (did next : Nat) (locs : List PyStr) :
    (List.range' next locs.length).zip locs = (newFiles did next locs).map fun f => (f.id, f.loc) := by
  induction locs generalizing next with
  | nil => rfl
  | cons l ls ih => simp [newFiles, List.range'_succ, ih]

/-- The state of the database just before the samples are inserted. -/
def beforeSamples (a : RegArgs) (props : List (PyStr × Bool)) (db : Db) : Db :=
  { db with
    datasets := db.datasets ++ [⟨db.nextDataset, a.name, a.loc, a.dtype, a.func⟩]
    nextDataset := db.nextDataset + 1
    columns := db.columns ++ props.filter fun p => !(db.columns.has p.1)
    files := db.files ++ newFiles db.nextDataset db.nextFile a.files
    nextFile := db.nextFile + a.files.length
    version := db.version + 2 }

/-- The whole run, up to the samples. -/
theorem run_register (a : RegArgs) (db : Db) (props : List (PyStr × Bool)) (hv : a.validType = true)
    (hn : db.hasName a.name = false) (hf : a.files ≠ []) (hp : a.props = some props) (hfd : a.files.Nodup) :
    (registerDataset a).run db =
      ((Prog.forEach (registerBatch a db.nextDataset props) (slices 2000 a.files.length
          ((newFiles db.nextDataset db.nextFile a.files).map fun f => (f.id, f.loc)))).bind fun _ =>
        incrVersion.bind fun _ => .ret (.ok true)).run (beforeSamples a props db) := by
  unfold registerDataset
  rw [Prog.bind_eq, Prog.run_bind_ok (run_insertDataset a db hv hn)]
  simp only [List.isEmpty_iff, hf, if_false, hp]
  rw [Prog.bind_eq, Prog.run_bind_ok (run_addColumns _ _)]
  rw [Prog.bind_eq, Prog.run_bind_ok (run_insertFiles _ _ _ (by simp [Db.hasDataset]))]
  rw [fileIds_eq _ _ _ hfd]
  have hl : 0 < a.files.length := List.length_pos_of_ne_nil hf
  rw [if_neg, zip_newFiles db.nextDataset]
  · rfl
  · simp only [List.length_range', bne_self_eq_false, Bool.or_false]
    rcases hc : a.files.length with _ | k
    · omega
    · simp [List.range'_succ]

theorem insertDataset_none {a : RegArgs} {db : Db} (h : a.validType = false ∨ db.hasName a.name = true) :
    ((insertDataset a).run db).2 = .ok none := by
  unfold insertDataset
  split
  · rename_i hv
    have hn : db.hasName a.name = true := by
      rcases h with h | h
      · rw [h] at hv; exact absurd hv (by simp)
      · exact h
    rw [Prog.bind_eq, Prog.run_bind_ok (Prog.run_exec _ _ _)]
    simp [hn, Prog.pure_eq]
  · rfl

theorem run_register_none {a : RegArgs} {db : Db} (h : ((insertDataset a).run db).2 = .ok none) :
    ((registerDataset a).run db).2 = .ok false := by
  unfold registerDataset
  have : (insertDataset a).run db = (((insertDataset a).run db).1, .ok none) := by rw [← h]
  rw [Prog.bind_eq, Prog.run_bind_ok this]
  rfl

/-- The conditions under which a registration goes through. -/
structure Registrable (a : RegArgs) (db : Db) : Prop where
  validType : a.validType = true
  /-- the name is free -/
  free : a.name ∉ db.datasets.map DatasetRow.name
  files : a.files ≠ []
  /-- the metadata parser is known -/
  parser : a.props ≠ none
  /-- it accepts every file and numbers the samples of a file differently -/
  parses : ∀ f ∈ a.files, ∃ p, a.parse f = .ok p ∧ (p.map Prod.fst).Nodup

/-- The row of a parsed sample: its dataset, file and number, and for every declared property the value the parser found, or
NULL. -/
structure RowOf (did fid : Nat) (props : List (PyStr × Bool)) (s : ParsedSample) (r : SampleRow) : Prop where
  dataset : r.dataset = did
  file : r.file = fid
  sample : r.sample = s.1
  value : ∀ p ∈ props.map Prod.fst, Dict.get? r.cells p = some ((Dict.get? s.2 p).getD .null)
  others : ∀ p, p ∉ props.map Prod.fst → Dict.get? r.cells p = none

/-- What a successful registration does to the tables. -/
structure Registered (a : RegArgs) (db db' : Db) : Prop where
  /-- exactly one new dataset, with an id no dataset has or had -/
  datasets : db'.datasets = db.datasets ++ [⟨db.nextDataset, a.name, a.loc, a.dtype, a.func⟩]
  fresh : ∀ d ∈ db.datasets, d.id ≠ db.nextDataset
  /-- one new row per file, and for each file the rows of the samples its parser returned -/
  content : ∃ props fs ps, a.props = some props ∧
    db'.files = db.files ++ fs ∧ fs.map FileRow.loc = a.files ∧
    (∀ f ∈ fs, f.dataset = db.nextDataset ∧ ∀ g ∈ db.files, g.id ≠ f.id) ∧ (fs.map FileRow.id).Nodup ∧
    List.Forall₂ (fun f p => a.parse f = .ok p) a.files ps ∧
    ∃ rows : List (List SampleRow), db'.samples = db.samples ++ rows.flatten ∧
      List.Forall₂ (fun fp rs => List.Forall₂ (RowOf db.nextDataset fp.1.id props) fp.2 rs) (fs.zip ps) rows

theorem get?_map_self {β : Type} (l : List PyStr) (f : PyStr → β) (p : PyStr) :
    Dict.get? (l.map fun k => (k, f k)) p = if p ∈ l then some (f p) else none := by
  induction l with
  | nil => rfl
  | cons k l ih =>
    by_cases h : k = p
    · subst h; simp [Dict.get?]
    · have h' : p ≠ k := fun e => h e.symm
      simp [Dict.get?, h, h', ih]

theorem sampleRows_rowOf (did fid : Nat) (props : List (PyStr × Bool)) (l : List ParsedSample) :
    List.Forall₂ (RowOf did fid props) l (sampleRows did props fid l) := by
  unfold sampleRows
  rw [List.forall₂_map_right_iff, List.forall₂_same]
  intro s _
  have key : ∀ p, Dict.get? ((sortStr (props.map Prod.fst)).map fun p => (p, (Dict.get? s.2 p).getD Cell.null)) p =
      if p ∈ props.map Prod.fst then some ((Dict.get? s.2 p).getD .null) else none := by
    intro p
    rw [get?_map_self]
    have : p ∈ sortStr (props.map Prod.fst) ↔ p ∈ props.map Prod.fst := (sortBy_perm _ _).mem_iff
    simp only [this]
  exact ⟨rfl, rfl, rfl, fun p hp => by rw [key, if_pos hp], fun p hp => by rw [key, if_neg hp]⟩

theorem rowsOf_files (did : Nat) (props : List (PyStr × Bool)) (fs : List FileRow) (ps : List (List ParsedSample)) :
    rowsOf did props (fs.map fun f => (f.id, f.loc)) ps =
      (fs.zip ps).flatMap fun fp => sampleRows did props fp.1.id fp.2 := by
  unfold rowsOf
  rw [List.zip_map_left, List.flatMap_map]
  rfl

theorem forall2_tasks {a : RegArgs} (fs : List FileRow) (ps : List (List ParsedSample)) :
    List.Forall₂ (fun (t : Nat × PyStr) p => a.parse t.2 = .ok p) (fs.map fun f => (f.id, f.loc)) ps ↔
      List.Forall₂ (fun f p => a.parse f = .ok p) (fs.map FileRow.loc) ps := by
  simp only [List.forall₂_map_left_iff]

/-- The state after a successful registration. -/
def afterRegister (a : RegArgs) (props : List (PyStr × Bool)) (ps : List (List ParsedSample)) (db : Db) : Db :=
  { beforeSamples a props db with
    samples := db.samples ++ ((newFiles db.nextDataset db.nextFile a.files).zip ps).flatMap fun fp =>
      sampleRows db.nextDataset props fp.1.id fp.2
    version := db.version + 3 }

theorem newFiles_length (did next : Nat) (locs : List PyStr) : (newFiles did next locs).length = locs.length := by
  rw [← List.length_map (f := FileRow.loc), newFiles_loc]

/-- A successful registration has met all conditions and its effect is `afterRegister`. -/
theorem register_shape (a : RegArgs) (db : Db) (hfd : a.files.Nodup)
    (hr : ((registerDataset a).run db).2 = .ok true) :
    a.validType = true ∧ db.hasName a.name = false ∧ a.files ≠ [] ∧ ∃ props ps, a.props = some props ∧
      List.Forall₂ (fun f p => a.parse f = .ok p) a.files ps ∧
      (registerDataset a).run db = (afterRegister a props ps db, .ok true) := by
  have hv : a.validType = true := by
    by_contra hc
    have := run_register_none (insertDataset_none (a := a) (db := db) (Or.inl (by simpa using hc)))
    rw [this] at hr; simp at hr
  have hn : db.hasName a.name = false := by
    by_contra hc
    have := run_register_none (insertDataset_none (a := a) (db := db) (Or.inr (by simpa using hc)))
    rw [this] at hr; simp at hr
  have hf : a.files ≠ [] := by
    intro hc
    unfold registerDataset at hr
    rw [Prog.bind_eq, Prog.run_bind_ok (run_insertDataset a db hv hn)] at hr
    simp [hc, Prog.pure_eq] at hr
  refine ⟨hv, hn, hf, ?_⟩
  rcases hp : a.props with _ | props
  · unfold registerDataset at hr
    rw [Prog.bind_eq, Prog.run_bind_ok (run_insertDataset a db hv hn)] at hr
    simp [hf, hp] at hr
  · rw [run_register a db props hv hn hf hp hfd] at hr ⊢
    rcases hb : (Prog.forEach (registerBatch a db.nextDataset props) (slices 2000 a.files.length
      ((newFiles db.nextDataset db.nextFile a.files).map fun f => (f.id, f.loc)))).run (beforeSamples a props db)
      with ⟨s', r⟩
    cases r with
    | error e => rw [Prog.run_bind_error hb] at hr; simp at hr
    | ok u =>
      obtain ⟨ps, h1, h2⟩ := run_batches_ok _ _ _ hb
      rw [slices_flatten 2000 (by omega) _ _ (by rw [List.length_map, newFiles_length])] at h1 h2
      rw [forall2_tasks, newFiles_loc] at h1
      rw [rowsOf_files] at h2
      refine ⟨props, ps, rfl, h1, ?_⟩
      rw [Prog.run_bind_ok hb, Prog.run_bind_ok (run_incrVersion _), Prog.run_ret, h2]
      rfl

theorem rows_nodup {did : Nat} {props : List (PyStr × Bool)} : ∀ {fs : List FileRow} {ps : List (List ParsedSample)},
    (fs.map FileRow.id).Nodup → (∀ p ∈ ps, (p.map Prod.fst).Nodup) →
    (((fs.zip ps).flatMap fun fp => sampleRows did props fp.1.id fp.2).map SampleRow.key).Nodup
  | [], ps, _, _ => by simp
  | f :: fs, [], _, _ => by simp
  | f :: fs, p :: ps, h, hp => by
    rw [List.map_cons, List.nodup_cons] at h
    rw [List.zip_cons_cons, List.flatMap_cons, List.map_append, List.nodup_append]
    refine ⟨?_, rows_nodup h.2 fun p hp' => hp p (by simp [hp']), ?_⟩
    · have := hp p (by simp)
      simp only [sampleRows, List.map_map]
      refine List.Nodup.map_on ?_ (List.Nodup.of_map _ this)
      intro x hx y hy e
      simp only [Function.comp, SampleRow.key, Prod.mk.injEq, true_and] at e
      exact List.inj_on_of_nodup_map this hx hy e
    · rintro x hx y hy rfl
      obtain ⟨r1, h1, rfl⟩ := List.mem_map.mp hx
      obtain ⟨r2, h2, e⟩ := List.mem_map.mp hy
      obtain ⟨fp, h3, h4⟩ := List.mem_flatMap.mp h2
      have e1 := (sampleRows_ds r1 h1).2
      have e2 := (sampleRows_ds r2 h4).2
      simp only [SampleRow.key, Prod.mk.injEq] at e
      apply h.1
      rw [← e1, ← e.2.1, e2]
      exact List.mem_map_of_mem (List.of_mem_zip h3).1

/-- **C37, registration succeeds exactly under these conditions** (a directory listing has no duplicates). -/
theorem c37_register_iff (a : RegArgs) (db : Db) (h : db.WF) (hfd : a.files.Nodup) :
    ((registerDataset a).run db).2 = .ok true ↔ Registrable a db := by
  constructor
  · intro hr
    obtain ⟨hv, hn, hf, props, ps, hp, h1, h2⟩ := register_shape a db hfd hr
    refine ⟨hv, fun hc => ?_, hf, by simp [hp], ?_⟩
    · rw [(hasName_iff db a.name).mpr hc] at hn; simp at hn
    · -- the final state satisfies the primary key constraint
      have hwf : ((registerDataset a).run db).1.WF := (c37_crash (.register a) db h _ (Prog.run_mem_states _ _)).1
      rw [h2] at hwf
      have hk2 := (List.sublist_append_right _ _).map _ |>.nodup hwf.keys
      intro f hfm
      obtain ⟨i, hi, rfl⟩ := List.mem_iff_getElem.mp hfm
      have hlen := h1.length_eq
      have hip : i < ps.length := hlen ▸ hi
      refine ⟨ps[i], (List.forall₂_iff_get.mp h1).2 i hi hip, ?_⟩
      have hlf := newFiles_length db.nextDataset db.nextFile a.files
      have hz : i < ((newFiles db.nextDataset db.nextFile a.files).zip ps).length := by
        rw [List.length_zip]; omega
      have hmem : ((newFiles db.nextDataset db.nextFile a.files).zip ps)[i] ∈
          (newFiles db.nextDataset db.nextFile a.files).zip ps := List.getElem_mem hz
      rw [List.map_flatMap, List.nodup_flatMap] at hk2
      have h3 := hk2.1 _ hmem
      rw [List.getElem_zip] at h3
      simp only [sampleRows, List.map_map] at h3
      refine List.Nodup.of_map (fun x => (db.nextDataset, ((newFiles db.nextDataset db.nextFile a.files)[i]'(by omega)).id, x)) ?_
      rw [List.map_map]
      exact h3
  · intro hR
    have hn : db.hasName a.name = false := by
      by_contra hc
      exact hR.free ((hasName_iff db a.name).mp (by simpa using hc))
    obtain ⟨props, hp⟩ := Option.ne_none_iff_exists'.mp hR.parser
    obtain ⟨ps, h1, h2⟩ : ∃ ps, List.Forall₂ (fun f p => a.parse f = .ok p) a.files ps ∧
        ∀ p ∈ ps, (p.map Prod.fst).Nodup := by
      have := hR.parses
      clear hR hp hfd hn
      revert this
      generalize a.files = l
      intro this
      induction l with
      | nil => exact ⟨[], .nil, by simp⟩
      | cons f l ih =>
        obtain ⟨p, h1, h2⟩ := this f (by simp)
        obtain ⟨ps, h3, h4⟩ := ih fun f hf => this f (by simp [hf])
        exact ⟨p :: ps, .cons h1 h3, by simpa using ⟨h2, h4⟩⟩
    rw [run_register a db props hR.validType hn hR.files hp hfd]
    have hfl : (slices 2000 a.files.length ((newFiles db.nextDataset db.nextFile a.files).map fun f => (f.id, f.loc))).flatten =
        (newFiles db.nextDataset db.nextFile a.files).map fun f => (f.id, f.loc) :=
      slices_flatten 2000 (by omega) _ _ (by rw [List.length_map, newFiles_length])
    have hrun := run_batches_of (a := a) (did := db.nextDataset) (props := props)
      (slices 2000 a.files.length ((newFiles db.nextDataset db.nextFile a.files).map fun f => (f.id, f.loc))) ps
      (beforeSamples a props db) (by rw [hfl, forall2_tasks, newFiles_loc]; exact h1) (by
        rw [hfl, rowsOf_files, List.map_append, List.nodup_append]
        refine ⟨h.keys, rows_nodup (by rw [newFiles_ids]; exact List.nodup_range') h2, ?_⟩
        rintro x hx y hy rfl
        obtain ⟨r1, h3, rfl⟩ := List.mem_map.mp hx
        obtain ⟨r2, h4, e⟩ := List.mem_map.mp hy
        obtain ⟨fp, h5, h6⟩ := List.mem_flatMap.mp h4
        have e1 := (sampleRows_ds r2 h6).1
        have e2 := h.sampleDs r1 h3
        simp only [SampleRow.key, Prod.mk.injEq] at e
        omega)
    rw [Prog.run_bind_ok hrun, Prog.run_bind_ok (run_incrVersion _)]
    rfl

/-- **C37, registration adds exactly the new dataset's rows.** -/
theorem c37_register_adds (a : RegArgs) (db : Db) (h : db.WF) (hfd : a.files.Nodup)
    (hr : ((registerDataset a).run db).2 = .ok true) : Registered a db ((registerDataset a).run db).1 := by
  obtain ⟨hv, hn, hf, props, ps, hp, h1, h2⟩ := register_shape a db hfd hr
  rw [h2]
  refine ⟨rfl, fun d hd e => ?_, props, newFiles db.nextDataset db.nextFile a.files, ps, hp, rfl, newFiles_loc .., ?_, ?_,
    h1, ((newFiles db.nextDataset db.nextFile a.files).zip ps).map fun fp => sampleRows db.nextDataset props fp.1.id fp.2,
    by simp [afterRegister, List.flatMap_def], ?_⟩
  · have := h.idsLt d hd; omega
  · intro f hf
    refine ⟨newFiles_ds _ _ _ f hf, fun g hg e => ?_⟩
    have h3 := h.fileIdsLt g hg
    have : f.id ∈ List.range' db.nextFile a.files.length := by
      rw [← newFiles_ids db.nextDataset]; exact List.mem_map_of_mem hf
    rw [List.mem_range'_1] at this
    omega
  · rw [newFiles_ids]; exact List.nodup_range'
  · rw [List.forall₂_map_right_iff, List.forall₂_same]
    exact fun fp _ => sampleRows_rowOf _ _ _ _

/-- **C37, a taken name is refused**: `register_dataset` returns False and at no point of its run are the tables or the
version any different. -/
theorem c37_register_taken (a : RegArgs) (db : Db) (ht : a.name ∈ db.datasets.map DatasetRow.name) :
    ((registerDataset a).run db).2 = .ok false ∧ ∀ t ∈ (registerDataset a).states db,
      t.datasets = db.datasets ∧ t.files = db.files ∧ t.samples = db.samples ∧ t.columns = db.columns ∧
        t.version = db.version := by
  have hn := (hasName_iff db a.name).mpr ht
  refine ⟨run_register_none (insertDataset_none (Or.inr hn)), ?_⟩
  intro t htm
  unfold registerDataset at htm
  rw [Prog.bind_eq, Prog.mem_states_bind] at htm
  have key : ∀ t ∈ (insertDataset a).states db, t.datasets = db.datasets ∧ t.files = db.files ∧ t.samples = db.samples ∧
      t.columns = db.columns ∧ t.version = db.version := by
    intro t ht
    unfold insertDataset at ht
    split at ht
    · rw [Prog.bind_eq] at ht
      simp only [Prog.exec, Prog.bind, Prog.states, hn, if_true, insertDatasetStmt, Prog.pure_eq, List.mem_cons,
        List.not_mem_nil, or_false] at ht
      rcases ht with rfl | rfl <;> simp
    · simp only [Prog.pure_eq, Prog.states, List.mem_singleton] at ht
      subst ht; simp
  rcases htm with h | ⟨r, h1, h2⟩
  · exact key t h
  · rw [insertDataset_none (Or.inr hn)] at h1
    simp only [Except.ok.injEq] at h1
    subst h1
    simp only [Prog.pure_eq, Prog.states, List.mem_singleton] at h2
    subst h2
    exact key _ (Prog.run_mem_states _ _)

/-- A registration that finds no files returns False but keeps the name: the dataset is listed, and registering it
again is refused. -/
theorem c37_no_files_keeps_name (a : RegArgs) (db : Db) (hv : a.validType = true)
    (hn : a.name ∉ db.datasets.map DatasetRow.name) (hf : a.files = []) (a' : RegArgs) (he : a'.name = a.name) :
    ((registerDataset a).run db).2 = .ok false ∧ a.name ∈ ((registerDataset a).run db).1.datasets.map DatasetRow.name ∧
      ((registerDataset a').run ((registerDataset a).run db).1).2 = .ok false := by
  have hn' : db.hasName a.name = false := by
    by_contra hc
    exact hn ((hasName_iff db a.name).mp (by simpa using hc))
  have hr := run_insertDataset a db hv hn'
  have h1 : (registerDataset a).run db = ({ db with
      datasets := db.datasets ++ [⟨db.nextDataset, a.name, a.loc, a.dtype, a.func⟩]
      nextDataset := db.nextDataset + 1, version := db.version + 1 }, .ok false) := by
    unfold registerDataset
    rw [Prog.bind_eq, Prog.run_bind_ok hr]
    simp [hf, Prog.pure_eq]
  rw [h1]
  refine ⟨rfl, by simp, (c37_register_taken a' _ ?_).1⟩
  simp [he]

/-! ## One removal -/

/-- The effect of removing `n`. -/
def afterRemove (n : PyStr) (db : Db) : Db :=
  { db with
    samples := db.samples.filter fun s => !((db.idsOf n).contains s.dataset)
    files := db.files.filter fun f => !((db.idsOf n).contains f.dataset)
    datasets := db.datasets.filter fun d => d.name != n
    version := db.version + 1 }

theorem run_remove (n : PyStr) (db : Db) :
    (removeDataset n).run db = if db.hasName n then (afterRemove n db, .ok true) else (db, .ok false) := by
  unfold removeDataset
  rw [Prog.bind_eq, Prog.run_bind_ok (Prog.run_exec _ _ _)]
  cases hn : db.hasName n with
  | false => simp [Prog.pure_eq]
  | true =>
    simp only [if_true, id]
    rw [Prog.bind_eq, Prog.run_bind_ok (Prog.run_exec _ _ _)]
    rw [Prog.bind_eq, Prog.run_bind_ok (Prog.run_exec _ _ _)]
    rw [Prog.bind_eq, Prog.run_bind_ok (Prog.run_exec _ _ _)]
    have hnone : ∀ ids : List Nat, ((db.files.filter fun f => !(ids.contains f.dataset)).any
        fun f => ids.contains f.dataset) = false := by
      intro ids
      rw [List.any_eq_false]
      intro f hf
      have := (List.mem_filter.mp hf).2
      simpa using this
    have h2 := hnone (db.idsOf n)
    simp only [Db.idsOf] at h2
    simp only [Db.idsOf, h2, Bool.not_false, if_true, Bool.false_eq_true, if_false]
    rw [Prog.bind_eq, Prog.run_bind_ok (run_incrVersion _)]
    simp [Prog.pure_eq, afterRemove, Db.idsOf]

/-- **C37, removal**: it succeeds iff the dataset exists; then exactly the dataset's row, files and samples are gone and
everything else is as before, in the same order; otherwise nothing changes. -/
theorem c37_remove (n : PyStr) (db : Db) (h : db.WF) :
    (((removeDataset n).run db).2 = .ok true ↔ n ∈ db.datasets.map DatasetRow.name) ∧
    (n ∉ db.datasets.map DatasetRow.name → (removeDataset n).run db = (db, .ok false)) ∧
    (n ∈ db.datasets.map DatasetRow.name →
      let db' := ((removeDataset n).run db).1
      (db'.view n = ⟨[], [], []⟩) ∧ (∀ m, m ≠ n → db'.view m = db.view m) ∧
      db'.datasets = db.datasets.filter (fun d => d ∉ (db.view n).rows) ∧
      db'.files = db.files.filter (fun f => f ∉ (db.view n).files) ∧
      db'.samples = db.samples.filter (fun s => s ∉ (db.view n).samples)) := by
  refine ⟨?_, ?_, ?_⟩
  · rw [← hasName_iff, run_remove]
    split <;> simp_all
  · intro hn
    rw [run_remove, if_neg fun hc => hn ((hasName_iff db n).mp hc)]
  · intro hn
    have hfr := (c37_crash (.remove n) db h _ (Prog.run_mem_states _ _)).2
    dsimp only
    refine ⟨?_, hfr, ?_⟩
    all_goals rw [run_remove, if_pos ((hasName_iff db n).mpr hn)]
    · have e : (afterRemove n db).idsOf n = [] := by
        simp only [Db.idsOf, afterRemove, List.filter_filter]
        rw [List.map_eq_nil_iff, List.filter_eq_nil_iff]
        intro d _; simp
      simp only [Db.view, e]
      simp [afterRemove]
    · refine ⟨?_, ?_, ?_⟩
      all_goals
        refine List.filter_congr fun x hx => ?_
        simp only [Db.view, List.mem_filter, hx, true_and, bne, decide_not, Bool.decide_eq_true]

/-- **C37, round trip**: registering a dataset and removing it again leaves the tables as they were. -/
theorem c37_round_trip (a : RegArgs) (db : Db) (h : db.WF) (hfd : a.files.Nodup)
    (hr : ((registerDataset a).run db).2 = .ok true) :
    let db' := ((removeDataset a.name).run ((registerDataset a).run db).1).1
    db'.datasets = db.datasets ∧ db'.files = db.files ∧ db'.samples = db.samples := by
  obtain ⟨hv, hn, hf, props, ps, hp, h1, h2⟩ := register_shape a db hfd hr
  rw [h2]
  have hfree : ∀ d ∈ db.datasets, d.name ≠ a.name := by
    intro d hd e
    rw [(hasName_iff db a.name).mpr (List.mem_map.mpr ⟨d, hd, e⟩)] at hn
    simp at hn
  have hids : (afterRegister a props ps db).idsOf a.name = [db.nextDataset] := by
    simp only [Db.idsOf, afterRegister, beforeSamples, List.filter_append]
    rw [List.filter_eq_nil_iff.mpr]
    · simp
    · intro d hd; simpa using hfree d hd
  rw [run_remove, if_pos (by rw [hasName_iff]; simp [afterRegister, beforeSamples])]
  simp only [afterRemove, hids]
  refine ⟨?_, ?_, ?_⟩
  · show (db.datasets ++ _).filter _ = _
    rw [List.filter_append, List.filter_eq_self.mpr]
    · simp
    · intro d hd; simpa using hfree d hd
  · show (db.files ++ _).filter _ = _
    rw [List.filter_append, List.filter_eq_self.mpr, List.filter_eq_nil_iff.mpr, List.append_nil]
    · intro f hf; simp [newFiles_ds _ _ _ f hf]
    · intro f hf
      obtain ⟨d, hd, e⟩ := h.fileDs f hf
      have := h.idsLt d hd
      have : f.dataset ≠ db.nextDataset := by omega
      simpa using this
  · show (db.samples ++ _).filter _ = _
    rw [List.filter_append, List.filter_eq_self.mpr, List.filter_eq_nil_iff.mpr, List.append_nil]
    · intro r hr
      obtain ⟨fp, _, h4⟩ := List.mem_flatMap.mp hr
      simp [(sampleRows_ds r h4).1]
    · intro r hr
      have := h.sampleDs r hr
      have : r.dataset ≠ db.nextDataset := by omega
      simpa using this

/-! ## Non-vacuity -/

namespace Ex

/-- A dataset with two files. -/
def regA : RegArgs where
  name := ['a']
  loc := ['/']
  validType := true
  dtype := 1
  func := []
  files := [['x'], ['y']]
  props := some [(['l'], false)]
  parse := fun f => if f = ['x'] then .ok [(0, [(['l'], .str ['e'])]), (1, [])] else .ok [(0, [(['l'], .str ['f'])])]

/-- Another dataset. -/
def regB : RegArgs := { regA with name := ['b'], files := [['x']] }

/-- Both registered. -/
def dbAB : Db := ((registerDataset regB).run ((registerDataset regA).run {}).1).1

theorem emptyDb_wf : ({} : Db).WF := by constructor <;> simp

example : Registrable regA {} := by
  refine ⟨rfl, by simp, by simp [regA], by simp [regA], ?_⟩
  intro f hf
  simp only [regA, List.mem_cons, List.not_mem_nil, or_false] at hf
  rcases hf with rfl | rfl
  · exact ⟨_, rfl, by decide⟩
  · exact ⟨_, rfl, by decide⟩

example : dbAB.WF := (c37_crash (.register regB) _ (c37_crash (.register regA) _ emptyDb_wf _
  (Prog.run_mem_states _ _)).1 _ (Prog.run_mem_states _ _)).1

example : (dbAB.view ['a']).samples.length = 3 ∧ (dbAB.view ['b']).samples.length = 2 ∧
    ((removeDataset ['a']).run dbAB).1.samples.length = 2 := by decide +kernel

end Ex

end Mixtera
