import Verif.Lemmas.Passes
import Verif.Lemmas.Merge

set_option linter.unusedSectionVars false

namespace Mixtera

variable {K : Type} [DecidableEq K]

/-- Ranges of the same file are well formed, sorted and do not overlap. -/
def SegSorted (l : List Seg) : Prop :=
  l.Pairwise (fun a b => a.ds = b.ds → a.file = b.file → a.hi ≤ b.lo) ∧ ∀ s ∈ l, s.lo ≤ s.hi

/-- All range lists of a nested dictionary are sorted by start. -/
def AllSorted (e : Entries) : Prop := ∀ d files, (d, files) ∈ e → ∀ f rs, (f, rs) ∈ files → SortedByStart rs

theorem SegSorted.nil : SegSorted [] := ⟨List.Pairwise.nil, by simp⟩

theorem sendAux_sorted (n : Nat) (cur : Nat) (acc st : List Seg) (hcur : cur ≤ n) (h : SegSorted (acc ++ st)) {out rest : List Seg}
    (e : sendAux n cur acc st = some (out, rest)) : SegSorted out ∧ SegSorted rest := by
  induction st generalizing cur acc with
  | nil =>
    rw [sendAux] at e
    split at e
    · simp only [Option.some.injEq, Prod.mk.injEq] at e
      obtain ⟨rfl, rfl⟩ := e
      exact ⟨by simpa using h, SegSorted.nil⟩
    · simp at e
  | cons s st ih =>
    rw [sendAux] at e
    split at e
    · rename_i hs
      split at e
      · exact ih _ _ (by omega) (by simpa using h) e
      · simp only [Option.some.injEq, Prod.mk.injEq] at e
        obtain ⟨rfl, rfl⟩ := e
        have hp := List.pairwise_append.mp h.1
        have hp2 := List.pairwise_cons.mp hp.2.1
        constructor
        · constructor
          · rw [List.pairwise_append]
            refine ⟨hp.1, by simp, ?_⟩
            intro a ha b hb
            simp only [List.mem_singleton] at hb
            subst hb
            exact hp.2.2 a ha s (by simp)
          · intro a ha
            simp only [List.mem_append, List.mem_singleton] at ha
            rcases ha with ha | rfl
            · exact h.2 a (by simp [ha])
            · dsimp only; omega
        · constructor
          · rw [List.pairwise_cons]
            refine ⟨?_, hp2.2⟩
            intro b hb h1 h2
            exact hp2.1 b hb h1 h2
          · intro a ha
            simp only [List.mem_cons] at ha
            rcases ha with rfl | ha
            · dsimp only; omega
            · exact h.2 a (by simp [ha])
    · apply ih _ _ hcur ?_ e
      constructor
      · exact h.1.sublist (List.Sublist.append_left (List.sublist_cons_self _ _) _)
      · intro a ha
        apply h.2
        simp only [List.mem_append, List.mem_cons] at ha ⊢
        rcases ha with ha | ha
        · exact Or.inl ha
        · exact Or.inr (Or.inr ha)

theorem send_sorted {n : Nat} {st out rest : List Seg} (h : SegSorted st)
    (e : send n st = some (out, rest)) : SegSorted out ∧ SegSorted rest :=
  sendAux_sorted n 0 [] st (by omega) (by simpa using h) e

theorem mem_upsert {α β : Type} [DecidableEq α] {d : Dict α β} {k : α} {f : Option β → β} {a : α} {b : β}
    (h : (a, b) ∈ d.upsert k f) : (a, b) ∈ d ∨ (a = k ∧ b = f (d.get? k)) := by
  induction d with
  | nil => simp [Dict.upsert] at h; simp [h]
  | cons xy d ih =>
    obtain ⟨x, y⟩ := xy
    simp only [Dict.upsert] at h
    split at h
    · rename_i hx; subst hx
      simp only [List.mem_cons, Prod.mk.injEq] at h
      rcases h with ⟨rfl, rfl⟩ | h
      · right; simp [Dict.get?_cons]
      · left; simp [h]
    · rename_i hx
      simp only [List.mem_cons, Prod.mk.injEq] at h
      rcases h with ⟨rfl, rfl⟩ | h
      · left; simp
      · rcases ih h with h | ⟨rfl, rfl⟩
        · left; simp [h]
        · right; simp [Dict.get?_cons, hx]

/-- The ranges recorded for a file are a sublist of the input's ranges of that file. -/
theorem nestSegs_sublist (segs : List Seg) {d f : Nat} {files : Dict Nat (List Rng)} {rs : List Rng}
    (h1 : (d, files) ∈ nestSegs segs) (h2 : (f, rs) ∈ files) :
    rs.Sublist ((segs.filter fun s => s.ds = d ∧ s.file = f).map fun s => (s.lo, s.hi)) := by
  suffices H : ∀ (done : List Seg) (e : Entries),
      (∀ d files, (d, files) ∈ e → ∀ f rs, (f, rs) ∈ files →
        rs.Sublist ((done.filter fun s => s.ds = d ∧ s.file = f).map fun s => (s.lo, s.hi))) →
      ∀ d files, (d, files) ∈ segs.foldl (fun e s =>
        e.upsert s.ds fun fs => (fs.getD []).upsert s.file fun rs => rs.getD [] ++ [(s.lo, s.hi)]) e →
      ∀ f rs, (f, rs) ∈ files →
        rs.Sublist (((done ++ segs).filter fun s => s.ds = d ∧ s.file = f).map fun s => (s.lo, s.hi)) by
    have := H [] [] (by simp) d files h1 f rs h2
    simpa using this
  clear h1 h2
  induction segs with
  | nil => intro done e he; simpa using he
  | cons s segs ih =>
    intro done e he
    rw [show done ++ s :: segs = (done ++ [s]) ++ segs by simp]
    rw [List.foldl_cons]
    apply ih (done ++ [s])
    intro d files hd f rs hf
    have mono : ∀ l : List Rng, l.Sublist ((done.filter fun s => s.ds = d ∧ s.file = f).map fun s => (s.lo, s.hi)) →
        l.Sublist (((done ++ [s]).filter fun s => s.ds = d ∧ s.file = f).map fun s => (s.lo, s.hi)) := by
      intro l hl
      rw [List.filter_append, List.map_append]
      exact hl.trans (List.sublist_append_left _ _)
    rcases mem_upsert hd with hd | ⟨rfl, rfl⟩
    · exact mono _ (he d files hd f rs hf)
    · rcases mem_upsert hf with hf | ⟨rfl, rfl⟩
      · cases hg : e.get? s.ds with
        | none => simp [hg] at hf
        | some fs =>
          simp only [hg, Option.getD_some] at hf
          exact mono _ (he _ fs (Dict.mem_of_get? hg) f rs hf)
      · rw [List.filter_append, List.map_append]
        apply List.Sublist.append
        · cases hg : ((e.get? s.ds).getD []).get? s.file with
          | none => simp
          | some old =>
            simp only [Option.getD_some]
            cases hg2 : e.get? s.ds with
            | none => simp [hg2] at hg
            | some fs =>
              simp only [hg2, Option.getD_some] at hg
              exact he _ fs (Dict.mem_of_get? hg2) _ old (Dict.mem_of_get? hg)
        · simp

theorem nestSegs_sorted {segs : List Seg} (h : SegSorted segs) : AllSorted (nestSegs segs) := by
  intro d files h1 f rs h2
  refine List.Pairwise.sublist (nestSegs_sublist segs h1 h2) ?_
  rw [List.pairwise_map]
  refine List.Pairwise.imp_of_mem ?_ (List.Pairwise.filter _ h.1)
  intro a b ha hb hab
  simp only [List.mem_filter, decide_eq_true_eq] at ha hb
  have := hab (ha.2.1.trans hb.2.1.symm) (ha.2.2.trans hb.2.2.symm)
  have := h.2 a ha.1
  dsimp only; omega

theorem addFile_sorted {e : Entries} (h : AllSorted e) (d f : Nat) {rs : List Rng} (hr : SortedByStart rs) :
    AllSorted (addFile e d f rs) := by
  intro d' files' h1 f' rs' h2
  unfold addFile at h1
  rcases mem_upsert h1 with h1 | ⟨rfl, rfl⟩
  · exact h d' files' h1 f' rs' h2
  · rcases mem_upsert h2 with h2 | ⟨rfl, rfl⟩
    · cases hg : e.get? d' with
      | none => simp [hg] at h2
      | some fs => simp only [hg, Option.getD_some] at h2; exact h _ fs (Dict.mem_of_get? hg) f' rs' h2
    · cases hg : ((e.get? d').getD []).get? f' with
      | none => simpa [hg] using hr
      | some old =>
        dsimp only
        apply mergeSortedLists_sorted _ _ _ hr
        cases hg2 : e.get? d' with
        | none => simp [hg2] at hg
        | some fs =>
          simp only [hg2, Option.getD_some] at hg
          exact h _ fs (Dict.mem_of_get? hg2) _ old (Dict.mem_of_get? hg)

theorem addEntries_sorted {e new : Entries} (h : AllSorted e) (hn : AllSorted new) : AllSorted (addEntries e new) := by
  unfold addEntries
  induction new generalizing e with
  | nil => simpa using h
  | cons df new ih =>
    obtain ⟨d, files⟩ := df
    rw [List.foldl_cons]
    apply ih
    · have hf : ∀ f rs, (f, rs) ∈ files → SortedByStart rs := hn d files (by simp)
      clear hn ih
      dsimp only
      induction files generalizing e with
      | nil => simpa using h
      | cons fr files ih2 =>
        obtain ⟨f, rs⟩ := fr
        rw [List.foldl_cons]
        apply ih2
        · exact addFile_sorted h d f (hf f rs (by simp))
        · intro f' rs' h'; exact hf f' rs' (by simp [h'])
    · intro d' files' h'; exact hn d' files' (by simp [h'])

/-! ### Properties of `(iters, chunk)` preserved by an attempt -/

theorem redistribute_same {ops : KeyOps K} {mk : K} {st st' : Att K} (h : redistribute ops mk st = .ok st') :
    st'.iters = st.iters ∧ st'.chunk = st.chunk := by
  unfold redistribute at h
  dsimp only at h
  generalize (if (st.remaining.get? mk).getD 0 = (st.mixture.get? mk).getD 0 then st.mixture.pop mk
    else st.mixture.set mk ((st.mixture.get? mk).getD 0 - (st.remaining.get? mk).getD 0)) = mm at h
  split at h
  · split at h
    · simp only [Except.ok.injEq] at h; subst h; exact ⟨rfl, rfl⟩
    · split at h
      · simp at h
      · split at h
        · simp at h
        · split at h
          · split at h
            · simp only [Except.ok.injEq] at h; subst h; exact ⟨rfl, rfl⟩
            · simp at h
          · simp at h
  · simp at h

section pres
variable (ops : KeyOps K) (P : Dict K (List Seg) → Dict K Entries → Prop)
variable (hexh : ∀ it ch c, P it ch → P (it.set c []) ch)
variable (htake : ∀ it ch c mk n out rest, P it ch → send n ((it.get? c).getD []) = some (out, rest) →
    P (it.set c rest) (ch.upsert mk fun e => addEntries (e.getD []) (nestSegs out)))

include hexh htake

theorem compLoop_pres (mk : K) (cs : List K) (st st' : Att K) (e : compLoop ops mk cs st = .ok st')
    (h : P st.iters st.chunk) : P st'.iters st'.chunk := by
  induction cs generalizing st with
  | nil => rw [compLoop] at e; simp only [Except.ok.injEq] at e; subst e; exact h
  | cons c cs ih =>
    rw [compLoop] at e
    split at e
    · dsimp only at e
      split at e
      · exact ih _ e (hexh _ _ _ h)
      · rename_i out rest hs
        have hp := htake _ _ c mk _ out rest h hs
        split at e
        · split at e
          · simp only [Except.ok.injEq] at e; subst e; exact hp
          · exact ih _ e hp
        · simp at e
    · exact ih _ e h

theorem keyLoop_pres (strict : Bool) (comps ks : List K) (st st' : Att K)
    (e : keyLoop ops strict comps ks st = .ok st') (h : P st.iters st.chunk) : P st'.iters st'.chunk := by
  induction ks generalizing st with
  | nil => rw [keyLoop] at e; simp only [Except.ok.injEq] at e; subst e; exact h
  | cons k ks ih =>
    rw [keyLoop] at e
    split at e
    · simp at e
    · rename_i st1 e1
      have h1 := compLoop_pres ops P hexh htake k comps st st1 e1 h
      split at e
      · split at e
        · exact ih _ e h1
        · obtain ⟨e2, e3⟩ := redistribute_same e
          rw [e2, e3]; exact h1
      · exact ih _ e h1

theorem passes_pres (strict : Bool) (n : Nat) (st st' : Att K)
    (e : passes ops strict n st = .ok st') (h : P st.iters st.chunk) : P st'.iters st'.chunk := by
  induction n generalizing st with
  | zero => simp [passes] at e
  | succ n ih =>
    rw [passes] at e
    split at e
    · split at e
      · simp at e
      · rename_i st1 e1
        exact ih _ e (keyLoop_pres ops P hexh htake strict _ _ _ _ e1 h)
    · simp only [Except.ok.injEq] at e; subst e; exact h

theorem attempt_pres (iters : Dict K (List Seg)) (v : MixView K) (st' : Att K) (b : Bool)
    (e : attempt ops iters v = .ok (st', b)) (h : P iters []) : P st'.iters st'.chunk := by
  unfold attempt at e
  split at e
  · simp at e
  · rename_i st e1
    simp only [Except.ok.injEq, Prod.mk.injEq] at e
    obtain ⟨rfl, _⟩ := e
    exact passes_pres ops P hexh htake v.strict _ _ _ e1 h

end pres

/-- Sortedness of all unread and collected ranges. -/
def SortInv (it : Dict K (List Seg)) (ch : Dict K Entries) : Prop :=
  (∀ c l, (c, l) ∈ it → SegSorted l) ∧ ∀ k e, (k, e) ∈ ch → AllSorted e

theorem SortInv.get {it : Dict K (List Seg)} {ch : Dict K Entries} (h : SortInv it ch) (c : K) :
    SegSorted ((it.get? c).getD []) := by
  cases hg : it.get? c with
  | none => exact SegSorted.nil
  | some l => exact h.1 c l (Dict.mem_of_get? hg)

theorem attempt_sorted (ops : KeyOps K) (iters : Dict K (List Seg)) (v : MixView K) (st' : Att K) (b : Bool)
    (e : attempt ops iters v = .ok (st', b)) (h : ∀ c l, (c, l) ∈ iters → SegSorted l) :
    SortInv st'.iters st'.chunk := by
  apply attempt_pres ops SortInv _ _ iters v st' b e ⟨h, by simp⟩
  · intro it ch c hi
    refine ⟨?_, hi.2⟩
    intro c' l hl
    rcases mem_upsert hl with hl | ⟨rfl, rfl⟩
    · exact hi.1 c' l hl
    · exact SegSorted.nil
  · intro it ch c mk n out rest hi hs
    have hss := send_sorted (hi.get c) hs
    refine ⟨?_, ?_⟩
    · intro c' l hl
      rcases mem_upsert hl with hl | ⟨rfl, rfl⟩
      · exact hi.1 c' l hl
      · exact hss.2
    · intro k e he
      rcases mem_upsert he with he | ⟨rfl, rfl⟩
      · exact hi.2 k e he
      · apply addEntries_sorted
        · cases hg : ch.get? k with
          | none => simp [AllSorted]
          | some e => exact hi.2 k e (Dict.mem_of_get? hg)
        · exact nestSegs_sorted hss.1

end Mixtera
