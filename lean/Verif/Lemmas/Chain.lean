import Verif.Lemmas.Gen

/-!
The ranges that a chunk lists for a file follow one another, empty ranges included.
-/

set_option linter.unusedSectionVars false

namespace Mixtera

variable {K : Type} [DecidableEq K]

/-- Each range ends where the next one begins, or before. -/
def Follow (rs : List Rng) : Prop := rs.Pairwise (fun a b => a.2 ≤ b.1) ∧ ∀ r ∈ rs, r.1 ≤ r.2

/-- The entries list the range `r` for this file. -/
def ListedAt (e : Entries) (d f : Nat) (r : Rng) : Prop := ∃ fs rs, (d, fs) ∈ e ∧ (f, rs) ∈ fs ∧ r ∈ rs

def AllFollow (e : Entries) : Prop := ∀ d fs, (d, fs) ∈ e → ∀ f rs, (f, rs) ∈ fs → Follow rs

theorem follow_merge (l1 l2 : List Rng) (h1 : Follow l1) (h2 : Follow l2)
    (hc : ∀ r ∈ l1, ∀ n ∈ l2, r.2 ≤ n.1 ∨ (n.2 ≤ r.1 ∧ n.1 < r.1)) : Follow (mergeSortedLists l1 l2) := by
  refine ⟨?_, ?_⟩
  · fun_induction mergeSortedLists l1 l2 with
    | case1 l2 => exact h2.1
    | case2 l1 h => exact h1.1
    | case3 a l1 b l2 h ih =>
      have h1' := List.pairwise_cons.mp h1.1
      have h2' := List.pairwise_cons.mp h2.1
      refine List.pairwise_cons.mpr ⟨?_, ih ⟨h1'.2, fun r hr => h1.2 r (by simp [hr])⟩ h2
        (fun r hr n hn => hc r (by simp [hr]) n hn)⟩
      intro x hx
      have hx := (mergeSortedLists_perm _ _).mem_iff.mp hx
      simp only [List.mem_append, List.mem_cons] at hx
      have hbx : ∀ x ∈ b :: l2, b.1 ≤ x.1 := by
        intro x hx
        rcases List.mem_cons.mp hx with rfl | hx
        · exact le_refl _
        · have := h2'.1 x hx; have := h2.2 b (by simp); omega
      rcases hx with hx | hx
      · exact h1'.1 x hx
      · have hx' : x ∈ b :: l2 := by simpa using hx
        have := hbx x hx'
        rcases hc a (by simp) x hx' with h | ⟨_, h⟩
        · exact h
        · omega
    | case4 a l1 b l2 h ih =>
      have h1' := List.pairwise_cons.mp h1.1
      have h2' := List.pairwise_cons.mp h2.1
      refine List.pairwise_cons.mpr ⟨?_, ih h1 ⟨h2'.2, fun r hr => h2.2 r (by simp [hr])⟩
        (fun r hr n hn => hc r hr n (by simp [hn]))⟩
      intro x hx
      have hx := (mergeSortedLists_perm _ _).mem_iff.mp hx
      simp only [List.mem_append] at hx
      have hab : b.2 ≤ a.1 := by
        rcases hc a (by simp) b (by simp) with h' | ⟨h', _⟩
        · have := h1.2 a (by simp); omega
        · exact h'
      rcases hx with hx | hx
      · rcases List.mem_cons.mp hx with rfl | hx
        · exact hab
        · have := h1'.1 x hx; have := h1.2 a (by simp); omega
      · exact h2'.1 x hx
  · intro r hr
    have hr := (mergeSortedLists_perm _ _).mem_iff.mp hr
    rcases List.mem_append.mp hr with hr | hr
    · exact h1.2 r hr
    · exact h2.2 r hr

theorem addFile_follow {e : Entries} (h : AllFollow e) (d f : Nat) {rs : List Rng} (hr : Follow rs)
    (hc : ∀ r, ListedAt e d f r → ∀ n ∈ rs, r.2 ≤ n.1 ∨ (n.2 ≤ r.1 ∧ n.1 < r.1)) :
    AllFollow (addFile e d f rs) ∧
      ∀ d' f' r, ListedAt (addFile e d f rs) d' f' r → ListedAt e d' f' r ∨ (d' = d ∧ f' = f ∧ r ∈ rs) := by
  have key : ∀ d' files', (d', files') ∈ addFile e d f rs → ∀ f' rs', (f', rs') ∈ files' →
      Follow rs' ∧ ∀ r ∈ rs', ListedAt e d' f' r ∨ (d' = d ∧ f' = f ∧ r ∈ rs) := by
    intro d' files' h1 f' rs' h2
    unfold addFile at h1
    rcases mem_upsert h1 with h1 | ⟨rfl, rfl⟩
    · exact ⟨h d' files' h1 f' rs' h2, fun r hr => Or.inl ⟨files', rs', h1, h2, hr⟩⟩
    · rcases mem_upsert h2 with h2 | ⟨rfl, rfl⟩
      · cases hg : e.get? d' with
        | none => simp [hg] at h2
        | some fs =>
          simp only [hg, Option.getD_some] at h2
          exact ⟨h _ fs (Dict.mem_of_get? hg) f' rs' h2, fun r hr => Or.inl ⟨fs, rs', Dict.mem_of_get? hg, h2, hr⟩⟩
      · cases hg : ((e.get? d').getD []).get? f' with
        | none => exact ⟨hr, fun r hr => Or.inr ⟨rfl, rfl, hr⟩⟩
        | some old =>
          dsimp only
          cases hg2 : e.get? d' with
          | none => simp [hg2] at hg
          | some fs =>
            simp only [hg2, Option.getD_some] at hg
            have hl : ∀ r ∈ old, ListedAt e d' f' r := fun r hr =>
              ⟨fs, old, Dict.mem_of_get? hg2, Dict.mem_of_get? hg, hr⟩
            refine ⟨follow_merge old rs (h _ fs (Dict.mem_of_get? hg2) _ old (Dict.mem_of_get? hg)) hr
              (fun r hr => hc r (hl r hr)), fun r hr => ?_⟩
            rcases List.mem_append.mp ((mergeSortedLists_perm _ _).mem_iff.mp hr) with hr | hr
            · exact Or.inl (hl r hr)
            · exact Or.inr ⟨rfl, rfl, hr⟩
  refine ⟨fun d' fs h1 f' rs' h2 => (key d' fs h1 f' rs' h2).1, ?_⟩
  rintro d' f' r ⟨fs, rs', h1, h2, h3⟩
  exact (key d' fs h1 f' rs' h2).2 r h3

theorem addFiles_follow {d : Nat} : ∀ (files : Dict Nat (List Rng)) {e : Entries}, AllFollow e →
    files.keys.Nodup → (∀ f rs, (f, rs) ∈ files → Follow rs) →
    (∀ f rs, (f, rs) ∈ files → ∀ r, ListedAt e d f r → ∀ n ∈ rs, r.2 ≤ n.1 ∨ (n.2 ≤ r.1 ∧ n.1 < r.1)) →
    AllFollow (files.foldl (fun e (f, rs) => addFile e d f rs) e) ∧
      ∀ d' f' r, ListedAt (files.foldl (fun e (f, rs) => addFile e d f rs) e) d' f' r →
        ListedAt e d' f' r ∨ (d' = d ∧ ∃ rs, (f', rs) ∈ files ∧ r ∈ rs)
  | [], e, h, _, _, _ => ⟨h, fun _ _ _ h => Or.inl h⟩
  | (f, rs) :: files, e, h, hn, hf, hc => by
    obtain ⟨h1, h2⟩ := addFile_follow h d f (hf f rs (by simp)) (hc f rs (by simp))
    have hn' : f ∉ Dict.keys files ∧ (Dict.keys files).Nodup := by
      simpa [Dict.keys] using hn
    have hne : ∀ f' rs', (f', rs') ∈ files → f' ≠ f := by
      rintro f' rs' hm rfl
      exact hn'.1 (List.mem_map_of_mem (f := Prod.fst) hm)
    obtain ⟨h3, h4⟩ := addFiles_follow (d := d) files h1 hn'.2 (fun f' rs' hm => hf f' rs' (by simp [hm]))
      (by intro f' rs' hm r hr n hnn
          rcases h2 d f' r hr with hr | ⟨_, e2, _⟩
          · exact hc f' rs' (by simp [hm]) r hr n hnn
          · exact absurd e2 (hne f' rs' hm))
    refine ⟨h3, fun d' f' r hr => ?_⟩
    rcases h4 d' f' r hr with hr | ⟨e1, rs', hm, hr⟩
    · rcases h2 d' f' r hr with hr | ⟨e1, e2, hr2⟩
      · exact Or.inl hr
      · subst e1; subst e2; exact Or.inr ⟨rfl, rs, by simp, hr2⟩
    · exact Or.inr ⟨e1, rs', by simp [hm], hr⟩

theorem addEntries_follow : ∀ (new : Entries) {e : Entries}, AllFollow e → new.keys.Nodup →
    (∀ d fs, (d, fs) ∈ new → fs.keys.Nodup) → AllFollow new →
    (∀ d f r n, ListedAt e d f r → ListedAt new d f n → r.2 ≤ n.1 ∨ (n.2 ≤ r.1 ∧ n.1 < r.1)) →
    AllFollow (addEntries e new) ∧
      ∀ d f r, ListedAt (addEntries e new) d f r → ListedAt e d f r ∨ ListedAt new d f r
  | [], e, h, _, _, _, _ => ⟨h, fun _ _ _ h => Or.inl h⟩
  | (d, files) :: new, e, h, hn, hf, ha, hc => by
    have hn' : d ∉ Dict.keys new ∧ (Dict.keys new).Nodup := by simpa [Dict.keys] using hn
    obtain ⟨h1, h2⟩ := addFiles_follow (d := d) files h (hf d files (by simp)) (ha d files (by simp))
      (fun f rs hm r hr n hnn => hc d f r n hr ⟨files, rs, by simp, hm, hnn⟩)
    have hne : ∀ d' f n, ListedAt new d' f n → d' ≠ d := by
      rintro d' f n ⟨fs, rs, hm, _⟩ rfl
      exact hn'.1 (List.mem_map_of_mem (f := Prod.fst) hm)
    have hmono : ∀ d' f n, ListedAt new d' f n → ListedAt ((d, files) :: new) d' f n := by
      rintro d' f n ⟨fs, rs, hm, hr⟩
      exact ⟨fs, rs, by simp [hm], hr⟩
    obtain ⟨h3, h4⟩ := addEntries_follow new h1 hn'.2 (fun d' fs hm => hf d' fs (by simp [hm]))
      (fun d' fs hm => ha d' fs (by simp [hm]))
      (by intro d' f r n hr hnn
          rcases h2 d' f r hr with hr | ⟨e1, _⟩
          · exact hc d' f r n hr (hmono _ _ _ hnn)
          · exact absurd e1 (hne _ _ _ hnn))
    refine ⟨h3, fun d' f r hr => ?_⟩
    rcases h4 d' f r hr with hr | hr
    · rcases h2 d' f r hr with hr | ⟨e1, rs, hm, hr2⟩
      · exact Or.inl hr
      · subst e1; exact Or.inr ⟨files, rs, by simp, hm, hr2⟩
    · exact Or.inr (hmono _ _ _ hr)

/-! ### What a request takes from a component -/

theorem sendAux_follow (n : Nat) : ∀ (st : List Seg) (cur : Nat) (acc : List Seg), cur ≤ n → SegSorted (acc ++ st) →
    ∀ {out rest : List Seg}, sendAux n cur acc st = some (out, rest) →
    SegSorted (out ++ rest) ∧
    (∀ o ∈ out, o ∈ acc ∨ ∃ s ∈ st, s.ds = o.ds ∧ s.file = o.file ∧ s.lo < s.hi ∧ o.lo = s.lo ∧ o.hi ≤ s.hi) ∧
    ∀ t ∈ rest, ∃ s ∈ st, s.ds = t.ds ∧ s.file = t.file ∧ s.lo ≤ t.lo ∧ t.hi = s.hi
  | [], cur, acc, _, h, out, rest, e => by
    rw [sendAux] at e
    split at e
    · simp only [Option.some.injEq, Prod.mk.injEq] at e
      obtain ⟨rfl, rfl⟩ := e
      exact ⟨h, fun o ho => Or.inl ho, by simp⟩
    · simp at e
  | s :: st, cur, acc, hcur, h, out, rest, e => by
    rw [sendAux] at e
    split at e
    · rename_i hs
      split at e
      · obtain ⟨h1, h2, h3⟩ := sendAux_follow n st _ _ (by omega) (by simpa using h) e
        refine ⟨h1, fun o ho => ?_, fun t ht => ?_⟩
        · rcases h2 o ho with ho | ⟨s', hs', hh⟩
          · rcases List.mem_append.mp ho with ho | ho
            · exact Or.inl ho
            · simp only [List.mem_singleton] at ho
              subst ho
              exact Or.inr ⟨o, by simp, rfl, rfl, hs, rfl, le_refl _⟩
          · exact Or.inr ⟨s', by simp [hs'], hh⟩
        · obtain ⟨s', hs', hh⟩ := h3 t ht
          exact ⟨s', by simp [hs'], hh⟩
      · rename_i hlt
        simp only [Option.some.injEq, Prod.mk.injEq] at e
        obtain ⟨rfl, rfl⟩ := e
        have hp := List.pairwise_append.mp h.1
        have hp2 := List.pairwise_cons.mp hp.2.1
        have hlo : s.lo ≤ s.hi - (cur + (s.hi - s.lo) - n) := by omega
        refine ⟨⟨?_, ?_⟩, ?_, ?_⟩
        · rw [List.append_assoc, List.pairwise_append]
          refine ⟨hp.1, ?_, ?_⟩
          · simp only [List.cons_append, List.nil_append, List.pairwise_cons]
            refine ⟨?_, fun b hb => hp2.1 b hb, hp2.2⟩
            intro b hb
            simp only [List.mem_cons] at hb
            rcases hb with rfl | hb
            · intro _ _; exact le_refl _
            · intro h1 h2
              have := hp2.1 b hb h1 h2
              omega
          · intro a ha b hb
            simp only [List.cons_append, List.nil_append, List.mem_cons] at hb
            rcases hb with rfl | rfl | hb
            · exact hp.2.2 a ha s (by simp)
            · intro h1 h2
              have := hp.2.2 a ha s (by simp) h1 h2
              dsimp only; omega
            · exact hp.2.2 a ha b (by simp [hb])
        · intro a ha
          simp only [List.mem_append, List.mem_cons, List.not_mem_nil, or_false] at ha
          rcases ha with (ha | rfl) | rfl | ha
          · exact h.2 a (by simp [ha])
          · exact hlo
          · dsimp only; omega
          · exact h.2 a (by simp [ha])
        · intro o ho
          simp only [List.mem_append, List.mem_singleton] at ho
          rcases ho with ho | rfl
          · exact Or.inl ho
          · exact Or.inr ⟨s, by simp, rfl, rfl, hs, rfl, by dsimp only; omega⟩
        · intro t ht
          simp only [List.mem_cons] at ht
          rcases ht with rfl | ht
          · exact ⟨s, by simp, rfl, rfl, hlo, rfl⟩
          · exact ⟨t, by simp [ht], rfl, rfl, le_refl _, rfl⟩
    · obtain ⟨h1, h2, h3⟩ := sendAux_follow n st cur acc hcur
        ⟨h.1.sublist (List.Sublist.append_left (List.sublist_cons_self _ _) _), by
          intro a ha
          apply h.2
          simp only [List.mem_append, List.mem_cons] at ha ⊢
          rcases ha with ha | ha
          · exact Or.inl ha
          · exact Or.inr (Or.inr ha)⟩ e
      refine ⟨h1, fun o ho => ?_, fun t ht => ?_⟩
      · rcases h2 o ho with ho | ⟨s', hs', hh⟩
        · exact Or.inl ho
        · exact Or.inr ⟨s', by simp [hs'], hh⟩
      · obtain ⟨s', hs', hh⟩ := h3 t ht
        exact ⟨s', by simp [hs'], hh⟩

theorem nestSegs_wf (segs : List Seg) : (nestSegs segs).keys.Nodup ∧ ∀ d fs, (d, fs) ∈ nestSegs segs → fs.keys.Nodup := by
  suffices H : ∀ (e : Entries), e.keys.Nodup → (∀ d fs, (d, fs) ∈ e → fs.keys.Nodup) →
      (segs.foldl (fun e s => e.upsert s.ds fun fs => (fs.getD []).upsert s.file fun rs => rs.getD [] ++ [(s.lo, s.hi)]) e).keys.Nodup
      ∧ ∀ d fs, (d, fs) ∈ segs.foldl (fun e s =>
          e.upsert s.ds fun fs => (fs.getD []).upsert s.file fun rs => rs.getD [] ++ [(s.lo, s.hi)]) e → fs.keys.Nodup by
    exact H [] (by simp [Dict.keys]) (by simp)
  induction segs with
  | nil => intro e h1 h2; exact ⟨h1, h2⟩
  | cons s segs ih =>
    intro e h1 h2
    rw [List.foldl_cons]
    apply ih _ (Dict.nodup_keys_upsert h1 _ _)
    intro d fs hm
    rcases mem_upsert hm with hm | ⟨rfl, rfl⟩
    · exact h2 d fs hm
    · apply Dict.nodup_keys_upsert
      cases hg : e.get? s.ds with
      | none => simp [Dict.keys]
      | some fs => exact h2 _ fs (Dict.mem_of_get? hg)

theorem nestSegs_follow {segs : List Seg} (h : SegSorted segs) : AllFollow (nestSegs segs) := by
  intro d files h1 f rs h2
  have hsub := nestSegs_sublist segs h1 h2
  refine ⟨List.Pairwise.sublist hsub ?_, ?_⟩
  · rw [List.pairwise_map]
    refine List.Pairwise.imp_of_mem ?_ (List.Pairwise.filter _ h.1)
    intro a b ha hb hab
    simp only [List.mem_filter, decide_eq_true_eq] at ha hb
    exact hab (ha.2.1.trans hb.2.1.symm) (ha.2.2.trans hb.2.2.symm)
  · intro r hr
    obtain ⟨s, hs, rfl⟩ := List.mem_map.mp (hsub.subset hr)
    exact h.2 s (List.mem_filter.mp hs).1

theorem listedAt_nestSegs {segs : List Seg} {d f : Nat} {r : Rng} (h : ListedAt (nestSegs segs) d f r) :
    ∃ s ∈ segs, s.ds = d ∧ s.file = f ∧ (s.lo, s.hi) = r := by
  obtain ⟨fs, rs, h1, h2, h3⟩ := h
  obtain ⟨s, hs, e⟩ := List.mem_map.mp ((nestSegs_sublist segs h1 h2).subset h3)
  simp only [List.mem_filter, decide_eq_true_eq] at hs
  exact ⟨s, hs.1, hs.2.1, hs.2.2, e⟩

/-! ### Whole attempts -/

/-- The unread ranges are sorted and do not overlap, the collected ranges of every file follow one another, and no collected
range (not even an empty one) lies within an unread one. -/
structure ChainInv (it : Dict K (List Seg)) (ch : Dict K Entries) : Prop where
  sorted : ∀ c, SegSorted (itOf it c)
  apart : ∀ c c', c ≠ c' → ∀ s ∈ itOf it c, ∀ t ∈ itOf it c', s.ds = t.ds → s.file = t.file → s.lo < s.hi → t.lo < t.hi →
    s.hi ≤ t.lo ∨ t.hi ≤ s.lo
  follow : ∀ k e, (k, e) ∈ ch → AllFollow e
  free : ∀ k e, (k, e) ∈ ch → ∀ d f r, ListedAt e d f r → ∀ c, ∀ s ∈ itOf it c, s.ds = d → s.file = f → s.lo < s.hi →
    r.2 ≤ s.lo ∨ s.hi ≤ r.1

theorem attempt_follow (ops : KeyOps K) (iters : Dict K (List Seg)) (v : MixView K) (st' : Att K) (b : Bool)
    (e : attempt ops iters v = .ok (st', b)) (h1 : ∀ c, SegSorted (itOf iters c))
    (h2 : ∀ c c', c ≠ c' → ∀ s ∈ itOf iters c, ∀ t ∈ itOf iters c', s.ds = t.ds → s.file = t.file → s.lo < s.hi →
      t.lo < t.hi → s.hi ≤ t.lo ∨ t.hi ≤ s.lo) :
    ChainInv st'.iters st'.chunk := by
  apply attempt_pres ops ChainInv _ _ iters v st' b e ⟨h1, h2, by simp, by simp⟩
  · intro it ch c hi
    have hsub : ∀ c', ∀ s ∈ itOf (it.set c []) c', s ∈ itOf it c' := by
      intro c' s hs
      rw [itOf_set] at hs
      split at hs
      · cases hs
      · exact hs
    refine ⟨?_, fun c1 c2 hne s hs t ht => hi.apart c1 c2 hne s (hsub _ _ hs) t (hsub _ _ ht), hi.follow,
      fun k e he d f r hr c' s hs => hi.free k e he d f r hr c' s (hsub _ _ hs)⟩
    intro c'
    rw [itOf_set]
    split
    · exact SegSorted.nil
    · exact hi.sorted c'
  · intro it ch c mk n out rest hi hs
    obtain ⟨k1, k2, k3⟩ := sendAux_follow n (itOf it c) 0 [] (by omega) (by simpa using hi.sorted c) hs
    have k2' : ∀ o ∈ out, ∃ s ∈ itOf it c, s.ds = o.ds ∧ s.file = o.file ∧ s.lo < s.hi ∧ o.lo = s.lo ∧ o.hi ≤ s.hi := by
      intro o ho
      rcases k2 o ho with h | h
      · cases h
      · exact h
    have hpw := List.pairwise_append.mp k1.1
    have hout : SegSorted out := ⟨hpw.1, fun s hs => k1.2 s (by simp [hs])⟩
    have hrest : SegSorted rest := ⟨hpw.2.1, fun s hs => k1.2 s (by simp [hs])⟩
    -- every unread range afterwards is part of one before
    have hpart : ∀ c', ∀ t ∈ itOf (it.set c rest) c', ∃ s ∈ itOf it c', s.ds = t.ds ∧ s.file = t.file ∧ s.lo ≤ t.lo ∧
        t.hi = s.hi := by
      intro c' t ht
      rw [itOf_set] at ht
      split at ht
      · rename_i hc; subst hc; exact k3 t ht
      · exact ⟨t, ht, rfl, rfl, le_refl _, rfl⟩
    -- what is taken lies apart from everything that is unread afterwards
    have hnew : ∀ o ∈ out, ∀ c', ∀ t ∈ itOf (it.set c rest) c', t.ds = o.ds → t.file = o.file → t.lo < t.hi →
        o.hi ≤ t.lo ∨ t.hi ≤ o.lo := by
      intro o ho c' t ht e1 e2 hlt
      rw [itOf_set] at ht
      split at ht
      · exact Or.inl (hpw.2.2 o ho t ht e1.symm e2.symm)
      · rename_i hc
        obtain ⟨s, hs', a1, a2, a3, a4, a5⟩ := k2' o ho
        rcases hi.apart c c' hc s hs' t ht (a1.trans e1.symm) (a2.trans e2.symm) a3 hlt with h | h
        · exact Or.inl (by omega)
        · exact Or.inr (by omega)
    have hold : ∀ k e, (k, e) ∈ ch → ∀ d f r, ListedAt e d f r → ∀ c', ∀ t ∈ itOf (it.set c rest) c', t.ds = d → t.file = f →
        t.lo < t.hi → r.2 ≤ t.lo ∨ t.hi ≤ r.1 := by
      intro k e he d f r hr c' t ht e1 e2 hlt
      obtain ⟨s, hs', b1, b2, b3, b4⟩ := hpart c' t ht
      rcases hi.free k e he d f r hr c' s hs' (b1.trans e1) (b2.trans e2) (by omega) with h | h
      · exact Or.inl (by omega)
      · exact Or.inr (by omega)
    -- the entries of the key before
    have hprev : AllFollow ((ch.get? mk).getD []) ∧ ∀ d f r, ListedAt ((ch.get? mk).getD []) d f r →
        ∃ e, (mk, e) ∈ ch ∧ ListedAt e d f r := by
      cases hg : ch.get? mk with
      | none => exact ⟨by simp [AllFollow], by rintro d f r ⟨fs, rs, hm, _⟩; cases hm⟩
      | some e => exact ⟨hi.follow mk e (Dict.mem_of_get? hg), fun d f r hr => ⟨e, Dict.mem_of_get? hg, hr⟩⟩
    obtain ⟨m1, m2⟩ := addEntries_follow (nestSegs out) hprev.1 (nestSegs_wf out).1 (nestSegs_wf out).2
      (nestSegs_follow hout)
      (by intro d f r x hr hx
          obtain ⟨e, he, hr'⟩ := hprev.2 d f r hr
          obtain ⟨o, ho, e1, e2, e3⟩ := listedAt_nestSegs hx
          obtain ⟨s, hs', a1, a2, a3, a4, a5⟩ := k2' o ho
          subst e3
          rcases hi.free mk e he d f r hr' c s hs' (a1.trans e1) (a2.trans e2) a3 with h | h
          · exact Or.inl (by dsimp only; omega)
          · exact Or.inr ⟨by dsimp only; omega, by dsimp only; omega⟩)
    refine ⟨?_, ?_, ?_, ?_⟩
    · intro c'
      rw [itOf_set]
      split
      · exact hrest
      · exact hi.sorted c'
    · intro c1 c2 hne s hs1 t ht e1 e2 l1 l2
      obtain ⟨s', hs', a1, a2, a3, a4⟩ := hpart c1 s hs1
      obtain ⟨t', ht', b1, b2, b3, b4⟩ := hpart c2 t ht
      rcases hi.apart c1 c2 hne s' hs' t' ht' (a1.trans (e1.trans b1.symm)) (a2.trans (e2.trans b2.symm)) (by omega) (by omega)
        with h | h
      · exact Or.inl (by omega)
      · exact Or.inr (by omega)
    · intro k e he
      rcases mem_upsert he with he | ⟨rfl, rfl⟩
      · exact hi.follow k e he
      · exact m1
    · intro k e he d f r hr c' t ht e1 e2 hlt
      rcases mem_upsert he with he | ⟨rfl, rfl⟩
      · exact hold k e he d f r hr c' t ht e1 e2 hlt
      · rcases m2 d f r hr with hr | hr
        · obtain ⟨e0, he0, hr'⟩ := hprev.2 d f r hr
          exact hold k e0 he0 d f r hr' c' t ht e1 e2 hlt
        · obtain ⟨o, ho, d1, d2, rfl⟩ := listedAt_nestSegs hr
          exact hnew o ho c' t ht (e1.trans d1.symm) (e2.trans d2.symm) hlt

/-! ### Which files are listed -/

/-- All listed files are in `S`. -/
def Within (S : Nat → Nat → Prop) (e : Entries) : Prop := ∀ d fs, (d, fs) ∈ e → ∀ f rs, (f, rs) ∈ fs → S d f

theorem within_upsert {S : Nat → Nat → Prop} {e : Entries} (h : Within S e) {d f : Nat} (hs : S d f)
    (g : Option (List Rng) → List Rng) :
    Within S (e.upsert d fun fs => (fs.getD []).upsert f g) := by
  intro d' fs hm f' rs hf
  rcases mem_upsert hm with hm | ⟨rfl, rfl⟩
  · exact h d' fs hm f' rs hf
  · rcases mem_upsert hf with hf | ⟨rfl, rfl⟩
    · cases hg : e.get? d' with
      | none => rw [hg] at hf; cases hf
      | some fs0 => rw [hg] at hf; exact h d' fs0 (Dict.mem_of_get? hg) f' rs hf
    · exact hs

theorem within_nestSegs {S : Nat → Nat → Prop} {segs : List Seg} (h : ∀ s ∈ segs, S s.ds s.file) : Within S (nestSegs segs) := by
  suffices H : ∀ e : Entries, Within S e → Within S (segs.foldl (fun e s =>
      e.upsert s.ds fun fs => (fs.getD []).upsert s.file fun rs => rs.getD [] ++ [(s.lo, s.hi)]) e) by
    exact H [] (by intro _ _ h; cases h)
  induction segs with
  | nil => intro e he; exact he
  | cons s segs ih =>
    intro e he
    rw [List.foldl_cons]
    exact ih (fun t ht => h t (by simp [ht])) _ (within_upsert he (h s (by simp)) _)

theorem within_addEntries {S : Nat → Nat → Prop} : ∀ {new e : Entries}, Within S e → Within S new → Within S (addEntries e new)
  | [], e, h, _ => h
  | (d, files) :: new, e, h, hn => by
    have hfiles : ∀ (files : Dict Nat (List Rng)) (e : Entries), Within S e → (∀ f rs, (f, rs) ∈ files → S d f) →
        Within S (files.foldl (fun e fr => addFile e d fr.1 fr.2) e) := by
      intro files
      induction files with
      | nil => intro e h _; exact h
      | cons fr files ih =>
        intro e h hf
        rw [List.foldl_cons]
        refine ih _ ?_ fun f rs hm => hf f rs (by simp [hm])
        unfold addFile
        exact within_upsert h (hf fr.1 fr.2 (by simp)) _
    have : addEntries e ((d, files) :: new) = addEntries (files.foldl (fun e fr => addFile e d fr.1 fr.2) e) new := rfl
    rw [this]
    exact within_addEntries (hfiles files e h fun f rs hm => hn d files (by simp) f rs hm)
      fun d' fs hm => hn d' fs (by simp [hm])

/-- The files listed in an attempt's chunk are files with unread samples. -/
theorem attempt_within (ops : KeyOps K) (S : Nat → Nat → Prop) (iters : Dict K (List Seg)) (v : MixView K) (st' : Att K) (b : Bool)
    (e : attempt ops iters v = .ok (st', b)) (h1 : ∀ c, SegSorted (itOf iters c))
    (h2 : ∀ c, ∀ s ∈ itOf iters c, s.lo < s.hi → S s.ds s.file) :
    ∀ k e, (k, e) ∈ st'.chunk → Within S e := by
  have key := attempt_pres ops (fun it ch => (∀ c, SegSorted (itOf it c)) ∧ (∀ c, ∀ s ∈ itOf it c, s.lo < s.hi → S s.ds s.file) ∧
    ∀ k e, (k, e) ∈ ch → Within S e) ?_ ?_ iters v st' b e ⟨h1, h2, by simp⟩
  · exact key.2.2
  · rintro it ch c ⟨i1, i2, i3⟩
    refine ⟨?_, ?_, i3⟩
    · intro c'
      rw [itOf_set]
      split
      · exact SegSorted.nil
      · exact i1 c'
    · intro c' s hs
      rw [itOf_set] at hs
      split at hs
      · cases hs
      · exact i2 c' s hs
  · rintro it ch c mk n out rest ⟨i1, i2, i3⟩ hs
    obtain ⟨k1, k2, k3⟩ := sendAux_follow n (itOf it c) 0 [] (by omega) (by simpa using i1 c) hs
    have hpw := List.pairwise_append.mp k1.1
    refine ⟨?_, ?_, ?_⟩
    · intro c'
      rw [itOf_set]
      split
      · exact ⟨hpw.2.1, fun s hs => k1.2 s (by simp [hs])⟩
      · exact i1 c'
    · intro c' t ht hlt
      rw [itOf_set] at ht
      split at ht
      · obtain ⟨s, hs', e1, e2, e3, e4⟩ := k3 t ht
        rw [← e1, ← e2]
        exact i2 c s hs' (by omega)
      · exact i2 c' t ht hlt
    · intro k e he
      rcases mem_upsert he with he | ⟨rfl, rfl⟩
      · exact i3 k e he
      · refine within_addEntries ?_ (within_nestSegs ?_)
        · cases hg : ch.get? k with
          | none => intro _ _ h; cases h
          | some e0 => exact i3 k e0 (Dict.mem_of_get? hg)
        · intro o ho
          rcases k2 o ho with h | ⟨s, hs', e1, e2, e3, -⟩
          · cases h
          · rw [← e1, ← e2]
            exact i2 c s hs' e3

end Mixtera
