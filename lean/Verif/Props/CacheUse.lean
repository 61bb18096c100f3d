import Verif.Props.QueryCache

set_option linter.unusedSectionVars false

/-! # C36, continued: what the cache keeps -/

namespace Mixtera

variable {Q R : Type}

/-- The directories under a hash. -/
def Sys.dirsAt (s : Sys R) (h : PyStr) : List (CacheDir R) := (s.cache.get? h).getD []

/-- Two directories do not have the same number, and not both the metadata of the same query. -/
def Apart (d d' : CacheDir R) : Prop :=
  d.num ≠ d'.num ∧ ∀ v v' t, d.info = .full v t → d'.info ≠ .full v' t

/-- The invariant of the cache directory. -/
structure Tidy (s : Sys R) : Prop where
  nodup : s.cache.keys.Nodup
  apart : ∀ h, (s.dirsAt h).Pairwise Apart

/-- No metadata for a text. -/
def Absent (text : PyStr) (l : List (CacheDir R)) : Prop := ∀ d ∈ l, ∀ v, d.info ≠ .full v text

theorem scan_miss {text : PyStr} {v : Nat} : ∀ {l : List (CacheDir R)}, scan text v l = .miss → Absent text l
  | [], _ => by simp [Absent]
  | d :: l, h => by
    rw [scan] at h
    split at h
    · rename_i he
      intro d' hd' v'
      rcases List.mem_cons.mp hd' with rfl | hd'
      · rw [he]; simp
      · exact scan_miss h d' hd' v'
    · simp at h
    · rename_i v' t' he
      split at h
      · split at h
        · simp at h
        · split at h <;> simp at h
      · rename_i hne
        intro d' hd' v''
        rcases List.mem_cons.mp hd' with rfl | hd'
        · rw [he]; simp [hne]
        · exact scan_miss h d' hd' v''

theorem scan_stale {text : PyStr} {v n : Nat} : ∀ {l : List (CacheDir R)}, scan text v l = .stale n →
    ∃ d ∈ l, d.num = n ∧ ∃ v', d.info = .full v' text ∧ v' ≠ v
  | [], h => by simp [scan] at h
  | d :: l, h => by
    rw [scan] at h
    split at h
    · obtain ⟨d', hd, h'⟩ := scan_stale h; exact ⟨d', by simp [hd], h'⟩
    · simp at h
    · rename_i v' t' he
      split at h
      · rename_i ht
        split at h
        · rename_i hv
          simp only [Found.stale.injEq] at h
          exact ⟨d, by simp, h, v', by rw [he, ht], hv⟩
        · split at h <;> simp at h
      · obtain ⟨d', hd, h'⟩ := scan_stale h; exact ⟨d', by simp [hd], h'⟩

theorem scan_of_mem {text : PyStr} {v : Nat} {r : R} : ∀ {l : List (CacheDir R)},
    (∀ d ∈ l, d.info ≠ .torn) → (∀ d ∈ l, ∀ v', d.info = .full v' text → v' = v ∧ d.results = some r) →
    (∃ d ∈ l, d.info = .full v text) → scan text v l = .hit r
  | [], _, _, h => by simp at h
  | d :: l, h1, h2, h3 => by
    have ih := @scan_of_mem text v r l (fun d' hd => h1 d' (by simp [hd])) (fun d' hd => h2 d' (by simp [hd]))
    rw [scan]
    cases hi : d.info with
    | missing =>
      obtain ⟨d', hd', he⟩ := h3
      refine ih ⟨d', ?_, he⟩
      rcases List.mem_cons.mp hd' with rfl | hd'
      · rw [hi] at he; simp at he
      · exact hd'
    | torn => exact absurd hi (h1 d (by simp))
    | full v' t =>
      dsimp only
      by_cases ht : t = text
      · subst ht
        obtain ⟨e1, e2⟩ := h2 d (by simp) v' hi
        rw [if_pos rfl, if_neg (by simpa using e1), e2]
      · rw [if_neg ht]
        obtain ⟨d', hd', he⟩ := h3
        refine ih ⟨d', ?_, he⟩
        rcases List.mem_cons.mp hd' with rfl | hd'
        · rw [hi] at he; simp only [MetaFile.full.injEq] at he; exact absurd he.2 ht
        · exact hd'

theorem lookup_eq (E : CacheEnv Q R) (hE : E.OK) (q : Q) (s : Sys R) :
    lookup E q s = scan (E.text q) s.db.version (E.order (s.dirsAt (E.hash (E.text q)))) := by
  unfold lookup Sys.dirsAt
  cases s.cache.get? (E.hash (E.text q)) with
  | some l => rfl
  | none =>
    have : E.order [] = [] := List.eq_nil_iff_forall_not_mem.mpr fun d hd => by simpa using (hE.order [] d).mp hd
    simp only [Option.getD_none, this, scan]

/-- What is under each hash after a lookup. -/
theorem dirsAt_lookupCache (E : CacheEnv Q R) (hE : E.OK) (q : Q) {s : Sys R} (hs : Tidy s) :
    (lookupCache E q s).cache.keys.Nodup ∧ ∀ h, (lookupCache E q s).dirsAt h = (s.dirsAt h).filter fun d =>
      !(decide (h = E.hash (E.text q)) && match lookup E q s with | .stale n => d.num == n | _ => false) := by
  have hkeep : ∀ h, s.dirsAt h = (s.dirsAt h).filter fun _ => true := fun h => by simp
  unfold lookupCache
  dsimp only
  cases hg : s.cache.get? (E.hash (E.text q)) with
  | none =>
    refine ⟨hs.nodup, fun h => ?_⟩
    by_cases hh : h = E.hash (E.text q)
    · subst hh; simp [Sys.dirsAt, hg]
    · simp [hh]
  | some dirs =>
    dsimp only
    have hpop : dirs = [] → ∀ h, (({ s with cache := s.cache.pop (E.hash (E.text q)) } : Sys R).dirsAt h) = s.dirsAt h := by
      intro he h
      simp only [Sys.dirsAt, Dict.get?_pop hs.nodup]
      split
      · rename_i e; subst e; rw [hg, he]; rfl
      · rfl
    by_cases he : dirs = []
    · subst he
      simp only [List.isEmpty_nil, if_true]
      refine ⟨Dict.nodup_keys_pop hs.nodup _, fun h => ?_⟩
      rw [hpop rfl]
      by_cases hh : h = E.hash (E.text q)
      · subst hh; simp [Sys.dirsAt, hg]
      · simp [hh]
    · have hie : dirs.isEmpty = false := by simpa using he
      simp only [hie, Bool.false_eq_true, if_false]
      cases hl : lookup E q s with
      | stale n =>
        dsimp only
        by_cases hr : (dirs.filter fun d => d.num != n) = []
        · rw [hr]
          simp only [List.isEmpty_nil, if_true]
          refine ⟨Dict.nodup_keys_pop hs.nodup _, fun h => ?_⟩
          simp only [Sys.dirsAt, Dict.get?_pop hs.nodup]
          by_cases hh : h = E.hash (E.text q)
          · subst hh
            simp only [if_true, hg, Option.getD_some, Option.getD_none, decide_true, Bool.true_and]
            rw [eq_comm]; exact hr
          · simp [hh, Ne.symm hh]
        · have hre : (dirs.filter fun d => d.num != n).isEmpty = false := by
            cases hx : dirs.filter fun d => d.num != n with
            | nil => exact absurd hx hr
            | cons _ _ => rfl
          simp only [hre, Bool.false_eq_true, if_false]
          refine ⟨Dict.nodup_keys_upsert hs.nodup _ _, fun h => ?_⟩
          simp only [Sys.dirsAt, Dict.get?_set]
          by_cases hh : h = E.hash (E.text q)
          · subst hh
            simp only [if_true, hg, Option.getD_some, decide_true, Bool.true_and]
            rfl
          · simp [hh, Ne.symm hh]
      | miss => refine ⟨hs.nodup, fun h => ?_⟩; simp
      | hit r => refine ⟨hs.nodup, fun h => ?_⟩; simp
      | broken => refine ⟨hs.nodup, fun h => ?_⟩; simp

theorem Apart.symm' {d d' : CacheDir R} (h : Apart d d') : Apart d' d :=
  ⟨fun e => h.1 e.symm, fun v v' t e e' => h.2 v' v t e' e⟩

theorem eq_of_text {l : List (CacheDir R)} (h : l.Pairwise Apart) {d d' : CacheDir R} (hd : d ∈ l) (hd' : d' ∈ l)
    (he : d.num = d'.num ∨ ∃ v v' t, d.info = .full v t ∧ d'.info = .full v' t) : d = d' := by
  have no : ¬ Apart d d' := by
    intro h
    rcases he with e | ⟨v, v', t, e, e'⟩
    · exact h.1 e
    · exact h.2 v v' t e e'
  induction l with
  | nil => simp at hd
  | cons a l ih =>
    rw [List.pairwise_cons] at h
    rcases List.mem_cons.mp hd with rfl | h1 <;> rcases List.mem_cons.mp hd' with rfl | h2
    · rfl
    · exact absurd (h.1 d' h2) no
    · exact absurd (h.1 d h1).symm' no
    · exact ih h.2 h1 h2

theorem tidy_lookupCache {E : CacheEnv Q R} (hE : E.OK) (q : Q) {s : Sys R} (hs : Tidy s) :
    Tidy (lookupCache E q s) ∧ ((lookup E q s = .miss ∨ ∃ n, lookup E q s = .stale n) →
      Absent (E.text q) ((lookupCache E q s).dirsAt (E.hash (E.text q)))) := by
  obtain ⟨h1, h2⟩ := dirsAt_lookupCache E hE q hs
  refine ⟨⟨h1, fun h => ?_⟩, fun hl => ?_⟩
  · rw [h2]; exact (hs.apart h).filter _
  · rw [h2]
    rcases hl with hl | ⟨n, hl⟩
    · have := hl
      rw [lookup_eq E hE] at this
      have ha := scan_miss this
      intro d hd
      exact ha d ((hE.order _ d).mpr (List.mem_filter.mp hd).1)
    · have := hl
      rw [lookup_eq E hE] at this
      obtain ⟨d0, hd0, hn0, v0, hi0, _⟩ := scan_stale this
      rw [hE.order] at hd0
      intro d hd v he
      obtain ⟨hd, hp⟩ := List.mem_filter.mp hd
      have := eq_of_text (hs.apart _) hd hd0 (.inr ⟨v, v0, _, he, hi0⟩)
      subst this
      simp [hl, hn0] at hp

theorem dirsAt_withDir (E : CacheEnv Q R) (q : Q) (info : MetaFile) (res : Option R) (s : Sys R) (h : PyStr) :
    (withDir E q info res s).dirsAt h = if E.hash (E.text q) = h then
      s.dirsAt h ++ [⟨nextNumber (s.dirsAt h), info, res⟩] else s.dirsAt h := by
  simp only [Sys.dirsAt, withDir, Dict.get?_upsert]
  split
  · rename_i e; subst e; simp
  · rfl

theorem tidy_withDir {E : CacheEnv Q R} (q : Q) (info : MetaFile) (res : Option R) {s : Sys R} (hs : Tidy s)
    (ha : Absent (E.text q) (s.dirsAt (E.hash (E.text q))))
    (hi : ∀ v t, info = .full v t → t = E.text q) : Tidy (withDir E q info res s) := by
  refine ⟨Dict.nodup_keys_upsert hs.nodup _ _, fun h => ?_⟩
  rw [dirsAt_withDir]
  split
  · rename_i e
    subst e
    rw [List.pairwise_append]
    refine ⟨hs.apart _, by simp, fun d hd d' hd' => ?_⟩
    rw [List.mem_singleton] at hd'
    subst hd'
    refine ⟨Nat.ne_of_lt (lt_nextNumber d hd), fun v v' t e e' => ?_⟩
    have := hi _ _ e'
    subst this
    exact ha d hd v e
  · exact hs.apart h

theorem cacheQuery_run (E : CacheEnv Q R) (q : Q) (r : R) (s : Sys R) :
    (cacheQuery E q r).run s = (withDir E q (.full s.db.version (E.text q)) (some r) s, .ok ()) ∧
    (cacheQuery E q r).states s =
      [s, withDir E q .missing none s, withDir E q .missing none s, withDir E q .torn none s,
        withDir E q (.full s.db.version (E.text q)) none s,
        withDir E q (.full s.db.version (E.text q)) (some r) s] := by
  have hdb : (cacheMkdir E q s).db.version = s.db.version := rfl
  have e1 := cacheUpdate_withDir E q .missing .torn none none s (fun d => { d with info := .torn }) fun n => rfl
  have e2 := cacheUpdate_withDir E q .torn (.full s.db.version (E.text q)) none none s
    (fun d => { d with info := .full s.db.version (E.text q) }) fun n => rfl
  have e3 := cacheUpdate_withDir E q (.full s.db.version (E.text q)) (.full s.db.version (E.text q)) none (some r) s
    (fun d => { d with results := some r }) fun n => rfl
  unfold cacheQuery
  simp only [Prog.bind_eq, Prog.exec, Prog.bind, Prog.states, Prog.run, id, hdb]
  rw [cacheMkdir_eq, e1, e2, e3]
  exact ⟨rfl, rfl⟩

/-- The states and the outcome of a query. -/
theorem executeQuery_cases (E : CacheEnv Q R) (q : Q) (s : Sys R) :
    (∃ r, lookup E q s = .hit r ∧ (executeQuery E q).run s = (lookupCache E q s, .ok r) ∧
      (executeQuery E q).states s = [s, lookupCache E q s]) ∨
    (lookup E q s = .broken ∧ (executeQuery E q).run s = (lookupCache E q s, .error .runtimeError) ∧
      (executeQuery E q).states s = [s, lookupCache E q s]) ∨
    ((lookup E q s = .miss ∨ ∃ n, lookup E q s = .stale n) ∧
      (executeQuery E q).run s =
        ((withDir E q (.full (lookupCache E q s).db.version (E.text q))
          (some (E.eval (lookupCache E q s).db q)) (lookupCache E q s)), .ok (E.eval (lookupCache E q s).db q)) ∧
      ∀ t ∈ (executeQuery E q).states s, t = s ∨ t = lookupCache E q s ∨
        t ∈ (cacheQuery E q (E.eval (lookupCache E q s).db q)).states (lookupCache E q s)) := by
  have key : ∀ t : Sys R, ((Prog.exec id fun s => E.eval s.db q).bind fun r =>
        (cacheQuery E q r).bind fun _ => (.ret (.ok r) : Prog (Sys R) R)).run t =
        (withDir E q (.full t.db.version (E.text q)) (some (E.eval t.db q)) t, .ok (E.eval t.db q)) ∧
      ∀ u ∈ ((Prog.exec id fun s => E.eval s.db q).bind fun r =>
        (cacheQuery E q r).bind fun _ => (.ret (.ok r) : Prog (Sys R) R)).states t, u = t ∨
          u ∈ (cacheQuery E q (E.eval t.db q)).states t := by
    intro t
    have hc := cacheQuery_run E q (E.eval t.db q) t
    refine ⟨?_, fun u hu => ?_⟩
    · rw [Prog.run_bind_ok (Prog.run_exec _ _ _), id, Prog.run_bind_ok hc.1]; rfl
    · rw [Prog.mem_states_bind] at hu
      rcases hu with hu | ⟨r, h3, hu⟩
      · simp only [Prog.exec, Prog.states, List.mem_cons, List.not_mem_nil, or_false, id, or_self] at hu
        exact .inl hu
      · simp only [Prog.run_exec, Except.ok.injEq, id] at h3 hu
        subst h3
        rw [Prog.mem_states_bind] at hu
        rcases hu with hu | ⟨_, _, hu⟩
        · exact .inr hu
        · simp only [Prog.states, List.mem_singleton] at hu
          subst hu
          exact .inr (Prog.run_mem_states _ _)
  unfold executeQuery
  simp only [Prog.run, Prog.states]
  cases hl : lookup E q s with
  | hit r => exact .inl ⟨r, rfl, rfl, rfl⟩
  | broken => exact .inr (.inl ⟨rfl, rfl, rfl⟩)
  | miss =>
    refine .inr (.inr ⟨.inl rfl, (key _).1, fun t ht => ?_⟩)
    rcases List.mem_cons.mp ht with h | h
    · exact .inl h
    · exact .inr ((key _).2 t h)
  | stale n =>
    refine .inr (.inr ⟨.inr ⟨n, rfl⟩, (key _).1, fun t ht => ?_⟩)
    rcases List.mem_cons.mp ht with h | h
    · exact .inl h
    · exact .inr ((key _).2 t h)

theorem tidy_reach {E : CacheEnv Q R} (hE : E.OK) {s : Sys R} (h : CacheReach E s) : Tidy s := by
  induction h with
  | init => exact ⟨by simp [Dict.keys], fun h => by simp [Sys.dirsAt, Dict.get?]⟩
  | op o _ ih => exact ⟨ih.nodup, ih.apart⟩
  | crashedRegister a _ ht ih => exact ⟨ih.nodup, ih.apart⟩
  | @query s t q _ ht ih =>
    obtain ⟨h1, h2⟩ := tidy_lookupCache hE q ih
    rcases executeQuery_cases E q s with ⟨r, _, _, e⟩ | ⟨_, _, e⟩ | ⟨hl, _, e⟩
    · rw [e] at ht
      simp only [List.mem_cons, List.not_mem_nil, or_false] at ht
      rcases ht with rfl | rfl <;> assumption
    · rw [e] at ht
      simp only [List.mem_cons, List.not_mem_nil, or_false] at ht
      rcases ht with rfl | rfl <;> assumption
    · have ha := h2 hl
      rcases e t ht with rfl | rfl | ht
      · exact ih
      · exact h1
      · rw [(cacheQuery_run E q _ _).2] at ht
        simp only [List.mem_cons, List.not_mem_nil, or_false] at ht
        rcases ht with rfl | rfl | rfl | rfl | rfl | rfl
        · exact h1
        · exact tidy_withDir q _ _ h1 ha (by simp)
        · exact tidy_withDir q _ _ h1 ha (by simp)
        · exact tidy_withDir q _ _ h1 ha (by simp)
        · exact tidy_withDir q _ _ h1 ha (by simp)
        · exact tidy_withDir q _ _ h1 ha (by simp)

/-- A directory is in the cache under a hash. -/
def Sys.Holds (s : Sys R) (h : PyStr) (d : CacheDir R) : Prop := ∃ dirs, s.cache.get? h = some dirs ∧ d ∈ dirs

theorem holds_iff (s : Sys R) (h : PyStr) (d : CacheDir R) : s.Holds h d ↔ d ∈ s.dirsAt h := by
  unfold Sys.Holds Sys.dirsAt
  cases s.cache.get? h with
  | none => simp
  | some l => simp

/-- **C36, what a query removes**: executing a query, completely or up to a crash, removes nothing from the cache but
what was stored for the same query under another version of the database. -/
theorem c36_keeps_others (E : CacheEnv Q R) (hE : E.OK) {s t : Sys R} (hs : CacheReach E s) (q : Q)
    (ht : t ∈ (executeQuery E q).states s) (h : PyStr) (d : CacheDir R) (hd : s.Holds h d)
    (hk : ∀ v, d.info = .full v (E.text q) → v = s.db.version) : t.Holds h d := by
  rw [holds_iff] at hd ⊢
  have hT := tidy_reach hE hs
  have h1 : d ∈ (lookupCache E q s).dirsAt h := by
    rw [(dirsAt_lookupCache E hE q hT).2 h, List.mem_filter]
    refine ⟨hd, ?_⟩
    cases hl : lookup E q s with
    | stale n =>
      by_cases hh : h = E.hash (E.text q)
      · subst hh
        have := hl
        rw [lookup_eq E hE] at this
        obtain ⟨d0, hd0, hn0, v0, hi0, hv0⟩ := scan_stale this
        rw [hE.order] at hd0
        simp only [decide_true, Bool.true_and, Bool.not_eq_true', beq_eq_false_iff_ne, ne_eq]
        intro e
        have := eq_of_text (hT.apart _) hd hd0 (.inl (e.trans hn0.symm))
        subst this
        exact hv0 (hk v0 hi0)
      · simp [hh]
    | miss => simp
    | hit r => simp
    | broken => simp
  have h2 : ∀ info res, d ∈ (withDir E q info res (lookupCache E q s)).dirsAt h := by
    intro info res
    rw [dirsAt_withDir]
    split
    · simp [h1]
    · exact h1
  rcases executeQuery_cases E q s with ⟨r, _, _, e⟩ | ⟨_, _, e⟩ | ⟨hl, _, e⟩
  · rw [e] at ht
    simp only [List.mem_cons, List.not_mem_nil, or_false] at ht
    rcases ht with rfl | rfl <;> assumption
  · rw [e] at ht
    simp only [List.mem_cons, List.not_mem_nil, or_false] at ht
    rcases ht with rfl | rfl <;> assumption
  · rcases e t ht with rfl | rfl | ht
    · exact hd
    · exact h1
    · rw [(cacheQuery_run E q _ _).2] at ht
      simp only [List.mem_cons, List.not_mem_nil, or_false] at ht
      rcases ht with rfl | rfl | rfl | rfl | rfl | rfl
      · exact h1
      all_goals exact h2 _ _

/-- **C36, what a query leaves**: after a query has returned, exactly one result is stored for it: the one it returned,
under the current version of the database; results stored for it under other versions are gone. -/
theorem c36_stored (E : CacheEnv Q R) (hE : E.OK) {s t : Sys R} (hs : CacheReach E s) (q : Q) (r : R)
    (h : (executeQuery E q).run s = (t, .ok r)) :
    (∃ d, t.Holds (E.hash (E.text q)) d ∧ d.info = .full s.db.version (E.text q) ∧ d.results = some r) ∧
    ∀ d v, t.Holds (E.hash (E.text q)) d → d.info = .full v (E.text q) →
      v = s.db.version ∧ d.results = some r := by
  have hT := tidy_reach hE hs
  have hdb := (lookupCache_inv (cacheReach_inv hE hs) q).2
  obtain ⟨hT1, hab⟩ := tidy_lookupCache hE q hT
  have hex : (∃ d, t.Holds (E.hash (E.text q)) d ∧ d.info = .full s.db.version (E.text q) ∧ d.results = some r) ∧
      Tidy t := by
    rcases executeQuery_cases E q s with ⟨r', hl, e, _⟩ | ⟨_, e, _⟩ | ⟨hl, e, _⟩
    · rw [e] at h
      simp only [Prod.mk.injEq, Except.ok.injEq] at h
      obtain ⟨rfl, rfl⟩ := h
      obtain ⟨dirs, hg, d, hd, h3, h4⟩ := c36_hit E hE s q r' hl
      refine ⟨⟨d, ?_, h3, h4⟩, hT1⟩
      rw [holds_iff, (dirsAt_lookupCache E hE q hT).2, List.mem_filter]
      exact ⟨(holds_iff s _ d).mp ⟨dirs, hg, hd⟩, by simp [hl]⟩
    · rw [e] at h; simp at h
    · rw [e] at h
      simp only [Prod.mk.injEq, Except.ok.injEq] at h
      obtain ⟨rfl, rfl⟩ := h
      rw [hdb]
      refine ⟨⟨⟨nextNumber ((lookupCache E q s).dirsAt (E.hash (E.text q))), _, _⟩, ?_, rfl, rfl⟩,
        tidy_withDir q _ _ hT1 (hab hl) (by simp)⟩
      rw [holds_iff, dirsAt_withDir, if_pos rfl]
      simp
  obtain ⟨⟨d0, hd0, hi0, hr0⟩, hTt⟩ := hex
  refine ⟨⟨d0, hd0, hi0, hr0⟩, fun d v hd hi => ?_⟩
  rw [holds_iff] at hd hd0
  have := eq_of_text (hTt.apart _) hd hd0 (.inr ⟨_, _, _, hi, hi0⟩)
  subst this
  rw [hi] at hi0
  simp only [MetaFile.full.injEq] at hi0
  exact ⟨hi0.1, hr0⟩

/-- **C36, the cache is used**: once a query has returned, executing it again on the unchanged database returns the
same result and leaves everything as it is: nothing is evaluated or stored again. This needs that no process died while
writing metadata (see `c36_torn_metadata_blocks` for what happens otherwise). -/
theorem c36_second_hit (E : CacheEnv Q R) (hE : E.OK) {s t : Sys R} (hs : CacheReach E s) (q : Q) (r : R)
    (h : (executeQuery E q).run s = (t, .ok r))
    (ht : ∀ d, t.Holds (E.hash (E.text q)) d → d.info ≠ .torn) :
    lookup E q t = .hit r ∧ (executeQuery E q).run t = (t, .ok r) := by
  obtain ⟨⟨d0, hd0, hi0, hr0⟩, hall⟩ := c36_stored E hE hs q r h
  have hver : t.db.version = s.db.version := by
    have hdb := (lookupCache_inv (cacheReach_inv hE hs) q).2
    rcases executeQuery_cases E q s with ⟨r', _, e, _⟩ | ⟨_, e, _⟩ | ⟨_, e, _⟩ <;> rw [e] at h <;>
      simp only [Prod.mk.injEq, Except.ok.injEq, reduceCtorEq, and_false] at h
    · rw [← h.1, hdb]
    · rw [← h.1]; show (lookupCache E q s).db.version = _; rw [hdb]
  have hhit : lookup E q t = .hit r := by
    rw [lookup_eq E hE, hver]
    refine scan_of_mem (fun d hd => ?_) (fun d hd v hi => ?_) ⟨d0, ?_, hi0⟩
    · rw [hE.order, ← holds_iff] at hd; exact ht d hd
    · rw [hE.order, ← holds_iff] at hd; exact hall d v hd hi
    · rw [hE.order, ← holds_iff]; exact hd0
  refine ⟨hhit, ?_⟩
  rcases executeQuery_cases E q t with ⟨r', hl, e, _⟩ | ⟨hl, e, _⟩ | ⟨hl, e, _⟩
  · rw [hhit] at hl
    simp only [Found.hit.injEq] at hl
    subst hl
    rw [e]
    congr 1
    obtain ⟨dirs, hg, hm⟩ := hd0
    have hne : dirs.isEmpty = false := by
      cases dirs with
      | nil => simp at hm
      | cons _ _ => rfl
    unfold lookupCache
    simp only [hg, hne, Bool.false_eq_true, if_false, hhit]
  · rw [hhit] at hl; simp at hl
  · rw [hhit] at hl; rcases hl with hl | ⟨n, hl⟩ <;> simp at hl

/-! ## Non-vacuity -/

namespace Ex

/-- Another query. -/
def q1 : SelectChain := ([⟨"lang".toList, "==".toList, .one "en".toList⟩], [])

/-- Both queries executed, then dataset `b` registered. -/
def sysB : Sys (List (Nat × Nat × Nat)) :=
  let s := ((executeQuery cacheEnv q1).run sysA).1
  { s with db := ((registerDataset regB).run s.db).1 }

theorem sysB_reach : CacheReach cacheEnv sysB := .op (.register regB) (.query q1 sysA_reach (Prog.run_mem_states _ _))

-- executing `q0` removes the old result of `q0` and keeps the one of `q1`
example : (sysB.dirsAt ['h']).map (·.num) = [0, 1] := by rfl
example : (((executeQuery cacheEnv q0).run sysB).1.dirsAt ['h']).map (fun d => (d.num, d.results)) =
    [(1, some [(1, 1, 0), (1, 1, 1), (1, 2, 0)]),
      (2, some [(1, 1, 0), (1, 1, 1), (1, 2, 0), (2, 3, 0), (2, 3, 1)])] := by rfl
example : ∀ d ∈ ((executeQuery cacheEnv q0).run sysB).1.dirsAt ['h'], d.info ≠ .torn := by decide +kernel

end Ex

end Mixtera
