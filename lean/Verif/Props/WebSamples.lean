import Verif.Lemmas.Dict
import Verif.Model.WebSamples
import Mathlib.Data.List.Induction

/-!
# C72: the samples of a web dataset file
-/

set_option linter.unusedSectionVars false

namespace Mixtera.Web

variable {B V : Type}

/-! ## Specification -/

/-- Specification: `split` splits a name with an extension into the key and the extension, which starts with a dot. -/
def IsSplit (split : PyStr → PyStr × PyStr) : Prop :=
  ∀ n : PyStr, '.' ∈ n → n ≠ ".".toList → n = (split n).1 ++ (split n).2 ∧ ∃ s, (split n).2 = '.' :: s

/-- Specification: the decoders by extension. -/
def table (D : Decoders B V) (images : Bool) : List (PyStr × (B → Except Err V)) :=
  [("txt".toList, D.text), ("text".toList, D.text), ("cls".toList, D.int), ("cls2".toList, D.int),
    ("json".toList, D.json), ("npy".toList, D.npy), ("pickle".toList, D.pickle), ("pkl".toList, D.pickle)] ++
  if images then [("jpg".toList, D.image), ("png".toList, D.image), ("ppm".toList, D.image), ("pgm".toList, D.image),
    ("pbm".toList, D.image), ("pnm".toList, D.image)] else []

/-- Specification: what a sample should hold for the extension `ext` if the member of the tar file has the contents `b`: the
decoded value if the last part of the extension is known; the stream, unread, if it is not; and for compressed members the
decoded value of the decompressed contents, if the part before `.gz` is known. -/
inductive Means (D : Decoders B V) (images : Bool) : PyStr → B → Item B V → Prop
  | plain {pre e : PyStr} {b : B} {f : B → Except Err V} {v : V} : '.' ∉ e → e ≠ "gz".toList →
      (e, f) ∈ table D images → f b = .ok v → Means D images (pre ++ '.' :: e) b (.value v)
  | kept {pre e : PyStr} {b : B} : '.' ∉ e → e ≠ "gz".toList → e ∉ (table D images).map Prod.fst →
      Means D images (pre ++ '.' :: e) b (.stream b)
  | zipped {pre e : PyStr} {b u : B} {f : B → Except Err V} {v : V} : '.' ∉ e → D.gunzip b = .ok u →
      (e, f) ∈ table D images → f u = .ok v → Means D images (pre ++ '.' :: e ++ ".gz".toList) b (.value v)

/-- Specification: the member `j` of the tar file is the last one among the positions `idx` with the extension `ext`, and
has the contents `b`. -/
def LastWith (split : PyStr → PyStr × PyStr) (tar : Tar B) (idx : List Nat) (ext : PyStr) (b : B) : Prop :=
  ∃ (l1 l2 : List Nat) (j : Nat) (n : PyStr), idx = l1 ++ j :: l2 ∧ tar[j]? = some (n, b) ∧ (split n).2 = ext ∧
    ∀ j' ∈ l2, ∀ n' b', tar[j']? = some (n', b') → (split n').2 ≠ ext

/-! ## Grouping -/

theorem groupFrom_flatten (split : PyStr → PyStr × PyStr) (ns : List PyStr) : ∀ (i : Nat) (cur : Option (PyStr × List Nat)),
    (groupFrom split i ns cur).flatten = ((cur.map Prod.snd).getD []) ++
      (List.range' i ns.length).filter fun j => match ns[j - i]? with
        | some n => decide ('.' ∈ n ∧ n ≠ ".".toList)
        | none => false := by
  induction ns with
  | nil => intro i cur; cases cur <;> simp [groupFrom]
  | cons n ns ih =>
    intro i cur
    have tailEq : ((List.range' (i + 1) ns.length).filter fun j => match (n :: ns)[j - i]? with
        | some n => decide ('.' ∈ n ∧ n ≠ ".".toList)
        | none => false) = (List.range' (i + 1) ns.length).filter fun j => match ns[j - (i + 1)]? with
        | some n => decide ('.' ∈ n ∧ n ≠ ".".toList)
        | none => false := by
      refine List.filter_congr fun j hj => ?_
      rw [List.mem_range'_1] at hj
      have : j - i = (j - (i + 1)) + 1 := by omega
      rw [this, List.getElem?_cons_succ]
    have hn : ('.' ∉ n ∨ n = ['.']) ↔ ¬ ('.' ∈ n ∧ n ≠ ".".toList) := by
      constructor
      · rintro (h | h) ⟨h1, h2⟩
        · exact h h1
        · exact h2 h
      · intro h
        by_cases h1 : '.' ∈ n
        · right
          by_contra h2
          exact h ⟨h1, h2⟩
        · exact Or.inl h1
    rw [List.length_cons, List.range'_succ, List.filter_cons, tailEq]
    simp only [Nat.sub_self, List.getElem?_cons_zero]
    unfold groupFrom
    by_cases hc : '.' ∉ n ∨ n = ['.']
    · rw [if_pos hc, ih, if_neg (by simpa using hn.1 hc)]
    · rw [if_neg hc, if_pos (by simpa using not_not.1 (fun h => hc (hn.2 h)))]
      cases cur with
      | none => rw [ih]; simp
      | some kg =>
        obtain ⟨k, g⟩ := kg
        dsimp only
        split
        · rw [ih]; simp
        · rw [List.flatten_cons, ih]; simp

/-- **C72, every member in exactly one sample**: read one after the other, the samples of a tar file consist of exactly the
members with an extension, in the order of the file, none missing and none twice. -/
theorem c72_partition (split : PyStr → PyStr × PyStr) (tar : Tar B) :
    (groups split tar).flatten = (List.range tar.length).filter fun j => match (tar.map Prod.fst)[j]? with
      | some n => decide ('.' ∈ n ∧ n ≠ ".".toList)
      | none => false := by
  unfold groups
  rw [groupFrom_flatten, List.range_eq_range', List.length_map]
  simp only [Option.map_none, Option.getD_none, List.nil_append]
  refine List.filter_congr fun j _ => ?_
  rw [Nat.sub_zero]
  cases (tar.map Prod.fst)[j]? <;> rfl

theorem groupFrom_keys (split : PyStr → PyStr × PyStr) (names : List PyStr) (ns : List PyStr) :
    ∀ (i : Nat) (cur : Option (PyStr × List Nat)), ns = names.drop i →
      (∀ k g, cur = some (k, g) → g ≠ [] ∧ ∀ j ∈ g, ∃ n, names[j]? = some n ∧ '.' ∈ n ∧ n ≠ ".".toList ∧ (split n).1 = k) →
      (∀ g ∈ groupFrom split i ns cur, g ≠ [] ∧ ∃ k, ∀ j ∈ g, ∃ n, names[j]? = some n ∧ '.' ∈ n ∧ n ≠ ".".toList ∧
        (split n).1 = k) := by
  induction ns with
  | nil =>
    intro i cur _ hc g hg
    cases cur with
    | none => simp [groupFrom] at hg
    | some kg =>
      obtain ⟨k, g'⟩ := kg
      simp only [groupFrom, List.mem_singleton] at hg
      subst hg
      exact ⟨(hc k g rfl).1, k, (hc k g rfl).2⟩
  | cons n ns ih =>
    intro i cur hd hc g hg
    have hi : names[i]? = some n := by
      have : (names.drop i)[0]? = some n := by rw [← hd]; rfl
      simpa [List.getElem?_drop] using this
    have hd' : ns = names.drop (i + 1) := by
      rw [← List.tail_drop, ← hd]; rfl
    unfold groupFrom at hg
    split at hg
    · exact ih (i + 1) cur hd' hc g hg
    · rename_i hnn
      simp only [not_or, not_not] at hnn
      have hnew : ∀ k g, some ((split n).1, [i]) = some (k, g) → g ≠ [] ∧ ∀ j ∈ g, ∃ n, names[j]? = some n ∧ '.' ∈ n ∧
          n ≠ ".".toList ∧ (split n).1 = k := by
        rintro k g h
        simp only [Option.some.injEq, Prod.mk.injEq] at h
        obtain ⟨rfl, rfl⟩ := h
        refine ⟨by simp, fun j hj => ?_⟩
        simp only [List.mem_singleton] at hj
        subst hj
        exact ⟨n, hi, hnn.1, hnn.2, rfl⟩
      cases cur with
      | none => exact ih (i + 1) _ hd' hnew g hg
      | some kg =>
        obtain ⟨k, g'⟩ := kg
        dsimp only at hg
        split at hg
        · rename_i hk
          refine ih (i + 1) _ hd' ?_ g hg
          rintro k' g'' h
          simp only [Option.some.injEq, Prod.mk.injEq] at h
          obtain ⟨rfl, rfl⟩ := h
          refine ⟨by simp, fun j hj => ?_⟩
          rcases List.mem_append.1 hj with hj | hj
          · exact (hc k g' rfl).2 j hj
          · simp only [List.mem_singleton] at hj
            subst hj
            exact ⟨n, hi, hnn.1, hnn.2, hk⟩
        · rcases List.mem_cons.1 hg with rfl | hg
          · exact ⟨(hc k g rfl).1, k, (hc k g rfl).2⟩
          · exact ih (i + 1) _ hd' hnew g hg

/-- **C72, one key per sample**: no sample is empty, and all its members have the same key, so that the assertion
`Inconsistent keys in the same sample` never fails. -/
theorem c72_one_key (split : PyStr → PyStr × PyStr) (tar : Tar B) (idx : List Nat) (h : idx ∈ groups split tar) :
    idx ≠ [] ∧ ∃ k, ∀ j ∈ idx, ∃ n b, tar[j]? = some (n, b) ∧ '.' ∈ n ∧ n ≠ ".".toList ∧ (split n).1 = k := by
  obtain ⟨h1, k, h2⟩ := groupFrom_keys split (tar.map Prod.fst) (tar.map Prod.fst) 0 none (by simp)
    (by rintro k g h; cases h) idx h
  refine ⟨h1, k, fun j hj => ?_⟩
  obtain ⟨n, h3, h4⟩ := h2 j hj
  rw [List.getElem?_map] at h3
  cases ht : tar[j]? with
  | none => rw [ht] at h3; cases h3
  | some m =>
    rw [ht] at h3
    simp only [Option.map_some, Option.some.injEq] at h3
    subst h3
    exact ⟨m.1, m.2, rfl, h4⟩

/-- Specification: the key of the sample with the members `idx`. -/
def KeyOf (split : PyStr → PyStr × PyStr) (tar : Tar B) (idx : List Nat) (k : PyStr) : Prop :=
  ∀ j ∈ idx, ∃ n b, tar[j]? = some (n, b) ∧ (split n).1 = k

theorem groupFrom_neighbours (split : PyStr → PyStr × PyStr) (names : List PyStr) (ns : List PyStr) :
    ∀ (i : Nat) (cur : Option (PyStr × List Nat)), ns = names.drop i →
      (∀ k g, cur = some (k, g) → g ≠ [] ∧ ∀ j ∈ g, ∃ n, names[j]? = some n ∧ (split n).1 = k) →
      (∀ k g, cur = some (k, g) → ∃ g' gs, groupFrom split i ns cur = g' :: gs ∧
        ∀ j ∈ g', ∃ n, names[j]? = some n ∧ (split n).1 = k) ∧
      (groupFrom split i ns cur).IsChain fun a b => ∀ x ∈ a, ∀ y ∈ b, ∀ n m, names[x]? = some n → names[y]? = some m →
        (split n).1 ≠ (split m).1 := by
  induction ns with
  | nil =>
    intro i cur _ hc
    cases cur with
    | none => exact ⟨(by rintro k g h; cases h), by simp [groupFrom]⟩
    | some kg =>
      obtain ⟨k, g'⟩ := kg
      refine ⟨fun k' g h => ?_, by simp [groupFrom]⟩
      cases h
      exact ⟨g', [], rfl, (hc k g' rfl).2⟩
  | cons n ns ih =>
    intro i cur hd hc
    have hi : names[i]? = some n := by
      have : (names.drop i)[0]? = some n := by rw [← hd]; rfl
      simpa [List.getElem?_drop] using this
    have hd' : ns = names.drop (i + 1) := by
      rw [← List.tail_drop, ← hd]; rfl
    unfold groupFrom
    split
    · exact ih (i + 1) cur hd' hc
    · rename_i hnn
      have hnew : ∀ k g, some ((split n).1, [i]) = some (k, g) → g ≠ [] ∧ ∀ j ∈ g, ∃ n, names[j]? = some n ∧
          (split n).1 = k := by
        rintro k g h
        simp only [Option.some.injEq, Prod.mk.injEq] at h
        obtain ⟨rfl, rfl⟩ := h
        refine ⟨by simp, fun j hj => ?_⟩
        simp only [List.mem_singleton] at hj
        subst hj
        exact ⟨n, hi, rfl⟩
      cases cur with
      | none => exact ⟨(by rintro k g h; cases h), (ih (i + 1) _ hd' hnew).2⟩
      | some kg =>
        obtain ⟨k, g⟩ := kg
        dsimp only
        split
        · rename_i hk
          have hg : ∀ k' g'', some (k, g ++ [i]) = some (k', g'') → g'' ≠ [] ∧ ∀ j ∈ g'', ∃ n, names[j]? = some n ∧
              (split n).1 = k' := by
            rintro k' g'' h
            simp only [Option.some.injEq, Prod.mk.injEq] at h
            obtain ⟨rfl, rfl⟩ := h
            refine ⟨by simp, fun j hj => ?_⟩
            rcases List.mem_append.1 hj with hj | hj
            · exact (hc k g rfl).2 j hj
            · simp only [List.mem_singleton] at hj
              subst hj
              exact ⟨n, hi, hk⟩
          obtain ⟨h1, h2⟩ := ih (i + 1) _ hd' hg
          refine ⟨fun k' g' h => ?_, h2⟩
          cases h
          exact h1 k _ rfl
        · rename_i hk
          obtain ⟨h1, h2⟩ := ih (i + 1) _ hd' hnew
          refine ⟨fun k' g' h => ?_, ?_⟩
          · cases h
            exact ⟨g, _, rfl, (hc k g rfl).2⟩
          · obtain ⟨g', gs, h3, h4⟩ := h1 _ _ rfl
            rw [h3] at h2 ⊢
            refine List.isChain_cons_cons.2 ⟨?_, h2⟩
            intro x hx y hy a b ha hb
            obtain ⟨a', ha', hka⟩ := (hc k g rfl).2 x hx
            obtain ⟨b', hb', hkb⟩ := h4 y hy
            rw [ha] at ha'
            rw [hb] at hb'
            cases ha'
            cases hb'
            rw [hka, hkb]
            exact fun e => hk e.symm

/-- **C72, samples are complete**: two neighbouring samples have different keys, so that members of the same key that follow
one another (up to members without an extension) are never torn apart. -/
theorem c72_maximal (split : PyStr → PyStr × PyStr) (tar : Tar B) (i : Nat) (g g' : List Nat)
    (h : (groups split tar)[i]? = some g) (h' : (groups split tar)[i + 1]? = some g') (k k' : PyStr)
    (hk : KeyOf split tar g k) (hk' : KeyOf split tar g' k') : k ≠ k' := by
  have hc := (groupFrom_neighbours split (tar.map Prod.fst) (tar.map Prod.fst) 0 none (by simp)
    (by rintro k g h; cases h)).2
  obtain ⟨hi, rfl⟩ := List.getElem?_eq_some_iff.1 h
  obtain ⟨hi', rfl⟩ := List.getElem?_eq_some_iff.1 h'
  have hr := (List.isChain_iff_getElem.1 hc) i hi'
  have e1 := (c72_one_key split tar _ (List.getElem_mem hi)).1
  have e2 := (c72_one_key split tar _ (List.getElem_mem hi')).1
  obtain ⟨x, hx⟩ := List.exists_mem_of_ne_nil _ e1
  obtain ⟨y, hy⟩ := List.exists_mem_of_ne_nil _ e2
  obtain ⟨n, b, hn, rfl⟩ := hk x hx
  obtain ⟨m, c, hm, rfl⟩ := hk' y hy
  exact hr x hx y hy n m (by simp [hn]) (by simp [hm])

/-! ## The sample before decoding -/

/-- All entries of the sample, without the assertion. -/
def setAll (ms : List (PyStr × PyStr × B)) (d : Dict PyStr (Item B V)) : Dict PyStr (Item B V) :=
  ms.foldl (fun d m => d.set m.2.1 (.stream m.2.2)) d

theorem orKey_self (key : Option PyStr) (k : PyStr) (h : key = none ∨ key = some k) : orKey key k = k := by
  rcases h with rfl | rfl
  · rfl
  · cases k <;> rfl

theorem gather_ok (k : PyStr) (ms : List (PyStr × PyStr × B)) (hk : ∀ m ∈ ms, m.1 = k) :
    ∀ (key : Option PyStr) (d : Dict PyStr (Item B V)), (key = none ∨ key = some k) →
      gather ms key d = .ok (if ms = [] then key else some k, setAll ms d) := by
  induction ms with
  | nil => intro key d _; rfl
  | cons m ms ih =>
    intro key d h
    obtain ⟨k', ext, b⟩ := m
    obtain rfl : k' = k := hk (k', ext, b) List.mem_cons_self
    unfold gather
    rw [orKey_self key k' h, if_pos rfl, ih (fun m hm => hk m (List.mem_cons_of_mem _ hm)) _ _ (Or.inr rfl)]
    simp [setAll]

theorem get?_setAll_not (ms : List (PyStr × PyStr × B)) (e : PyStr) (h : ∀ m ∈ ms, m.2.1 ≠ e) :
    ∀ d : Dict PyStr (Item B V), (setAll ms d).get? e = d.get? e := by
  induction ms with
  | nil => intro d; rfl
  | cons m ms ih =>
    intro d
    show (setAll ms (d.set m.2.1 _)).get? e = _
    rw [ih (fun m hm => h m (List.mem_cons_of_mem _ hm)), Dict.get?_set, if_neg (h m List.mem_cons_self)]

theorem get?_setAll_last (l1 l2 : List (PyStr × PyStr × B)) (m : PyStr × PyStr × B) (h : ∀ m' ∈ l2, m'.2.1 ≠ m.2.1)
    (d : Dict PyStr (Item B V)) : (setAll (l1 ++ m :: l2) d).get? m.2.1 = some (.stream m.2.2) := by
  have : setAll (l1 ++ m :: l2) d = setAll l2 ((setAll l1 d).set m.2.1 (.stream m.2.2)) := by
    simp [setAll, List.foldl_append]
  rw [this, get?_setAll_not l2 _ h, Dict.get?_set, if_pos rfl]

theorem get?_setAll_some (ms : List (PyStr × PyStr × B)) (e : PyStr) (x : Item B V) :
    ∀ d : Dict PyStr (Item B V), d.get? e = none → (setAll ms d).get? e = some x →
      ∃ l1 m l2, ms = l1 ++ m :: l2 ∧ m.2.1 = e ∧ x = .stream m.2.2 ∧ ∀ m' ∈ l2, m'.2.1 ≠ e := by
  induction ms using List.reverseRecOn with
  | nil => intro d h1 h2; rw [show setAll [] d = d from rfl, h1] at h2; cases h2
  | append_singleton ms m ih =>
    intro d h1 h2
    have : setAll (ms ++ [m]) d = (setAll ms d).set m.2.1 (.stream m.2.2) := by simp [setAll, List.foldl_append]
    rw [this, Dict.get?_set] at h2
    split at h2
    · rename_i he
      cases h2
      exact ⟨ms, m, [], rfl, he, rfl, by simp⟩
    · rename_i he
      obtain ⟨l1, m1, l2, rfl, h3, h4, h5⟩ := ih d h1 h2
      refine ⟨l1, m1, l2 ++ [m], by simp, h3, h4, fun m' hm' => ?_⟩
      rcases List.mem_append.1 hm' with h | h
      · exact h5 m' h
      · simp only [List.mem_singleton] at h
        subst h
        exact he

theorem membersAt_append (split : PyStr → PyStr × PyStr) (tar : Tar B) (l1 l2 : List Nat) :
    membersAt split tar (l1 ++ l2) = membersAt split tar l1 ++ membersAt split tar l2 := by
  simp [membersAt, List.filterMap_append]

theorem mem_membersAt (split : PyStr → PyStr × PyStr) (tar : Tar B) (idx : List Nat) (m : PyStr × PyStr × B) :
    m ∈ membersAt split tar idx ↔ ∃ j ∈ idx, ∃ n b, tar[j]? = some (n, b) ∧ m = ((split n).1, (split n).2, b) := by
  unfold membersAt
  rw [List.mem_filterMap]
  constructor
  · rintro ⟨j, hj, h⟩
    cases ht : tar[j]? with
    | none => rw [ht] at h; cases h
    | some m' =>
      rw [ht] at h
      simp only [Option.map_some, Option.some.injEq] at h
      exact ⟨j, hj, m'.1, m'.2, ht, h.symm⟩
  · rintro ⟨j, hj, n, b, ht, rfl⟩
    exact ⟨j, hj, by rw [ht]; rfl⟩

theorem ext_ne_keyName {split : PyStr → PyStr × PyStr} (hs : IsSplit split) {n : PyStr} (h1 : '.' ∈ n)
    (h2 : n ≠ ".".toList) : (split n).2 ≠ keyName ∧ ¬ internal <+: (split n).2 := by
  obtain ⟨_, s, h⟩ := hs n h1 h2
  rw [h]
  refine ⟨?_, ?_⟩
  · intro e
    have : ('.' :: s).head? = keyName.head? := by rw [e]
    revert this
    simp [keyName]
  · rintro ⟨t, e⟩
    have : ('.' :: s).head? = (internal ++ t).head? := by rw [e]
    revert this
    simp [internal]

/-- The undecoded sample of a group. -/
theorem rawSample_spec (split : PyStr → PyStr × PyStr) (tar : Tar B) (idx : List Nat)
    (hg : idx ∈ groups split tar) (k : PyStr) (hk : KeyOf split tar idx k) :
    ∃ s : Dict PyStr (Item B V), rawSample split tar idx = .ok s ∧ s.get? keyName = some (.key k) ∧
      ∀ e b, e ≠ keyName → (s.get? e = some (.stream b) ↔ LastWith split tar idx e b) ∧
        ∀ x, s.get? e = some x → ∃ b, x = .stream b := by
  obtain ⟨hne, k', hmem⟩ := c72_one_key split tar idx hg
  have hkk : ∀ m ∈ membersAt split tar idx, m.1 = k := by
    intro m hm
    obtain ⟨j, hj, n, b, ht, rfl⟩ := (mem_membersAt split tar idx m).1 hm
    obtain ⟨n', b', ht', h⟩ := hk j hj
    rw [ht] at ht'
    cases ht'
    exact h
  have hms : membersAt split tar idx ≠ [] := by
    obtain ⟨j, hj⟩ := List.exists_mem_of_ne_nil _ hne
    obtain ⟨n, b, ht, _⟩ := hmem j hj
    exact List.ne_nil_of_mem ((mem_membersAt split tar idx _).2 ⟨j, hj, n, b, ht, rfl⟩)
  refine ⟨(setAll (membersAt split tar idx) []).set keyName (.key k), ?_, ?_, ?_⟩
  · unfold rawSample
    rw [gather_ok k _ hkk none [] (Or.inl rfl), if_neg hms]
    rfl
  · rw [Dict.get?_set, if_pos rfl]
  · intro e b hek
    rw [Dict.get?_set, if_neg (fun h => hek h.symm)]
    refine ⟨⟨fun h => ?_, ?_⟩, fun x h => ?_⟩
    · -- from the dictionary to the last member
      obtain ⟨l1, m, l2, h1, h2, h3, h4⟩ := get?_setAll_some _ e _ [] rfl h
      cases h3
      obtain ⟨i1, i2, rfl, hi1, hi2⟩ := List.filterMap_eq_append_iff.1 h1
      obtain ⟨i3, j, i4, rfl, hn3, hj, hi4⟩ := List.filterMap_eq_cons_iff.1 hi2
      cases ht : tar[j]? with
      | none => rw [ht] at hj; cases hj
      | some nb =>
        rw [ht] at hj
        simp only [Option.map_some, Option.some.injEq] at hj
        refine ⟨i1 ++ i3, i4, j, nb.1, by simp, ?_, ?_, ?_⟩
        · rw [ht, ← hj]
        · rw [← hj] at h2; exact h2
        · intro j' hj' n' b' ht'
          refine h4 ((split n').1, (split n').2, b') ?_
          rw [← hi4]
          exact (mem_membersAt split tar i4 _).2 ⟨j', hj', n', b', ht', rfl⟩
    · rintro ⟨l1, l2, j, n, rfl, ht, rfl, hl⟩
      have e1 : membersAt split tar (l1 ++ j :: l2) =
          membersAt split tar l1 ++ ((split n).1, (split n).2, b) :: membersAt split tar l2 := by
        rw [membersAt_append]
        congr 1
        simp [membersAt, ht]
      rw [e1]
      refine get?_setAll_last _ _ ((split n).1, (split n).2, b) ?_ []
      intro m' hm'
      obtain ⟨j', hj', n', b', ht', rfl⟩ := (mem_membersAt split tar l2 m').1 hm'
      exact hl j' hj' n' b' ht'
    · obtain ⟨_, m, _, _, _, h3, _⟩ := get?_setAll_some _ e _ [] rfl h
      exact ⟨_, h3⟩

/-! ## Decoding -/

theorem splitDot_ne (s : PyStr) : splitDot s ≠ [] := by
  cases s with
  | nil => simp [splitDot]
  | cons c s =>
    unfold splitDot
    split
    · simp
    · split <;> simp

theorem splitDot_plain (e : PyStr) (h : '.' ∉ e) : splitDot e = [e] := by
  induction e with
  | nil => rfl
  | cons c e ih =>
    simp only [List.mem_cons, not_or] at h
    unfold splitDot
    rw [if_neg (fun x => h.1 x.symm), ih h.2]

theorem splitDot_last (pre e : PyStr) (h : '.' ∉ e) : splitDot (pre ++ '.' :: e) = splitDot pre ++ [e] := by
  induction pre with
  | nil => simp [splitDot, splitDot_plain e h]
  | cons c pre ih =>
    rw [List.cons_append]
    unfold splitDot
    rw [ih]
    split
    · rfl
    · cases hp : splitDot pre with
      | nil => exact absurd hp (splitDot_ne pre)
      | cons p ps => rfl

theorem pick_iff (D : Decoders B V) (images : Bool) (e : PyStr) (f : B → Except Err V) :
    D.pick images e = some f ↔ (e, f) ∈ table D images := by
  have key : ∀ (l : List PyStr) (x y : Option (B → Except Err V)), (if e ∈ l then x else y) = some f ↔
      (e ∈ l ∧ x = some f) ∨ (e ∉ l ∧ y = some f) := by
    intro l x y
    split <;> simp [*]
  constructor
  · unfold Decoders.pick table
    intro h
    cases images <;> (repeat' split at h) <;> simp_all <;> tauto
  · unfold Decoders.pick table
    intro h
    cases images
    · simp only [Bool.false_eq_true, if_false, List.append_nil, List.mem_cons, Prod.mk.injEq, List.not_mem_nil, or_false] at h
      rcases h with ⟨rfl, rfl⟩ | ⟨rfl, rfl⟩ | ⟨rfl, rfl⟩ | ⟨rfl, rfl⟩ | ⟨rfl, rfl⟩ | ⟨rfl, rfl⟩ | ⟨rfl, rfl⟩ | ⟨rfl, rfl⟩ <;>
        rfl
    · simp only [if_true, List.cons_append, List.nil_append, List.mem_cons, Prod.mk.injEq, List.not_mem_nil, or_false] at h
      rcases h with ⟨rfl, rfl⟩ | ⟨rfl, rfl⟩ | ⟨rfl, rfl⟩ | ⟨rfl, rfl⟩ | ⟨rfl, rfl⟩ | ⟨rfl, rfl⟩ | ⟨rfl, rfl⟩ | ⟨rfl, rfl⟩ |
        ⟨rfl, rfl⟩ | ⟨rfl, rfl⟩ | ⟨rfl, rfl⟩ | ⟨rfl, rfl⟩ | ⟨rfl, rfl⟩ | ⟨rfl, rfl⟩ <;> rfl

theorem pick_none (D : Decoders B V) (images : Bool) (e : PyStr) :
    D.pick images e = none ↔ e ∉ (table D images).map Prod.fst := by
  constructor
  · intro h hm
    obtain ⟨⟨e', f⟩, h1, rfl⟩ := List.mem_map.1 hm
    rw [(pick_iff D images e' f).2 h1] at h
    cases h
  · intro h
    cases hp : D.pick images e with
    | none => rfl
    | some f => exact absurd (List.mem_map.2 ⟨(e, f), (pick_iff D images e f).1 hp, rfl⟩) h

theorem decodeItem_plain (D : Decoders B V) (images : Bool) (pre e : PyStr) (he : '.' ∉ e) (hg : e ≠ "gz".toList)
    (x : Item B V) : decodeItem D images (pre ++ '.' :: e) x = finish D images (pre ++ '.' :: e) e x x.read := by
  unfold decodeItem
  rw [splitDot_last pre e he, List.reverse_append]
  simp only [List.reverse_singleton, List.singleton_append]
  rw [if_neg hg]

theorem decodeItem_gz (D : Decoders B V) (images : Bool) (pre e : PyStr) (he : '.' ∉ e) (b : B) :
    decodeItem D images (pre ++ '.' :: e ++ ".gz".toList) (.stream b) = match D.gunzip b with
      | .error err => .error err
      | .ok u => finish D images (pre ++ '.' :: e ++ ".gz".toList) e (.drained b) (.ok u) := by
  have h1 : splitDot (pre ++ '.' :: e ++ ".gz".toList) = splitDot pre ++ [e] ++ ["gz".toList] := by
    have : pre ++ '.' :: e ++ ".gz".toList = (pre ++ '.' :: e) ++ '.' :: "gz".toList := by simp
    rw [this, splitDot_last _ _ (by decide), splitDot_last pre e he]
  unfold decodeItem
  rw [h1, List.reverse_append, List.reverse_append]
  simp only [List.reverse_singleton, List.singleton_append]
  rw [if_pos trivial]
  simp only [Item.read]
  cases D.gunzip b <;> rfl

theorem finish_none {D : Decoders B V} {images : Bool} {key e : PyStr} {x : Item B V} {c : Except Err B}
    (h : D.pick images e = none) : finish D images key e x c = .ok x := by
  unfold finish
  rw [h]
  split <;> rfl

theorem finish_some {D : Decoders B V} {images : Bool} {key e : PyStr} {x : Item B V} {b : B} {f : B → Except Err V} {v : V}
    (hi : ¬ internal <+: key) (h : D.pick images e = some f) (hv : f b = .ok v) :
    finish D images key e x (.ok b) = .ok (.value v) := by
  unfold finish
  rw [if_neg hi, h]
  simp only [hv]
  rfl

theorem means_decode {D : Decoders B V} {images : Bool} {ext : PyStr} {b : B} {y : Item B V}
    (h : Means D images ext b y) (hi : ¬ internal <+: ext) : decodeItem D images ext (.stream b) = .ok y := by
  cases h with
  | plain he hg hf hv =>
    rw [decodeItem_plain D images _ _ he hg]
    exact finish_some hi ((pick_iff D images _ _).2 hf) hv
  | kept he hg hn =>
    rw [decodeItem_plain D images _ _ he hg]
    exact finish_none ((pick_none D images _).2 hn)
  | zipped he hu hf hv =>
    rw [decodeItem_gz D images _ _ he, hu]
    exact finish_some hi ((pick_iff D images _ _).2 hf) hv

theorem decode_get (D : Decoders B V) (images : Bool) (s : Dict PyStr (Item B V)) : ∀ r, decode D images s = .ok r →
    ∀ k, (s.get? k = none → r.get? k = none) ∧
      ∀ x, s.get? k = some x → ∃ y, decodeItem D images k x = .ok y ∧ r.get? k = some y := by
  induction s with
  | nil =>
    intro r h k
    cases h
    exact ⟨fun _ => rfl, fun x hx => by cases hx⟩
  | cons kx s ih =>
    intro r h k
    obtain ⟨k0, x0⟩ := kx
    unfold decode at h
    cases hy : decodeItem D images k0 x0 with
    | error e => rw [hy] at h; cases h
    | ok y =>
      cases hr : decode D images s with
      | error e => rw [hy, hr] at h; cases h
      | ok r' =>
        rw [hy, hr] at h
        cases h
        rw [Dict.get?_cons, Dict.get?_cons]
        by_cases hk : k0 = k
        · subst hk
          simp only [if_true]
          exact ⟨(fun e => by cases e), fun x hx => by cases hx; exact ⟨y, hy, rfl⟩⟩
        · simp only [if_neg hk]
          exact ih r' hr k

theorem decode_ok (D : Decoders B V) (images : Bool) (s : Dict PyStr (Item B V))
    (h : ∀ kx ∈ s, ∃ y, decodeItem D images kx.1 kx.2 = .ok y) : ∃ r, decode D images s = .ok r := by
  induction s with
  | nil => exact ⟨[], rfl⟩
  | cons kx s ih =>
    obtain ⟨y, hy⟩ := h kx List.mem_cons_self
    obtain ⟨r, hr⟩ := ih fun kx' h' => h kx' (List.mem_cons_of_mem _ h')
    refine ⟨(kx.1, y) :: r, ?_⟩
    unfold decode
    rw [hy, hr]
    rfl

theorem getItem_inv {split : PyStr → PyStr × PyStr} {D : Decoders B V} {images : Bool} {tar : Tar B} {i : Nat}
    {idx : List Nat} (hi : (groups split tar)[i]? = some idx) {s : Dict PyStr (Item B V)}
    (hs : rawSample split tar idx = .ok s) : getItem split D images tar i = decode D images s := by
  unfold getItem
  rw [hi]
  show (do let s ← rawSample split tar idx; decode D images s) = _
  rw [hs]
  rfl

theorem decodeItem_keyName (D : Decoders B V) (images : Bool) (x : Item B V) : decodeItem D images keyName x = .ok x := by
  have : (splitDot keyName).reverse = [keyName] := by decide +kernel
  unfold decodeItem
  rw [this]
  simp only
  rw [if_neg (by decide +kernel)]
  exact if_pos (by decide +kernel)

/-- **C72, the contents of a sample**: sample `i` holds its key, and for every extension that occurs among its members what
the last member with that extension means; it holds nothing else. -/
theorem c72_item_partial (split : PyStr → PyStr × PyStr) (hs : IsSplit split) (D : Decoders B V) (images : Bool) (tar : Tar B)
    (i : Nat) (idx : List Nat) (hi : (groups split tar)[i]? = some idx) (r : Dict PyStr (Item B V))
    (hr : getItem split D images tar i = .ok r) :
    (∀ k, KeyOf split tar idx k → r.get? "__key__".toList = some (.key k)) ∧
      (∀ e b y, LastWith split tar idx e b → Means D images e b y → r.get? e = some y) ∧
      ∀ e, r.get? e ≠ none → e = "__key__".toList ∨ ∃ b, LastWith split tar idx e b := by
  have hg := List.mem_of_getElem? hi
  obtain ⟨_, k0, hk0⟩ := c72_one_key split tar idx hg
  have hkey : KeyOf split tar idx k0 := fun j hj => by
    obtain ⟨n, b, h1, _, _, h2⟩ := hk0 j hj
    exact ⟨n, b, h1, h2⟩
  have hsame : ∀ k, KeyOf split tar idx k → k = k0 := by
    intro k hk
    obtain ⟨j, hj⟩ := List.exists_mem_of_ne_nil _ (c72_one_key split tar idx hg).1
    obtain ⟨n, b, h1, h2⟩ := hk j hj
    obtain ⟨n', b', h1', h2'⟩ := hkey j hj
    rw [h1] at h1'
    cases h1'
    rw [← h2, ← h2']
  obtain ⟨s, h1, h2, h3⟩ := rawSample_spec (V := V) split tar idx hg k0 hkey
  rw [getItem_inv hi h1] at hr
  have hd := decode_get D images s r hr
  refine ⟨fun k hk => ?_, fun e b y hl hm => ?_, fun e he => ?_⟩
  · rw [hsame k hk]
    obtain ⟨y, h4, h5⟩ := (hd keyName).2 _ h2
    rw [decodeItem_keyName] at h4
    cases h4
    exact h5
  · have hl' := hl
    obtain ⟨l1, l2, j, n, rfl, ht, rfl, _⟩ := hl'
    obtain ⟨n', b', ht', hd1, hd2, _⟩ := hk0 j (by simp)
    rw [ht] at ht'
    cases ht'
    obtain ⟨hne, hint⟩ := ext_ne_keyName hs hd1 hd2
    obtain ⟨y', h4, h5⟩ := (hd _).2 _ ((h3 _ b hne).1.2 hl)
    rw [means_decode hm hint] at h4
    cases h4
    exact h5
  · by_cases hk : e = keyName
    · exact Or.inl hk
    · cases hse : s.get? e with
      | none => exact absurd ((hd e).1 hse) he
      | some x =>
        obtain ⟨b0⟩ : Nonempty B := by
          obtain ⟨j, hj⟩ := List.exists_mem_of_ne_nil _ (c72_one_key split tar idx hg).1
          obtain ⟨n, b, _⟩ := hk0 j hj
          exact ⟨b⟩
        obtain ⟨b, rfl⟩ := (h3 e b0 hk).2 x hse
        exact Or.inr ⟨b, (h3 e b hk).1.1 hse⟩

/-- **C72, samples are read if their members can be decoded**: if every extension's last member means something, the sample
is returned. -/
theorem c72_succeeds (split : PyStr → PyStr × PyStr) (hs : IsSplit split) (D : Decoders B V) (images : Bool) (tar : Tar B)
    (i : Nat) (idx : List Nat) (hi : (groups split tar)[i]? = some idx)
    (hm : ∀ e b, LastWith split tar idx e b → ∃ y, Means D images e b y) :
    ∃ r, getItem split D images tar i = .ok r := by
  have hg := List.mem_of_getElem? hi
  obtain ⟨hne, k0, hk0⟩ := c72_one_key split tar idx hg
  have hkey : KeyOf split tar idx k0 := fun j hj => by
    obtain ⟨n, b, h1, _, _, h2⟩ := hk0 j hj
    exact ⟨n, b, h1, h2⟩
  obtain ⟨s, h1, h2, h3⟩ := rawSample_spec (V := V) split tar idx hg k0 hkey
  rw [getItem_inv hi h1]
  have hnd : s.keys.Nodup := by
    unfold rawSample at h1
    have hkk : ∀ m ∈ membersAt split tar idx, m.1 = k0 := by
      intro m hm
      obtain ⟨j, hj, n, b, ht, rfl⟩ := (mem_membersAt split tar idx m).1 hm
      obtain ⟨n', b', ht', h⟩ := hkey j hj
      rw [ht] at ht'
      cases ht'
      exact h
    rw [gather_ok k0 _ hkk none [] (Or.inl rfl)] at h1
    cases h1
    refine Dict.nodup_keys_upsert ?_ _ _
    have : ∀ (ms : List (PyStr × PyStr × B)) (d : Dict PyStr (Item B V)), d.keys.Nodup → (setAll ms d).keys.Nodup := by
      intro ms
      induction ms with
      | nil => intro d h; exact h
      | cons m ms ih => intro d h; exact ih _ (Dict.nodup_keys_upsert h _ _)
    exact this _ [] List.nodup_nil
  refine decode_ok D images s fun kx hkx => ?_
  have hget : s.get? kx.1 = some kx.2 := Dict.get?_of_mem hnd hkx
  by_cases hk : kx.1 = keyName
  · rw [hk]
    exact ⟨_, decodeItem_keyName D images _⟩
  · obtain ⟨b0⟩ : Nonempty B := by
      obtain ⟨j, hj⟩ := List.exists_mem_of_ne_nil _ hne
      obtain ⟨n, b, _⟩ := hk0 j hj
      exact ⟨b⟩
    obtain ⟨b, hb⟩ := (h3 kx.1 b0 hk).2 _ hget
    have hl := (h3 kx.1 b hk).1.1 (by rw [hget, hb])
    obtain ⟨y, hy⟩ := hm _ _ hl
    obtain ⟨l1, l2, j, n, rfl, ht, he, _⟩ := hl
    obtain ⟨n', b', ht', hd1, hd2, _⟩ := hk0 j (by simp)
    rw [ht] at ht'
    cases ht'
    have hint := (ext_ne_keyName hs hd1 hd2).2
    rw [he] at hint
    exact ⟨y, by rw [hb]; exact means_decode hy hint⟩

theorem finish_fails {D : Decoders B V} {images : Bool} {key e : PyStr} {x : Item B V} {b : B} {f : B → Except Err V} {err : Err}
    (hi : ¬ internal <+: key) (h : D.pick images e = some f) (hv : f b = .error err) (y : Item B V) :
    finish D images key e x (.ok b) ≠ .ok y := by
  unfold finish
  rw [if_neg hi, h]
  simp only [hv]
  rintro ⟨⟩

/-- Specification: the contents `b` of a member with the extension `ext` cannot be decoded. -/
inductive Broken (D : Decoders B V) (images : Bool) : PyStr → B → Prop
  | plain {pre e : PyStr} {b : B} {f : B → Except Err V} {err : Err} : '.' ∉ e → e ≠ "gz".toList →
      (e, f) ∈ table D images → f b = .error err → Broken D images (pre ++ '.' :: e) b
  | unzip {pre e : PyStr} {b : B} {err : Err} : '.' ∉ e → D.gunzip b = .error err →
      Broken D images (pre ++ '.' :: e ++ ".gz".toList) b
  | zipped {pre e : PyStr} {b u : B} {f : B → Except Err V} {err : Err} : '.' ∉ e → D.gunzip b = .ok u →
      (e, f) ∈ table D images → f u = .error err → Broken D images (pre ++ '.' :: e ++ ".gz".toList) b

theorem broken_decode {D : Decoders B V} {images : Bool} {ext : PyStr} {b : B} (h : Broken D images ext b)
    (hi : ¬ internal <+: ext) (y : Item B V) : decodeItem D images ext (.stream b) ≠ .ok y := by
  cases h with
  | plain he hg hf hv =>
    rw [decodeItem_plain D images _ _ he hg]
    exact finish_fails hi ((pick_iff D images _ _).2 hf) hv y
  | unzip he hu =>
    rw [decodeItem_gz D images _ _ he, hu]
    rintro ⟨⟩
  | zipped he hu hf hv =>
    rw [decodeItem_gz D images _ _ he, hu]
    exact finish_fails hi ((pick_iff D images _ _).2 hf) hv y

/-- **C72, broken members are not passed over**: if the last member of a sample with some extension cannot be decoded,
reading the sample raises. -/
theorem c72_fails (split : PyStr → PyStr × PyStr) (hs : IsSplit split) (D : Decoders B V) (images : Bool) (tar : Tar B)
    (i : Nat) (idx : List Nat) (hi : (groups split tar)[i]? = some idx) (e : PyStr) (b : B)
    (hl : LastWith split tar idx e b) (hb : Broken D images e b) (r : Dict PyStr (Item B V)) :
    getItem split D images tar i ≠ .ok r := by
  intro hr
  have hg := List.mem_of_getElem? hi
  obtain ⟨_, k0, hk0⟩ := c72_one_key split tar idx hg
  have hkey : KeyOf split tar idx k0 := fun j hj => by
    obtain ⟨n, b, h1, _, _, h2⟩ := hk0 j hj
    exact ⟨n, b, h1, h2⟩
  obtain ⟨s, h1, h2, h3⟩ := rawSample_spec (V := V) split tar idx hg k0 hkey
  rw [getItem_inv hi h1] at hr
  have hd := decode_get D images s r hr
  have hl' := hl
  obtain ⟨l1, l2, j, n, rfl, ht, rfl, _⟩ := hl'
  obtain ⟨n', b', ht', hd1, hd2, _⟩ := hk0 j (by simp)
  rw [ht] at ht'
  cases ht'
  obtain ⟨hne, hint⟩ := ext_ne_keyName hs hd1 hd2
  obtain ⟨y', h4, _⟩ := (hd _).2 _ ((h3 _ b hne).1.2 hl)
  exact broken_decode hb hint y' h4

/-- **C72, past the end**: there are as many samples as groups, and asking for another one raises. -/
theorem c72_range (split : PyStr → PyStr × PyStr) (D : Decoders B V) (images : Bool) (tar : Tar B) (i : Nat)
    (hi : size split tar ≤ i) : getItem split D images tar i = .error .indexError := by
  unfold getItem
  rw [List.getElem?_eq_none hi]

/-- **C72, the metadata parser and the reader see the same sample**: the parser is given samples whose images are not
decoded; every other entry is the same as the one the reader gets for the same number. -/
theorem c72_same (split : PyStr → PyStr × PyStr) (D : Decoders B V) (tar : Tar B) (i : Nat) (r : Dict PyStr (Item B V))
    (hr : getItem split D true tar i = .ok r) :
    ∃ r', getItem split D false tar i = .ok r' ∧
      ∀ k, (∀ e ∈ ["jpg".toList, "png".toList, "ppm".toList, "pgm".toList, "pbm".toList, "pnm".toList],
        ¬ ('.' :: e) <:+ k ∧ ¬ ('.' :: e ++ ".gz".toList) <:+ k ∧ k ≠ e ∧ k ≠ e ++ ".gz".toList) → r'.get? k = r.get? k := by
  unfold getItem at hr ⊢
  cases hg : (groups split tar)[i]? with
  | none => rw [hg] at hr; cases hr
  | some idx =>
    rw [hg] at hr
    dsimp only at hr ⊢
    cases hs : rawSample (V := V) split tar idx with
    | error e => rw [hs] at hr; cases hr
    | ok s =>
      rw [hs] at hr
      replace hr : decode D true s = .ok r := hr
      show ∃ r', decode D false s = .ok r' ∧ _
      clear hg hs
      -- one entry
      have pick_false : ∀ e, D.pick false e = D.pick true e ∨ (D.pick false e = none ∧
          e ∈ ["jpg".toList, "png".toList, "ppm".toList, "pgm".toList, "pbm".toList, "pnm".toList]) := by
        intro e
        by_cases he : e ∈ ["jpg".toList, "png".toList, "ppm".toList, "pgm".toList, "pbm".toList, "pnm".toList]
        · right
          refine ⟨?_, he⟩
          rw [pick_none]
          simp only [List.mem_cons, List.not_mem_nil, or_false] at he
          rcases he with rfl | rfl | rfl | rfl | rfl | rfl <;> simp [table]
        · left
          unfold Decoders.pick
          simp only [he, false_and, if_false]
      have fin : ∀ k e (x y : Item B V) (c : Except Err B), finish D true k e x c = .ok y →
          ∃ y', finish D false k e x c = .ok y' ∧ (y' = y ∨
            e ∈ ["jpg".toList, "png".toList, "ppm".toList, "pgm".toList, "pbm".toList, "pnm".toList]) := by
        intro k e x y c h
        rcases pick_false e with hp | ⟨hp, himg⟩
        · refine ⟨y, ?_, Or.inl rfl⟩
          unfold finish at h ⊢
          rw [hp]
          exact h
        · exact ⟨x, finish_none hp, Or.inr himg⟩
      have one : ∀ k (x y : Item B V), decodeItem D true k x = .ok y → ∃ y', decodeItem D false k x = .ok y' ∧
          ((∀ e ∈ ["jpg".toList, "png".toList, "ppm".toList, "pgm".toList, "pbm".toList, "pnm".toList],
            ¬ ('.' :: e) <:+ k ∧ ¬ ('.' :: e ++ ".gz".toList) <:+ k ∧ k ≠ e ∧ k ≠ e ++ ".gz".toList) → y' = y) := by
        intro k x y h
        have join : ∀ (s : PyStr) (ps : List PyStr), splitDot s = ps → joinStr ['.'] ps = s := by
          intro s
          induction s with
          | nil => intro ps h; subst h; rfl
          | cons c s ih =>
            intro ps h
            unfold splitDot at h
            split at h
            · rename_i hc
              subst hc
              subst h
              cases hp : splitDot s with
              | nil => exact absurd hp (splitDot_ne s)
              | cons p ps' =>
                have := ih _ hp
                simp only [joinStr, List.nil_append]
                rw [this]
                rfl
            · cases hp : splitDot s with
              | nil => exact absurd hp (splitDot_ne s)
              | cons p ps' =>
                rw [hp] at h
                dsimp only at h
                subst h
                have := ih _ hp
                cases ps' with
                | nil =>
                  simp only [joinStr] at this ⊢
                  rw [this]
                | cons q qs =>
                  simp only [joinStr, List.cons_append] at this ⊢
                  rw [this]
        have suffix : ∀ (l : List PyStr) (e : PyStr), joinStr ['.'] (l ++ [e]) = e ∨ ('.' :: e) <:+ joinStr ['.'] (l ++ [e]) := by
          intro l e
          induction l with
          | nil => left; rfl
          | cons a l ih =>
            right
            cases hl : l ++ [e] with
            | nil => simp at hl
            | cons q qs =>
              have e1 : joinStr ['.'] (a :: l ++ [e]) = a ++ '.' :: joinStr ['.'] (q :: qs) := by
                rw [List.cons_append, hl]
                simp [joinStr]
              rw [e1, ← hl]
              rcases ih with h | h
              · rw [h]
                exact List.suffix_append _ _
              · exact h.trans ((List.suffix_cons '.' _).trans (List.suffix_append _ _))
        have hjoin := join k _ rfl
        unfold decodeItem at h ⊢
        cases hrev : (splitDot k).reverse with
        | nil =>
          rw [hrev] at h
          dsimp only at h ⊢
          exact ⟨x, rfl, fun _ => by cases h; rfl⟩
        | cons e rest =>
          rw [hrev] at h
          dsimp only at h ⊢
          have hsd : splitDot k = rest.reverse ++ [e] := by
            have := congrArg List.reverse hrev
            simpa using this
          split at h
          · rename_i hgz
            rw [if_pos hgz]
            cases hx : x.read with
            | error err => rw [hx] at h; cases h
            | ok b =>
              rw [hx] at h
              dsimp only at h ⊢
              cases hu : D.gunzip b with
              | error err => rw [hu] at h; cases h
              | ok u =>
                rw [hu] at h
                dsimp only at h ⊢
                cases rest with
                | nil => exact ⟨y, h, fun _ => rfl⟩
                | cons e2 rest' =>
                  dsimp only at h ⊢
                  obtain ⟨y', h1, h2⟩ := fin k e2 _ y _ h
                  refine ⟨y', h1, fun hno => ?_⟩
                  rcases h2 with h2 | himg
                  · exact h2
                  · exfalso
                    obtain ⟨_, n2, _, n4⟩ := hno e2 himg
                    rw [hsd] at hjoin
                    subst hgz
                    have e1 : joinStr ['.'] ((e2 :: rest').reverse ++ ["gz".toList]) =
                        joinStr ['.'] (rest'.reverse ++ [e2]) ++ ".gz".toList := by
                      rw [List.reverse_cons]
                      generalize rest'.reverse = l
                      induction l with
                      | nil => simp [joinStr]
                      | cons a l ihl =>
                        cases hl : l ++ [e2] with
                        | nil => simp at hl
                        | cons q qs =>
                          rw [hl] at ihl
                          have : a :: l ++ [e2] = a :: q :: qs := by rw [List.cons_append, hl]
                          rw [this]
                          simp only [List.cons_append] at ihl ⊢
                          simp only [joinStr, ihl, List.append_assoc]
                    rw [e1] at hjoin
                    rcases suffix rest'.reverse e2 with hsx | hsx
                    · rw [hsx] at hjoin
                      exact n4 hjoin.symm
                    · obtain ⟨t, ht⟩ := hsx
                      rw [← ht] at hjoin
                      exact n2 ⟨t, by rw [← hjoin]; simp⟩
          · rename_i hgz
            rw [if_neg hgz]
            obtain ⟨y', h1, h2⟩ := fin k e _ y _ h
            refine ⟨y', h1, fun hno => ?_⟩
            rcases h2 with h2 | himg
            · exact h2
            · exfalso
              obtain ⟨n1, _, n3, _⟩ := hno e himg
              rw [hsd] at hjoin
              rcases suffix rest.reverse e with hsx | hsx
              · rw [hsx] at hjoin
                exact n3 hjoin.symm
              · rw [hjoin] at hsx
                exact n1 hsx
      -- all entries
      clear pick_false fin
      induction s generalizing r with
      | nil => cases hr; exact ⟨[], rfl, fun _ _ => rfl⟩
      | cons kx s ih =>
        obtain ⟨k0, x0⟩ := kx
        unfold decode at hr
        cases hy : decodeItem D true k0 x0 with
        | error e => rw [hy] at hr; cases hr
        | ok y =>
          cases hr' : decode D true s with
          | error e => rw [hy, hr'] at hr; cases hr
          | ok r1 =>
            rw [hy, hr'] at hr
            cases hr
            obtain ⟨y', h1, h2⟩ := one k0 x0 y hy
            obtain ⟨r', h3, h4⟩ := ih r1 hr'
            refine ⟨(k0, y') :: r', ?_, fun k hk => ?_⟩
            · unfold decode
              rw [h1, h3]
              rfl
            · rw [Dict.get?_cons, Dict.get?_cons]
              split
              · rename_i hkk
                subst hkk
                rw [h2 hk]
              · exact h4 k hk

/-- **C72 fails for compressed members of an unknown type**: the entry of a `.gz` member whose inner extension is not known is
neither the decompressed contents nor the stream as it was: it is the compressed stream, read to its end, so that reading
it gives nothing. -/
theorem c72_gz_unknown (split : PyStr → PyStr × PyStr) (hs : IsSplit split) (D : Decoders B V) (images : Bool)
    (tar : Tar B) (i : Nat) (idx : List Nat) (hi : (groups split tar)[i]? = some idx) (r : Dict PyStr (Item B V))
    (hr : getItem split D images tar i = .ok r) (pre e : PyStr) (b : B) (he : '.' ∉ e)
    (hl : LastWith split tar idx (pre ++ '.' :: e ++ ".gz".toList) b) (hn : e ∉ (table D images).map Prod.fst) :
    r.get? (pre ++ '.' :: e ++ ".gz".toList) = some (.drained b) := by
  have hg := List.mem_of_getElem? hi
  obtain ⟨_, k0, hk0⟩ := c72_one_key split tar idx hg
  have hkey : KeyOf split tar idx k0 := fun j hj => by
    obtain ⟨n, b, h1, _, _, h2⟩ := hk0 j hj
    exact ⟨n, b, h1, h2⟩
  obtain ⟨s, h1, h2, h3⟩ := rawSample_spec (V := V) split tar idx hg k0 hkey
  rw [getItem_inv hi h1] at hr
  have hl' := hl
  obtain ⟨l1, l2, j, n, rfl, ht, hx, _⟩ := hl'
  obtain ⟨n', b', ht', hd1, hd2, _⟩ := hk0 j (by simp)
  rw [ht] at ht'
  cases ht'
  obtain ⟨hne, hint⟩ := ext_ne_keyName hs hd1 hd2
  rw [hx] at hne hint
  obtain ⟨y', h4, h5⟩ := (decode_get D images s r hr _).2 _ ((h3 _ b hne).1.2 hl)
  rw [decodeItem_gz D images pre e he] at h4
  cases hu : D.gunzip b with
  | error err => rw [hu] at h4; cases h4
  | ok u =>
    rw [hu] at h4
    dsimp only at h4
    rw [finish_none ((pick_none D images e).2 hn)] at h4
    cases h4
    exact h5

/-! ### Concrete cases -/

/-- Splits at the first dot (names without directories). -/
def firstDot (n : PyStr) : PyStr × PyStr := (n.takeWhile (· ≠ '.'), n.dropWhile (· ≠ '.'))

theorem isSplit_firstDot : IsSplit firstDot := by
  intro n h h0
  refine ⟨by simp [firstDot], ?_⟩
  clear h0
  induction n with
  | nil => simp at h
  | cons c n ih =>
    by_cases hc : c = '.'
    · subst hc; exact ⟨n, by simp [firstDot]⟩
    · have : '.' ∈ n := by
        rcases List.mem_cons.1 h with e | e
        · exact absurd e.symm hc
        · exact e
      obtain ⟨s, hs⟩ := ih this
      exact ⟨s, by simpa [firstDot, hc] using hs⟩

/-- Decoders for numbers in place of bytes: text adds 100, integers add 200, and so on; compressed contents are even. -/
def exDec : Decoders Nat Nat where
  gunzip b := if b % 2 = 0 then .ok (b / 2) else .error .valueError
  text b := .ok (100 + b)
  int b := .ok (200 + b)
  image b := .ok (300 + b)
  json b := .ok (400 + b)
  npy b := .ok (500 + b)
  pickle b := .ok (600 + b)

/-- Two samples and a member without an extension. -/
def exTar : Tar Nat :=
  [("a.jpg".toList, 1), ("a.cls".toList, 2), ("README".toList, 3), ("b.txt.gz".toList, 4), ("b.cls".toList, 5),
    ("b.raw.gz".toList, 6), ("b.cls".toList, 7)]

example : groups firstDot exTar = [[0, 1], [3, 4, 5, 6]] := by decide +kernel

example : getItem firstDot exDec true exTar 0 = .ok [(".jpg".toList, .value 301), (".cls".toList, .value 202),
    ("__key__".toList, .key "a".toList)] := by decide +kernel

example : getItem firstDot exDec false exTar 0 = .ok [(".jpg".toList, .stream 1), (".cls".toList, .value 202),
    ("__key__".toList, .key "a".toList)] := by decide +kernel

example : getItem firstDot exDec true exTar 1 = .ok [(".txt.gz".toList, .value 102), (".cls".toList, .value 207),
    (".raw.gz".toList, .drained 6), ("__key__".toList, .key "b".toList)] := by decide +kernel

/-- **C72 fails for repeated extensions**: of two members of a sample with the same extension only the last one is kept (in
`exTar` the label 5 of sample `b` is lost). -/
theorem c72_repeated_loses (e : PyStr) (b : Nat) (h : LastWith firstDot exTar [3, 4, 5, 6] e b) : b ≠ 5 := by
  rintro rfl
  obtain ⟨l1, l2, j, n, h1, h2, rfl, h3⟩ := h
  have hj : j = 4 := by
    have : j ∈ [3, 4, 5, 6] := by rw [h1]; simp
    simp only [List.mem_cons, List.not_mem_nil, or_false] at this
    rcases this with rfl | rfl | rfl | rfl
    · cases h2
    · rfl
    · cases h2
    · cases h2
  subst hj
  cases h2
  refine h3 6 ?_ "b.cls".toList 7 rfl (by decide +kernel)
  have h6 : 6 ∈ l1 ++ 4 :: l2 := by rw [← h1]; decide
  have hn : ([3, 4, 5, 6] : List Nat).Pairwise (· < ·) := by decide
  rw [h1, List.pairwise_append] at hn
  rcases List.mem_append.1 h6 with h | h
  · exact absurd (hn.2.2 6 h 4 (by simp)) (by decide)
  · rcases List.mem_cons.1 h with h | h
    · cases h
    · exact h

end Mixtera.Web
