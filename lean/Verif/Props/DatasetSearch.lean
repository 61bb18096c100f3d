import Verif.Model.DatasetSearch
import Mathlib.Logic.Relation
import Mathlib.Data.List.Basic
import Mathlib.Data.Finset.Card
import Mathlib.Tactic.Tauto

/-!
# C68: which dataset a checkpoint is taken of

`handle_mixtera_checkpoint` finds the Mixtera dataset by searching the objects behind the data loader it is given.
-/

namespace Mixtera.Find

set_option linter.unusedSectionVars false

variable {O : Type} [DecidableEq O]

/-! ## Specification -/

/-- `b` is one step behind `a`: an attribute value of `a` that is a Mixtera dataset or an object with attributes, or an
element of a collection that is an attribute value of `a`. -/
inductive Behind (h : Heap O) : O → O → Prop
  | dataset {a v : O} : v ∈ h.attrs a → h.isTorch v = true → Behind h a v
  | element {a v b : O} {l : List O} : v ∈ h.attrs a → h.items v = some l → b ∈ l → Behind h a b
  | object {a v : O} : v ∈ h.attrs a → h.items v = none → h.hasDict v = true → Behind h a v

/-- Any number of steps. -/
abbrev Reach (h : Heap O) : O → O → Prop := Relation.ReflTransGen (Behind h)

/-- Steps between the wrappers of HuggingFace datasets. -/
inductive Wraps (h : Heap O) : O → O → Prop
  | inner {a b : O} : h.exIterable1 a = some b → Wraps h a b
  | plain {a b : O} : h.exIterable2 a = some b → Wraps h a b

/-! ## Soundness -/

theorem searchItems_sound (f : List O → O → Res O × List O) (l : List O) : ∀ (vis : List O) (d : O),
    (searchItems f vis l).1 = .found d → ∃ (v : List O) (o : O), o ∈ l ∧ (f v o).1 = .found d := by
  induction l with
  | nil => intro vis d hd; simp [searchItems] at hd
  | cons a l ih =>
    intro vis d hd
    rw [searchItems] at hd
    split at hd
    · obtain ⟨v, o, ho, hf⟩ := ih _ _ hd
      exact ⟨v, o, List.mem_cons_of_mem _ ho, hf⟩
    · exact ⟨vis, a, List.mem_cons_self, hd⟩

theorem searchAttrs_sound (h : Heap O) (f : List O → O → Res O × List O) (l : List O) : ∀ (vis : List O) (d : O),
    (searchAttrs h f vis l).1 = .found d →
      ∃ v ∈ l, (h.isTorch v = true ∧ d = v) ∨
        (∃ (its : List O) (w : List O) (o : O), h.items v = some its ∧ o ∈ its ∧ (f w o).1 = .found d) ∨
        (h.items v = none ∧ h.hasDict v = true ∧ ∃ w : List O, (f w v).1 = .found d) := by
  induction l with
  | nil => intro vis d hd; simp [searchAttrs] at hd
  | cons a l ih =>
    intro vis d hd
    rw [searchAttrs] at hd
    split at hd
    · obtain ⟨v, hv, hr⟩ := ih _ _ hd
      exact ⟨v, List.mem_cons_of_mem _ hv, hr⟩
    · refine ⟨a, List.mem_cons_self, ?_⟩
      rw [searchValue] at hd
      split at hd
      · rename_i ht
        left
        exact ⟨ht, by simpa using hd.symm⟩
      · split at hd
        · rename_i its hi
          obtain ⟨v, o, ho, hf⟩ := searchItems_sound f its _ _ hd
          exact .inr (.inl ⟨its, v, o, hi, ho, hf⟩)
        · rename_i hi
          split at hd
          · rename_i hh
            exact .inr (.inr ⟨hi, hh, _, hd⟩)
          · simp at hd

/-- **C68.** Whatever the objects look like — cycles, sharing, endlessly many of them — an object the search returns is a
Mixtera dataset and lies behind the object that was searched. -/
theorem c68_sound (h : Heap O) (limit : Nat) : ∀ (vis : List O) (o d : O),
    (findObj h limit vis o).1 = .found d → h.isTorch d = true ∧ Reach h o d := by
  induction limit with
  | zero => intro vis o d hd; simp [findObj] at hd
  | succ n ih =>
    intro vis o d hd
    rw [findObj] at hd
    split at hd
    · simp at hd
    · split at hd
      · rename_i ht
        have : o = d := by simpa using hd
        subst this
        exact ⟨ht, .refl⟩
      · obtain ⟨v, hv, h1 | ⟨its, w, x, hi, hx, hf⟩ | ⟨hi, hh, w, hf⟩⟩ := searchAttrs_sound h _ _ _ _ hd
        · obtain ⟨ht, rfl⟩ := h1
          exact ⟨ht, .single (.dataset hv ht)⟩
        · obtain ⟨ht, hr⟩ := ih _ _ _ hf
          exact ⟨ht, .head (.element hv hi hx) hr⟩
        · obtain ⟨ht, hr⟩ := ih _ _ _ hf
          exact ⟨ht, .head (.object hv hi hh) hr⟩

/-! ## Completeness -/

/-- What a finished call that found nothing leaves behind. -/
def Closed (h : Heap O) (vis vis' : List O) : Prop :=
  (∀ x ∈ vis, x ∈ vis') ∧
    ∀ x ∈ vis', x ∉ vis → h.isTorch x = false ∧ ∀ b, Behind h x b → b ∈ vis'

theorem Closed.refl (h : Heap O) (vis : List O) : Closed h vis vis :=
  ⟨fun _ hx => hx, fun _ hx hn => absurd hx hn⟩

theorem Closed.trans {h : Heap O} {a b c : List O} (h1 : Closed h a b) (h2 : Closed h b c) : Closed h a c := by
  refine ⟨fun x hx => h2.1 x (h1.1 x hx), ?_⟩
  intro x hx hn
  by_cases hb : x ∈ b
  · obtain ⟨ht, he⟩ := h1.2 x hb hn
    exact ⟨ht, fun y hy => h2.1 y (he y hy)⟩
  · exact h2.2 x hx hb

theorem searchItems_closed (h : Heap O) (f : List O → O → Res O × List O)
    (hf : ∀ (vis : List O) (o : O), (f vis o).1 = .nothing → Closed h vis (f vis o).2 ∧ o ∈ (f vis o).2)
    (l : List O) : ∀ vis : List O, (searchItems f vis l).1 = .nothing →
      Closed h vis (searchItems f vis l).2 ∧ ∀ o ∈ l, o ∈ (searchItems f vis l).2 := by
  induction l with
  | nil => intro vis _; exact ⟨Closed.refl h vis, by simp⟩
  | cons a l ih =>
    intro vis hn
    rw [searchItems] at hn ⊢
    split at hn
    · rename_i vis' hv
      have h1 := hf vis a (by rw [hv])
      rw [hv] at h1
      obtain ⟨hc, hm⟩ := ih vis' hn
      refine ⟨h1.1.trans hc, ?_⟩
      intro o ho
      rcases List.mem_cons.1 ho with e | ho
      · rw [e]; exact hc.1 _ h1.2
      · exact hm o ho
    · rename_i hne
      exact absurd (Prod.ext hn rfl : f vis a = (.nothing, (f vis a).2)) (hne _)

theorem searchValue_closed (h : Heap O) (f : List O → O → Res O × List O)
    (hf : ∀ (vis : List O) (o : O), (f vis o).1 = .nothing → Closed h vis (f vis o).2 ∧ o ∈ (f vis o).2)
    (vis : List O) (v : O) (hn : (searchValue h f vis v).1 = .nothing) :
    Closed h vis (searchValue h f vis v).2 ∧ h.isTorch v = false ∧
      (∀ l, h.items v = some l → ∀ b ∈ l, b ∈ (searchValue h f vis v).2) ∧
      (h.items v = none → h.hasDict v = true → v ∈ (searchValue h f vis v).2) := by
  unfold searchValue at hn ⊢
  split at hn
  · simp at hn
  · rename_i ht
    rw [if_neg ht]
    have ht' : h.isTorch v = false := by simpa using ht
    split at hn
    · rename_i l hi
      obtain ⟨hc, hm⟩ := searchItems_closed h f hf l vis hn
      refine ⟨hc, ht', ?_, ?_⟩
      · intro l' hl' b hb
        rw [hi] at hl'
        cases hl'
        exact hm b hb
      · intro hi'; rw [hi] at hi'; cases hi'
    · rename_i hi
      by_cases hh : h.hasDict v = true
      · rw [if_pos hh] at hn ⊢
        obtain ⟨hc, hm⟩ := hf vis v hn
        refine ⟨hc, ht', ?_, fun _ _ => hm⟩
        intro l' hl'; rw [hi] at hl'; cases hl'
      · rw [if_neg hh]
        refine ⟨Closed.refl h vis, ht', ?_, fun _ hd => absurd hd hh⟩
        intro l' hl'; rw [hi] at hl'; cases hl'

theorem searchAttrs_closed (h : Heap O) (f : List O → O → Res O × List O)
    (hf : ∀ (vis : List O) (o : O), (f vis o).1 = .nothing → Closed h vis (f vis o).2 ∧ o ∈ (f vis o).2)
    (l : List O) : ∀ vis : List O, (searchAttrs h f vis l).1 = .nothing →
      Closed h vis (searchAttrs h f vis l).2 ∧ ∀ v ∈ l, h.isTorch v = false ∧
        (∀ its, h.items v = some its → ∀ b ∈ its, b ∈ (searchAttrs h f vis l).2) ∧
        (h.items v = none → h.hasDict v = true → v ∈ (searchAttrs h f vis l).2) := by
  induction l with
  | nil => intro vis _; exact ⟨Closed.refl h vis, by simp⟩
  | cons a l ih =>
    intro vis hn
    rw [searchAttrs] at hn ⊢
    split at hn
    · rename_i vis' hv
      have h1 := searchValue_closed h f hf vis a (by rw [hv])
      rw [hv] at h1
      obtain ⟨hc, hm⟩ := ih vis' hn
      refine ⟨h1.1.trans hc, ?_⟩
      intro v hvl
      rcases List.mem_cons.1 hvl with e | hvl
      · rw [e]
        exact ⟨h1.2.1, fun its hi b hb => hc.1 _ (h1.2.2.1 its hi b hb), fun hi hd => hc.1 _ (h1.2.2.2 hi hd)⟩
      · exact hm v hvl
    · rename_i hne
      exact absurd (Prod.ext hn rfl : searchValue h f vis a = (.nothing, (searchValue h f vis a).2)) (hne _)

theorem findObj_closed (h : Heap O) (limit : Nat) : ∀ (vis : List O) (o : O), (findObj h limit vis o).1 = .nothing →
    Closed h vis (findObj h limit vis o).2 ∧ o ∈ (findObj h limit vis o).2 := by
  induction limit with
  | zero => intro vis o hn; simp [findObj] at hn
  | succ n ih =>
    intro vis o hn
    unfold findObj at hn ⊢
    split at hn
    · rename_i hv
      rw [if_pos hv]
      exact ⟨Closed.refl h vis, hv⟩
    · rename_i hv
      rw [if_neg hv]
      split at hn
      · simp at hn
      · rename_i ht
        rw [if_neg ht]
        obtain ⟨hc, hm⟩ := searchAttrs_closed h _ ih _ _ hn
        have ho := hc.1 o List.mem_cons_self
        refine ⟨⟨fun x hx => hc.1 x (List.mem_cons_of_mem _ hx), ?_⟩, ho⟩
        intro x hx hnx
        by_cases hxo : x = o
        · subst hxo
          refine ⟨by simpa using ht, ?_⟩
          intro b hb
          cases hb with
          | dataset hv' ht' => exact absurd ht' (by rw [(hm _ hv').1]; decide)
          | element hv' hi hb' => exact (hm _ hv').2.1 _ hi _ hb'
          | object hv' hi hd => exact (hm _ hv').2.2 hi hd
        · exact hc.2 x hx (by simp [hxo, hnx])

/-- **C68.** When the search ends without finding anything there is nothing to find: no Mixtera dataset lies behind the
object, over however many steps. -/
theorem c68_complete (h : Heap O) (limit : Nat) (o : O) (hn : (findObj h limit [] o).1 = .nothing) :
    ∀ d, Reach h o d → h.isTorch d = false := by
  obtain ⟨hc, ho⟩ := findObj_closed h limit [] o hn
  intro d hd
  have : d ∈ (findObj h limit [] o).2 := by
    induction hd with
    | refl => exact ho
    | tail _ hb ih => exact (hc.2 _ ih (by simp)).2 _ hb
  exact (hc.2 _ this (by simp)).1

/-! ## Recursion depth -/

theorem searchItems_mono (f : List O → O → Res O × List O) (hf : ∀ (vis : List O) (o x : O), x ∈ vis → x ∈ (f vis o).2)
    (l : List O) : ∀ (vis : List O) (x : O), x ∈ vis → x ∈ (searchItems f vis l).2 := by
  induction l with
  | nil => intro vis x hx; exact hx
  | cons a l ih =>
    intro vis x hx
    rw [searchItems]
    split
    · rename_i vis' hv
      exact ih _ _ (by simpa [hv] using hf vis a x hx)
    · exact hf vis a x hx

theorem searchItems_noErr (U : Finset O) (n : Nat) (f : List O → O → Res O × List O)
    (hf : ∀ (vis : List O) (o x : O), x ∈ vis → x ∈ (f vis o).2)
    (hg : ∀ (vis : List O) (o : O), o ∈ U → (U.filter (· ∉ vis)).card < n → (f vis o).1 ≠ .recursionError)
    (l : List O) (hl : ∀ o ∈ l, o ∈ U) : ∀ vis : List O, (U.filter (· ∉ vis)).card < n →
      (searchItems f vis l).1 ≠ .recursionError := by
  induction l with
  | nil => intro vis _; simp [searchItems]
  | cons a l ih =>
    intro vis hc
    rw [searchItems]
    split
    · rename_i vis' hv
      apply ih (fun o ho => hl o (List.mem_cons_of_mem _ ho))
      refine lt_of_le_of_lt (Finset.card_le_card ?_) hc
      intro x hx
      rw [Finset.mem_filter] at hx ⊢
      exact ⟨hx.1, fun h' => hx.2 (by simpa [hv] using hf vis a x h')⟩
    · exact hg vis a (hl a List.mem_cons_self) hc

theorem searchValue_mono (h : Heap O) (f : List O → O → Res O × List O)
    (hf : ∀ (vis : List O) (o x : O), x ∈ vis → x ∈ (f vis o).2) (vis : List O) (v x : O) (hx : x ∈ vis) :
    x ∈ (searchValue h f vis v).2 := by
  unfold searchValue
  split
  · exact hx
  · split
    · exact searchItems_mono f hf _ _ _ hx
    · split
      · exact hf _ _ _ hx
      · exact hx

theorem searchAttrs_mono (h : Heap O) (f : List O → O → Res O × List O)
    (hf : ∀ (vis : List O) (o x : O), x ∈ vis → x ∈ (f vis o).2)
    (l : List O) : ∀ (vis : List O) (x : O), x ∈ vis → x ∈ (searchAttrs h f vis l).2 := by
  induction l with
  | nil => intro vis x hx; exact hx
  | cons a l ih =>
    intro vis x hx
    rw [searchAttrs]
    split
    · rename_i vis' hv
      exact ih _ _ (by simpa [hv] using searchValue_mono h f hf vis a x hx)
    · exact searchValue_mono h f hf vis a x hx

theorem findObj_mono (h : Heap O) (limit : Nat) : ∀ (vis : List O) (o x : O), x ∈ vis → x ∈ (findObj h limit vis o).2 := by
  induction limit with
  | zero => intro vis o x hx; exact hx
  | succ n ih =>
    intro vis o x hx
    unfold findObj
    split
    · exact hx
    · split
      · exact List.mem_cons_of_mem _ hx
      · exact searchAttrs_mono h _ ih _ _ _ (List.mem_cons_of_mem _ hx)

theorem searchAttrs_noErr (h : Heap O) (U : Finset O) (n : Nat) (f : List O → O → Res O × List O)
    (hf : ∀ (vis : List O) (o x : O), x ∈ vis → x ∈ (f vis o).2)
    (hg : ∀ (vis : List O) (o : O), o ∈ U → (U.filter (· ∉ vis)).card < n → (f vis o).1 ≠ .recursionError)
    (l : List O) (hl : ∀ v ∈ l, (∀ its, h.items v = some its → ∀ b ∈ its, b ∈ U) ∧
      (h.items v = none → h.hasDict v = true → v ∈ U)) : ∀ vis : List O, (U.filter (· ∉ vis)).card < n →
      (searchAttrs h f vis l).1 ≠ .recursionError := by
  induction l with
  | nil => intro vis _; simp [searchAttrs]
  | cons a l ih =>
    intro vis hc
    have hval : (searchValue h f vis a).1 ≠ .recursionError := by
      unfold searchValue
      split
      · simp
      · split
        · rename_i its hi
          exact searchItems_noErr U n f hf hg its ((hl a List.mem_cons_self).1 its hi) vis hc
        · rename_i hi
          split
          · rename_i hd
            exact hg _ _ ((hl a List.mem_cons_self).2 hi hd) hc
          · simp
    rw [searchAttrs]
    split
    · rename_i vis' hv
      apply ih (fun o ho => hl o (List.mem_cons_of_mem _ ho))
      refine lt_of_le_of_lt (Finset.card_le_card ?_) hc
      intro x hx
      rw [Finset.mem_filter] at hx ⊢
      exact ⟨hx.1, fun h' => hx.2 (by simpa [hv] using searchValue_mono h f hf vis a x h')⟩
    · exact hval

theorem findObj_noErr (h : Heap O) (U : Finset O) (hU : ∀ a ∈ U, ∀ b, Behind h a b → b ∈ U) (limit : Nat) :
    ∀ (vis : List O) (o : O), o ∈ U → (U.filter (· ∉ vis)).card < limit → (findObj h limit vis o).1 ≠ .recursionError := by
  induction limit with
  | zero => intro vis o _ hc; omega
  | succ n ih =>
    intro vis o ho hc
    unfold findObj
    split
    · simp
    · rename_i hv
      split
      · simp
      · refine searchAttrs_noErr h U n _ (findObj_mono h n) ih _ ?_ _ ?_
        · intro v hv'
          exact ⟨fun its hi b hb => hU o ho b (.element hv' hi hb), fun hi hd => hU o ho v (.object hv' hi hd)⟩
        · have : (U.filter (· ∉ o :: vis)).card < (U.filter (· ∉ vis)).card := by
            apply Finset.card_lt_card
            refine ⟨?_, ?_⟩
            · intro x hx
              rw [Finset.mem_filter] at hx ⊢
              exact ⟨hx.1, fun h' => hx.2 (List.mem_cons_of_mem _ h')⟩
            · intro hs
              have := hs (Finset.mem_filter.2 ⟨ho, hv⟩ : o ∈ U.filter (· ∉ vis))
              rw [Finset.mem_filter] at this
              exact this.2 List.mem_cons_self
          omega

/-- **C68.** If the objects behind the argument, cyclic or not, all lie in a set of fewer elements than the recursion limit,
the search decides: it finds a Mixtera dataset if and only if there is one. -/
theorem c68_decides_partial (h : Heap O) (limit : Nat) (o : O) (U : Finset O) (hU : ∀ b, Reach h o b → b ∈ U)
    (hlim : U.card < limit) :
    (∃ d, (findObj h limit [] o).1 = .found d) ↔ ∃ d, Reach h o d ∧ h.isTorch d = true := by
  constructor
  · rintro ⟨d, hd⟩
    obtain ⟨ht, hr⟩ := c68_sound h limit _ _ _ hd
    exact ⟨d, hr, ht⟩
  · rintro ⟨d, hr, ht⟩
    classical
    cases hres : (findObj h limit [] o).1 with
    | found e => exact ⟨e, rfl⟩
    | nothing =>
      exact absurd ht (by rw [c68_complete h limit o hres d hr]; decide)
    | recursionError =>
      exfalso
      refine findObj_noErr h (U.filter (fun x => Reach h o x)) ?_ limit [] o ?_ ?_ hres
      · intro a ha b hb
        rw [Finset.mem_filter] at ha ⊢
        exact ⟨hU b (ha.2.tail hb), ha.2.tail hb⟩
      · exact Finset.mem_filter.2 ⟨hU o .refl, .refl⟩
      · refine lt_of_le_of_lt ?_ hlim
        exact (Finset.card_filter_le _ _).trans (Finset.card_filter_le _ _)

/-! ## What it does not do -/

theorem endless_aux (h : Heap O) (f : Nat → O) (hinj : ∀ i j, f i = f j → i = j)
    (hf : ∀ n, ∃ l, h.attrs (f n) = f (n + 1) :: l) (ht : ∀ n, h.isTorch (f n) = false)
    (hi : ∀ n, h.items (f n) = none) (hd : ∀ n, h.hasDict (f n) = true) (limit : Nat) :
    ∀ (n : Nat) (vis : List O), (∀ m, n ≤ m → f m ∉ vis) → (findObj h limit vis (f n)).1 = .recursionError := by
  induction limit with
  | zero => intro n vis _; rfl
  | succ k ih =>
    intro n vis hv
    obtain ⟨l, hl⟩ := hf n
    have h1 : (findObj h k (f n :: vis) (f (n + 1))).1 = .recursionError := by
      apply ih
      intro m hm hmem
      rcases List.mem_cons.1 hmem with e | hmem
      · have := hinj _ _ e; omega
      · exact hv m (by omega) hmem
    unfold findObj
    rw [if_neg (hv n (Nat.le_refl n)), if_neg (by rw [ht n]; decide), hl, searchAttrs]
    have h2 : searchValue h (findObj h k) (f n :: vis) (f (n + 1)) = findObj h k (f n :: vis) (f (n + 1)) := by
      unfold searchValue
      rw [if_neg (by rw [ht]; decide), hi, if_pos (hd _)]
    rw [h2]
    split
    · rename_i vis' he
      rw [he] at h1; cases h1
    · exact h1

/-- **C68, what fails.** An object whose first attribute is computed anew on every access, and has such an attribute itself —
a torch tensor's `H`, for instance — ends the search with a `RecursionError`, whatever the recursion limit is and even if the
next attribute is the dataset. -/
theorem c68_endless_partial (h : Heap O) (f : Nat → O) (hinj : ∀ i j, f i = f j → i = j)
    (hf : ∀ n, ∃ l, h.attrs (f n) = f (n + 1) :: l) (ht : ∀ n, h.isTorch (f n) = false)
    (hi : ∀ n, h.items (f n) = none) (hd : ∀ n, h.hasDict (f n) = true) (limit : Nat) :
    (findObj h limit [] (f 0)).1 = .recursionError :=
  endless_aux h f hinj hf ht hi hd limit 0 [] (by simp)

/-! ## HuggingFace wrappers -/

theorem findHF_sound (h : Heap O) (root : O) (fuel : Nat) : ∀ (vis stack : List O) (d : O),
    (∀ x ∈ stack, Relation.ReflTransGen (Wraps h) root x) → findHF h fuel vis stack = some d →
      (h.isHFDataset d = true ∨ h.isHFIterable d = true) ∧ Relation.ReflTransGen (Wraps h) root d := by
  induction fuel with
  | zero => intro vis stack d _ hd; simp [findHF] at hd
  | succ n ih =>
    intro vis stack d hs hd
    cases stack with
    | nil => simp [findHF] at hd
    | cons o stack =>
      rw [findHF] at hd
      split at hd
      · exact ih _ _ _ (fun x hx => hs x (List.mem_cons_of_mem _ hx)) hd
      · split at hd
        · rename_i hh
          cases hd
          exact ⟨by simpa using hh, hs _ List.mem_cons_self⟩
        · refine ih _ _ _ ?_ hd
          intro x hx
          rw [List.mem_append, List.mem_append] at hx
          rcases hx with hx | hx | hx
          · exact (hs o List.mem_cons_self).tail (.plain (by simpa using hx))
          · exact (hs o List.mem_cons_self).tail (.inner (by simpa using hx))
          · exact hs x (List.mem_cons_of_mem _ hx)

theorem findHF_complete (h : Heap O) (U : Finset O) (hU : ∀ a ∈ U, ∀ b, Wraps h a b → b ∈ U) (fuel : Nat) :
    ∀ (vis stack : List O), (∀ x ∈ stack, x ∈ U) → 2 * (U.filter (· ∉ vis)).card + stack.length < fuel →
      (∀ x ∈ vis, (h.isHFDataset x = false ∧ h.isHFIterable x = false) ∧ ∀ b, Wraps h x b → b ∈ vis ∨ b ∈ stack) →
      findHF h fuel vis stack = none →
      ∃ S : List O, (∀ x ∈ stack, x ∈ S) ∧
        ∀ x ∈ S, (h.isHFDataset x = false ∧ h.isHFIterable x = false) ∧ ∀ b, Wraps h x b → b ∈ S := by
  induction fuel with
  | zero => intro vis stack _ hc; omega
  | succ n ih =>
    intro vis stack hs hc hv hn
    cases stack with
    | nil =>
      refine ⟨vis, by simp, ?_⟩
      intro x hx
      refine ⟨(hv x hx).1, fun b hb => ?_⟩
      rcases (hv x hx).2 b hb with h' | h'
      · exact h'
      · simp at h'
    | cons o stack =>
      rw [findHF] at hn
      split at hn
      · rename_i ho
        -- already visited: it is among the visited ones, whose closure contains it
        have := ih vis stack (fun x hx => hs x (List.mem_cons_of_mem _ hx)) (by simp at hc; omega) ?_ hn
        · obtain ⟨S, hS, hcl⟩ := this
          refine ⟨S ++ vis, ?_, ?_⟩
          · intro x hx
            rcases List.mem_cons.1 hx with e | hx
            · rw [e]; exact List.mem_append_right _ ho
            · exact List.mem_append_left _ (hS x hx)
          · intro x hx
            rcases List.mem_append.1 hx with hx | hx
            · exact ⟨(hcl x hx).1, fun b hb => List.mem_append_left _ ((hcl x hx).2 b hb)⟩
            · refine ⟨(hv x hx).1, fun b hb => ?_⟩
              rcases (hv x hx).2 b hb with h' | h'
              · exact List.mem_append_right _ h'
              · rcases List.mem_cons.1 h' with e | h'
                · rw [e]; exact List.mem_append_right _ ho
                · exact List.mem_append_left _ (hS b h')
        · intro x hx
          refine ⟨(hv x hx).1, fun b hb => ?_⟩
          rcases (hv x hx).2 b hb with h' | h'
          · exact .inl h'
          · rcases List.mem_cons.1 h' with e | h'
            · rw [e]; exact .inl ho
            · exact .inr h'
      · rename_i ho
        split at hn
        · cases hn
        · rename_i hh
          have hh' : h.isHFDataset o = false ∧ h.isHFIterable o = false := by simpa using hh
          have hoU := hs o List.mem_cons_self
          have hcard : (U.filter (· ∉ o :: vis)).card < (U.filter (· ∉ vis)).card := by
            apply Finset.card_lt_card
            refine ⟨?_, ?_⟩
            · intro x hx
              rw [Finset.mem_filter] at hx ⊢
              exact ⟨hx.1, fun h' => hx.2 (List.mem_cons_of_mem _ h')⟩
            · intro hs
              have := hs (Finset.mem_filter.2 ⟨hoU, ho⟩ : o ∈ U.filter (· ∉ vis))
              rw [Finset.mem_filter] at this
              exact this.2 List.mem_cons_self
          have hl1 : (h.exIterable1 o).toList.length ≤ 1 := by cases h.exIterable1 o <;> simp
          have hl2 : (h.exIterable2 o).toList.length ≤ 1 := by cases h.exIterable2 o <;> simp
          have hw : ∀ b, Wraps h o b → b ∈ (h.exIterable2 o).toList ++ ((h.exIterable1 o).toList ++ stack) := by
            intro b hb
            cases hb with
            | inner e => simp [e]
            | plain e => simp [e]
          have := ih (o :: vis) ((h.exIterable2 o).toList ++ ((h.exIterable1 o).toList ++ stack)) ?_ ?_ ?_ hn
          · obtain ⟨S, hS, hcl⟩ := this
            refine ⟨o :: S, ?_, ?_⟩
            · intro x hx
              rcases List.mem_cons.1 hx with e | hx
              · rw [e]; exact List.mem_cons_self
              · exact List.mem_cons_of_mem _ (hS x (by simp [hx]))
            · intro x hx
              rcases List.mem_cons.1 hx with e | hx
              · rw [e]; exact ⟨hh', fun b hb => List.mem_cons_of_mem _ (hS b (hw b hb))⟩
              · exact ⟨(hcl x hx).1, fun b hb => List.mem_cons_of_mem _ ((hcl x hx).2 b hb)⟩
          · intro x hx
            rw [List.mem_append, List.mem_append] at hx
            rcases hx with hx | hx | hx
            · exact hU o hoU x (.plain (by simpa using hx))
            · exact hU o hoU x (.inner (by simpa using hx))
            · exact hs x (List.mem_cons_of_mem _ hx)
          · simp only [List.length_append, List.length_cons] at hc ⊢
            omega
          · intro x hx
            rcases List.mem_cons.1 hx with e | hx
            · rw [e]; exact ⟨hh', fun b hb => .inr (hw b hb)⟩
            · refine ⟨(hv x hx).1, fun b hb => ?_⟩
              rcases (hv x hx).2 b hb with h' | h'
              · exact .inl (List.mem_cons_of_mem _ h')
              · rcases List.mem_cons.1 h' with e | h'
                · rw [e]; exact .inl List.mem_cons_self
                · right; simp [h']

/-- **C68.** Behind HuggingFace wrappers the loop ends and finds a Mixtera dataset if and only if there is one, though
wrappers may refer to each other in circles: with `U` all the wrappers, `2 |U| + 2` rounds are enough. -/
theorem c68_wrapped (h : Heap O) (o : O) (U : Finset O) (hU : ∀ b, Relation.ReflTransGen (Wraps h) o b → b ∈ U)
    (fuel : Nat) (hf : 2 * U.card + 1 < fuel) :
    (∃ d, findHF h fuel [] [o] = some d) ↔
      ∃ d, Relation.ReflTransGen (Wraps h) o d ∧ (h.isHFDataset d = true ∨ h.isHFIterable d = true) := by
  constructor
  · rintro ⟨d, hd⟩
    obtain ⟨h1, h2⟩ := findHF_sound h o fuel [] [o] d (by simp; exact .refl) hd
    exact ⟨d, h2, h1⟩
  · rintro ⟨d, hr, hd⟩
    classical
    cases hres : findHF h fuel [] [o] with
    | some e => exact ⟨e, rfl⟩
    | none =>
      exfalso
      obtain ⟨S, hS, hcl⟩ := findHF_complete h (U.filter (fun x => Relation.ReflTransGen (Wraps h) o x)) (by
          intro a ha b hb
          rw [Finset.mem_filter] at ha ⊢
          exact ⟨hU b (ha.2.tail hb), ha.2.tail hb⟩) fuel [] [o] (by
            intro x hx
            rw [List.mem_singleton] at hx
            rw [hx]
            exact Finset.mem_filter.2 ⟨hU o .refl, .refl⟩) (by
            have : ((U.filter (fun x => Relation.ReflTransGen (Wraps h) o x)).filter (· ∉ ([] : List O))).card ≤ U.card :=
              (Finset.card_filter_le _ _).trans (Finset.card_filter_le _ _)
            simp only [List.length_cons, List.length_nil]
            omega) (by simp) hres
      have : d ∈ S := by
        clear hd
        induction hr with
        | refl => exact hS o List.mem_cons_self
        | tail _ hb ih => exact (hcl _ ih).2 _ hb
      have := (hcl d this).1
      rw [this.1, this.2] at hd
      simp at hd

/-- **C68.** What a checkpoint is taken of is a Mixtera dataset, and belongs to the data loader, dataset or generator that was
given: `x`'s dataset itself or an object behind it. A generator's data loader is the one in its frame. -/
theorem c68_recover (h : Heap O) (installed : Bool) (limit fuel : Nat) (x d : O)
    (hr : recover h installed limit fuel x = .found d) :
    (h.isTorch d = true ∨ h.isHFIterable d = true) ∧
    ∃ s : O, (h.loader x = some s ∨ s = x ∨ ∃ l, h.frameLoader x = some l ∧ h.loader l = some s) ∧
      (Reach h s d ∨ Relation.ReflTransGen (Wraps h) s d) := by
  have hs : h.loader x = some (datasetOf h x) ∨ datasetOf h x = x ∨
      ∃ l, h.frameLoader x = some l ∧ h.loader l = some (datasetOf h x) := by
    unfold datasetOf
    cases hl : h.loader x with
    | some s => exact .inl rfl
    | none =>
      dsimp only
      split
      · exact .inr (.inl rfl)
      · cases hf : h.frameLoader x with
        | none => exact .inr (.inl rfl)
        | some l =>
          dsimp only
          cases hl' : h.loader l with
          | none => exact .inr (.inl rfl)
          | some s => exact .inr (.inr ⟨l, rfl, by simp [hl']⟩)
  rw [recover] at hr
  generalize hds : datasetOf h x = s at hr hs
  split at hr
  · rename_i ht
    have e : s = d := by simpa using hr
    rw [← e]
    exact ⟨.inl ht, s, hs, .inl .refl⟩
  · split at hr
    · cases hr
    · split at hr
      · obtain ⟨ht, hrc⟩ := c68_sound h limit _ _ _ hr
        exact ⟨.inl ht, s, hs, .inl hrc⟩
      · split at hr
        · cases hr
        · rename_i e he
          obtain ⟨_, hw⟩ := findHF_sound h s fuel [] [s] e (by simp; exact .refl) he
          split at hr
          · cases hr
          · rename_i e' he'
            split at hr
            · rename_i hi
              cases hr
              refine ⟨.inr hi, s, hs, .inr ?_⟩
              split at he'
              · exact hw.tail (.inner he')
              · cases he'; exact hw
            · cases hr

/-- **C68.** A Mixtera torch dataset, or a data loader over one, or a generator over such a data loader, is always recognised
as such, whether or not the package `datasets` is installed and whatever the recursion limit is. -/
theorem c68_direct (h : Heap O) (installed : Bool) (limit fuel : Nat) (x d : O) (ht : h.isTorch d = true)
    (hx : h.loader x = some d ∨ (h.loader x = none ∧ (h.isDataset x = true ∧ x = d ∨
      h.isDataset x = false ∧ ∃ l, h.frameLoader x = some l ∧ h.loader l = some d))) :
    recover h installed limit fuel x = .found d := by
  have : datasetOf h x = d := by
    rcases hx with hx | ⟨hx, ⟨hd, e⟩ | ⟨hd, l, hl, hl'⟩⟩
    · simp [datasetOf, hx]
    · subst e; simp [datasetOf, hx, hd]
    · simp [datasetOf, hx, hd, hl, hl']
  simp [recover, this, ht]

/-- What is given is a dataset, a data loader over it, or a generator over such a data loader. -/
def Given (h : Heap O) (x s : O) : Prop :=
  h.loader x = some s ∨ (h.loader x = none ∧ (h.isDataset x = true ∧ x = s ∨
    h.isDataset x = false ∧ ∃ l, h.frameLoader x = some l ∧ h.loader l = some s))

theorem datasetOf_given {h : Heap O} {x s : O} (hx : Given h x s) : datasetOf h x = s := by
  rcases hx with hx | ⟨hx, ⟨hd, e⟩ | ⟨hd, l, hl, hl'⟩⟩
  · simp [datasetOf, hx]
  · subst e; simp [datasetOf, hx, hd]
  · simp [datasetOf, hx, hd, hl, hl']

/-- **C68.** With the package `datasets`, the dataset of a checkpoint is found if there is one: behind a dataset that is not
an HuggingFace one, if some object behind it is a Mixtera torch dataset (given a large enough recursion limit); behind an
HuggingFace one, if it wraps a Mixtera dataset, every one of which has its Mixtera iterable. -/
theorem c68_found_partial (h : Heap O) (limit fuel : Nat) (x s : O) (hx : Given h x s) :
    (h.isIterable s = false → ∀ U : Finset O, (∀ b, Reach h s b → b ∈ U) → U.card < limit →
      ((∃ d, recover h true limit fuel x = .found d) ↔ ∃ d, Reach h s d ∧ h.isTorch d = true)) ∧
    (h.isIterable s = true → ∀ U : Finset O, (∀ b, Relation.ReflTransGen (Wraps h) s b → b ∈ U) → 2 * U.card + 1 < fuel →
      (∀ d, Relation.ReflTransGen (Wraps h) s d → h.isHFDataset d = true → ∃ e, h.exIterable1 d = some e ∧ h.isHFIterable e = true) →
      (∃ d, Relation.ReflTransGen (Wraps h) s d ∧ (h.isHFDataset d = true ∨ h.isHFIterable d = true)) →
      ∃ d, recover h true limit fuel x = .found d) := by
  have hs := datasetOf_given hx
  constructor
  · intro hi U hU hlim
    unfold recover
    rw [hs]
    by_cases ht : h.isTorch s = true
    · rw [if_pos ht]
      exact ⟨fun _ => ⟨s, .refl, ht⟩, fun _ => ⟨s, rfl⟩⟩
    · rw [if_neg ht, if_neg (by simp), if_pos hi]
      exact c68_decides_partial h limit s U hU hlim
  · intro hi U hU hf hin hex
    unfold recover
    rw [hs]
    by_cases ht : h.isTorch s = true
    · rw [if_pos ht]; exact ⟨s, rfl⟩
    · rw [if_neg ht, if_neg (by simp), if_neg (by rw [hi]; simp)]
      obtain ⟨d, hd⟩ := (c68_wrapped h s U hU fuel hf).2 hex
      obtain ⟨h1, h2⟩ := findHF_sound h s fuel [] [s] d (by simp; exact .refl) hd
      rw [hd]
      dsimp only
      by_cases hh : h.isHFDataset d = true
      · obtain ⟨e, he1, he2⟩ := hin d h2 hh
        rw [if_pos hh, he1]
        dsimp only
        rw [if_pos he2]
        exact ⟨e, rfl⟩
      · rw [if_neg hh]
        dsimp only
        rw [if_pos (h1.resolve_left hh)]
        exact ⟨d, rfl⟩

/-- **C68.** Without the package `datasets` only a Mixtera torch dataset itself is found, not one behind another object. -/
theorem c68_not_installed (h : Heap O) (limit fuel : Nat) (x s d : O) (hx : Given h x s) :
    recover h false limit fuel x = .found d ↔ d = s ∧ h.isTorch s = true := by
  unfold recover
  rw [datasetOf_given hx]
  by_cases ht : h.isTorch s = true
  · rw [if_pos ht]
    constructor
    · intro e; injection e with e; exact ⟨e.symm, ht⟩
    · rintro ⟨rfl, _⟩; rfl
  · rw [if_neg ht, if_pos rfl]
    constructor
    · intro e; cases e
    · rintro ⟨_, e⟩; exact absurd e ht

/-! ## Examples -/

/-- 0: a wrapper with the attributes 1 (itself wrapping 0 again), 2 (a list of 3 and the dataset 4). -/
def exHeap : Heap Nat where
  isTorch o := decide (o = 4)
  attrs o := match o with
    | 0 => [0, 1, 2]
    | 1 => [0, 5]
    | _ => []
  items o := if o = 2 then some [3, 4] else none
  hasDict o := decide (o = 0 ∨ o = 1)
  isHFDataset _ := false
  isHFIterable _ := false
  exIterable1 _ := none
  exIterable2 _ := none
  isIterable _ := false
  loader o := if o = 10 then some 0 else none
  isDataset _ := false
  frameLoader o := if o = 11 then some 10 else none

example : (findObj exHeap 5 [] 0).1 = .found 4 := by decide +kernel

example : recover exHeap true 5 0 11 = .found 4 ∧ recover exHeap false 5 0 11 = .nothing := by decide +kernel

/-- **C68, what fails.** A dataset in a list within a list is overlooked: the search takes the elements of a collection as
objects and looks at their attributes only. -/
theorem c68_nested_partial : ∃ (h : Heap Nat) (l1 l2 : Nat), h.attrs 0 = [l1] ∧ h.items l1 = some [l2] ∧
    h.items l2 = some [4] ∧ h.isTorch 4 = true ∧ ∀ limit, 2 ≤ limit → (findObj h limit [] 0).1 = .nothing := by
  refine ⟨{ exHeap with attrs := fun o => if o = 0 then [1] else [],
                        items := fun o => if o = 1 then some [2] else if o = 2 then some [4] else none }, 1, 2,
    by decide, by decide, by decide, by decide, ?_⟩
  intro limit hl
  obtain ⟨n, rfl⟩ : ∃ n, limit = n + 2 := ⟨limit - 2, by omega⟩
  simp [findObj, searchAttrs, searchValue, searchItems, exHeap]

/-- Wrappers in a circle around an HuggingFace dataset. -/
def exWrapped : Heap Nat where
  isTorch _ := false
  attrs _ := []
  items _ := none
  hasDict _ := false
  isHFDataset o := decide (o = 2)
  isHFIterable o := decide (o = 3)
  exIterable1 o := match o with
    | 0 => some 1
    | 2 => some 3
    | _ => none
  exIterable2 o := match o with
    | 0 => some 0
    | 1 => some 2
    | _ => none
  isIterable o := decide (o = 0)
  loader _ := none
  isDataset _ := true
  frameLoader _ := none

example : recover exWrapped true 0 20 0 = .found 3 := by decide +kernel

/-- A tensor-like object whose first attribute is a new tensor, and whose second is the dataset. -/
def exTensor : Heap Nat where
  isTorch o := decide (o = 0)
  attrs o := if o = 0 then [] else [o + 1, 0]
  items _ := none
  hasDict _ := true
  isHFDataset _ := false
  isHFIterable _ := false
  exIterable1 _ := none
  exIterable2 _ := none
  isIterable _ := false
  loader _ := none
  isDataset _ := true
  frameLoader _ := none

example (limit : Nat) : (findObj exTensor limit [] 1).1 = .recursionError :=
  c68_endless_partial exTensor (fun n => n + 1) (fun i j h => by simpa using h)
    (fun n => ⟨[0], by simp [exTensor]⟩) (fun n => by simp [exTensor]) (fun _ => rfl) (fun _ => rfl) limit

end Mixtera.Find
