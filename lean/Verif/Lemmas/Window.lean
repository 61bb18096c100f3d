import Verif.Props.ChunkRead

/-!
# The loops of `_iterate_window_mixture`
-/

set_option linter.unusedSectionVars false

namespace Mixtera

variable {K α : Type} [DecidableEq K]

namespace Win

/-- The counts as the list the code iterates over. -/
def counts (names : List K) (cnt : K → Nat) : List (K × Int) := names.map fun n => (n, (cnt n : Int))

/-- A key that the `for` loop asks for a sample. -/
def active (cnt : K → Nat) (s : WinState K α) (k : K) : Prop := k ∉ s.deleted ∧ s.proc k < cnt k

instance (cnt : K → Nat) (s : WinState K α) (k : K) : Decidable (active cnt s k) := by
  unfold active; infer_instance

/-- The samples the `for` loop yields. -/
def passOut (cnt : K → Nat) (l : List K) (s : WinState K α) : List (K × α) :=
  l.filterMap fun k => (if active cnt s k then (s.it k)[0]? else none).map fun x => (k, x)

/-- Bookkeeping: the samples yielded in this window are counted right. -/
structure Inv (all : List K) (cnt : K → Nat) (s : WinState K α) : Prop where
  le : ∀ k ∈ all, s.proc k ≤ cnt k
  sum : s.yielded = (all.map s.proc).sum

theorem sum_update (f : K → Nat) (k : K) : ∀ (l : List K), l.Nodup → k ∈ l →
    (l.map fun k' => if k' = k then f k + 1 else f k').sum = (l.map f).sum + 1
  | [], _, h => by simp at h
  | a :: l, hnd, h => by
    obtain ⟨ha, hnd⟩ := List.nodup_cons.mp hnd
    by_cases e : a = k
    · subst e
      have : (l.map fun k' => if k' = a then f a + 1 else f k') = l.map f :=
        List.map_congr_left fun x hx => by
          have : x ≠ a := fun e => ha (e ▸ hx)
          simp [this]
      simp only [List.map_cons, List.sum_cons, this, if_true]
      omega
    · have hk : k ∈ l := by
        rcases List.mem_cons.mp h with h | h
        · exact absurd h.symm e
        · exact h
      simp only [List.map_cons, List.sum_cons, sum_update f k l hnd hk, if_neg e]
      omega

theorem eq_of_sum_le (f g : K → Nat) : ∀ (l : List K), (∀ k ∈ l, f k ≤ g k) → (l.map g).sum ≤ (l.map f).sum →
    ∀ k ∈ l, f k = g k
  | [], _, _ => by simp
  | a :: l, h, hs => by
    have h1 := h a (by simp)
    have h2 : (l.map f).sum ≤ (l.map g).sum := by
      clear hs
      induction l with
      | nil => simp
      | cons b l ih =>
        have := h b (by simp)
        have := ih fun k hk => h k (by rcases List.mem_cons.mp hk with rfl | hk <;> simp [*])
        simp only [List.map_cons, List.sum_cons]; omega
    simp only [List.map_cons, List.sum_cons] at hs
    intro k hk
    rcases List.mem_cons.mp hk with rfl | hk
    · omega
    · exact eq_of_sum_le f g l (fun k hk => h k (by simp [hk])) (by omega) k hk

theorem passOut_eq_nil {cnt : K → Nat} {l : List K} {s : WinState K α} (h : ∀ k ∈ l, ¬ active cnt s k) :
    passOut cnt l s = [] := by
  unfold passOut
  rw [List.filterMap_eq_nil_iff]
  intro k hk
  rw [if_neg (h k hk)]
  rfl

/-- What the `for` loop does. -/
structure Effect (all : List K) (cnt : K → Nat) (l : List K) (s : WinState K α) (b : Bool) (s' : WinState K α)
    (b' : Bool) : Prop where
  out : s'.out = s.out ++ passOut cnt l s
  deleted : s'.deleted = s.deleted ++ l.filter fun k => active cnt s k ∧ s.it k = []
  it : ∀ k, s'.it k = if k ∈ l ∧ active cnt s k then (s.it k).tail else s.it k
  proc : ∀ k, s'.proc k = if k ∈ l ∧ active cnt s k ∧ s.it k ≠ [] then s.proc k + 1 else s.proc k
  yielded : s'.yielded = s.yielded + (passOut cnt l s).length
  stop : s'.stop = true ↔ s.stop = true ∨ ∃ k ∈ l, active cnt s k ∧ s.it k = []
  flag : b' = true ↔ b = true ∧ passOut cnt l s = []
  inv : Inv all cnt s'

theorem Effect.idle {all : List K} {cnt : K → Nat} {l : List K} {s : WinState K α} (b : Bool)
    (h : ∀ k ∈ l, ¬ active cnt s k) (hi : Inv all cnt s) : Effect all cnt l s b s b := by
  have e := passOut_eq_nil h
  refine ⟨by simp [e], ?_, ?_, ?_, by simp [e], ?_, by simp [e], hi⟩
  · rw [List.filter_eq_nil_iff.mpr (by intro k hk; simp [h k hk]), List.append_nil]
  · intro k
    rw [if_neg]
    rintro ⟨hk, ha⟩; exact h k hk ha
  · intro k
    rw [if_neg]
    rintro ⟨hk, ha, -⟩; exact h k hk ha
  · constructor
    · exact Or.inl
    · rintro (h' | ⟨k, hk, ha, -⟩)
      · exact h'
      · exact absurd ha (h k hk)

theorem passOut_congr {cnt : K → Nat} {l : List K} {s t : WinState K α}
    (h : ∀ k ∈ l, (active cnt s k ↔ active cnt t k) ∧ s.it k = t.it k) : passOut cnt l s = passOut cnt l t := by
  unfold passOut
  apply List.filterMap_congr
  intro k hk
  simp only [(h k hk).1, (h k hk).2]

theorem filter_congr_active {cnt : K → Nat} {l : List K} {s t : WinState K α}
    (h : ∀ k ∈ l, (active cnt s k ↔ active cnt t k) ∧ s.it k = t.it k) :
    (l.filter fun k => active cnt s k ∧ s.it k = []) = l.filter fun k => active cnt t k ∧ t.it k = [] := by
  apply List.filter_congr
  intro k hk
  simp only [(h k hk).1, (h k hk).2]

/-- The `for` loop of a window, whose `break` has no effect because a full window has asked every key for all of its
samples. -/
theorem winFor_effect {W : Nat} {all : List K} {cnt : K → Nat} (hall : all.Nodup)
    (hW : (all.map cnt).sum = W) : ∀ (l : List K) (s : WinState K α) (b : Bool), l.Nodup → l ⊆ all → Inv all cnt s →
      Effect all cnt l s b (winFor W (counts l cnt) s b).1 (winFor W (counts l cnt) s b).2
  | [], s, b, _, _, hi => Effect.idle b (by simp) hi
  | n :: l, s, b, hnd, hsub, hi => by
    obtain ⟨hn, hnd⟩ := List.nodup_cons.mp hnd
    have hsub' : l ⊆ all := fun x hx => hsub (by simp [hx])
    have hnall : n ∈ all := hsub (by simp)
    have hne : ∀ k ∈ l, k ≠ n := fun k hk e => hn (e ▸ hk)
    have hcs : counts (n :: l) cnt = (n, (cnt n : Int)) :: counts l cnt := rfl
    rw [hcs]
    by_cases ha : active cnt s n
    · have hcond : ¬ (n ∈ s.deleted ∨ (cnt n : Int) ≤ (s.proc n : Int)) := by
        rintro (h | h)
        · exact ha.1 h
        · have := ha.2; omega
      cases hl : s.it n with
      | nil =>
        have hstep : winFor W ((n, (cnt n : Int)) :: counts l cnt) s b
            = winFor W (counts l cnt) { s with deleted := s.deleted ++ [n], stop := true } b := by
          rw [winFor, if_neg hcond]; simp only [hl]
        rw [hstep]
        have hi' : Inv all cnt { s with deleted := s.deleted ++ [n], stop := true } := ⟨hi.le, hi.sum⟩
        have ih := winFor_effect hall hW l { s with deleted := s.deleted ++ [n], stop := true } b hnd hsub' hi'
        have hc : ∀ k ∈ l, (active cnt { s with deleted := s.deleted ++ [n], stop := true } k ↔ active cnt s k)
            ∧ { s with deleted := s.deleted ++ [n], stop := true : WinState K α }.it k = s.it k := by
          intro k hk
          have := hne k hk
          simp [active, this]
        have hpo : passOut cnt (n :: l) s = passOut cnt l s := by
          unfold passOut; rw [List.filterMap_cons]; simp [ha, hl]
        refine ⟨?_, ?_, ?_, ?_, ?_, ?_, ?_, ih.inv⟩
        · rw [ih.out, passOut_congr hc, hpo]
        · rw [ih.deleted, filter_congr_active hc]; simp [ha, hl]
        · intro k
          rw [ih.it]
          by_cases e : k = n
          · subst e; simp [hn, hl, ha]
          · by_cases hk : k ∈ l
            · simp only [hk, true_and, (hc k hk).1, List.mem_cons, or_true]
            · simp [hk, e]
        · intro k
          rw [ih.proc]
          by_cases e : k = n
          · subst e; simp [hn, hl]
          · by_cases hk : k ∈ l
            · simp only [hk, true_and, (hc k hk).1, List.mem_cons, or_true]
            · simp [hk, e]
        · rw [ih.yielded, passOut_congr hc, hpo]
        · rw [ih.stop]
          simp only [true_or, true_iff]
          exact Or.inr ⟨n, by simp, ha, hl⟩
        · rw [ih.flag, passOut_congr hc, hpo]
      | cons x xs =>
        have hi' : Inv all cnt (s.give n x) := by
          refine ⟨?_, ?_⟩
          · intro k hk
            by_cases e : k = n
            · subst e; have := ha.2; simp [WinState.give]; omega
            · simpa [WinState.give, e] using hi.le k hk
          · show s.yielded + 1 = _
            rw [hi.sum]
            exact (sum_update s.proc n all hall hnall).symm
        have hc : ∀ k ∈ l, (active cnt (s.give n x) k ↔ active cnt s k) ∧ (s.give n x).it k = s.it k := by
          intro k hk
          have := hne k hk
          simp [active, WinState.give, advance, this]
        have ih : Effect all cnt l (s.give n x) false (winFor W ((n, (cnt n : Int)) :: counts l cnt) s b).1
            (winFor W ((n, (cnt n : Int)) :: counts l cnt) s b).2 := by
          rw [winFor, if_neg hcond]
          simp only [hl]
          by_cases hfull : W ≤ s.yielded + 1
          · rw [if_pos hfull]
            have heq := eq_of_sum_le (s.give n x).proc cnt all hi'.le (by
              rw [hW, ← hi'.sum]; exact hfull)
            exact Effect.idle false (fun k hk h => by
              have := heq k (hsub' hk); have := h.2; omega) hi'
          · rw [if_neg hfull]
            exact winFor_effect hall hW l (s.give n x) false hnd hsub' hi'
        have hpo : passOut cnt (n :: l) s = (n, x) :: passOut cnt l s := by
          unfold passOut; rw [List.filterMap_cons]; simp [ha, hl]
        refine ⟨?_, ?_, ?_, ?_, ?_, ?_, ?_, ih.inv⟩
        · rw [ih.out, passOut_congr hc, hpo]; simp [WinState.give]
        · rw [ih.deleted, filter_congr_active hc]; simp [ha, hl, WinState.give]
        · intro k
          rw [ih.it]
          by_cases e : k = n
          · subst e; simp [hn, hl, ha, WinState.give, advance]
          · by_cases hk : k ∈ l
            · simp only [hk, true_and, (hc k hk).1, (hc k hk).2, List.mem_cons, or_true]
            · simp [hk, e, WinState.give, advance]
        · intro k
          rw [ih.proc]
          by_cases e : k = n
          · subst e; simp [hn, hl, ha, WinState.give]
          · by_cases hk : k ∈ l
            · simp only [hk, true_and, (hc k hk).1, (hc k hk).2, List.mem_cons, or_true]
              simp [WinState.give, e]
            · simp [hk, e, WinState.give]
        · rw [ih.yielded, passOut_congr hc, hpo]; simp [WinState.give]; omega
        · rw [ih.stop]
          show s.stop = true ∨ _ ↔ _
          constructor
          · rintro (h | ⟨k, hk, h1, h2⟩)
            · exact Or.inl h
            · exact Or.inr ⟨k, by simp [hk], (hc k hk).1.mp h1, (hc k hk).2 ▸ h2⟩
          · rintro (h | ⟨k, hk, h1, h2⟩)
            · exact Or.inl h
            · rcases List.mem_cons.mp hk with rfl | hk
              · rw [hl] at h2; cases h2
              · exact Or.inr ⟨k, hk, (hc k hk).1.mpr h1, (hc k hk).2.symm ▸ h2⟩
        · rw [ih.flag, hpo]; simp
    · have hcond : n ∈ s.deleted ∨ (cnt n : Int) ≤ (s.proc n : Int) := by
        by_contra h
        push Not at h
        exact ha ⟨h.1, by have := h.2; omega⟩
      have hstep : winFor W ((n, (cnt n : Int)) :: counts l cnt) s b = winFor W (counts l cnt) s b := by
        rw [winFor, if_pos hcond]
      rw [hstep]
      have ih := winFor_effect hall hW l s b hnd hsub' hi
      have hpo : passOut cnt (n :: l) s = passOut cnt l s := by
        unfold passOut; rw [List.filterMap_cons]; simp [ha]
      refine ⟨?_, ?_, ?_, ?_, ?_, ?_, ?_, ih.inv⟩
      · rw [ih.out, hpo]
      · rw [ih.deleted]; simp [ha]
      · intro k
        rw [ih.it]
        by_cases e : k = n
        · subst e; simp [hn, ha]
        · simp [e]
      · intro k
        rw [ih.proc]
        by_cases e : k = n
        · subst e; simp [hn, ha]
        · simp [e]
      · rw [ih.yielded, hpo]
      · rw [ih.stop]
        constructor
        · rintro (h | ⟨k, hk, h1, h2⟩)
          · exact Or.inl h
          · exact Or.inr ⟨k, by simp [hk], h1, h2⟩
        · rintro (h | ⟨k, hk, h1, h2⟩)
          · exact Or.inl h
          · rcases List.mem_cons.mp hk with rfl | hk
            · exact absurd h1 ha
            · exact Or.inr ⟨k, hk, h1, h2⟩
      · rw [ih.flag, hpo]

/-- The samples of round `j` of a window that starts with the iterators `L`. -/
def winRound (names : List K) (cnt : K → Nat) (L : K → List α) (j : Nat) : List (K × α) :=
  names.filterMap fun k => (if j < cnt k then (L k)[j]? else none).map fun x => (k, x)

/-- The state after `j` rounds of a window that started with the iterators `L` and the finished keys `D`. -/
structure WPass (names : List K) (cnt : K → Nat) (L : K → List α) (D : K → Prop) (stop : Prop) (out : List (K × α))
    (j : Nat) (s : WinState K α) : Prop where
  it : ∀ k ∈ names, s.it k = (L k).drop (min j (cnt k))
  proc : ∀ k ∈ names, s.proc k = min j (min (cnt k) (L k).length)
  del : ∀ k, k ∈ s.deleted ↔ k ∈ names ∧ (D k ∨ ((L k).length < j ∧ (L k).length < cnt k))
  nodup : s.deleted.Nodup
  stop : s.stop = true ↔ stop ∨ ∃ k ∈ names, ¬ D k ∧ (L k).length < j ∧ (L k).length < cnt k
  out : s.out = out ++ (List.range j).flatMap (winRound names cnt L)
  inv : Inv names cnt s

section
variable {names : List K} {cnt : K → Nat} {L : K → List α} {D : K → Prop} {stop : Prop} {out : List (K × α)} {j W : Nat}
  {s : WinState K α}

theorem WPass.active_iff (h : WPass names cnt L D stop out j s) {k : K} (hk : k ∈ names) :
    active cnt s k ↔ ¬ D k ∧ j < cnt k ∧ j ≤ (L k).length := by
  unfold active
  rw [h.del, h.proc k hk]
  simp only [hk, true_and, not_or, not_and]
  constructor
  · rintro ⟨⟨h1, h2⟩, h3⟩
    refine ⟨h1, ?_, ?_⟩ <;> omega
  · rintro ⟨h1, h2, h3⟩
    exact ⟨⟨h1, by omega⟩, by omega⟩

theorem WPass.nil_iff (h : WPass names cnt L D stop out j s) {k : K} (hk : k ∈ names) (ha : active cnt s k) :
    s.it k = [] ↔ (L k).length = j := by
  obtain ⟨-, h2, h3⟩ := (h.active_iff hk).mp ha
  rw [h.it k hk, List.drop_eq_nil_iff, Nat.min_eq_left (by omega)]
  omega

theorem WPass.passOut_eq (h : WPass names cnt L D stop out j s) (hD : ∀ k, D k → L k = []) :
    passOut cnt names s = winRound names cnt L j := by
  unfold passOut winRound
  apply List.filterMap_congr
  intro k hk
  congr 1
  by_cases hj : j < cnt k
  · rw [if_pos hj]
    by_cases ha : active cnt s k
    · rw [if_pos ha, h.it k hk, Nat.min_eq_left (by omega)]
      simp
    · rw [if_neg ha]
      symm
      apply List.getElem?_eq_none
      by_contra hlt
      refine ha ((h.active_iff hk).mpr ⟨fun hd => ?_, hj, by omega⟩)
      rw [hD k hd] at hlt
      simp at hlt
  · rw [if_neg hj, if_neg]
    intro ha
    exact hj ((h.active_iff hk).mp ha).2.1

theorem WPass.next (hnd : names.Nodup) (hW : (names.map cnt).sum = W) (hD : ∀ k, D k → L k = [])
    (h : WPass names cnt L D stop out j s) :
    WPass names cnt L D stop out (j + 1) (winFor W (counts names cnt) s true).1 := by
  have e := winFor_effect hnd hW names s true hnd (fun _ => id) h.inv
  refine ⟨?_, ?_, ?_, ?_, ?_, ?_, e.inv⟩
  · intro k hk
    rw [e.it, h.it k hk]
    by_cases ha : active cnt s k
    · obtain ⟨-, h2, h3⟩ := (h.active_iff hk).mp ha
      rw [if_pos ⟨hk, ha⟩, List.tail_drop]
      congr 1; omega
    · rw [if_neg (fun h => ha h.2)]
      have := mt (h.active_iff hk).mpr ha
      by_cases hd : D k
      · simp [hD k hd]
      · by_cases hj : j < cnt k
        · have hlen : (L k).length < j := by
            by_contra hlt
            exact this ⟨hd, hj, by omega⟩
          rw [List.drop_eq_nil_of_le (by omega), List.drop_eq_nil_of_le (by omega)]
        · congr 1; omega
  · intro k hk
    rw [e.proc, h.proc k hk]
    by_cases ha : active cnt s k
    · obtain ⟨-, h2, h3⟩ := (h.active_iff hk).mp ha
      by_cases hn : s.it k = []
      · rw [if_neg (fun h => h.2.2 hn)]
        have := (h.nil_iff hk ha).mp hn
        omega
      · rw [if_pos ⟨hk, ha, hn⟩]
        have := mt (h.nil_iff hk ha).mpr hn
        omega
    · rw [if_neg (fun h => ha h.2.1)]
      have := mt (h.active_iff hk).mpr ha
      by_cases hd : D k
      · simp [hD k hd]
      · by_cases hj : j < cnt k
        · have hlen : (L k).length < j := by
            by_contra hlt
            exact this ⟨hd, hj, by omega⟩
          omega
        · omega
  · intro k
    rw [e.deleted]
    simp only [List.mem_append, List.mem_filter, decide_eq_true_eq, h.del]
    constructor
    · rintro (⟨hk, hd | hl⟩ | ⟨hk, ha, hn⟩)
      · exact ⟨hk, Or.inl hd⟩
      · exact ⟨hk, Or.inr ⟨by omega, hl.2⟩⟩
      · have := (h.nil_iff hk ha).mp hn
        obtain ⟨-, h2, h3⟩ := (h.active_iff hk).mp ha
        exact ⟨hk, Or.inr ⟨by omega, by omega⟩⟩
    · rintro ⟨hk, hd | hl⟩
      · exact Or.inl ⟨hk, Or.inl hd⟩
      · by_cases hd : D k
        · exact Or.inl ⟨hk, Or.inl hd⟩
        by_cases hlt : (L k).length < j
        · exact Or.inl ⟨hk, Or.inr ⟨hlt, hl.2⟩⟩
        · have ha := (h.active_iff hk).mpr ⟨hd, by omega, by omega⟩
          exact Or.inr ⟨hk, ha, (h.nil_iff hk ha).mpr (by omega)⟩
  · rw [e.deleted]
    apply List.Nodup.append h.nodup (hnd.filter _)
    intro k hk hf
    have := (List.mem_filter.mp hf).2
    simp only [decide_eq_true_eq] at this
    exact this.1.1 hk
  · rw [e.stop, h.stop]
    constructor
    · rintro ((hs | ⟨k, hk, hd, hl⟩) | ⟨k, hk, ha, hn⟩)
      · exact Or.inl hs
      · exact Or.inr ⟨k, hk, hd, by omega, hl.2⟩
      · have := (h.nil_iff hk ha).mp hn
        obtain ⟨h1, h2, h3⟩ := (h.active_iff hk).mp ha
        exact Or.inr ⟨k, hk, h1, by omega, by omega⟩
    · rintro (hs | ⟨k, hk, hd, hl⟩)
      · exact Or.inl (Or.inl hs)
      · by_cases hlt : (L k).length < j
        · exact Or.inl (Or.inr ⟨k, hk, hd, hlt, hl.2⟩)
        · have ha := (h.active_iff hk).mpr ⟨hd, by omega, by omega⟩
          exact Or.inr ⟨k, hk, ha, (h.nil_iff hk ha).mpr (by omega)⟩
  · rw [e.out, h.out, h.passOut_eq hD, List.range_succ, List.flatMap_append, List.append_assoc]
    simp

/-- The state when a window has ended. -/
structure WDone (names : List K) (cnt : K → Nat) (L : K → List α) (D : K → Prop) (stop : Prop) (out : List (K × α))
    (W : Nat) (s : WinState K α) : Prop where
  it : ∀ k ∈ names, s.it k = (L k).drop (cnt k)
  del : ∀ k, k ∈ s.deleted ↔ k ∈ names ∧ (D k ∨ (L k).length < cnt k)
  nodup : s.deleted.Nodup
  stop : s.stop = true ↔ stop ∨ ∃ k ∈ names, ¬ D k ∧ (L k).length < cnt k
  out : s.out = out ++ (List.range W).flatMap (winRound names cnt L)

theorem flatMap_range_stable {β : Type} {f : Nat → List β} {m n : Nat} (h1 : ∀ i, m ≤ i → f i = [])
    (h2 : ∀ i, n ≤ i → f i = []) : (List.range m).flatMap f = (List.range n).flatMap f := by
  have key : ∀ (m d : Nat), (∀ i, m ≤ i → f i = []) → (List.range (m + d)).flatMap f = (List.range m).flatMap f := by
    intro m d hm
    induction d with
    | zero => rfl
    | succ d ih => rw [← Nat.add_assoc, List.range_succ, List.flatMap_append, ih]; simp [hm (m + d) (by omega)]
  rcases Nat.le_total m n with h | h
  · obtain ⟨d, rfl⟩ := Nat.exists_eq_add_of_le h
    exact (key m d h1).symm
  · obtain ⟨d, rfl⟩ := Nat.exists_eq_add_of_le h
    exact key n d h2

theorem le_sum {cnt : K → Nat} : ∀ (names : List K) {k : K}, k ∈ names → cnt k ≤ (names.map cnt).sum
  | a :: l, k, h => by
    rcases List.mem_cons.mp h with rfl | h
    · simp
    · have := le_sum (cnt := cnt) l h; simp; omega

theorem WPass.done (hW : (names.map cnt).sum = W) (hD : ∀ k, D k → L k = [])
    (h : WPass names cnt L D stop out j s)
    (hset : ∀ k ∈ names, D k ∨ cnt k ≤ j ∨ (L k).length < j) : WDone names cnt L D stop out W s := by
  refine ⟨?_, ?_, h.nodup, ?_, ?_⟩
  · intro k hk
    rw [h.it k hk]
    rcases hset k hk with hd | hd | hd
    · simp [hD k hd]
    · congr 1; omega
    · by_cases hc : cnt k ≤ j
      · congr 1; omega
      · rw [List.drop_eq_nil_of_le (by omega), List.drop_eq_nil_of_le (by omega)]
  · intro k
    rw [h.del]
    constructor
    · rintro ⟨hk, hd | hd⟩
      · exact ⟨hk, Or.inl hd⟩
      · exact ⟨hk, Or.inr hd.2⟩
    · rintro ⟨hk, hd | hd⟩
      · exact ⟨hk, Or.inl hd⟩
      · refine ⟨hk, ?_⟩
        rcases hset k hk with h' | h' | h'
        · exact Or.inl h'
        · exact Or.inr ⟨by omega, hd⟩
        · exact Or.inr ⟨h', hd⟩
  · rw [h.stop]
    constructor
    · rintro (hs | ⟨k, hk, hd, hl⟩)
      · exact Or.inl hs
      · exact Or.inr ⟨k, hk, hd, hl.2⟩
    · rintro (hs | ⟨k, hk, hd, hl⟩)
      · exact Or.inl hs
      · refine Or.inr ⟨k, hk, hd, ?_, hl⟩
        rcases hset k hk with h' | h' | h'
        · exact absurd h' hd
        · omega
        · exact h'
  · rw [h.out]
    congr 1
    apply flatMap_range_stable
    · intro i hi
      unfold winRound
      rw [List.filterMap_eq_nil_iff]
      intro k hk
      rcases hset k hk with h' | h' | h'
      · simp [hD k h']
      · rw [if_neg (by omega)]; rfl
      · rw [List.getElem?_eq_none (by omega)]; simp
    · intro i hi
      unfold winRound
      rw [List.filterMap_eq_nil_iff]
      intro k hk
      have := le_sum (cnt := cnt) names hk
      rw [if_neg (by omega)]; rfl

theorem counts_length : (counts names cnt).length = names.length := by simp [counts]

theorem winLoop_done (hnd : names.Nodup) (hW : (names.map cnt).sum = W) (hD : ∀ k, D k → L k = []) :
    ∀ (fuel j : Nat) (s : WinState K α), WPass names cnt L D stop out j s → W ≤ fuel + s.yielded →
      ∃ s', winLoop W (counts names cnt) fuel s = some s' ∧ WDone names cnt L D stop out W s'
  | fuel, j, s, h, hf => by
    have hend : ¬ (s.deleted.length < (counts names cnt).length ∧ s.yielded < W) →
        WDone names cnt L D stop out W s := by
      intro hc
      rw [counts_length] at hc
      apply h.done hW hD
      intro k hk
      by_cases hy : s.yielded < W
      · have hlen : names.length ≤ s.deleted.length := by
          by_contra hlt
          exact hc ⟨by omega, hy⟩
        have hsub : s.deleted ⊆ names := fun n hn => ((h.del n).mp hn).1
        have hp : s.deleted.Perm names := (List.subperm_of_subset h.nodup hsub).perm_of_length_le hlen
        rcases ((h.del k).mp (hp.mem_iff.mpr hk)).2 with hd | hd
        · exact Or.inl hd
        · exact Or.inr (Or.inr hd.1)
      · have := eq_of_sum_le s.proc cnt names h.inv.le (by rw [hW, ← h.inv.sum]; omega) k hk
        rw [h.proc k hk] at this
        exact Or.inr (Or.inl (by omega))
    cases fuel with
    | zero =>
      have hc : ¬ (s.deleted.length < (counts names cnt).length ∧ s.yielded < W) := fun h => by have := h.2; omega
      exact ⟨s, by rw [winLoop, if_neg hc], hend hc⟩
    | succ fuel =>
      by_cases hc : s.deleted.length < (counts names cnt).length ∧ s.yielded < W
      · have hn := h.next hnd hW hD
        have e := winFor_effect hnd hW names s true hnd (fun _ => id) h.inv
        rw [winLoop, if_pos hc]
        by_cases hb : (winFor W (counts names cnt) s true).2 = true
        · rw [if_pos hb]
          refine ⟨_, rfl, hn.done hW hD ?_⟩
          have hnil := (e.flag.mp hb).2
          intro k hk
          by_cases hd : D k
          · exact Or.inl hd
          refine Or.inr ?_
          by_contra hcon
          push Not at hcon
          have ha := (h.active_iff hk).mpr ⟨hd, by omega, by omega⟩
          have hn := mt (h.nil_iff hk ha).mp (by omega)
          unfold passOut at hnil
          rw [List.filterMap_eq_nil_iff] at hnil
          have := hnil k hk
          rw [if_pos ha] at this
          cases hl : s.it k with
          | nil => exact hn hl
          | cons x xs => rw [hl] at this; simp at this
        · rw [if_neg hb]
          have hne : passOut cnt names s ≠ [] := fun h0 => hb (e.flag.mpr ⟨rfl, h0⟩)
          have := List.length_pos_iff.mpr hne
          exact winLoop_done hnd hW hD fuel (j + 1) _ hn (by rw [e.yielded]; omega)
      · exact ⟨s, by rw [winLoop, if_neg hc], hend hc⟩

end

/-! ## All windows -/

/-- The samples of window `w`. -/
def windowOf (names : List K) (cnt : K → Nat) (W : Nat) (it : K → List α) (w : Nat) : List (K × α) :=
  (List.range W).flatMap fun j =>
    names.filterMap fun k => (if j < cnt k then (it k)[w * cnt k + j]? else none).map fun x => (k, x)

/-- The state before window `w`. -/
structure WStart (names : List K) (cnt : K → Nat) (W : Nat) (src : K → List α) (w : Nat) (s : WinState K α) :
    Prop where
  it : ∀ k ∈ names, s.it k = (src k).drop (w * cnt k)
  del : ∀ k, k ∈ s.deleted ↔ k ∈ names ∧ (src k).length < w * cnt k
  nodup : s.deleted.Nodup
  stop : s.stop = true ↔ ∃ k ∈ names, (src k).length < w * cnt k
  out : s.out = (List.range w).flatMap (windowOf names cnt W src)

theorem WStart.next {names : List K} {cnt : K → Nat} {W : Nat} {it : K → List α} {w : Nat} {s : WinState K α}
    (hnd : names.Nodup) (hW : (names.map cnt).sum = W) (h : WStart names cnt W it w s) :
    ∃ s', winLoop W (counts names cnt) (W + 1) { s with proc := fun _ => 0, yielded := 0 } = some s'
      ∧ WStart names cnt W it (w + 1) s' := by
  have hD : ∀ k, (k ∈ s.deleted) → (fun k => (it k).drop (w * cnt k)) k = [] := by
    intro k hk
    have := ((h.del k).mp hk).2
    exact List.drop_eq_nil_of_le (by omega)
  have h0 : WPass names cnt (fun k => (it k).drop (w * cnt k)) (fun k => k ∈ s.deleted) (s.stop = true) s.out 0
      { s with proc := fun _ => 0, yielded := 0 } := by
    refine ⟨?_, ?_, ?_, h.nodup, ?_, ?_, ?_⟩
    · intro k hk; simpa using h.it k hk
    · intro k hk; simp
    · intro k
      constructor
      · intro hk; exact ⟨((h.del k).mp hk).1, Or.inl hk⟩
      · rintro ⟨-, hk | hk⟩
        · exact hk
        · omega
    · simp
    · simp
    · exact ⟨fun k _ => Nat.zero_le _, by
        show 0 = (names.map fun _ => 0).sum
        clear * -
        induction names <;> simp_all⟩
  obtain ⟨s', h1, h2⟩ := winLoop_done hnd hW hD (W + 1) 0 _ h0 (by show W ≤ W + 1 + 0; omega)
  refine ⟨s', h1, ?_, ?_, h2.nodup, ?_, ?_⟩
  · intro k hk
    rw [h2.it k hk, List.drop_drop, Nat.succ_mul]
  · intro k
    rw [h2.del, Nat.succ_mul]
    simp only [List.length_drop, h.del]
    constructor
    · rintro ⟨hk, ⟨-, hd⟩ | hd⟩ <;> exact ⟨hk, by omega⟩
    · rintro ⟨hk, hd⟩
      refine ⟨hk, ?_⟩
      by_cases hc : (it k).length < w * cnt k
      · exact Or.inl ⟨hk, hc⟩
      · exact Or.inr (by omega)
  · rw [h2.stop, h.stop]
    simp only [List.length_drop, h.del, Nat.succ_mul]
    constructor
    · rintro (⟨k, hk, hd⟩ | ⟨k, hk, -, hd⟩) <;> exact ⟨k, hk, by omega⟩
    · rintro ⟨k, hk, hd⟩
      by_cases hc : (it k).length < w * cnt k
      · exact Or.inl ⟨k, hk, hc⟩
      · exact Or.inr ⟨k, hk, fun h => hc h.2, by omega⟩
  · rw [h2.out, h.out, List.range_succ, List.flatMap_append]
    have hr : winRound names cnt (fun k => (it k).drop (w * cnt k)) = fun j =>
        names.filterMap fun k => (if j < cnt k then (it k)[w * cnt k + j]? else none).map fun x => (k, x) := by
      funext j
      simp only [winRound, List.getElem?_drop]
    simp [windowOf, hr]

/-- Reading ends before window `w`. -/
def Ends (names : List K) (cnt : K → Nat) (it : K → List α) (bestEffort : Bool) (w : Nat) : Prop :=
  (∀ k ∈ names, (it k).length < w * cnt k) ∨ (bestEffort = false ∧ ∃ k ∈ names, (it k).length < w * cnt k)

theorem WStart.cond_iff {names : List K} {cnt : K → Nat} {W : Nat} {it : K → List α} {w : Nat} {s : WinState K α}
    {be : Bool} (hnd : names.Nodup) (h : WStart names cnt W it w s) :
    (s.deleted.length < (counts names cnt).length ∧ (be = true ∨ s.stop = false)) ↔ ¬ Ends names cnt it be w := by
  rw [counts_length]
  have hsub : s.deleted ⊆ names := fun n hn => ((h.del n).mp hn).1
  have hle := (List.subperm_of_subset h.nodup hsub).length_le
  have h1 : s.deleted.length < names.length ↔ ¬ ∀ k ∈ names, (it k).length < w * cnt k := by
    constructor
    · intro hlt hall
      have := (List.subperm_of_subset hnd (fun k hk => (h.del k).mpr ⟨hk, hall k hk⟩)).length_le
      omega
    · intro hnot
      by_contra hlt
      have hp : s.deleted.Perm names := (List.subperm_of_subset h.nodup hsub).perm_of_length_le (by omega)
      exact hnot fun k hk => ((h.del k).mp (hp.mem_iff.mpr hk)).2
  have h2 : s.stop = false ↔ ¬ ∃ k ∈ names, (it k).length < w * cnt k := by
    rw [← h.stop]; simp
  unfold Ends
  rw [h1, h2]
  cases be <;> simp

theorem windowsLoop_out {names : List K} {cnt : K → Nat} {W : Nat} {it : K → List α} {be : Bool} {N : Nat}
    (hnd : names.Nodup) (hW : (names.map cnt).sum = W) (hN : Ends names cnt it be N)
    (hlt : ∀ w, w < N → ¬ Ends names cnt it be w) : ∀ (fuel w : Nat) (s : WinState K α),
      WStart names cnt W it w s → w ≤ N → N ≤ w + fuel →
      (windowsLoop W be (counts names cnt) fuel s).map WinState.out
        = some ((List.range N).flatMap (windowOf names cnt W it))
  | fuel, w, s, h, hw, hf => by
    rcases Nat.lt_or_ge w N with hwN | hwN
    · have hc := (h.cond_iff hnd (be := be)).mpr (hlt w hwN)
      cases fuel with
      | zero => omega
      | succ fuel =>
        obtain ⟨s', h1, h2⟩ := h.next hnd hW
        rw [windowsLoop, if_pos hc, h1]
        exact windowsLoop_out hnd hW hN hlt fuel (w + 1) s' h2 (by omega) (by omega)
    · have : w = N := by omega
      subst this
      have hc := mt (h.cond_iff hnd (be := be)).mp (fun h => h hN)
      cases fuel with
      | zero => rw [windowsLoop, if_neg hc]; simp [h.out]
      | succ fuel => rw [windowsLoop, if_neg hc]; simp [h.out]

theorem windowsLoop_stuck {names : List K} {cnt : K → Nat} {W : Nat} {it : K → List α} {be : Bool}
    (hnd : names.Nodup) (hW : (names.map cnt).sum = W)
    (hlt : ∀ w, ¬ Ends names cnt it be w) : ∀ (fuel w : Nat) (s : WinState K α),
      WStart names cnt W it w s → windowsLoop W be (counts names cnt) fuel s = none
  | 0, w, s, h => by
    rw [windowsLoop, if_pos ((h.cond_iff hnd (be := be)).mpr (hlt w))]
  | fuel + 1, w, s, h => by
    obtain ⟨s', h1, h2⟩ := h.next hnd hW
    rw [windowsLoop, if_pos ((h.cond_iff hnd (be := be)).mpr (hlt w)), h1]
    exact windowsLoop_stuck hnd hW hlt fuel (w + 1) s' h2

theorem WStart.start (names : List K) (cnt : K → Nat) (W : Nat) (it : K → List α) :
    WStart names cnt W it 0 ⟨it, [], fun _ => 0, 0, false, []⟩ :=
  ⟨fun k _ => by simp, fun k => by simp, List.nodup_nil, by simp, by simp⟩

end Win
end Mixtera
