import Verif.Spec.Example
import Verif.Props.Reorder
import Mathlib.Data.List.Induction

/-! # C69: the mixture ids of the chunks -/

set_option linter.unusedSectionVars false

namespace Mixtera

variable {K : Type} [DecidableEq K]

/-! ### Specification -/

/-- Two mixtures ask for the same number of samples of every key. -/
def SameMix (a b : Dict K Nat) : Prop := ∀ k, a.get? k = b.get? k

open Classical in
/-- How often the mixture changes in a sequence of mixtures. -/
noncomputable def mixChanges : List (Dict K Nat) → Nat
  | a :: b :: l => (if SameMix a b then 0 else 1) + mixChanges (b :: l)
  | _ => 0

/-- The mixtures with which the requests of a history are served. -/
def servedWith (ops : KeyOps K) (replay : Bool) : Gen K → List (Req K) → List (Dict K Nat)
  | _, [] => []
  | g, r :: rs => (g.eff r).rows :: servedWith ops replay (g.send ops r.fuel replay r.heap r.mix r.target).1 rs

/-! ### Lemmas -/

theorem SameMix.refl (a : Dict K Nat) : SameMix a a := fun _ => rfl
theorem SameMix.trans {a b c : Dict K Nat} (h : SameMix a b) (h' : SameMix b c) : SameMix a c := fun k => (h k).trans (h' k)
theorem SameMix.symm {a b : Dict K Nat} (h : SameMix a b) : SameMix b a := fun k => (h k).symm

theorem SameMix.nil {a : Dict K Nat} (h : SameMix a []) : a = [] := by
  cases a with
  | nil => rfl
  | cons x a => have := h x.1; simp [Dict.get?] at this

open Classical in
/-- The id after one more request with the mixture `rows`. -/
noncomputable def bump (last : Option (Dict K Nat)) (n : Int) (rows : Dict K Nat) : Int :=
  match last with
  | none => 0
  | some e => if SameMix e rows then n else n + 1

/-- How the generator remembers the last mixture. -/
def PrevIs : Option (Dict K Nat) → Dict K Nat → Prop
  | none, e => e = []
  | some p, e => e ≠ [] ∧ SameMix p e ∧ p.keys.Nodup

/-- What ties a generator to the last mixture it was served with. -/
def Track : Option (Dict K Nat) → Int → Gen K → Prop
  | none, n, g => n = -1 ∧ g.prev = none ∧ g.cur = 0 ∧ g.mixtureId = -1
  | some e, n, g => g.mixtureId = n ∧ PrevIs g.prev e ∧ (e = [] → 0 < g.cur) ∧ e.keys.Nodup

/-- What one iteration or request does to it. -/
structure Moved (last : Option (Dict K Nat)) (n : Int) (rows : Dict K Nat) (g' : Gen K) (o : Option (Out K)) : Prop where
  or : (g'.susp = .finished ∧ (∀ c, o ≠ some (.chunk c)) ∧ o ≠ none) ∨
    (Track (some rows) (bump last n rows) g' ∧ ∀ c, o = some (.chunk c) → c.mixtureId = bump last n rows)

theorem stepArbitrary_track (fuel : Nat) (replay : Bool) {last : Option (Dict K Nat)} {n : Int} {g : Gen K}
    (hg : Track last n g) (v : MixView K) (hv : v.rows = []) :
    Moved last n v.rows (stepArbitrary fuel replay v g).1 (stepArbitrary fuel replay v g).2 ∧
      (stepArbitrary fuel replay v g).1.base = g.base := by
  have hid : (if g.prev.isSome || g.cur == 0 then
      { g with mixtureId := g.mixtureId + 1, prev := Option.none, log := if replay then g.log else g.log ++ [(g.cur, v)] }
      else g).mixtureId = bump last n v.rows ∧
    (if g.prev.isSome || g.cur == 0 then
      { g with mixtureId := g.mixtureId + 1, prev := Option.none, log := if replay then g.log else g.log ++ [(g.cur, v)] }
      else g).prev = none := by
    rcases last with _ | e
    · obtain ⟨h1, h2, h3, h4⟩ := hg
      simp [h2, h3, h4, bump]
    · obtain ⟨h1, h2, h3, h4⟩ := hg
      cases hp : g.prev with
      | none =>
        rw [hp] at h2
        have he : e = [] := h2
        have hc := h3 he
        have : (g.cur == 0) = false := by simp; omega
        simp only [this, Option.isSome_none, Bool.or_self, Bool.false_eq_true, if_false, hp, and_true]
        unfold bump
        simp only
        rw [if_pos (by rw [he, hv]; exact SameMix.refl _)]
        exact h1
      | some p =>
        rw [hp] at h2
        simp only [Option.isSome_some, Bool.true_or, if_true, and_true]
        unfold bump
        simp only
        rw [if_neg (by intro h; rw [hv] at h; exact h2.1 h.nil), h1]
  unfold stepArbitrary
  dsimp only
  revert hid
  have hbase : (if g.prev.isSome || g.cur == 0 then
      { g with mixtureId := g.mixtureId + 1, prev := Option.none, log := if replay then g.log else g.log ++ [(g.cur, v)] }
      else g).base = g.base := by split <;> rfl
  revert hbase
  generalize (if g.prev.isSome || g.cur == 0 then
      { g with mixtureId := g.mixtureId + 1, prev := Option.none, log := if replay then g.log else g.log ++ [(g.cur, v)] }
      else g) = g1
  intro hb hid
  have hnd : (v.rows).keys.Nodup := by rw [hv]; exact List.nodup_nil
  split
  · exact ⟨⟨Or.inl ⟨rfl, by simp, by simp⟩⟩, hb⟩
  · exact ⟨⟨Or.inl ⟨rfl, by simp, by simp⟩⟩, hb⟩
  · split
    · split
      · exact ⟨⟨Or.inl ⟨rfl, by simp, by simp⟩⟩, hb⟩
      · refine ⟨⟨Or.inr ⟨⟨hid.1, ?_, fun _ => Nat.succ_pos _, hnd⟩, ?_⟩⟩, hb⟩
        · simp only [hid.2]; exact hv
        · intro c hc
          injection hc with hc; injection hc with hc; subst hc
          exact hid.1
    · refine ⟨⟨Or.inr ⟨⟨hid.1, ?_, fun _ => Nat.succ_pos _, hnd⟩, by simp⟩⟩, hb⟩
      simp only [hid.2]; exact hv

/-- Does the generator notice the mixture? -/
def mixChanged (g : Gen K) (rows : Dict K Nat) : Bool :=
  match g.prev with
  | Option.none => true
  | some p => !dictEq p rows

/-- The generator after noticing it. -/
def mixNoticed (replay : Bool) (v : MixView K) (g : Gen K) : Gen K :=
  if mixChanged g v.rows = true then
    { g with mixtureId := g.mixtureId + 1, prev := some v.rows, log := if replay then g.log else g.log ++ [(g.cur, v)] }
  else g

/-- The rest of the iteration. -/
def mixTail (ops : KeyOps K) (v : MixView K) (g : Gen K) : Gen K × Option (Out K) :=
  match attempt ops g.iters v with
  | .error e => ({ g with susp := .finished }, some (.raised e))
  | .ok (att, true) =>
    if g.cur = g.target then
      ({ g with iters := att.iters, noSuccess := 0, cur := g.cur + 1, susp := .ready },
        some (.chunk { content := att.chunk, chunkSize := v.chunkSize, mixtureId := g.mixtureId,
                       mixture := some att.mixture, strict := v.strict }))
    else ({ g with iters := att.iters, noSuccess := 0, cur := g.cur + 1 }, Option.none)
  | .ok (att, false) =>
    ({ g with iters := att.iters, noSuccess := g.noSuccess + 1, susp := .afterNone }, some .none)

theorem stepMixture_eq (ops : KeyOps K) (replay : Bool) (v : MixView K) (g : Gen K) :
    stepMixture ops replay v g = mixTail ops v (mixNoticed replay v g) := by
  unfold stepMixture mixTail mixNoticed mixChanged
  cases g.prev <;> rfl

theorem stepMixture_track (ops : KeyOps K) (replay : Bool) {last : Option (Dict K Nat)} {n : Int} {g : Gen K}
    (hg : Track last n g) (v : MixView K) (hv : v.rows ≠ []) (hnd : v.rows.keys.Nodup) :
    Moved last n v.rows (stepMixture ops replay v g).1 (stepMixture ops replay v g).2 ∧
      (stepMixture ops replay v g).1.base = g.base := by
  have hid : (mixNoticed replay v g).mixtureId = bump last n v.rows ∧ PrevIs (mixNoticed replay v g).prev v.rows ∧
      (mixNoticed replay v g).base = g.base := by
    unfold mixNoticed
    generalize hch' : mixChanged g v.rows = ch
    have hch : ch = match g.prev with
        | Option.none => true
        | some p => !dictEq p v.rows := by rw [← hch']; rfl
    clear hch'
    have hnew : PrevIs (some v.rows) v.rows := ⟨hv, SameMix.refl _, hnd⟩
    rcases last with _ | e
    · obtain ⟨h1, h2, h3, h4⟩ := hg
      rw [h2] at hch
      subst hch
      simp [h4, bump, hnew]
    · obtain ⟨h1, h2, h3, h4⟩ := hg
      cases hp : g.prev with
      | none =>
        rw [hp] at h2 hch
        have he : e = [] := h2
        simp only at hch
        subst hch
        simp only [if_true]
        refine ⟨?_, hnew, trivial⟩
        unfold bump
        simp only
        rw [if_neg (by intro h; rw [he] at h; exact hv h.symm.nil), h1]
      | some p =>
        rw [hp] at h2 hch
        simp only at hch
        obtain ⟨k1, k2, k3⟩ := h2
        by_cases hd : dictEq p v.rows = true
        · rw [hd] at hch
          simp only [Bool.not_true] at hch
          subst hch
          simp only [Bool.false_eq_true, if_false]
          have hs : SameMix p v.rows := (dictEq_iff k3 hnd).1 hd
          refine ⟨?_, by rw [hp]; exact ⟨hv, hs, k3⟩, trivial⟩
          unfold bump
          simp only
          rw [if_pos (k2.symm.trans hs), h1]
        · rw [Bool.not_eq_true] at hd
          rw [hd] at hch
          simp only [Bool.not_false] at hch
          subst hch
          simp only [if_true]
          refine ⟨?_, hnew, trivial⟩
          unfold bump
          simp only
          rw [if_neg, h1]
          intro hs
          have := (dictEq_iff k3 hnd).2 (k2.trans hs)
          rw [hd] at this
          cases this
  rw [stepMixture_eq]
  obtain ⟨i1, i2, i3⟩ := hid
  revert i1 i2 i3
  generalize mixNoticed replay v g = g1
  unfold mixTail
  intro i1 i2 i3
  split
  · exact ⟨⟨Or.inl ⟨rfl, by simp, by simp⟩⟩, i3⟩
  · split
    · refine ⟨⟨Or.inr ⟨⟨i1, i2, fun h => absurd h hv, hnd⟩, ?_⟩⟩, i3⟩
      intro c hc
      injection hc with hc; injection hc with hc; subst hc
      exact i1
    · exact ⟨⟨Or.inr ⟨⟨i1, i2, fun h => absurd h hv, hnd⟩, by simp⟩⟩, i3⟩
  · exact ⟨⟨Or.inr ⟨⟨i1, i2, fun h => absurd h hv, hnd⟩, by simp⟩⟩, i3⟩

theorem step_track (ops : KeyOps K) (fuel : Nat) (replay : Bool) (heap : Nat → MixView K) (hh : HeapOk heap)
    {last : Option (Dict K Nat)} {n : Int} {g : Gen K} (hg : Track last n g) :
    Moved last n (heap g.base).rows (g.step ops fuel replay heap).1 (g.step ops fuel replay heap).2 ∧
      (g.step ops fuel replay heap).1.base = g.base := by
  unfold Gen.step
  split
  · exact ⟨⟨Or.inl ⟨rfl, by simp, by simp⟩⟩, rfl⟩
  · dsimp only
    split
    · rename_i hv; exact stepArbitrary_track fuel replay hg _ hv
    · rename_i hv; exact stepMixture_track ops replay hg _ hv (hh _)

theorem bump_same (n : Int) (rows : Dict K Nat) : bump (some rows) n rows = n := by
  unfold bump; simp only; rw [if_pos (SameMix.refl _)]

theorem run_track (ops : KeyOps K) (fuel : Nat) (replay : Bool) (heap : Nat → MixView K) (hh : HeapOk heap) (k : Nat) :
    ∀ {last : Option (Dict K Nat)} {n : Int} {g : Gen K}, Track last n g →
    Moved last n (heap g.base).rows (g.run ops fuel replay heap k).1 (some (g.run ops fuel replay heap k).2) := by
  induction k with
  | zero => intro last n g _; exact ⟨Or.inl ⟨rfl, by simp [Gen.run], by simp⟩⟩
  | succ k ih =>
    intro last n g hg
    obtain ⟨⟨hm⟩, hb⟩ := step_track ops fuel replay heap hh hg
    rw [Gen.run]
    generalize g.step ops fuel replay heap = r at hm hb
    obtain ⟨g', o⟩ := r
    cases o with
    | some o => exact ⟨hm⟩
    | none =>
      rcases hm with ⟨_, _, h⟩ | ⟨h, _⟩
      · exact absurd rfl h
      · have := ih h
        simp only at hb
        rw [hb] at this
        obtain ⟨this⟩ := this
        refine ⟨?_⟩
        rcases this with h1 | ⟨h1, h2⟩
        · exact Or.inl h1
        · rw [bump_same] at h1 h2
          exact Or.inr ⟨h1, h2⟩

theorem send_track (ops : KeyOps K) (replay : Bool) (r : Req K) (hh : HeapOk r.heap) {last : Option (Dict K Nat)} {n : Int}
    {g : Gen K} (hg : g.susp = .finished ∨ Track last n g) :
    Moved last n (g.eff r).rows (g.send ops r.fuel replay r.heap r.mix r.target).1
      (some (g.send ops r.fuel replay r.heap r.mix r.target).2) := by
  cases hs : g.susp with
  | finished =>
    have e : g.send ops r.fuel replay r.heap r.mix r.target = (g, .stop) := by simp only [Gen.send, hs]
    rw [e]
    exact ⟨Or.inl ⟨hs, by simp, by simp⟩⟩
  | ready =>
    have hg := hg.resolve_left (by rw [hs]; simp)
    have hg' : Track last n { g with base := r.mix, target := r.target } := by cases last <;> exact hg
    have e : g.send ops r.fuel replay r.heap r.mix r.target =
        Gen.run ops r.fuel replay r.heap r.fuel { g with base := r.mix, target := r.target } := by simp only [Gen.send, hs]
    have e' : g.eff r = r.heap r.mix := by simp [Gen.eff, hs]
    rw [e, e']
    exact run_track ops r.fuel replay r.heap hh r.fuel hg'
  | afterNone =>
    have hg := hg.resolve_left (by rw [hs]; simp)
    have e : g.send ops r.fuel replay r.heap r.mix r.target = Gen.run ops r.fuel replay r.heap r.fuel g := by
      simp only [Gen.send, hs]
    have e' : g.eff r = r.heap g.base := by simp [Gen.eff, hs]
    rw [e, e']
    exact run_track ops r.fuel replay r.heap hh r.fuel hg

theorem play_snoc (ops : KeyOps K) (replay : Bool) (rs : List (Req K)) (r : Req K) : ∀ g : Gen K,
    g.play ops replay (rs ++ [r]) =
      (((g.play ops replay rs).1.send ops r.fuel replay r.heap r.mix r.target).1,
        (g.play ops replay rs).2 ++ [((g.play ops replay rs).1.send ops r.fuel replay r.heap r.mix r.target).2]) := by
  induction rs with
  | nil => intro g; rfl
  | cons r' rs ih => intro g; simp only [List.cons_append, Gen.play, ih]

theorem servedWith_snoc (ops : KeyOps K) (replay : Bool) (rs : List (Req K)) (r : Req K) : ∀ g : Gen K,
    servedWith ops replay g (rs ++ [r]) = servedWith ops replay g rs ++ [((g.play ops replay rs).1.eff r).rows] := by
  induction rs with
  | nil => intro g; rfl
  | cons r' rs ih => intro g; simp only [List.cons_append, servedWith, ih]; rfl

open Classical in
theorem mixChanges_snoc (l : List (Dict K Nat)) (a b : Dict K Nat) :
    mixChanges (l ++ [a, b]) = mixChanges (l ++ [a]) + (if SameMix a b then 0 else 1) := by
  induction l with
  | nil => simp [mixChanges]
  | cons x l ih =>
    cases l with
    | nil => simp only [List.nil_append, List.cons_append, mixChanges] at ih ⊢; omega
    | cons y l =>
      simp only [List.cons_append, mixChanges] at ih ⊢
      omega

theorem bump_changes (l : List (Dict K Nat)) (rows : Dict K Nat) :
    bump l.getLast? (if l = [] then -1 else (mixChanges l : Int)) rows = mixChanges (l ++ [rows]) := by
  rcases List.eq_nil_or_concat l with rfl | ⟨l', a, rfl⟩
  · simp [bump, mixChanges]
  · rw [List.concat_eq_append, List.getLast?_concat, if_neg (by simp), List.append_assoc]
    show _ = ((mixChanges (l' ++ [a, rows]) : Nat) : Int)
    rw [mixChanges_snoc]
    unfold bump
    simp only
    split <;> simp

theorem play_track (ops : KeyOps K) (replay : Bool) (index : Dict K Entries) (order : List K) (rs : List (Req K))
    (hh : ∀ r ∈ rs, HeapOk r.heap) :
    let g := Gen.init index order
    (g.play ops replay rs).1.susp = .finished ∨
      Track (servedWith ops replay g rs).getLast?
        (if servedWith ops replay g rs = [] then -1 else (mixChanges (servedWith ops replay g rs) : Int))
        (g.play ops replay rs).1 := by
  induction rs using List.reverseRecOn with
  | nil => exact Or.inr ⟨rfl, rfl, rfl, rfl⟩
  | append_singleton rs r ih =>
    intro g
    have ih := ih (fun r' hr => hh r' (List.mem_append_left _ hr))
    obtain ⟨hm⟩ := send_track ops replay r (hh r (List.mem_append_right _ (List.mem_singleton.2 rfl))) ih
    rw [play_snoc, servedWith_snoc, List.getLast?_concat, if_neg (by simp), ← bump_changes]
    rcases hm with ⟨h, _⟩ | ⟨h, _⟩
    · exact Or.inl h
    · exact Or.inr h

theorem length_play (ops : KeyOps K) (replay : Bool) (rs : List (Req K)) : ∀ g : Gen K, (g.play ops replay rs).2.length = rs.length := by
  induction rs with
  | nil => intro g; rfl
  | cons r rs ih => intro g; simp [Gen.play, ih]

theorem length_servedWith (ops : KeyOps K) (replay : Bool) (rs : List (Req K)) : ∀ g : Gen K,
    (servedWith ops replay g rs).length = rs.length := by
  induction rs with
  | nil => intro g; rfl
  | cons r rs ih => intro g; simp [servedWith, ih]

/-! ### Theorems -/

/-- **C69**. In every history of requests, with any mixtures, exchanged and mutated in any way, and any chunk indices: the
mixture id of a chunk is the number of times the mixture in use has changed up to and including its request. -/
theorem c69_ids (ops : KeyOps K) (replay : Bool) (index : Dict K Entries) (order : List K) (rs : List (Req K))
    (hh : ∀ r ∈ rs, HeapOk r.heap) (i : Nat) (c : RChunk K)
    (hc : ((Gen.init index order).play ops replay rs).2[i]? = some (.chunk c)) :
    c.mixtureId = mixChanges ((servedWith ops replay (Gen.init index order) rs).take (i + 1)) := by
  induction rs using List.reverseRecOn with
  | nil => simp [Gen.play] at hc
  | append_singleton rs r ih =>
    have hh' : ∀ r' ∈ rs, HeapOk r'.heap := fun r' hr => hh r' (List.mem_append_left _ hr)
    have hlen := length_play ops replay rs (Gen.init index order)
    have hlen' := length_servedWith ops replay rs (Gen.init index order)
    rw [play_snoc] at hc
    rw [servedWith_snoc]
    by_cases hi : i < rs.length
    · rw [List.getElem?_append_left (by omega)] at hc
      rw [List.take_append_of_le_length (by omega)]
      exact ih hh' hc
    · obtain rfl : i = rs.length := by
        have := (List.getElem?_eq_some_iff.1 hc).1
        simp only [List.length_append, List.length_singleton, hlen] at this
        omega
      rw [List.take_of_length_le (by simp [hlen']), ← bump_changes]
      rw [List.getElem?_append_right (by omega), hlen] at hc
      simp only [Nat.sub_self, List.getElem?_cons_zero, Option.some.injEq] at hc
      obtain ⟨hm⟩ := send_track ops replay r (hh r (List.mem_append_right _ (List.mem_singleton.2 rfl)))
        (play_track ops replay index order rs hh')
      rcases hm with ⟨_, h, _⟩ | ⟨_, h⟩
      · exact absurd (congrArg some hc) (h c)
      · exact h c (congrArg some hc)

open Classical in
theorem mixChanges_take (l : List (Dict K Nat)) (i : Nat) (hi : i + 1 < l.length) :
    mixChanges (l.take (i + 2)) = mixChanges (l.take (i + 1)) +
      (if SameMix (l[i]'(by omega)) (l[i + 1]'hi) then 0 else 1) := by
  have h1 : l.take (i + 1) = l.take i ++ [l[i]'(by omega)] := by
    rw [List.take_add_one, List.getElem?_eq_getElem (by omega)]; rfl
  have h2 : l.take (i + 2) = l.take i ++ [l[i]'(by omega), l[i + 1]'hi] := by
    rw [List.take_add_one, List.getElem?_eq_getElem hi, h1, List.append_assoc]; rfl
  rw [h1, h2, mixChanges_snoc]

theorem mixChanges_mono (l : List (Dict K Nat)) (i j : Nat) (hij : i ≤ j) (hj : j < l.length) :
    mixChanges (l.take (i + 1)) ≤ mixChanges (l.take (j + 1)) ∧
    (mixChanges (l.take (i + 1)) = mixChanges (l.take (j + 1)) ↔
      ∀ k a b, i ≤ k → k < j → l[k]? = some a → l[k + 1]? = some b → SameMix a b) := by
  induction j with
  | zero =>
    obtain rfl : i = 0 := by omega
    exact ⟨Nat.le_refl _, fun _ k a b _ hk => absurd hk (Nat.not_lt_zero _), fun _ => rfl⟩
  | succ j ih =>
    by_cases he : i = j + 1
    · subst he
      exact ⟨Nat.le_refl _, fun _ k a b h1 h2 => absurd h2 (by omega), fun _ => rfl⟩
    · obtain ⟨i1, i2⟩ := ih (by omega) (by omega)
      rw [mixChanges_take l j hj]
      by_cases hs : SameMix (l[j]'(by omega)) (l[j + 1]'hj)
      · rw [if_pos hs]
        refine ⟨i1, ?_⟩
        rw [Nat.add_zero (mixChanges (l.take (j + 1))), i2]
        constructor
        · intro h k a b h1 h2 ha hb
          by_cases hk : k = j
          · subst hk
            rw [List.getElem?_eq_getElem (by omega)] at ha hb
            injection ha with ha; injection hb with hb
            subst ha; subst hb
            exact hs
          · exact h k a b h1 (by omega) ha hb
        · intro h k a b h1 h2; exact h k a b h1 (by omega)
      · rw [if_neg hs]
        refine ⟨by omega, ⟨fun h => absurd h (by omega), fun h => ?_⟩⟩
        exact absurd (h j _ _ (by omega) (by omega) (List.getElem?_eq_getElem (by omega)) (List.getElem?_eq_getElem hj)) hs

/-- **C69** (what clients rely on). Ids are never negative and never decrease from one chunk to a later one, and two chunks
have the same id exactly if the mixture in use did not change between their requests. -/
theorem c69_monotone (ops : KeyOps K) (replay : Bool) (index : Dict K Entries) (order : List K) (rs : List (Req K))
    (hh : ∀ r ∈ rs, HeapOk r.heap) (i j : Nat) (hij : i ≤ j) (c d : RChunk K)
    (hc : ((Gen.init index order).play ops replay rs).2[i]? = some (.chunk c))
    (hd : ((Gen.init index order).play ops replay rs).2[j]? = some (.chunk d)) :
    0 ≤ c.mixtureId ∧ c.mixtureId ≤ d.mixtureId ∧
    (c.mixtureId = d.mixtureId ↔ ∀ k a b, i ≤ k → k < j → (servedWith ops replay (Gen.init index order) rs)[k]? = some a →
      (servedWith ops replay (Gen.init index order) rs)[k + 1]? = some b → SameMix a b) := by
  have hj : j < (servedWith ops replay (Gen.init index order) rs).length := by
    rw [length_servedWith, ← length_play ops replay rs (Gen.init index order)]
    exact (List.getElem?_eq_some_iff.1 hd).1
  obtain ⟨h1, h2⟩ := mixChanges_mono _ i j hij hj
  rw [c69_ids ops replay index order rs hh i c hc, c69_ids ops replay index order rs hh j d hd]
  refine ⟨by omega, by omega, ?_⟩
  rw [← h2]
  exact Int.natCast_inj

/-- **C69** (the first chunk). The first request, if it delivers a chunk, delivers one with id 0. -/
theorem c69_first (ops : KeyOps K) (replay : Bool) (index : Dict K Entries) (order : List K) (r : Req K) (rs : List (Req K))
    (hh : ∀ r' ∈ r :: rs, HeapOk r'.heap) (c : RChunk K)
    (hc : ((Gen.init index order).play ops replay (r :: rs)).2[0]? = some (.chunk c)) : c.mixtureId = 0 := by
  rw [c69_ids ops replay index order (r :: rs) hh 0 c hc]
  simp [servedWith, mixChanges]

/-! ### Example -/

/-- Two chunks with one mixture, one with another one, the first mixture again, and no mixture at all. -/
example : (((Gen.init Ex.index Ex.order).play Ex.ops false
    [Ex.req Ex.strictMix 0, Ex.req Ex.bestMix 1, Ex.req ⟨[(2, 1)], true, 1⟩ 2, Ex.req Ex.arbMix 3, Ex.req Ex.arbMix 4]).2.map
      fun o => match o with | .chunk c => some c.mixtureId | _ => none) = [some 0, some 0, some 1, some 2, some 2] := by
  decide +kernel

end Mixtera
