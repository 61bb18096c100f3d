import Verif.Props.Mixture

/-!
# C25, C61: dynamic mixtures
-/

set_option linter.unusedSectionVars false

namespace Mixtera

variable {K : Type} [DecidableEq K]

/-- Anything that can happen to a dynamic mixture: it is told about the index, about the key ids, or about losses, to
which the mixing algorithm reacted with `out`. -/
inductive DynOp (K : Type)
  | index (index : Dict K Entries)
  | idMap (ids : Dict K Nat)
  | losses (mixtureId : Int) (out : Option (List ℚ))

/-- One operation; the result is the new state and the exception raised, if any. -/
def Dyn.step (d : Dyn K) : DynOp K → Dyn K × Option Err
  | .index i => d.processIndex i
  | .idMap ids => d.processIdMap ids
  | .losses m out => d.processLosses m out

/-- The state after a sequence of operations; exceptions do not end the sequence. -/
def Dyn.run (d : Dyn K) (ops : List (DynOp K)) : Dyn K := ops.foldl (fun d op => (d.step op).1) d

theorem idKey_iff {ids : Dict K Nat} (hk : ids.keys.Nodup) (hv : ids.values.Nodup) (i : Nat) (k : K) :
    idKey ids i = some k ↔ ids.get? k = some i := by
  unfold idKey
  constructor
  · intro h
    rw [Option.map_eq_some_iff] at h
    obtain ⟨⟨k', j⟩, hf, rfl⟩ := h
    have h1 := List.find?_some hf
    have h2 := List.mem_of_find?_eq_some hf
    simp only [decide_eq_true_eq] at h1
    subst h1
    exact Dict.get?_of_mem hk (List.mem_reverse.mp h2)
  · intro h
    have hm := Dict.mem_of_get? h
    cases hf : ids.reverse.find? (fun kv => decide (kv.2 = i)) with
    | none =>
      rw [List.find?_eq_none] at hf
      have := hf _ (List.mem_reverse.mpr hm)
      simp at this
    | some x =>
      obtain ⟨k', j⟩ := x
      have h1 := List.find?_some hf
      have h2 := List.mem_of_find?_eq_some hf
      simp only [decide_eq_true_eq] at h1
      subst h1
      have hinj := List.inj_on_of_nodup_map (f := Prod.snd) (l := ids) hv (List.mem_reverse.mp h2) hm rfl
      simp only [Prod.mk.injEq] at hinj
      simp [hinj.1]

/-- The sum of the positive weights. -/
def posSum (w : List ℚ) : ℚ := (w.filter fun x => decide (x > 0)).sum

theorem weightMap_spec {ids : Dict K Nat} (hk : ids.keys.Nodup) (hv : ids.values.Nodup) (w : List ℚ) (i : Nat)
    (acc m : Dict K ℚ) (hacc : acc.keys.Nodup) (hlow : ∀ k ∈ acc.keys, ∃ j, ids.get? k = some j ∧ j < i)
    (h : weightMap ids i w acc = .ok m) :
    m.keys.Nodup ∧ m.values.sum = acc.values.sum + posSum w ∧
    (∀ k q, m.get? k = some q ↔ acc.get? k = some q ∨ ∃ j, ids.get? k = some (i + j) ∧ w[j]? = some q ∧ 0 < q) ∧
    (∀ j q, w[j]? = some q → 0 < q → ∃ k, ids.get? k = some (i + j)) := by
  induction w generalizing i acc with
  | nil =>
    simp only [weightMap, Except.ok.injEq] at h
    subst h
    exact ⟨hacc, by simp [posSum], by simp, by simp⟩
  | cons x w ih =>
    rw [weightMap] at h
    by_cases hx : x > 0
    · rw [if_pos hx] at h
      cases hkey : idKey ids i with
      | none => rw [hkey] at h; cases h
      | some k0 =>
        rw [hkey] at h
        dsimp only at h
        have hid := (idKey_iff hk hv i k0).mp hkey
        have hnew : k0 ∉ acc.keys := by
          intro hc
          obtain ⟨j, hj, hlt⟩ := hlow k0 hc
          rw [hid] at hj
          simp at hj
          omega
        obtain ⟨h1, h2, h3, h4⟩ := ih (i + 1) (acc.set k0 x) (Dict.nodup_keys_upsert hacc _ _) (by
          intro k hkm
          rcases (Dict.mem_keys_upsert k0 k _).mp hkm with rfl | hkm
          · exact ⟨i, hid, by omega⟩
          · obtain ⟨j, hj, hlt⟩ := hlow k hkm
            exact ⟨j, hj, by omega⟩) h
        refine ⟨h1, ?_, ?_, ?_⟩
        · rw [h2]
          have : (acc.set k0 x).values.sum = acc.values.sum + x := by
            have hset : ∀ d : Dict K ℚ, k0 ∉ d.keys → d.set k0 x = d ++ [(k0, x)] := by
              intro d
              induction d with
              | nil => intro _; rfl
              | cons y d ihd =>
                intro hd
                obtain ⟨a, b⟩ := y
                simp only [Dict.keys, List.map_cons, List.mem_cons, not_or] at hd
                have := ihd hd.2
                unfold Dict.set at this ⊢
                rw [Dict.upsert, if_neg (Ne.symm hd.1), this]
                rfl
            rw [hset acc hnew]
            simp [Dict.values]
          rw [this]
          unfold posSum
          rw [List.filter_cons_of_pos (by simpa using hx)]
          simp only [List.sum_cons]
          ring
        · intro k q
          rw [h3 k q, Dict.get?_set]
          constructor
          · rintro (h | ⟨j, hj, hw, hq⟩)
            · by_cases he : k0 = k
              · subst he
                rw [if_pos rfl] at h
                simp only [Option.some.injEq] at h
                exact Or.inr ⟨0, by simpa using hid, by simpa using h, h ▸ hx⟩
              · rw [if_neg he] at h; exact Or.inl h
            · exact Or.inr ⟨j + 1, by rw [hj]; congr 1; omega, by simpa using hw, hq⟩
          · rintro (h | ⟨j, hj, hw, hq⟩)
            · have he : k0 ≠ k := by
                rintro rfl
                exact hnew ((Dict.mem_keys_iff _ _).mpr ⟨q, h⟩)
              rw [if_neg he]; exact Or.inl h
            · cases j with
              | zero =>
                have hk0 : k0 = k := by
                  have := (idKey_iff hk hv i k).mpr (by simpa using hj)
                  rw [hkey] at this
                  simpa using this
                simp only [List.getElem?_cons_zero, Option.some.injEq] at hw
                rw [if_pos hk0, hw]
                exact Or.inl rfl
              | succ j =>
                exact Or.inr ⟨j, by rw [hj]; congr 1; omega, by simpa using hw, hq⟩
        · intro j q hw hq
          cases j with
          | zero => exact ⟨k0, by simpa using hid⟩
          | succ j =>
            obtain ⟨k, hk'⟩ := h4 j q (by simpa using hw) hq
            exact ⟨k, by rw [hk']; congr 1; omega⟩
    · rw [if_neg hx] at h
      obtain ⟨h1, h2, h3, h4⟩ := ih (i + 1) acc hacc (by
          intro k hkm
          obtain ⟨j, hj, hlt⟩ := hlow k hkm
          exact ⟨j, hj, by omega⟩) h
      refine ⟨h1, ?_, ?_, ?_⟩
      · rw [h2]
        unfold posSum
        rw [List.filter_cons_of_neg (by simpa using hx)]
      · intro k q
        rw [h3 k q]
        apply or_congr_right
        constructor
        · rintro ⟨j, hj, hw, hq⟩
          exact ⟨j + 1, by rw [hj]; congr 1; omega, by simpa using hw, hq⟩
        · rintro ⟨j, hj, hw, hq⟩
          cases j with
          | zero =>
            simp only [List.getElem?_cons_zero, Option.some.injEq] at hw
            exact absurd (hw ▸ hq) hx
          | succ j => exact ⟨j, by rw [hj]; congr 1; omega, by simpa using hw, hq⟩
      · intro j q hw hq
        cases j with
        | zero =>
          simp only [List.getElem?_cons_zero, Option.some.injEq] at hw
          exact absurd (hw ▸ hq) hx
        | succ j =>
          obtain ⟨k, hk'⟩ := h4 j q (by simpa using hw) hq
          exact ⟨k, by rw [hk']; congr 1; omega⟩

/-- C25. When a loss report changes the mixture without raising, then with the key ids known at this point (distinct,
see C14): a key is in the new mixture iff the algorithm gave its id a positive weight, the rows sum to the chunk size,
and every key gets `chunk * weight` (weights divided by their sum) rounded as in C21. -/
theorem c25_update (d d' : Dyn K) (mixtureId : Int) (w : List ℚ) (h : d.processLosses mixtureId (some w) = (d', none)) :
    ∃ ids, d.ids = some ids ∧ (ids.keys.Nodup → ids.values.Nodup →
      d'.cur.rows.values.sum = d.chunk ∧ d'.cur.chunk = d.chunk ∧ d'.chunk = d.chunk ∧ d'.ids = d.ids ∧
      (∀ k, k ∈ d'.cur.rows.keys ↔ ∃ i q, ids.get? k = some i ∧ w[i]? = some q ∧ 0 < q) ∧
      (∀ i q, w[i]? = some q → 0 < q → ∃ k, ids.get? k = some i) ∧
      ∃ share : Dict K ℚ, Rounded d.chunk share d'.cur.rows ∧
        (∀ k q r (n : Nat), share.get? k = some q → d'.cur.rows.get? k = some r → (d.chunk : ℚ) * q = n → r = n) ∧
        ∀ k p, share.get? k = some p ↔ ∃ i q, ids.get? k = some i ∧ w[i]? = some q ∧ 0 < q ∧ p = q / posSum w) := by
  unfold Dyn.processLosses at h
  cases hids : d.ids with
  | none => rw [hids] at h; simp at h
  | some ids =>
    rw [hids] at h
    dsimp only at h
    split at h
    · simp at h
    split at h
    · simp at h
    cases hw : weightMap ids 0 w [] with
    | error e => rw [hw] at h; simp at h
    | ok m =>
      rw [hw] at h
      dsimp only at h
      cases hst : staticMixture d.chunk m with
      | error e => rw [hst] at h; simp at h
      | ok rows =>
        rw [hst] at h
        simp only [Prod.mk.injEq, and_true] at h
        subst h
        refine ⟨ids, rfl, fun hk hv => ?_⟩
        obtain ⟨h1, h2, h3, h4⟩ := weightMap_spec hk hv w 0 [] m (by simp [Dict.keys]) (by simp [Dict.keys]) hw
        simp only [Nat.zero_add] at h3 h4
        have h2' : m.values.sum = posSum w := by rw [h2]; simp [Dict.values]
        have hclose : closeToOne m.values.sum := by
          by_contra hc
          rw [(c21_static_rejects d.chunk m).1 hc] at hst
          cases hst
        have hnn : ∀ kv ∈ m, 0 ≤ kv.2 := by
          intro kv hkv
          rcases (h3 kv.1 kv.2).mp (Dict.get?_of_mem h1 hkv) with h | ⟨j, _, _, hq⟩
          · simp [Dict.get?] at h
          · exact hq.le
        obtain ⟨rows', hr1, hr2, hr3⟩ := c21_static_renormalised d.chunk m h1 hnn hclose
        rw [hst] at hr1
        simp only [Except.ok.injEq] at hr1
        subst hr1
        have hsh : ∀ k p, Dict.get? (m.map fun kv => (kv.1, kv.2 / m.values.sum)) k = some p ↔
            ∃ i q, ids.get? k = some i ∧ w[i]? = some q ∧ 0 < q ∧ p = q / posSum w := by
          intro k p
          rw [Dict.get?_mapVal (fun v => v / m.values.sum), Option.map_eq_some_iff, h2']
          constructor
          · rintro ⟨q, hq, rfl⟩
            rcases (h3 k q).mp hq with h | ⟨j, hj, hwj, hq0⟩
            · simp [Dict.get?] at h
            · exact ⟨j, q, hj, hwj, hq0, rfl⟩
          · rintro ⟨i, q, hi, hwi, hq0, rfl⟩
            exact ⟨q, (h3 k q).mpr (Or.inr ⟨i, hi, hwi, hq0⟩), rfl⟩
        refine ⟨hr2.total, rfl, rfl, rfl, ?_, h4, _, hr2, hr3, hsh⟩
        intro k
        rw [hr2.keys, Dict.mem_keys_iff]
        constructor
        · rintro ⟨p, hp⟩
          obtain ⟨i, q, a, b, c, _⟩ := (hsh k p).mp hp
          exact ⟨i, q, a, b, c⟩
        · rintro ⟨i, q, a, b, c⟩
          exact ⟨_, (hsh k _).mpr ⟨i, q, a, b, c, rfl⟩⟩

theorem weightMap_ok {ids : Dict K Nat} (hk : ids.keys.Nodup) (hv : ids.values.Nodup) (w : List ℚ) (i : Nat) (acc : Dict K ℚ)
    (h : ∀ j q, w[j]? = some q → 0 < q → ∃ k, ids.get? k = some (i + j)) : ∃ m, weightMap ids i w acc = .ok m := by
  induction w generalizing i acc with
  | nil => exact ⟨acc, rfl⟩
  | cons x w ih =>
    have hrest : ∀ j q, w[j]? = some q → 0 < q → ∃ k, ids.get? k = some (i + 1 + j) := by
      intro j q hj hq
      obtain ⟨k, hk'⟩ := h (j + 1) q (by simpa using hj) hq
      exact ⟨k, by rw [hk']; congr 1; omega⟩
    rw [weightMap]
    by_cases hx : x > 0
    · rw [if_pos hx]
      obtain ⟨k, hk'⟩ := h 0 x (by simp) hx
      rw [(idKey_iff hk hv i k).mpr (by simpa using hk')]
      exact ih (i + 1) _ hrest
    · rw [if_neg hx]; exact ih (i + 1) _ hrest

theorem posSum_of_nonneg (w : List ℚ) (h : ∀ x ∈ w, 0 ≤ x) : posSum w = w.sum := by
  unfold posSum
  induction w with
  | nil => rfl
  | cons x w ih =>
    have ih := ih (fun y hy => h y (by simp [hy]))
    by_cases hx : x > 0
    · rw [List.filter_cons_of_pos (by simpa using hx), List.sum_cons, List.sum_cons, ih]
    · rw [List.filter_cons_of_neg (by simpa using hx), List.sum_cons, ih]
      have := h x (by simp)
      have : x = 0 := le_antisymm (not_lt.mp hx) this
      rw [this]; simp

/-- C25. A distribution over known keys is accepted: if the mixture has been informed about key ids, every weight is
non-negative, the weights sum to 1, and every positive weight belongs to a known id, the report raises nothing. -/
theorem c25_distribution_accepted (d : Dyn K) (ids : Dict K Nat) (mixtureId : Int) (w : List ℚ) (hid : d.ids = some ids)
    (hinf : d.informed = true) (hm : 0 ≤ mixtureId) (hk : ids.keys.Nodup) (hv : ids.values.Nodup)
    (hnn : ∀ x ∈ w, 0 ≤ x) (hsum : w.sum = 1) (hknown : ∀ i q, w[i]? = some q → 0 < q → ∃ k, ids.get? k = some i) :
    ∃ d', d.processLosses mixtureId (some w) = (d', none) := by
  obtain ⟨m, hmap⟩ := weightMap_ok hk hv w 0 [] (by simpa using hknown)
  obtain ⟨h1, h2, h3, _⟩ := weightMap_spec hk hv w 0 [] m (by simp [Dict.keys]) (by simp [Dict.keys]) hmap
  have hs : m.values.sum = 1 := by rw [h2, posSum_of_nonneg w hnn, hsum]; simp [Dict.values]
  have hnn' : ∀ kv ∈ m, 0 ≤ kv.2 := by
    intro kv hkv
    rcases (h3 kv.1 kv.2).mp (Dict.get?_of_mem h1 hkv) with h | ⟨j, _, _, hq⟩
    · simp [Dict.get?] at h
    · exact hq.le
  obtain ⟨rows, hst, _, _⟩ := c21_static d.chunk m h1 hnn' hs
  unfold Dyn.processLosses
  rw [hid]
  dsimp only
  rw [if_neg (by simp [hinf]; omega), if_neg (by rw [hsum]; unfold npCloseToOne; norm_num), hmap]
  dsimp only
  rw [hst]
  exact ⟨_, rfl⟩

/-- C25. What is not a distribution is refused: if the weights that the algorithm returns do not sum to one (up to numpy's
default tolerances), the report raises and the mixture stays as it is. -/
theorem c25_not_distribution (d : Dyn K) (mixtureId : Int) (w : List ℚ) (h : 1 / 100000 + 1 / 100000000 < |w.sum - 1|) :
    d.processLosses mixtureId (some w) = (d, some .assertion) := by
  have hn : ¬ npCloseToOne w.sum := by
    unfold npCloseToOne
    rw [not_le, add_comm]
    exact h
  unfold Dyn.processLosses
  split
  · rfl
  · split
    · rfl
    · dsimp only
      rw [if_pos hn]

/-- C25. After any sequence of operations, with whatever results of the mixing algorithm, the rows sum to the chunk size
- provided the initial mixture's rows do - or, for an initial inferring mixture, are empty because no index was
announced yet. -/
theorem c25_rows_sum (chunk : Nat) (strict : Bool) (initial : BaseMix K) (ops : List (DynOp K))
    (hidx : ∀ index, DynOp.index index ∈ ops → index.keys.Nodup)
    (hids : ∀ ids, DynOp.idMap ids ∈ ops → ids.keys.Nodup ∧ ids.values.Nodup)
    (hinit : initial.rows.values.sum = chunk ∨ (initial.inferring = true ∧ initial.rows = [])) :
    let d := (Dyn.init chunk strict initial).run ops
    d.cur.rows.values.sum = chunk ∨ (d.cur.inferring = true ∧ d.cur.rows = []) := by
  suffices H : ∀ (ops : List (DynOp K)) (d : Dyn K),
      (∀ index, DynOp.index index ∈ ops → index.keys.Nodup) →
      (∀ ids, DynOp.idMap ids ∈ ops → ids.keys.Nodup ∧ ids.values.Nodup) →
      d.chunk = chunk → d.cur.chunk = chunk → (∀ ids, d.ids = some ids → ids.keys.Nodup ∧ ids.values.Nodup) →
      (d.cur.rows.values.sum = chunk ∨ (d.cur.inferring = true ∧ d.cur.rows = [])) →
      ((d.run ops).cur.rows.values.sum = chunk ∨ ((d.run ops).cur.inferring = true ∧ (d.run ops).cur.rows = [])) by
    exact H ops _ hidx hids rfl rfl (by intro ids h; simp [Dyn.init] at h) hinit
  intro ops
  induction ops with
  | nil => intro d _ _ _ _ _ h; exact h
  | cons op ops ih =>
    intro d hidx hids hc hcc hd hinv
    have e : d.run (op :: ops) = ((d.step op).1).run ops := rfl
    rw [e]
    have hidx' : ∀ index, DynOp.index index ∈ ops → index.keys.Nodup := fun i h => hidx i (by simp [h])
    have hids' : ∀ ids, DynOp.idMap ids ∈ ops → ids.keys.Nodup ∧ ids.values.Nodup := fun i h => hids i (by simp [h])
    cases op with
    | index index =>
      have hn := hidx index (by simp)
      unfold Dyn.step Dyn.processIndex BaseMix.processIndex
      dsimp only
      by_cases hi : d.cur.inferring = true
      · rw [if_pos hi, hcc]
        cases hr : inferRows chunk index with
        | error err => exact ih d hidx' hids' hc hcc hd hinv
        | ok rows =>
          refine ih _ hidx' hids' hc rfl hd ?_
          dsimp only
          by_cases hs : contentSamples index = []
          · rw [c23_without_samples chunk index hs] at hr
            by_cases hie : index = []
            · rw [if_pos hie] at hr
              simp only [Except.ok.injEq] at hr
              exact Or.inr ⟨hi, hr.symm⟩
            · rw [if_neg hie] at hr; cases hr
          · obtain ⟨rows', h1, _, h2, _⟩ := c23_inferring chunk index hn hs
            rw [hr] at h1
            simp only [Except.ok.injEq] at h1
            subst h1
            exact Or.inl h2
      · rw [if_neg hi]
        exact ih _ hidx' hids' hc hcc hd hinv
    | idMap ids =>
      have hn := hids ids (by simp)
      have key : ∀ (b : Bool) (t : List ℚ), (({ d with ids := some ids, informed := b, told := t } : Dyn K).run ops).cur.rows.values.sum = chunk ∨
          ((({ d with ids := some ids, informed := b, told := t } : Dyn K).run ops).cur.inferring = true ∧
            (({ d with ids := some ids, informed := b, told := t } : Dyn K).run ops).cur.rows = []) := by
        intro b t
        refine ih _ hidx' hids' hc hcc ?_ hinv
        intro ids' h
        simp only [Option.some.injEq] at h
        subst h; exact hn
      unfold Dyn.step Dyn.processIdMap
      dsimp only
      split
      · exact key _ _
      split
      · exact key _ _
      split
      · exact key _ _
      split
      · exact key _ _
      · exact key _ _
    | losses mixtureId out =>
      have hsame : (d.processLosses mixtureId out).1 = d ∨ ∃ w d', out = some w ∧ d.processLosses mixtureId (some w) = (d', none) := by
        cases out with
        | none =>
          left
          unfold Dyn.processLosses
          split
          · rfl
          · split <;> rfl
        | some w =>
          rcases hp : d.processLosses mixtureId (some w) with ⟨d', o⟩
          cases o with
          | none => exact Or.inr ⟨w, d', rfl, hp⟩
          | some err =>
            left
            unfold Dyn.processLosses at hp
            split at hp
            · simp at hp; exact hp.1.symm
            split at hp
            · simp at hp; exact hp.1.symm
            dsimp only at hp
            split at hp
            · simp at hp; exact hp.1.symm
            split at hp
            · simp at hp; exact hp.1.symm
            split at hp
            · simp at hp; exact hp.1.symm
            · simp at hp
      rcases hsame with hs | ⟨w, d', rfl, hp⟩
      · show ((d.processLosses mixtureId out).1.run ops).cur.rows.values.sum = chunk ∨ _
        rw [show (d.step (.losses mixtureId out)).1 = d from hs, hs]
        exact ih d hidx' hids' hc hcc hd hinv
      · have he : (d.step (.losses mixtureId (some w))).1 = d' := by
          show (d.processLosses mixtureId (some w)).1 = d'
          rw [hp]
        rw [he]
        obtain ⟨ids, hids1, hrest⟩ := c25_update d d' mixtureId w hp
        obtain ⟨hn1, hn2⟩ := hd ids hids1
        obtain ⟨a1, a2, a3, a4, _⟩ := hrest hn1 hn2
        refine ih d' hidx' hids' (a3.trans hc) (a2.trans hc) ?_ (Or.inl (a1.trans hc))
        rw [a4]; exact hd

/-- Finding: the proviso of `c25_rows_sum` is not checked: an initial static mixture made for another chunk size is
accepted, its rows keep summing to that other size until the first update. -/
theorem c25_initial_not_adjusted :
    let initial : BaseMix Nat := ⟨false, 4, [(1, 3), (2, 1)], true⟩
    (Dyn.init 8 true initial).cur.rows.values.sum = 4 ∧ (Dyn.init 8 true initial).chunk = 8 := by decide

/-- Finding: a weight that is positive but too small for one row gives a key with zero rows. -/
theorem c25_zero_rows :
    let d : Dyn Nat := ⟨10, true, ⟨false, 10, [(5, 5), (6, 5)], true⟩, some [(5, 0), (6, 1)], true, [1 / 2, 1 / 2]⟩
    (d.processLosses 0 (some [99 / 100, 1 / 100])).1.cur.rows = [(5, 10), (6, 0)] := by decide +kernel

/-- The hypotheses of C25 are met: an inferring initial mixture, told about an index and ids, then updated. -/
example : let ops : List (DynOp Nat) := [.index [(5, [(0, [(0, [(0, 6)])])]), (6, [(0, [(0, [(6, 8)])])])],
      .idMap [(5, 0), (6, 1)], .losses 0 (some [1 / 4, 3 / 4]), .losses 1 none, .losses 1 (some [0, 1])]
    ((Dyn.init 4 true ⟨true, 9, [], true⟩).run (ops.take 2)).cur.rows = [(5, 3), (6, 1)] ∧
    ((Dyn.init 4 true ⟨true, 9, [], true⟩).run (ops.take 4)).cur.rows = [(5, 1), (6, 3)] ∧
    ((Dyn.init 4 true ⟨true, 9, [], true⟩).run ops).cur.rows = [(6, 4)] := by decide +kernel

/-! ### C61: what the mixing algorithm is told -/

theorem ids_inj {ids : Dict K Nat} (hk : ids.keys.Nodup) (hv : ids.values.Nodup) {k k' : K} {i : Nat}
    (h : ids.get? k = some i) (h' : ids.get? k' = some i) : k = k' := by
  have a := (idKey_iff hk hv i k).mpr h
  rw [(idKey_iff hk hv i k').mpr h'] at a
  exact (Option.some.inj a).symm

theorem initialMix_spec {ids : Dict K Nat} (hk : ids.keys.Nodup) (hv : ids.values.Nodup) (m : Dict K Nat) (l l' : List ℚ)
    (hm : m.keys.Nodup) (hlt : ∀ k i, ids.get? k = some i → i < l.length)
    (hz : ∀ k i, k ∈ m.keys → ids.get? k = some i → l[i]? = some 0) (h : initialMix ids m l = .ok l') :
    l'.length = l.length ∧ (∀ k ∈ m.keys, ∃ i, ids.get? k = some i) ∧
    (∀ k i r, ids.get? k = some i → m.get? k = some r → l'[i]? = some (r : ℚ)) ∧
    (∀ i, (∀ k ∈ m.keys, ids.get? k ≠ some i) → l'[i]? = l[i]?) ∧
    l'.sum = l.sum + (m.values.sum : ℚ) := by
  induction m generalizing l with
  | nil =>
    simp only [initialMix, Except.ok.injEq] at h
    subst h
    refine ⟨rfl, by simp [Dict.keys], by simp [Dict.get?], fun _ _ => rfl, by simp [Dict.values]⟩
  | cons kr m ih =>
    obtain ⟨k, r⟩ := kr
    simp only [initialMix] at h
    cases hi : ids.get? k with
    | none => rw [hi] at h; simp at h
    | some i =>
      rw [hi] at h
      simp only at h
      have hm' : k ∉ Dict.keys m ∧ (Dict.keys m).Nodup := by
        simpa [Dict.keys] using hm
      obtain ⟨hkm, hmn⟩ := hm'
      have hil : i < l.length := hlt k i hi
      have hi0 : l[i] = 0 := by
        have := hz k i (by simp [Dict.keys]) hi
        rw [List.getElem?_eq_getElem hil] at this
        exact Option.some.inj this
      obtain ⟨h1, h2, h3, h4, h5⟩ := ih (l.set i r) hmn (by simpa using hlt) (by
        intro k' i' hk' hi'
        have hne : i ≠ i' := by
          rintro rfl
          exact hkm (ids_inj hk hv hi hi' ▸ hk')
        rw [List.getElem?_set_ne hne]
        exact hz k' i' (by simp only [Dict.keys, List.map_cons, List.mem_cons]; exact Or.inr hk') hi') h
      refine ⟨by rw [h1, List.length_set], ?_, ?_, ?_, ?_⟩
      · intro k' hk'
        simp only [Dict.keys, List.map_cons, List.mem_cons] at hk'
        rcases hk' with rfl | hk'
        · exact ⟨i, hi⟩
        · exact h2 k' hk'
      · intro k' i' r' hi' hr'
        rw [Dict.get?_cons] at hr'
        by_cases hkk : k = k'
        · subst hkk
          rw [if_pos rfl] at hr'
          rw [hi] at hi'
          simp only [Option.some.injEq] at hi' hr'
          subst hi' hr'
          rw [h4 i (fun k'' hk'' hid => hkm (ids_inj hk hv hi hid ▸ hk'')), List.getElem?_set_self hil]
        · rw [if_neg hkk] at hr'
          exact h3 k' i' r' hi' hr'
      · intro i' hno
        have hne : i ≠ i' := by
          rintro rfl
          exact hno k (by simp [Dict.keys]) hi
        rw [h4 i' (fun k' hk' => hno k' (by simp only [Dict.keys, List.map_cons, List.mem_cons]; exact Or.inr hk')),
          List.getElem?_set_ne hne]
      · rw [h5, List.sum_set', dif_pos hil, hi0]
        simp [Dict.values, add_assoc]

theorem initialMix_ok {ids : Dict K Nat} (m : Dict K Nat) (l : List ℚ) (h : ∀ k ∈ m.keys, ∃ i, ids.get? k = some i) :
    ∃ l', initialMix ids m l = .ok l' := by
  induction m generalizing l with
  | nil => exact ⟨l, rfl⟩
  | cons kr m ih =>
    obtain ⟨k, r⟩ := kr
    obtain ⟨i, hi⟩ := h k (by simp [Dict.keys])
    simp only [initialMix, hi]
    exact ih _ (fun k' hk' => h k' (by simp only [Dict.keys, List.map_cons, List.mem_cons]; exact Or.inr hk'))

theorem le_max_of_get {ids : Dict K Nat} {n : Nat} (hn : ids.values.max? = some n) {k : K} {i : Nat}
    (h : ids.get? k = some i) : i ≤ n := by
  have hmem : i ∈ ids.values := List.mem_map.mpr ⟨(k, i), Dict.mem_of_get? h, rfl⟩
  exact (List.max?_eq_some_iff.mp hn).2 i hmem

/-- A vector that gives every key of the mixture its share of the rows, at the position of its id, and nothing to any other
position. -/
def SharesOf (rows : Dict K Nat) (ids : Dict K Nat) (v : List ℚ) : Prop :=
  (∀ k r, rows.get? k = some r → ∃ i, ids.get? k = some i ∧ v[i]? = some ((r : ℚ) / (rows.values.sum : ℚ))) ∧
  (∀ i q, v[i]? = some q → (∀ k ∈ rows.keys, ids.get? k ≠ some i) → q = 0) ∧
  v.sum = 1

/-- **C61** (told once). When a dynamic mixture first hears about key ids without an exception, the mixing algorithm is told
the shares of the rows of the current mixture. -/
theorem c61_told (d d' : Dyn K) (ids : Dict K Nat) (hk : ids.keys.Nodup) (hv : ids.values.Nodup) (hr : d.cur.rows.keys.Nodup)
    (hd : d.informed = false) (h : d.processIdMap ids = (d', none)) :
    SharesOf d.cur.rows ids d'.told ∧ d'.informed = true ∧ d'.ids = some ids ∧ d'.cur = d.cur ∧ d'.chunk = d.chunk := by
  unfold Dyn.processIdMap at h
  simp only [hd, Bool.false_eq_true, if_false] at h
  split at h
  · simp at h
  rename_i n hn
  split at h
  · simp at h
  rename_i l hl
  split at h
  · simp at h
  rename_i hsum
  simp only [Prod.mk.injEq, and_true] at h
  subst h
  obtain ⟨h1, h2, h3, h4, h5⟩ := initialMix_spec hk hv d.cur.rows _ l hr
    (by intro k i hi; have := le_max_of_get hn hi; simp; omega)
    (by intro k i _ hi; have := le_max_of_get hn hi; rw [List.getElem?_replicate, if_pos (by omega)]) hl
  have h5' : l.sum = (d.cur.rows.values.sum : ℚ) := by rw [h5]; simp
  refine ⟨⟨?_, ?_, ?_⟩, rfl, rfl, rfl, rfl⟩
  · intro k r hkr
    obtain ⟨i, hi⟩ := h2 k ((Dict.mem_keys_iff _ _).mpr ⟨r, hkr⟩)
    refine ⟨i, hi, ?_⟩
    rw [List.getElem?_map, h3 k i r hi hkr, h5']
    rfl
  · intro i q hq hno
    rw [List.getElem?_map, h4 i hno, List.getElem?_replicate] at hq
    split at hq
    · simp only [Option.map_some, zero_div, Option.some.injEq] at hq; exact hq.symm
    · simp at hq
  · have : ∀ l : List ℚ, ∀ c : ℚ, (l.map fun x => x / c).sum = l.sum / c := by
      intro l c
      induction l with
      | nil => simp
      | cons x l ih => simp [ih, add_div]
    simp only
    rw [this, div_self hsum]

/-- **C61** (when it works). The first announcement of key ids raises nothing if every key of the mixture has an id and the
mixture has rows. -/
theorem c61_accepted (d : Dyn K) (ids : Dict K Nat) (hk : ids.keys.Nodup) (hv : ids.values.Nodup) (hr : d.cur.rows.keys.Nodup)
    (hid : ∀ k ∈ d.cur.rows.keys, ∃ i, ids.get? k = some i) (hpos : d.cur.rows.values.sum ≠ 0) :
    ∃ d', d.processIdMap ids = (d', none) := by
  unfold Dyn.processIdMap
  cases hd : d.informed with
  | true => simp
  | false =>
    simp only [Bool.false_eq_true, if_false]
    obtain ⟨l, hl⟩ := initialMix_ok d.cur.rows (List.replicate ((ids.values.max?.getD 0) + 1) (0 : ℚ)) hid
    cases hn : ids.values.max? with
    | none =>
      exfalso
      have hv0 : ids.values = [] := List.max?_eq_none_iff.mp hn
      have hi0 : ids = [] := by simpa [Dict.values] using hv0
      cases hrows : d.cur.rows with
      | nil => rw [hrows] at hpos; simp [Dict.values] at hpos
      | cons kr m =>
        obtain ⟨i, hi⟩ := hid kr.1 (by rw [hrows]; simp [Dict.keys])
        rw [hi0] at hi; simp [Dict.get?] at hi
    | some n =>
      rw [hn] at hl
      simp only [Option.getD_some] at hl
      obtain ⟨h1, h2, h3, h4, h5⟩ := initialMix_spec hk hv d.cur.rows _ l hr
        (by intro k i hi; have := le_max_of_get hn hi; simp; omega)
        (by intro k i _ hi; have := le_max_of_get hn hi; rw [List.getElem?_replicate, if_pos (by omega)]) hl
      have h5' : l.sum = (d.cur.rows.values.sum : ℚ) := by rw [h5]; simp
      simp only [hl]
      rw [if_neg (by rw [h5']; exact_mod_cast hpos)]
      exact ⟨_, rfl⟩

/-- **C61** (told only once). Once the algorithm has been told, nothing that happens to the mixture changes what it was
told. -/
theorem c61_kept (d : Dyn K) (hd : d.informed = true) (ops : List (DynOp K)) :
    (d.run ops).told = d.told ∧ (d.run ops).informed = true := by
  have hstep : ∀ (d : Dyn K) (op : DynOp K), d.informed = true → (d.step op).1.told = d.told ∧ (d.step op).1.informed = true := by
    intro d op hd
    cases op with
    | index i => unfold Dyn.step Dyn.processIndex; dsimp only; split <;> exact ⟨rfl, hd⟩
    | idMap ids => unfold Dyn.step Dyn.processIdMap; simp [hd]
    | losses m out =>
      unfold Dyn.step Dyn.processLosses
      dsimp only
      repeat' split
      all_goals exact ⟨rfl, hd⟩
  induction ops generalizing d with
  | nil => exact ⟨rfl, hd⟩
  | cons op ops ih =>
    obtain ⟨a, b⟩ := hstep d op hd
    obtain ⟨a', b'⟩ := ih (d.step op).1 b
    exact ⟨a'.trans a, b'⟩

/-- **C61** (staying put). An algorithm that answers a loss report with what it was told leaves the mixture as it is: if the
rows of the mixture sum to the chunk size, the report is accepted and every key has as many rows as before (keys without
rows disappear). -/
theorem c61_stay (d d' : Dyn K) (ids : Dict K Nat) (mixtureId : Int) (hm : 0 ≤ mixtureId) (hk : ids.keys.Nodup)
    (hv : ids.values.Nodup) (hr : d.cur.rows.keys.Nodup) (hd : d.informed = false) (h : d.processIdMap ids = (d', none))
    (hsum : d.cur.rows.values.sum = d.chunk) :
    ∃ d'', d'.processLosses mixtureId (some d'.told) = (d'', none) ∧
      ∀ k r, 0 < r → (d''.cur.rows.get? k = some r ↔ d.cur.rows.get? k = some r) := by
  obtain ⟨⟨s1, s2, s3⟩, i1, i2, i3, i4⟩ := c61_told d d' ids hk hv hr hd h
  have hkey : ∀ i q, d'.told[i]? = some q → q ≠ 0 → ∃ k r, d.cur.rows.get? k = some r ∧ ids.get? k = some i ∧
      q = (r : ℚ) / (d.cur.rows.values.sum : ℚ) := by
    intro i q hq h0
    by_contra hno
    apply h0
    apply s2 i q hq
    intro k hkm hi
    obtain ⟨r, hr'⟩ := (Dict.mem_keys_iff _ _).mp hkm
    obtain ⟨i', hi', hv'⟩ := s1 k r hr'
    rw [hi] at hi'
    simp only [Option.some.injEq] at hi'
    subst hi'
    rw [hq] at hv'
    exact hno ⟨k, r, hr', hi, Option.some.inj hv'⟩
  have hnn : ∀ x ∈ d'.told, 0 ≤ x := by
    intro x hx
    obtain ⟨i, hi⟩ := List.mem_iff_getElem?.mp hx
    by_cases h0 : x = 0
    · exact h0.ge
    · obtain ⟨k, r, _, _, rfl⟩ := hkey i x hi h0
      positivity
  obtain ⟨d'', hd''⟩ := c25_distribution_accepted d' ids mixtureId d'.told i2 i1 hm hk hv hnn s3 (by
    intro i q hq h0
    obtain ⟨k, r, _, hi, _⟩ := hkey i q hq h0.ne'
    exact ⟨k, hi⟩)
  refine ⟨d'', hd'', ?_⟩
  obtain ⟨ids', e1, e2⟩ := c25_update d' d'' mixtureId _ hd''
  rw [i2] at e1
  simp only [Option.some.injEq] at e1
  subst e1
  obtain ⟨-, -, -, -, hkeys, -, share, hR, hX, hS⟩ := e2 hk hv
  rw [posSum_of_nonneg _ hnn, s3] at hS
  rw [i4] at hX
  have hfwd : ∀ k r, d.cur.rows.get? k = some r → 0 < r → d''.cur.rows.get? k = some r := by
    intro k r hkr h0
    obtain ⟨i, hi, hvi⟩ := s1 k r hkr
    have hle : r ≤ d.cur.rows.values.sum := List.single_le_sum (by simp) r
      (List.mem_map.mpr ⟨(k, r), Dict.mem_of_get? hkr, rfl⟩)
    have hcpos : (0 : ℚ) < (d.cur.rows.values.sum : ℚ) := by
      have : 0 < d.cur.rows.values.sum := by omega
      exact_mod_cast this
    have hrpos : (0 : ℚ) < (r : ℚ) := by exact_mod_cast h0
    have hq : (0 : ℚ) < (r : ℚ) / (d.cur.rows.values.sum : ℚ) := by positivity
    obtain ⟨r'', hr''⟩ := (Dict.mem_keys_iff _ _).mp ((hkeys k).mpr ⟨i, _, hi, hvi, hq⟩)
    have := hX k _ r'' r ((hS k _).mpr ⟨i, _, hi, hvi, hq, rfl⟩) hr'' (by rw [← hsum]; field_simp)
    rw [hr'', this]
  intro k r h0
  constructor
  · intro hkr''
    obtain ⟨i, q, hi, hq, hq0⟩ := (hkeys k).mp ((Dict.mem_keys_iff _ _).mpr ⟨r, hkr''⟩)
    obtain ⟨k', r', hr', hi', rfl⟩ := hkey i q hq hq0.ne'
    have hkk := ids_inj hk hv hi hi'
    subst hkk
    have h0' : 0 < r' := by
      rcases Nat.eq_zero_or_pos r' with h | h
      · subst h; simp at hq0
      · exact h
    have := hfwd k r' hr' h0'
    rw [hkr''] at this
    rw [hr', this]
  · exact fun hkr => hfwd k r hkr h0

/-- A mixture of three keys, one of them without rows, whose ids are not in order: what the algorithm is told, and that the
answer "stay" keeps the rows. -/
example :
    let d : Dyn Nat := Dyn.init 4 true ⟨false, 9, [(5, 3), (6, 1), (7, 0)], true⟩
    let ids : Dict Nat Nat := [(6, 2), (5, 0), (8, 1), (7, 3)]
    (d.processIdMap ids).1.told = [3 / 4, 0, 1 / 4, 0] ∧ (d.processIdMap ids).2 = none ∧
    ((d.processIdMap ids).1.processLosses 0 (some [3 / 4, 0, 1 / 4, 0])).1.cur.rows = [(5, 3), (6, 1)] := by decide +kernel

/-- Finding: the mixture in force is told only once; after that, an id map that comes with more keys reaches the mixture but
not the algorithm, so the algorithm's initial vector is shorter than the id map. -/
theorem c61_not_told_again :
    let d : Dyn Nat := Dyn.init 4 true ⟨false, 4, [(5, 4)], true⟩
    let d' := (d.processIdMap [(5, 0)]).1
    (d'.processIdMap [(5, 0), (6, 1)]).1.told = [1] := by decide +kernel

end Mixtera
