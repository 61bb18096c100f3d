import Verif.Model.Feedback
import Verif.Props.Dynamic
import Verif.Props.Ado
import Mathlib.Algebra.BigOperators.Ring.Finset
import Mathlib.Algebra.BigOperators.Intervals

/-!
# C90: the feedback of the training and the mixture in force
-/

set_option linter.unusedSectionVars false

namespace Mixtera.Mixing

variable {K A : Type} [DecidableEq K]

/-! ## Specification -/

/-- The training steps that count: those of the first rank's calls. -/
def stepsOf : List (FbEv K) → List Int
  | [] => []
  | .call c :: es => if 0 ≤ c.steps ∧ c.dpRank = 0 ∧ c.tpRank = 0 ∧ c.attached = true ∧ c.current ≠ none then c.steps :: stepsOf es else stepsOf es
  | _ :: es => stepsOf es

/-- The loss report a call makes: only the first rank's, only with losses and counts, only of a client that has a mixture. -/
def FbCall.report (c : FbCall) : Option (Report ℚ) :=
  match c.losses, c.counts, c.current with
  | some l, some n, some m =>
    if 0 ≤ c.steps ∧ c.dpRank = 0 ∧ c.tpRank = 0 ∧ c.attached = true ∧ 0 ≤ m then some ⟨l, n, m⟩ else none
  | _, _, _ => none

/-- The loss reports of a history. -/
def heard : List (FbEv K) → List (Report ℚ)
  | [] => []
  | .call c :: es => c.report.toList ++ heard es
  | _ :: es => heard es

/-- The key ids known after a history. -/
def idsAfter (ids : Dict K Nat) : List (FbEv K) → Dict K Nat
  | [] => ids
  | .idMap ids' :: es => idsAfter ids' es
  | _ :: es => idsAfter ids es

/-- A history as the query result and the training produce it: key ids are only added, never changed (C14), a report has as many
losses as counts, no loss is negative, and every domain with samples belongs to a known key. -/
def Sound (ids : Dict K Nat) : List (FbEv K) → Prop
  | [] => True
  | .idMap ids' :: es => ids'.keys.Nodup ∧ ids'.values.Nodup ∧ (∀ k i, ids.get? k = some i → ids'.get? k = some i) ∧ Sound ids' es
  | .index _ :: es => Sound ids es
  | .call c :: es =>
    (∀ r, c.report = some r → r.Valid ∧ (∀ x ∈ r.losses, 0 ≤ x) ∧ ∀ i, 0 < entry r.counts i → ∃ k, ids.get? k = some i) ∧ Sound ids es

/-- What has been reported about domain `i` altogether. -/
def totalLoss (es : List (FbEv K)) (i : Nat) : ℚ := ((heard es).map fun r => entry r.losses i).sum

/-- The samples reported of domain `i` altogether. -/
def totalCount (es : List (FbEv K)) (i : Nat) : Int := ((heard es).map fun r => entry r.counts i).sum

open Classical in
/-- The weight of domain `i`: its average loss; one for every sampled domain if no sampled domain has any loss. -/
noncomputable def weight (es : List (FbEv K)) (i : Nat) : ℚ :=
  if totalCount es i ≤ 0 then 0
  else if ∀ j, 0 < totalCount es j → totalLoss es j = 0 then 1
  else totalLoss es i / totalCount es i

/-! ## The steps -/

variable {P : MixAlg A}

theorem processLosses_step (s : Live K A) (l : List ℚ) (c : List Int) (m : Int) : (s.processLosses P l c m).1.step = s.step := by
  unfold Live.processLosses
  split
  · rfl
  · split <;> rfl

theorem feedback_step (s : Live K A) (fb : ClientFb) : (s.feedback P fb).1.step = max s.step fb.steps := by
  unfold Live.feedback
  split
  · rw [processLosses_step]
  · rfl

theorem run_cons (s : Live K A) (e : FbEv K) (es : List (FbEv K)) : s.run P (e :: es) = (s.on P e).1.run P es := rfl

theorem run_append (s : Live K A) (es fs : List (FbEv K)) : s.run P (es ++ fs) = (s.run P es).run P fs := by
  unfold Live.run; rw [List.foldl_append]

theorem call_step (s : Live K A) (c : FbCall) (es : List (FbEv K)) :
    stepsOf (.call c :: es) = (if 0 ≤ c.steps ∧ c.dpRank = 0 ∧ c.tpRank = 0 ∧ c.attached = true ∧ c.current ≠ none then [c.steps] else []) ++
      stepsOf es ∧
    (handleFeedback P s c).1.step =
      if 0 ≤ c.steps ∧ c.dpRank = 0 ∧ c.tpRank = 0 ∧ c.attached = true ∧ c.current ≠ none then max s.step c.steps else s.step := by
  constructor
  · simp only [stepsOf]; split <;> rfl
  · unfold handleFeedback
    by_cases h1 : c.steps < 0
    · rw [if_pos h1, if_neg (by omega)]
    rw [if_neg h1]
    by_cases h2 : c.dpRank ≠ 0 ∨ c.tpRank ≠ 0
    · rw [if_pos h2, if_neg (by omega)]
    rw [if_neg h2]
    by_cases h3 : c.attached = false
    · rw [if_pos h3, if_neg (by simp [h3])]
    rw [if_neg h3]
    cases hc : c.current with
    | none => rw [if_neg (by simp)]
    | some m =>
      rw [if_pos ⟨by omega, by omega, by omega, by simpa using h3, by simp⟩]
      dsimp only
      rw [feedback_step]

/-- **C90** (steps). After any history, with any algorithm and whatever raised, the mixture's step is the largest of the step it
started with and the steps the first rank has reported. Other ranks, and the order and repetition of calls, do not matter. -/
theorem c90_step (es : List (FbEv K)) : ∀ s : Live K A, (s.run P es).step = (stepsOf es).foldl max s.step := by
  induction es with
  | nil => intro s; rfl
  | cons e es ih =>
    intro s
    rw [run_cons, ih]
    cases e with
    | call c =>
      obtain ⟨h1, h2⟩ := call_step (P := P) s c es
      rw [h1]
      show (stepsOf es).foldl max (handleFeedback P s c).1.step = _
      rw [h2]
      split <;> simp
    | idMap ids => rfl
    | index i => rfl

/-- **C90** (silent calls). A call that makes no report changes neither the mixture nor its algorithm. -/
theorem c90_silent (s : Live K A) (c : FbCall) (hc : c.report = none) :
    (handleFeedback P s c).1.dyn = s.dyn ∧ (handleFeedback P s c).1.alg = s.alg := by
  unfold handleFeedback
  split
  · exact ⟨rfl, rfl⟩
  split
  · exact ⟨rfl, rfl⟩
  split
  · exact ⟨rfl, rfl⟩
  rename_i h1 h2 h3
  cases hm : c.current with
  | none => exact ⟨rfl, rfl⟩
  | some m =>
    dsimp only
    unfold Live.feedback
    split
    · rename_i n l hn hl
      dsimp only at hn hl
      have hneg : m < 0 := by
        by_contra hge
        unfold FbCall.report at hc
        rw [hn, hl, hm] at hc
        simp only at hc
        rw [if_pos ⟨by omega, by omega, by omega, by simpa using h3, by omega⟩] at hc
        cases hc
      unfold Live.processLosses
      rw [if_pos (Or.inr (Or.inr hneg))]
      exact ⟨rfl, rfl⟩
    · exact ⟨rfl, rfl⟩

/-- What a call with a report does. -/
theorem call_report {s : Live K A} {c : FbCall} {r : Report ℚ} (hc : c.report = some r) (hi : s.dyn.ids.isSome)
    (hn : s.dyn.informed = true) :
    0 ≤ r.mixtureId ∧
    (handleFeedback P s c).1.alg = (P.process s.alg r.losses r.counts r.mixtureId).1 ∧
    (∀ e, (P.process s.alg r.losses r.counts r.mixtureId).2 = .error e →
      (handleFeedback P s c).1.dyn = s.dyn ∧ (handleFeedback P s c).2 = some e) ∧
    (∀ out, (P.process s.alg r.losses r.counts r.mixtureId).2 = .ok out →
      (handleFeedback P s c).1.dyn = (s.dyn.processLosses r.mixtureId out).1 ∧
      (handleFeedback P s c).2 = (s.dyn.processLosses r.mixtureId out).2) := by
  unfold FbCall.report at hc
  split at hc
  · rename_i l n m hl hcn hm
    split at hc
    · rename_i h
      obtain ⟨h1, h2, h3, h4, h5⟩ := h
      cases hc
      refine ⟨h5, ?_⟩
      have hcall : handleFeedback P s c = Live.processLosses P { s with step := max s.step c.steps } l n m := by
        unfold handleFeedback
        rw [if_neg (by omega), if_neg (by omega), if_neg (by simp [h4]), hm]
        simp only [Live.feedback, hl, hcn]
      rw [hcall]
      have hni : s.dyn.ids.isNone = false := by cases h : s.dyn.ids <;> simp [h] at hi ⊢
      unfold Live.processLosses
      rw [if_neg (by simp [hni, hn]; omega)]
      cases hp : (P.process s.alg l n m).2 with
      | error e =>
        simp only [hp]
        refine ⟨by trivial, ?_, ?_⟩
        · intro e' he; cases he; exact ⟨by trivial, by trivial⟩
        · intro out ho; cases ho
      | ok out =>
        simp only [hp]
        refine ⟨by trivial, ?_, ?_⟩
        · intro e he; cases he
        · intro out' ho; cases ho; exact ⟨by trivial, by trivial⟩
    · cases hc
  · cases hc

/-! ## The mixture -/

/-- `cur` is the rounding of the distribution `w` over the known keys. -/
structure MixOf (ids : Dict K Nat) (chunk : Nat) (w : List ℚ) (cur : BaseMix K) : Prop where
  static : cur.inferring = false
  sum : cur.rows.values.sum = chunk
  keys : ∀ k, k ∈ cur.rows.keys ↔ ∃ i q, ids.get? k = some i ∧ w[i]? = some q ∧ 0 < q
  known : ∀ i q, w[i]? = some q → 0 < q → ∃ k, ids.get? k = some i
  rounded : ∃ share : Dict K ℚ, Rounded chunk share cur.rows ∧
    (∀ k q r (n : Nat), share.get? k = some q → cur.rows.get? k = some r → (chunk : ℚ) * q = n → r = n) ∧
    ∀ k p, share.get? k = some p ↔ ∃ i, ids.get? k = some i ∧ w[i]? = some p ∧ 0 < p

theorem MixOf.mono {ids ids' : Dict K Nat} {chunk : Nat} {w : List ℚ} {cur : BaseMix K} (h : MixOf ids chunk w cur)
    (hk : ids'.keys.Nodup) (hv : ids'.values.Nodup) (hext : ∀ k i, ids.get? k = some i → ids'.get? k = some i) :
    MixOf ids' chunk w cur := by
  have hback : ∀ k i q, ids'.get? k = some i → w[i]? = some q → 0 < q → ids.get? k = some i := by
    intro k i q hki hw hq
    obtain ⟨k', hk'⟩ := h.known i q hw hq
    have h' := hext _ _ hk'
    have h1 := (idKey_iff hk hv i k).2 hki
    have h2 := (idKey_iff hk hv i k').2 h'
    rw [h1] at h2
    cases h2
    exact hk'
  refine ⟨h.static, h.sum, ?_, ?_, ?_⟩
  · intro k
    rw [h.keys]
    constructor
    · rintro ⟨i, q, h1, h2, h3⟩; exact ⟨i, q, hext _ _ h1, h2, h3⟩
    · rintro ⟨i, q, h1, h2, h3⟩; exact ⟨i, q, hback _ _ _ h1 h2 h3, h2, h3⟩
  · intro i q h1 h2
    obtain ⟨k, h3⟩ := h.known i q h1 h2
    exact ⟨k, hext _ _ h3⟩
  · obtain ⟨share, h1, h2, h3⟩ := h.rounded
    refine ⟨share, h1, h2, ?_⟩
    intro k p
    rw [h3]
    constructor
    · rintro ⟨i, h1, h2, h3⟩; exact ⟨i, hext _ _ h1, h2, h3⟩
    · rintro ⟨i, h1, h2, h3⟩; exact ⟨i, hback _ _ _ h1 h2 h3, h2, h3⟩

theorem processLosses_static (d d' : Dyn K) (m : Int) (w : List ℚ) (h : d.processLosses m (some w) = (d', none)) :
    d'.cur.inferring = false ∧ d'.informed = d.informed := by
  unfold Dyn.processLosses at h
  split at h
  · cases h
  split at h
  · cases h
  dsimp only at h
  split at h
  · cases h
  split at h
  · cases h
  split at h
  · cases h
  cases h
  exact ⟨rfl, rfl⟩

/-- A distribution that is accepted becomes the mixture in force. -/
theorem mixOf_of_ok {d d' : Dyn K} {ids : Dict K Nat} {m : Int} {w : List ℚ} (hid : d.ids = some ids)
    (hk : ids.keys.Nodup) (hv : ids.values.Nodup) (hw : IsDist w) (hd : d.processLosses m (some w) = (d', none)) :
    MixOf ids d.chunk w d'.cur ∧ d'.ids = some ids ∧ d'.informed = d.informed ∧ d'.chunk = d.chunk := by
  obtain ⟨ids', hid', h⟩ := c25_update d d' m w hd
  rw [hid] at hid'
  cases hid'
  obtain ⟨h1, h2, h3, h4, h5, h6, share, h7, h8, h9⟩ := h hk hv
  obtain ⟨s1, s2⟩ := processLosses_static d d' m w hd
  refine ⟨⟨s1, h1, h5, h6, share, h7, h8, ?_⟩, by rw [h4, hid], s2, h3⟩
  intro k p
  rw [h9, posSum_of_nonneg w hw.1, hw.2]
  constructor
  · rintro ⟨i, q, a, b, c, rfl⟩; exact ⟨i, a, by rw [b, div_one], by rw [div_one]; exact c⟩
  · rintro ⟨i, a, b, c⟩; exact ⟨i, p, a, b, c, by rw [div_one]⟩

/-- A distribution over known keys becomes the mixture in force. -/
theorem mixOf_of_dist {d : Dyn K} {ids : Dict K Nat} {m : Int} {w : List ℚ} (hid : d.ids = some ids) (hinf : d.informed = true)
    (hm : 0 ≤ m) (hk : ids.keys.Nodup) (hv : ids.values.Nodup) (hw : IsDist w)
    (hknown : ∀ i q, w[i]? = some q → 0 < q → ∃ k, ids.get? k = some i) :
    ∃ d', d.processLosses m (some w) = (d', none) ∧ MixOf ids d.chunk w d'.cur ∧ d'.ids = some ids ∧ d'.informed = true ∧
      d'.chunk = d.chunk := by
  obtain ⟨d', hd⟩ := c25_distribution_accepted d ids m w hid hinf hm hk hv hw.1 hw.2 hknown
  obtain ⟨h1, h2, h3, h4⟩ := mixOf_of_ok hid hk hv hw hd
  exact ⟨d', hd, h1, h2, by rw [h3, hinf], h4⟩

/-- A refused report changes nothing. -/
theorem processLosses_refused (d : Dyn K) (m : Int) (out : Option (List ℚ)) :
    (d.processLosses m out).1 = d ∨ ∃ w d', out = some w ∧ d.processLosses m (some w) = (d', none) := by
  unfold Dyn.processLosses
  split
  · exact Or.inl rfl
  split
  · exact Or.inl rfl
  cases out with
  | none => exact Or.inl rfl
  | some w =>
    dsimp only
    split
    · exact Or.inl rfl
    split
    · exact Or.inl rfl
    split
    · exact Or.inl rfl
    rename_i rows h3
    refine Or.inr ⟨w, ⟨d.chunk, d.strict, ⟨false, d.chunk, rows, d.strict⟩, d.ids, d.informed, d.told⟩, rfl, ?_⟩
    rw [if_neg (by assumption)]
    simp only [*]

/-- What the reports so far amount to, as an invariant. -/
structure LiveInv (ids : Dict K Nat) (chunk : Nat) (hs : List (Report ℚ)) (s : Live K (Acc ℚ)) : Prop where
  hasIds : s.dyn.ids = some ids
  nodup : ids.keys.Nodup ∧ ids.values.Nodup
  informed : s.dyn.informed = true
  size : s.dyn.chunk = chunk
  alg : s.alg = averageRun hs Acc.init
  valid : ∀ r ∈ hs, r.Valid ∧ (∀ x ∈ r.losses, 0 ≤ x) ∧ ∀ i, 0 < entry r.counts i → ∃ k, ids.get? k = some i
  mix : ∀ w, averageMixture (averageRun hs Acc.init) = some w → MixOf ids chunk w s.dyn.cur

theorem pos_of_sum_pos {l : List Int} (h : 0 < l.sum) : ∃ x ∈ l, 0 < x := by
  by_contra hc
  have hle : ∀ l : List Int, (∀ x ∈ l, x ≤ 0) → l.sum ≤ 0 := by
    intro l
    induction l with
    | nil => intro _; simp
    | cons a l ih =>
      intro h
      have h1 := h a List.mem_cons_self
      have h2 := ih fun x hx => h x (List.mem_cons_of_mem _ hx)
      rw [List.sum_cons]; omega
  have := hle l fun x hx => not_lt.1 fun h => hc ⟨x, hx, h⟩
  omega

/-- The totals of the accumulators. -/
theorem average_totals (hs : List (Report ℚ)) (hv : ∀ r ∈ hs, r.Valid) (k : Nat) :
    entry (averageRun hs (Acc.init : Acc ℚ)).losses k = (hs.map fun r => entry r.losses k).sum ∧
    entry (averageRun hs (Acc.init : Acc ℚ)).counts k = (hs.map fun r => entry r.counts k).sum := by
  obtain ⟨h1, h2, _, _⟩ := accAfter_spec hs (Acc.init : Acc ℚ) hv rfl
  rw [averageRun_acc, h1, h2]
  have e1 : entry (Acc.init : Acc ℚ).losses k = 0 := rfl
  have e2 : entry (Acc.init : Acc ℚ).counts k = 0 := rfl
  rw [e1, e2, zero_add, zero_add]
  exact ⟨rfl, rfl⟩

theorem averageRun_snoc (hs : List (Report ℚ)) (r : Report ℚ) :
    averageRun (hs ++ [r]) (Acc.init : Acc ℚ) = (averageStep (averageRun hs Acc.init) r.losses r.counts r.mixtureId).1 := by
  rw [averageRun, List.foldl_append]; rfl

/-- A report keeps the invariant and raises nothing. -/
theorem inv_call {ids : Dict K Nat} {chunk : Nat} {hs : List (Report ℚ)} {s : Live K (Acc ℚ)} (hi : LiveInv ids chunk hs s)
    {c : FbCall} {r : Report ℚ} (hc : c.report = some r)
    (hr : r.Valid ∧ (∀ x ∈ r.losses, 0 ≤ x) ∧ ∀ i, 0 < entry r.counts i → ∃ k, ids.get? k = some i) :
    LiveInv ids chunk (hs ++ [r]) (handleFeedback averaging s c).1 ∧ (handleFeedback averaging s c).2 = none := by
  obtain ⟨hm, halg, _, hok⟩ := call_report (P := averaging) hc (by rw [hi.hasIds]; rfl) hi.informed
  have hvalid : ∀ x ∈ hs ++ [r], x.Valid ∧ (∀ y ∈ x.losses, 0 ≤ y) ∧ ∀ i, 0 < entry x.counts i → ∃ k, ids.get? k = some i := by
    intro x hx
    rcases List.mem_append.1 hx with hx | hx
    · exact hi.valid x hx
    · rw [List.mem_singleton.1 hx]; exact hr
  have hret := c54_returned (F := ℚ) hs (fun x hx => (hi.valid x hx).1) r hr.1
  have hp : (averaging.process s.alg r.losses r.counts r.mixtureId).2 = .ok (averageMixture (averageRun (hs ++ [r]) Acc.init)) := by
    show (averageStep s.alg r.losses r.counts r.mixtureId).2 = _
    rw [hi.alg]; exact hret
  obtain ⟨hdyn, herr⟩ := hok _ hp
  have halg' : (handleFeedback averaging s c).1.alg = averageRun (hs ++ [r]) Acc.init := by
    rw [halg, averageRun_snoc, ← hi.alg]; rfl
  cases hout : averageMixture (averageRun (hs ++ [r]) (Acc.init : Acc ℚ)) with
  | none =>
    rw [hout] at hdyn herr
    have hsame : s.dyn.processLosses r.mixtureId none = (s.dyn, none) := by
      unfold Dyn.processLosses
      rw [hi.hasIds]
      dsimp only
      rw [if_neg (by rw [hi.informed]; simp; omega)]
    rw [hsame] at hdyn herr
    exact ⟨⟨by rw [hdyn]; exact hi.hasIds, hi.nodup, by rw [hdyn]; exact hi.informed, by rw [hdyn]; exact hi.size, halg', hvalid,
      by intro w hw; rw [hout] at hw; cases hw⟩, herr⟩
  | some w =>
    rw [hout] at hdyn herr
    obtain ⟨_, hw⟩ := c54_average (F := ℚ) (hs ++ [r]) (fun x hx => (hvalid x hx).1) (fun x hx => (hvalid x hx).2.1)
    obtain ⟨hdist, hlen, hzero, _⟩ := hw w hout
    obtain ⟨d', hd, hmix, h1, h2, h3⟩ := mixOf_of_dist hi.hasIds hi.informed hm hi.nodup.1 hi.nodup.2 hdist (by
      intro i q hq hpos
      have hcount : 0 < entry (averageRun (hs ++ [r]) (Acc.init : Acc ℚ)).counts i := by
        by_contra hle
        have := hzero i (not_lt.1 hle)
        rw [entry, hq] at this
        simp at this
        rw [this] at hpos
        exact lt_irrefl _ hpos
      rw [(average_totals (hs ++ [r]) (fun x hx => (hvalid x hx).1) i).2] at hcount
      obtain ⟨x, hx, hxpos⟩ := pos_of_sum_pos hcount
      obtain ⟨y, hy, rfl⟩ := List.mem_map.1 hx
      exact (hvalid y hy).2.2 i hxpos)
    rw [hd] at hdyn herr
    refine ⟨⟨by rw [hdyn]; exact h1, hi.nodup, by rw [hdyn]; exact h2, by rw [hdyn, h3]; exact hi.size, halg', hvalid, ?_⟩, herr⟩
    intro w' hw'
    rw [hout] at hw'
    cases hw'
    rw [hdyn, ← hi.size]
    exact hmix

/-- The invariant along a history. -/
theorem inv_run_live {chunk : Nat} (es : List (FbEv K)) : ∀ {ids : Dict K Nat} {hs : List (Report ℚ)} {s : Live K (Acc ℚ)},
    LiveInv ids chunk hs s → Sound ids es → LiveInv (idsAfter ids es) chunk (hs ++ heard es) (s.run averaging es) := by
  induction es with
  | nil => intro ids hs s h _; simpa [heard, idsAfter, Live.run] using h
  | cons e es ih =>
    intro ids hs s h hsound
    rw [run_cons]
    cases e with
    | call c =>
      obtain ⟨h1, h2⟩ := hsound
      cases hc : c.report with
      | none =>
        have := c90_silent (P := averaging) s c hc
        have hinv : LiveInv ids chunk hs (handleFeedback averaging s c).1 := by
          obtain ⟨a, b⟩ := this
          exact ⟨by rw [a]; exact h.hasIds, h.nodup, by rw [a]; exact h.informed, by rw [a]; exact h.size, by rw [b]; exact h.alg, h.valid,
            by rw [a]; exact h.mix⟩
        have := ih hinv h2
        simp only [heard, hc, Option.toList_none, List.nil_append, idsAfter]
        exact this
      | some r =>
        have := ih (inv_call h hc (h1 r hc)).1 h2
        simp only [heard, hc, Option.toList_some, idsAfter]
        rw [← List.append_assoc]
        exact this
    | idMap ids' =>
      obtain ⟨h1, h2, h3, h4⟩ := hsound
      have hp : s.dyn.processIdMap ids' = ({ s.dyn with ids := some ids' }, none) := by
        unfold Dyn.processIdMap
        simp [h.informed]
      have hon : (s.on averaging (.idMap ids')).1 = { s with dyn := { s.dyn with ids := some ids' } } := by
        show (s.idMap averaging ids').1 = _
        unfold Live.idMap
        rw [hp]
        simp [h.informed]
      rw [hon]
      exact ih (ids := ids') ⟨rfl, ⟨h1, h2⟩, h.informed, h.size, h.alg, fun r hr => ⟨(h.valid r hr).1, (h.valid r hr).2.1, fun i hi => by
        obtain ⟨k, hk⟩ := (h.valid r hr).2.2 i hi
        exact ⟨k, h3 _ _ hk⟩⟩, fun w hw => (h.mix w hw).mono h1 h2 h3⟩ h4
    | index idx =>
      refine ih (ids := ids) ?_ hsound
      show LiveInv ids chunk hs { s with dyn := (s.dyn.processIndex idx).1 }
      have hsame : ∃ b, (s.dyn.processIndex idx).1 = { s.dyn with cur := b } ∧ (s.dyn.cur.inferring = false → b = s.dyn.cur) := by
        unfold Dyn.processIndex BaseMix.processIndex
        cases hinf : s.dyn.cur.inferring with
        | false => exact ⟨s.dyn.cur, by simp, fun _ => rfl⟩
        | true =>
          simp only [if_true]
          cases inferRows s.dyn.cur.chunk idx with
          | error e => exact ⟨s.dyn.cur, rfl, fun h => by cases h⟩
          | ok rows => exact ⟨⟨true, s.dyn.cur.chunk, rows, s.dyn.cur.strict⟩, rfl, fun h => by cases h⟩
      obtain ⟨b, hb, hb'⟩ := hsame
      rw [hb]
      exact ⟨h.hasIds, h.nodup, h.informed, h.size, h.alg, h.valid, fun w hw => by
        show MixOf ids chunk w b
        rw [hb' (h.mix w hw).static]; exact h.mix w hw⟩

/-- A state in which the mixture knows the key ids `ids` and nothing has been reported yet. -/
def Ready (ids : Dict K Nat) (s : Live K (Acc ℚ)) : Prop :=
  s.dyn.ids = some ids ∧ s.dyn.informed = true ∧ s.alg = Acc.init ∧ ids.keys.Nodup ∧ ids.values.Nodup

theorem inv_ready {ids : Dict K Nat} {s : Live K (Acc ℚ)} (h : Ready ids s) : LiveInv ids s.dyn.chunk [] s :=
  ⟨h.1, h.2.2.2, h.2.1, rfl, h.2.2.1, by simp, fun w hw => by simp [averageRun, averageMixture, Acc.init] at hw⟩

/-- A mixture that has just learnt its key ids without an error is ready. -/
theorem ready_of_told {ids : Dict K Nat} {s : Live K (Acc ℚ)} (hs : s.dyn.informed = false) (ha : s.alg = Acc.init)
    (hk : ids.keys.Nodup) (hv : ids.values.Nodup) (h : (s.idMap averaging ids).2 = none) : Ready ids (s.idMap averaging ids).1 := by
  unfold Live.idMap at h ⊢
  dsimp only at h ⊢
  have key : (s.dyn.processIdMap ids).1.ids = some ids ∧ (s.dyn.processIdMap ids).1.informed = true := by
    unfold Dyn.processIdMap at h ⊢
    simp only [hs, Bool.false_eq_true, if_false] at h ⊢
    cases h1 : ids.values.max? with
    | none => rw [h1] at h; cases h
    | some n =>
      rw [h1] at h
      dsimp only at h ⊢
      cases h2 : initialMix ids s.dyn.cur.rows (List.replicate (n + 1) 0) with
      | error e => rw [h2] at h; cases h
      | ok l =>
        rw [h2] at h
        dsimp only at h ⊢
        split at h
        · cases h
        · rename_i h3
          rw [if_neg h3]
          exact ⟨rfl, rfl⟩
  refine ⟨key.1, key.2, ?_, hk, hv⟩
  show (if _ then averaging.tell s.alg _ else s.alg) = _
  split <;> exact ha

/-- **C90** (nothing raises). In a sound history, no call that makes a report raises an exception. -/
theorem c90_accepted {ids : Dict K Nat} {s : Live K (Acc ℚ)} (h : Ready ids s) (es : List (FbEv K)) (c : FbCall)
    (hs : Sound ids (es ++ [.call c])) (hc : c.report ≠ none) : (handleFeedback averaging (s.run averaging es) c).2 = none := by
  have split : ∀ (es : List (FbEv K)) (ids : Dict K Nat), Sound ids (es ++ [.call c]) →
      Sound ids es ∧ Sound (idsAfter ids es) [.call c] := by
    intro es
    induction es with
    | nil => intro ids h; exact ⟨trivial, h⟩
    | cons e es ih =>
      intro ids h
      cases e with
      | call c' => exact ⟨⟨h.1, (ih _ h.2).1⟩, (ih _ h.2).2⟩
      | idMap ids' => exact ⟨⟨h.1, h.2.1, h.2.2.1, (ih _ h.2.2.2).1⟩, (ih _ h.2.2.2).2⟩
      | index i => exact ih _ h
  obtain ⟨h1, h2, _⟩ := split es ids hs
  cases hr : c.report with
  | none => exact absurd hr hc
  | some r => exact (inv_call (inv_run_live es (inv_ready h) h1) hr (h2 r hr)).2

theorem sum_range_entry {α : Type} [AddCommMonoid α] (l : List α) (n : Nat) (h : l.length ≤ n) :
    ∑ j ∈ Finset.range n, entry l j = l.sum := by
  induction l generalizing n with
  | nil => simp [entry]
  | cons a l ih =>
    cases n with
    | zero => simp at h
    | succ n =>
      rw [Finset.sum_range_succ', List.sum_cons, add_comm]
      have e : ∀ j, entry (a :: l) (j + 1) = entry l j := fun j => by simp [entry]
      simp only [e]
      rw [ih n (by simpa using h)]
      rfl

open Classical in
/-- **C90** (the mixture in force). A `DynamicMixture` with the averaging algorithm has learnt its key ids; then any ranks call
`handle_mixtera_feedback` in any order, and keys and the index are announced, as in a sound history. Afterwards, if any sample has
been reported at all: the rows sum to the chunk size; the keys are those of the domains of positive weight, and these are all known;
and the rows are the largest remainder rounding (exact where the share is a whole number) of shares proportional to the weights.
The weight of a domain is its average loss over all reports of the history - whatever else was called, and whenever. -/
theorem c90_average {ids : Dict K Nat} {s : Live K (Acc ℚ)} (h : Ready ids s) (es : List (FbEv K)) (hs : Sound ids es)
    (hsome : ∃ i, 0 < totalCount es i) (n : Nat) (hn : ∀ r ∈ heard es, r.losses.length ≤ n) :
    let cur := (s.run averaging es).dyn.cur
    let ids' := idsAfter ids es
    (s.run averaging es).dyn.ids = some ids' ∧ 0 < ∑ j ∈ Finset.range n, weight es j ∧
    cur.rows.values.sum = s.dyn.chunk ∧
    (∀ k, k ∈ cur.rows.keys ↔ ∃ i, ids'.get? k = some i ∧ 0 < weight es i) ∧
    (∀ i, 0 < weight es i → ∃ k, ids'.get? k = some i) ∧
    ∃ share : Dict K ℚ, Rounded s.dyn.chunk share cur.rows ∧
      (∀ k q r (m : Nat), share.get? k = some q → cur.rows.get? k = some r → (s.dyn.chunk : ℚ) * q = m → r = m) ∧
      ∀ k p, share.get? k = some p ↔
        ∃ i, ids'.get? k = some i ∧ 0 < weight es i ∧ p = weight es i / ∑ j ∈ Finset.range n, weight es j := by
  intro cur ids'
  have hi := inv_run_live es (inv_ready h) hs
  rw [List.nil_append] at hi
  set a := averageRun (heard es) (Acc.init : Acc ℚ) with ha
  obtain ⟨h1, h2⟩ := c54_average (F := ℚ) (heard es) (fun r hr => (hi.valid r hr).1) (fun r hr => (hi.valid r hr).2.1)
  rw [← ha] at h1 h2
  have htot := average_totals (heard es) (fun r hr => (hi.valid r hr).1)
  rw [← ha] at htot
  have hL : ∀ k, entry a.losses k = totalLoss es k := fun k => (htot k).1
  have hC : ∀ k, entry a.counts k = totalCount es k := fun k => (htot k).2
  cases hout : averageMixture a with
  | none =>
    obtain ⟨i, hi'⟩ := hsome
    have := h1.1 hout i
    rw [hC] at this
    omega
  | some w =>
    obtain ⟨hd, hlen, hzero, hpos⟩ := h2 w hout
    have hmix : MixOf ids' s.dyn.chunk w cur := hi.mix w hout
    have hacc := accAfter_spec (heard es) (Acc.init : Acc ℚ) (fun r hr => (hi.valid r hr).1) rfl
    rw [← averageRun_acc, ← ha] at hacc
    have hwn : w.length ≤ n := by
      rw [hlen, hacc.2.2.1, hacc.2.2.2]
      have : ∀ (l : List (Report ℚ)) (m : Nat), m ≤ n → (∀ r ∈ l, r.losses.length ≤ n) → l.foldl (fun n r => max n r.losses.length) m ≤ n := by
        intro l
        induction l with
        | nil => intro m hm _; exact hm
        | cons r l ih =>
          intro m hm hl
          exact ih _ (max_le hm (hl r List.mem_cons_self)) (fun x hx => hl x (List.mem_cons_of_mem _ hx))
      exact this _ _ (Nat.zero_le _) hn
    have hex : ∃ t : ℚ, 0 < t ∧ ∀ k, entry w k * t = weight es k := by
      rcases hpos with hp | ⟨t, ht, hp⟩
      · obtain ⟨i, hi'⟩ := hsome
        have hsam : 0 < sampled a.counts := by
          unfold sampled
          rw [List.countP_pos_iff]
          have hi'' := hi'
          rw [← hC] at hi''
          have hlt : i < a.counts.length := by
            by_contra hge
            rw [entry_beyond (not_lt.1 hge)] at hi''
            exact lt_irrefl _ hi''
          rw [entry_eq hlt] at hi''
          exact ⟨_, List.getElem_mem hlt, by simpa using hi''⟩
        have hsamq : (0 : ℚ) < sampled a.counts := by exact_mod_cast hsam
        refine ⟨sampled a.counts, hsamq, ?_⟩
        intro k
        unfold weight
        split
        · rename_i hk
          rw [hzero k (by rw [hC]; exact hk), zero_mul]
        · rename_i hk
          rw [if_pos (fun j hj => by have := (hp j (by rw [hC]; exact hj)).1; rwa [hL] at this)]
          rw [(hp k (by rw [hC]; omega)).2]
          exact div_mul_cancel₀ _ hsamq.ne'
      · refine ⟨t, ht, ?_⟩
        intro k
        unfold weight
        split
        · rename_i hk
          rw [hzero k (by rw [hC]; exact hk), zero_mul]
        · rename_i hk
          rw [if_neg, hp k (by rw [hC]; omega), hL, hC]
          intro hall
          have hzero' : ∀ j, entry w j = 0 := by
            intro j
            rcases lt_or_ge 0 (totalCount es j) with hj | hj
            · have := hp j (by rw [hC]; exact hj)
              rw [hL, hall j hj, zero_div] at this
              exact (mul_eq_zero.1 this).resolve_right ht.ne'
            · exact hzero j (by rw [hC]; exact hj)
          have h0 : ∑ j ∈ Finset.range n, entry w j = 0 := Finset.sum_eq_zero fun j _ => hzero' j
          rw [sum_range_entry w n hwn, hd.2] at h0
          exact one_ne_zero h0
    obtain ⟨t, ht, hwt⟩ := hex
    have hsum : ∑ j ∈ Finset.range n, weight es j = t := by
      have : ∑ j ∈ Finset.range n, weight es j = (∑ j ∈ Finset.range n, entry w j) * t := by
        rw [Finset.sum_mul]
        exact Finset.sum_congr rfl fun j _ => (hwt j).symm
      rw [this, sum_range_entry w n hwn, hd.2, one_mul]
    have hget : ∀ i q, (w[i]? = some q ∧ 0 < q) ↔ (0 < weight es i ∧ q = weight es i / t) := by
      intro i q
      constructor
      · rintro ⟨hq, hq0⟩
        have he : entry w i = q := by rw [entry, hq]; rfl
        have := hwt i
        rw [he] at this
        exact ⟨by rw [← this]; exact mul_pos hq0 ht, by rw [← this, mul_div_cancel_right₀ _ ht.ne']⟩
      · rintro ⟨hw0, rfl⟩
        have he := hwt i
        have hlt : i < w.length := by
          by_contra hge
          rw [entry_beyond (not_lt.1 hge), zero_mul] at he
          rw [← he] at hw0
          exact lt_irrefl _ hw0
        refine ⟨?_, div_pos hw0 ht⟩
        rw [← he, mul_div_cancel_right₀ _ ht.ne', entry_eq hlt, List.getElem?_eq_getElem hlt]
    refine ⟨hi.hasIds, by rw [hsum]; exact ht, hmix.sum, ?_, ?_, ?_⟩
    · intro k
      rw [hmix.keys]
      constructor
      · rintro ⟨i, q, hk, hq⟩; exact ⟨i, hk, ((hget i q).1 hq).1⟩
      · rintro ⟨i, hk, hw0⟩; exact ⟨i, _, hk, (hget i _).2 ⟨hw0, rfl⟩⟩
    · intro i hw0
      obtain ⟨a1, a2⟩ := (hget i _).2 ⟨hw0, rfl⟩
      exact hmix.known i _ a1 a2
    · obtain ⟨share, s1, s2, s3⟩ := hmix.rounded
      refine ⟨share, s1, s2, ?_⟩
      intro k p
      rw [s3, hsum]
      constructor
      · rintro ⟨i, hk, hq⟩
        obtain ⟨b1, b2⟩ := (hget i p).1 hq
        exact ⟨i, hk, b1, b2⟩
      · rintro ⟨i, hk, b1, b2⟩
        obtain ⟨c1, c2⟩ := (hget i p).2 ⟨b1, b2⟩
        exact ⟨i, hk, c1, c2⟩

theorem totals_nonpos {hs : List (Report ℚ)} (hc : ∀ r ∈ hs, ∀ n ∈ r.counts, n ≤ 0) (k : Nat) :
    (hs.map fun r => entry r.counts k).sum ≤ 0 := by
  induction hs with
  | nil => simp
  | cons r hs ih =>
    rw [List.map_cons, List.sum_cons]
    have h1 : entry r.counts k ≤ 0 := by
      rcases lt_or_ge k r.counts.length with h | h
      · rw [entry_eq h]; exact hc r List.mem_cons_self _ (List.getElem_mem h)
      · rw [entry_beyond h]
    have := ih fun x hx => hc x (List.mem_cons_of_mem _ hx)
    omega

/-- **C90** (no samples yet). As long as no sample has been reported, the mixture is the one the history began with (an inferring
mixture also follows the index). -/
theorem c90_initial {ids : Dict K Nat} {s : Live K (Acc ℚ)} (h : Ready ids s) (hinf : s.dyn.cur.inferring = false) (es : List (FbEv K))
    (hs : Sound ids es) (hc : ∀ r ∈ heard es, ∀ n ∈ r.counts, n ≤ 0) : (s.run averaging es).dyn.cur = s.dyn.cur := by
  have key : ∀ (es : List (FbEv K)) {ids : Dict K Nat} {hs : List (Report ℚ)} {s : Live K (Acc ℚ)},
      LiveInv ids s.dyn.chunk hs s → s.dyn.cur.inferring = false → Sound ids es → (∀ r ∈ hs ++ heard es, ∀ n ∈ r.counts, n ≤ 0) →
      (s.run averaging es).dyn.cur = s.dyn.cur := by
    intro es
    induction es with
    | nil => intros; rfl
    | cons e es ih =>
      intro ids hs s hi hinf hsound hc
      have hone : LiveInv (idsAfter ids [e]) s.dyn.chunk (hs ++ heard [e]) (s.on averaging e).1 := by
        refine inv_run_live [e] hi ?_
        cases e with
        | call c => exact ⟨hsound.1, trivial⟩
        | idMap ids' => exact ⟨hsound.1, hsound.2.1, hsound.2.2.1, trivial⟩
        | index i => exact trivial
      have hcur : (s.on averaging e).1.dyn.cur = s.dyn.cur := by
        cases e with
        | call c =>
          show (handleFeedback averaging s c).1.dyn.cur = _
          cases hr : c.report with
          | none => rw [(c90_silent s c hr).1]
          | some r =>
            obtain ⟨hm, _, _, hok⟩ := call_report (P := averaging) hr (by rw [hi.hasIds]; rfl) hi.informed
            have hv : ∀ x ∈ hs ++ [r], x.Valid ∧ ∀ y ∈ x.losses, 0 ≤ y := by
              intro x hx
              rcases List.mem_append.1 hx with hx | hx
              · exact ⟨(hi.valid x hx).1, (hi.valid x hx).2.1⟩
              · rw [List.mem_singleton.1 hx]; exact ⟨(hsound.1 r hr).1, (hsound.1 r hr).2.1⟩
            have hp : (averaging.process s.alg r.losses r.counts r.mixtureId).2 = .ok (averageMixture (averageRun (hs ++ [r]) Acc.init)) := by
              show (averageStep s.alg r.losses r.counts r.mixtureId).2 = _
              rw [hi.alg]
              exact c54_returned (F := ℚ) hs (fun x hx => (hi.valid x hx).1) r (hsound.1 r hr).1
            have hnone : averageMixture (averageRun (hs ++ [r]) (Acc.init : Acc ℚ)) = none := by
              refine (c54_average (F := ℚ) (hs ++ [r]) (fun x hx => (hv x hx).1) (fun x hx => (hv x hx).2)).1.2 ?_
              intro k
              rw [(average_totals (hs ++ [r]) (fun x hx => (hv x hx).1) k).2]
              refine totals_nonpos ?_ k
              intro x hx
              refine hc x ?_
              rw [heard, hr]
              rcases List.mem_append.1 hx with hx | hx
              · exact List.mem_append_left _ hx
              · exact List.mem_append_right _ (List.mem_append_left _ (by simpa using hx))
            obtain ⟨hd, _⟩ := hok _ hp
            rw [hd, hnone]
            unfold Dyn.processLosses
            rw [hi.hasIds]
            dsimp only
            rw [if_neg (by rw [hi.informed]; simp; omega)]
        | idMap ids' =>
          show (s.dyn.processIdMap ids').1.cur = _
          unfold Dyn.processIdMap
          simp [hi.informed]
        | index i =>
          show (s.dyn.processIndex i).1.cur = _
          unfold Dyn.processIndex BaseMix.processIndex
          simp [hinf]
      rw [run_cons, ← hcur]
      have hsz : (s.on averaging e).1.dyn.chunk = s.dyn.chunk := hone.size
      refine ih (ids := idsAfter ids [e]) (hs := hs ++ heard [e]) (by rw [hsz]; exact hone) (by rw [hcur]; exact hinf) ?_ ?_
      · cases e with
        | call c => exact hsound.2
        | idMap ids' => exact hsound.2.2.2
        | index i => exact hsound
      · have : heard (e :: es) = heard [e] ++ heard es := by
          cases e <;> simp [heard]
        rw [List.append_assoc, ← this]
        exact hc
  exact key es (inv_ready h) hinf hs (by simpa using hc)

/-! ## Adaptive data optimization -/

/-- The key ids only grow, and reports have as many losses as counts. -/
def Grows (ids : Dict K Nat) : List (FbEv K) → Prop
  | [] => True
  | .idMap ids' :: es => ids'.keys.Nodup ∧ ids'.values.Nodup ∧ (∀ k i, ids.get? k = some i → ids'.get? k = some i) ∧ Grows ids' es
  | .index _ :: es => Grows ids es
  | .call c :: es => (∀ r, c.report = some r → r.Valid) ∧ Grows ids es

theorem heard_append (es fs : List (FbEv K)) : heard (es ++ fs) = heard es ++ heard fs := by
  induction es with
  | nil => rfl
  | cons e es ih => cases e <;> simp [heard, ih]

theorem idsAfter_append (es fs : List (FbEv K)) : ∀ ids : Dict K Nat, idsAfter ids (es ++ fs) = idsAfter (idsAfter ids es) fs := by
  induction es with
  | nil => intro ids; rfl
  | cons e es ih => intro ids; cases e <;> exact ih _

theorem grows_append (es fs : List (FbEv K)) : ∀ ids : Dict K Nat, Grows ids (es ++ fs) ↔ Grows ids es ∧ Grows (idsAfter ids es) fs := by
  induction es with
  | nil => intro ids; simp [Grows, idsAfter]
  | cons e es ih =>
    intro ids
    cases e with
    | call c => simp only [List.cons_append, Grows, ih, idsAfter, and_assoc]
    | idMap ids' => simp only [List.cons_append, Grows, ih, idsAfter, and_assoc]
    | index i => simp only [List.cons_append, Grows, ih, idsAfter]

theorem grows_valid (es : List (FbEv K)) : ∀ ids : Dict K Nat, Grows ids es → ∀ r ∈ heard es, r.Valid := by
  induction es with
  | nil => intro ids _ r hr; simp [heard] at hr
  | cons e es ih =>
    intro ids h r hr
    cases e with
    | call c =>
      rw [heard, List.mem_append] at hr
      rcases hr with hr | hr
      · exact h.1 r (by simpa using hr)
      · exact ih _ h.2 r hr
    | idMap ids' => exact ih _ h.2.2.2 r hr
    | index i => exact ih _ h r hr

/-- A state in which the mixture knows the key ids, ADO has been told the initial distribution, and nothing has been reported yet. -/
def ReadyAdo (ids : Dict K Nat) (told : List ℚ) (s : Live K (Ado ℚ)) : Prop :=
  s.dyn.ids = some ids ∧ s.dyn.informed = true ∧ s.alg = Ado.init told ∧ IsDist told ∧ ids.keys.Nodup ∧ ids.values.Nodup ∧
    s.dyn.cur.inferring = false

/-- `cur` was made by ADO at the last call of `es1`: it rounds a distribution in which every domain with reported samples has the
probability that C50 guarantees. -/
def MadeByAdo (δ : ℚ) (ids : Dict K Nat) (chunk : Nat) (es1 : List (FbEv K)) (cur : BaseMix K) : Prop :=
  ∃ w, IsDist w ∧ MixOf ids chunk w cur ∧
    ∀ i n, (∀ j, 0 < totalCount es1 j → j < n) → 0 < totalCount es1 i → δ / (1 + δ * n) ≤ entry w i

theorem sampled_le {counts : List Int} {n : Nat} (h : ∀ j, 0 < entry counts j → j < n) : sampled counts ≤ n := by
  unfold sampled
  have h1 : counts.countP (fun c => decide (c > 0)) = (counts.take n).countP (fun c => decide (c > 0)) + (counts.drop n).countP (fun c => decide (c > 0)) := by
    rw [← List.countP_append, List.take_append_drop]
  have h2 : (counts.drop n).countP (fun c => decide (c > 0)) = 0 := by
    rw [List.countP_eq_zero]
    intro c hc hpos
    obtain ⟨j, hj, rfl⟩ := List.getElem_of_mem hc
    rw [List.getElem_drop] at hpos
    rw [List.length_drop] at hj
    have := h (n + j) (by rw [entry_eq (by omega)]; simpa using hpos)
    omega
  have h3 : (counts.take n).countP (fun c => decide (c > 0)) ≤ (counts.take n).length := List.countP_le_length
  rw [List.length_take] at h3
  omega

/-- The invariant for ADO. -/
theorem ado_inv {cfg : Cfg ℚ} (hc : cfg.Sane) (ops : Ops ℚ) (close : ℚ → Bool) {ids : Dict K Nat} {told : List ℚ}
    {s : Live K (Ado ℚ)} (h : ReadyAdo ids told s) (es : List (FbEv K)) : Grows ids es →
    (s.run (ado cfg ops close) es).dyn.ids = some (idsAfter ids es) ∧ (idsAfter ids es).keys.Nodup ∧ (idsAfter ids es).values.Nodup ∧
    (s.run (ado cfg ops close) es).dyn.informed = true ∧ (s.run (ado cfg ops close) es).dyn.chunk = s.dyn.chunk ∧
    (s.run (ado cfg ops close) es).dyn.cur.inferring = false ∧
    (s.run (ado cfg ops close) es).alg = adoRun cfg ops close (heard es) (Ado.init told) ∧
    ((s.run (ado cfg ops close) es).dyn.cur = s.dyn.cur ∨
      ∃ es1 c es2, es = es1 ++ .call c :: es2 ∧ c.report ≠ none ∧
        MadeByAdo cfg.deltaMin (idsAfter ids es) s.dyn.chunk (es1 ++ [.call c]) (s.run (ado cfg ops close) es).dyn.cur) := by
  induction es using List.reverseRecOn with
  | nil => intro _; exact ⟨h.1, h.2.2.2.2.1, h.2.2.2.2.2.1, h.2.1, rfl, h.2.2.2.2.2.2, h.2.2.1, Or.inl rfl⟩
  | append_singleton es e ih =>
    intro hg
    have hg' := (grows_append es [e] ids).1 hg
    obtain ⟨i1, i2, i3, i4, i5, i6, i7, i8⟩ := ih hg'.1
    generalize hst : s.run (ado cfg ops close) es = st at i1 i4 i5 i6 i7 i8
    have hrun : s.run (ado cfg ops close) (es ++ [e]) = (st.on (ado cfg ops close) e).1 := by rw [run_append, hst]; rfl
    rw [hrun, heard_append, idsAfter_append]
    have keep : ∀ (ids' : Dict K Nat), ids'.keys.Nodup → ids'.values.Nodup →
        (∀ k i, (idsAfter ids es).get? k = some i → ids'.get? k = some i) →
        st.dyn.cur = s.dyn.cur ∨ ∃ es1 c es2, es ++ [e] = es1 ++ .call c :: es2 ∧ c.report ≠ none ∧
          MadeByAdo cfg.deltaMin ids' s.dyn.chunk (es1 ++ [.call c]) st.dyn.cur := by
      intro ids' k1 k2 k3
      rcases i8 with i8 | ⟨es1, c, es2, e1, e2, w, w1, w2, w3⟩
      · exact Or.inl i8
      · refine Or.inr ⟨es1, c, es2 ++ [e], by rw [e1]; simp, e2, w, w1, w2.mono k1 k2 k3, w3⟩
    cases e with
    | idMap ids' =>
      obtain ⟨g1, g2, g3, _⟩ := hg'.2
      have hp : st.dyn.processIdMap ids' = ({ st.dyn with ids := some ids' }, none) := by
        unfold Dyn.processIdMap
        simp [i4]
      have hon : (st.on (ado cfg ops close) (.idMap ids')).1 = { st with dyn := { st.dyn with ids := some ids' } } := by
        show (st.idMap (ado cfg ops close) ids').1 = _
        unfold Live.idMap
        rw [hp]
        simp [i4]
      rw [hon]
      refine ⟨rfl, g1, g2, i4, i5, i6, ?_, keep ids' g1 g2 g3⟩
      show st.alg = _
      rw [i7]; simp [heard]
    | index i =>
      have hon : (st.on (ado cfg ops close) (.index i)).1 = st := by
        show ({ st with dyn := (st.dyn.processIndex i).1 } : Live K (Ado ℚ)) = st
        unfold Dyn.processIndex BaseMix.processIndex
        simp [i6]
      rw [hon]
      refine ⟨i1, i2, i3, i4, i5, i6, ?_, keep _ i2 i3 fun _ _ h => h⟩
      rw [i7]; simp [heard]
    | call c =>
      rw [show (st.on (ado cfg ops close) (.call c)).1 = (handleFeedback (ado cfg ops close) st c).1 from rfl]
      cases hr : c.report with
      | none =>
        obtain ⟨a, b⟩ := c90_silent (P := ado cfg ops close) st c hr
        refine ⟨by rw [a]; exact i1, i2, i3, by rw [a]; exact i4, by rw [a]; exact i5, ?_, ?_, ?_⟩
        · show (handleFeedback (ado cfg ops close) st c).1.dyn.cur.inferring = false
          rw [a]; exact i6
        · show (handleFeedback (ado cfg ops close) st c).1.alg = _
          rw [b, i7]; simp [heard, hr]
        · show (handleFeedback (ado cfg ops close) st c).1.dyn.cur = s.dyn.cur ∨ _
          rw [a]
          have := keep _ i2 i3 fun _ _ h => h
          simpa [a, idsAfter, Live.on] using this
      | some r =>
        obtain ⟨hm, halg, herr, hok⟩ := call_report (P := ado cfg ops close) hr (by rw [i1]; rfl) i4
        have halg' : (handleFeedback (ado cfg ops close) st c).1.alg =
            adoRun cfg ops close (heard es ++ heard [(FbEv.call c : FbEv K)]) (Ado.init told) := by
          rw [halg]
          show (st.alg.step cfg ops close r.losses r.counts r.mixtureId).1 = _
          rw [i7]
          simp [heard, hr, adoRun]
        have same : (handleFeedback (ado cfg ops close) st c).1.dyn = st.dyn → (handleFeedback (ado cfg ops close) st c).1.dyn.ids = some (idsAfter (idsAfter ids es) [.call c]) ∧
            (idsAfter (idsAfter ids es) [FbEv.call c]).keys.Nodup ∧ (idsAfter (idsAfter ids es) [FbEv.call c]).values.Nodup ∧
            (handleFeedback (ado cfg ops close) st c).1.dyn.informed = true ∧ (handleFeedback (ado cfg ops close) st c).1.dyn.chunk = s.dyn.chunk ∧
            (handleFeedback (ado cfg ops close) st c).1.dyn.cur.inferring = false ∧
            (handleFeedback (ado cfg ops close) st c).1.alg = adoRun cfg ops close (heard es ++ heard [(FbEv.call c : FbEv K)]) (Ado.init told) ∧
            ((handleFeedback (ado cfg ops close) st c).1.dyn.cur = s.dyn.cur ∨
              ∃ es1 c' es2, es ++ [.call c] = es1 ++ .call c' :: es2 ∧ c'.report ≠ none ∧
                MadeByAdo cfg.deltaMin (idsAfter (idsAfter ids es) [.call c]) s.dyn.chunk (es1 ++ [.call c'])
                  (handleFeedback (ado cfg ops close) st c).1.dyn.cur) := by
          intro a
          exact ⟨by rw [a]; exact i1, i2, i3, by rw [a]; exact i4, by rw [a]; exact i5, by rw [a]; exact i6, halg', by
            rw [a]; exact keep _ i2 i3 fun _ _ h => h⟩
        cases hp : ((ado cfg ops close).process st.alg r.losses r.counts r.mixtureId).2 with
        | error e => exact same (herr e hp).1
        | ok out =>
          obtain ⟨hd, _⟩ := hok out hp
          rcases processLosses_refused st.dyn r.mixtureId out with href | ⟨w, d', rfl, hacc⟩
          · exact same (by rw [hd, href])
          · rw [hacc] at hd
            have hstep : (adoRun cfg ops close (heard es) (Ado.init told)).step cfg ops close r.losses r.counts r.mixtureId =
                ((handleFeedback (ado cfg ops close) st c).1.alg, .ok (some w)) := by
              rw [Prod.ext_iff]
              refine ⟨?_, ?_⟩
              · rw [halg]; show _ = (st.alg.step cfg ops close r.losses r.counts r.mixtureId).1; rw [i7]
              · rw [← i7]; exact hp
            obtain ⟨w1, w2, w3, w4⟩ := c50_mixture_partial hc ops close h.2.2.2.1 (heard es) r w _ hstep
            obtain ⟨m1, m2, m3, m4⟩ := mixOf_of_ok i1 i2 i3 ⟨w1, w2⟩ hacc
            refine ⟨by rw [hd]; exact m2, i2, i3, by rw [hd, m3]; exact i4, ?_, ?_, halg', Or.inr ⟨es, c, [], rfl, by rw [hr]; simp, w, ⟨w1, w2⟩, ?_, ?_⟩⟩
            · show (handleFeedback (ado cfg ops close) st c).1.dyn.chunk = _
              rw [hd, m4]; exact i5
            · show (handleFeedback (ado cfg ops close) st c).1.dyn.cur.inferring = _
              rw [hd]; exact m1.static
            · show MixOf _ _ _ (handleFeedback (ado cfg ops close) st c).1.dyn.cur
              rw [hd, ← i5]; exact m1
            · have hval : ∀ x ∈ heard es ++ heard [(FbEv.call c : FbEv K)], x.Valid := by
                rw [← heard_append]; exact grows_valid _ ids hg
              have hacc' : (handleFeedback (ado cfg ops close) st c).1.alg.acc = accAfter (heard es ++ heard [(FbEv.call c : FbEv K)]) Acc.init := by
                rw [halg', adoRun_acc cfg ops close _ _ hval]; rfl
              have htot : ∀ k, entry (handleFeedback (ado cfg ops close) st c).1.alg.acc.counts k = totalCount (es ++ [.call c]) k := by
                intro k
                rw [hacc', ← averageRun_acc, (average_totals _ hval k).2, totalCount, heard_append]
              intro i n hn hi
              have hle : (sampled (handleFeedback (ado cfg ops close) st c).1.alg.acc.counts : ℚ) ≤ n := by
                exact_mod_cast sampled_le fun j hj => hn j (by rw [← htot]; exact hj)
              refine le_trans ?_ (w4 i (by rw [htot]; exact hi))
              have hd0 : 0 ≤ cfg.deltaMin := hc.d
              have hs0 : (0 : ℚ) ≤ sampled (handleFeedback (ado cfg ops close) st c).1.alg.acc.counts := Nat.cast_nonneg _
              have hmul := mul_le_mul_of_nonneg_left hle hd0
              have hpos := mul_nonneg hd0 hs0
              exact div_le_div_of_nonneg_left hd0 (by linarith) (by linarith)

/-- **C90** (ADO). A `DynamicMixture` with ADO has learnt its key ids; then anything is called and announced, in any order, whatever
it raises. Afterwards the mixture in force is the initial one, or it was made at one of the calls with a report, say the last of `es1`:
its rows sum to the chunk size, and every key whose domain had a reported sample by then has at least
`⌊chunk * (deltaMin / (1 + deltaMin * n))⌋` rows, where `n` bounds the ids of the domains sampled by then. -/
theorem c90_ado {cfg : Cfg ℚ} (hc : cfg.Sane) (ops : Ops ℚ) (close : ℚ → Bool) {ids : Dict K Nat} {told : List ℚ}
    {s : Live K (Ado ℚ)} (h : ReadyAdo ids told s) (es : List (FbEv K)) (hg : Grows ids es) :
    let cur := (s.run (ado cfg ops close) es).dyn.cur
    cur = s.dyn.cur ∨
    ∃ es1 c es2, es = es1 ++ .call c :: es2 ∧ c.report ≠ none ∧ cur.rows.values.sum = s.dyn.chunk ∧
      ∀ n : Nat, (∀ j, 0 < totalCount (es1 ++ [.call c]) j → j < n) →
        ∀ k i, (idsAfter ids es).get? k = some i → 0 < totalCount (es1 ++ [.call c]) i → 0 < cfg.deltaMin →
          ∃ r, cur.rows.get? k = some r ∧ ⌊(s.dyn.chunk : ℚ) * (cfg.deltaMin / (1 + cfg.deltaMin * n))⌋ ≤ (r : Int) := by
  intro cur
  obtain ⟨_, _, _, _, _, _, _, h8⟩ := ado_inv hc ops close h es hg
  rcases h8 with h8 | ⟨es1, c, es2, e1, e2, w, w1, w2, w3⟩
  · exact Or.inl h8
  · refine Or.inr ⟨es1, c, es2, e1, e2, w2.sum, ?_⟩
    intro n hn k i hk hi hd
    have hle := w3 i n hn hi
    have hnn : (0 : ℚ) ≤ n := Nat.cast_nonneg _
    have hfpos : 0 < cfg.deltaMin / (1 + cfg.deltaMin * n) := by
      have := mul_nonneg hd.le hnn
      exact div_pos hd (by linarith)
    have hwi : w[i]? = some (entry w i) := by
      have hlt : i < w.length := by
        by_contra hge
        rw [entry_beyond (not_lt.1 hge)] at hle
        linarith
      rw [entry_eq hlt, List.getElem?_eq_getElem hlt]
    have hpos : 0 < entry w i := lt_of_lt_of_le hfpos hle
    obtain ⟨share, s1, s2, s3⟩ := w2.rounded
    have hsh := (s3 k (entry w i)).2 ⟨i, hk, hwi, hpos⟩
    have hmem : k ∈ cur.rows.keys := (w2.keys k).2 ⟨i, _, hk, hwi, hpos⟩
    obtain ⟨r, hr⟩ := (Dict.mem_keys_iff _ _).1 hmem
    refine ⟨r, hr, ?_⟩
    have hfl : ⌊(s.dyn.chunk : ℚ) * (cfg.deltaMin / (1 + cfg.deltaMin * n))⌋ ≤ ⌊(s.dyn.chunk : ℚ) * entry w i⌋ :=
      Int.floor_le_floor (mul_le_mul_of_nonneg_left hle (Nat.cast_nonneg _))
    rcases s1.near k _ r hsh hr with h | h <;> omega

/-- A mixture with ADO that has just learnt its key ids without an error is ready. -/
theorem readyAdo_of_told {cfg : Cfg ℚ} {ops : Ops ℚ} {close : ℚ → Bool} {ids : Dict K Nat} {s : Live K (Ado ℚ)} {w0 : List ℚ}
    (hs : s.dyn.informed = false) (hi : s.dyn.cur.inferring = false) (ha : s.alg = Ado.init w0) (hr : s.dyn.cur.rows.keys.Nodup)
    (hk : ids.keys.Nodup) (hv : ids.values.Nodup) (h : (s.idMap (ado cfg ops close) ids).2 = none) :
    ReadyAdo ids (s.idMap (ado cfg ops close) ids).1.dyn.told (s.idMap (ado cfg ops close) ids).1 := by
  obtain ⟨h1, h2, h3, h4, h5⟩ := c61_told s.dyn (s.dyn.processIdMap ids).1 ids hk hv hr hs (by
    rw [Prod.ext_iff]; exact ⟨rfl, h⟩)
  refine ⟨h3, h2, ?_, ⟨?_, h1.2.2⟩, hk, hv, by show (s.dyn.processIdMap ids).1.cur.inferring = false; rw [h4]; exact hi⟩
  · show (if _ then (ado cfg ops close).tell s.alg _ else s.alg) = _
    rw [if_pos ⟨hs, h2⟩, ha]
    rfl
  · intro x hx
    obtain ⟨i, hi', rfl⟩ := List.getElem_of_mem hx
    by_cases hex : ∃ k ∈ s.dyn.cur.rows.keys, ids.get? k = some i
    · obtain ⟨k, hk', hki⟩ := hex
      obtain ⟨r, hr'⟩ := (Dict.mem_keys_iff _ _).1 hk'
      obtain ⟨j, hj, hq⟩ := h1.1 k r hr'
      rw [hki] at hj
      cases hj
      have : some ((s.idMap (ado cfg ops close) ids).1.dyn.told[i]) = some ((r : ℚ) / (s.dyn.cur.rows.values.sum : ℚ)) := by
        rw [← hq]; exact (List.getElem?_eq_getElem hi').symm
      rw [Option.some.inj this]
      exact div_nonneg (Nat.cast_nonneg _) (Nat.cast_nonneg _)
    · have := h1.2.1 i _ (List.getElem?_eq_getElem hi') (fun k hk' hki => hex ⟨k, hk', hki⟩)
      rw [this]

/-! ## Concrete cases -/

/-- A mixture over two keys, in a chunk of 8 rows. -/
def exLive : Live Nat (Acc ℚ) := ⟨Dyn.init 8 true ⟨false, 8, [(10, 4), (20, 4)], true⟩, Acc.init, 0⟩

/-- The same after it has learnt the key ids. -/
def exTold : Live Nat (Acc ℚ) := (exLive.idMap averaging [(10, 0), (20, 1)]).1

theorem exTold_ready : Ready [(10, 0), (20, 1)] exTold :=
  ready_of_told rfl rfl (by decide) (by decide) (by decide +kernel)

/-- A call of the first rank. -/
def fbCall (dp tp : Nat) (steps : Int) (l : List ℚ) (n : List Int) : FbEv Nat := .call ⟨dp, tp, true, some 0, steps, some l, some n⟩

/-- Two reports of the first rank; another rank's call in between, and one without losses, say nothing. -/
def exHistory : List (FbEv Nat) :=
  [fbCall 0 0 1 [6, 2] [2, 1], fbCall 1 0 9 [100, 0] [1, 1], .call ⟨0, 0, true, some 0, 2, none, none⟩,
    .idMap [(10, 0), (20, 1), (30, 2)], fbCall 0 0 3 [0, 1, 4] [1, 0, 1]]

theorem exHistory_sound : Sound [(10, 0), (20, 1)] exHistory := by
  refine ⟨?_, ?_, ?_, by decide, by decide, ?_, ?_, trivial⟩
  · intro r hr
    simp [FbCall.report] at hr
    subst hr
    refine ⟨rfl, by simp, ?_⟩
    intro i hi
    match i, hi with
    | 0, _ => exact ⟨10, rfl⟩
    | 1, _ => exact ⟨20, rfl⟩
    | _ + 2, hi => simp [entry] at hi
  · intro r hr; simp [FbCall.report] at hr
  · intro r hr; simp [FbCall.report] at hr
  · intro k i h
    simp only [Dict.get?] at h ⊢
    split at h
    · rename_i h1; rw [if_pos h1]; exact h
    · rename_i h1
      rw [if_neg h1]
      split at h
      · rename_i h2; rw [if_pos h2]; exact h
      · cases h
  · intro r hr
    simp [FbCall.report] at hr
    subst hr
    refine ⟨rfl, by simp, ?_⟩
    intro i hi
    match i, hi with
    | 0, _ => exact ⟨10, rfl⟩
    | 1, _ => exact ⟨20, rfl⟩
    | 2, _ => exact ⟨30, rfl⟩
    | _ + 3, hi => simp [entry] at hi

example : (∃ i, 0 < totalCount exHistory i) ∧ ∀ r ∈ heard exHistory, r.losses.length ≤ 3 := by
  refine ⟨⟨0, by decide +kernel⟩, ?_⟩
  intro r hr
  simp [heard, exHistory, fbCall, FbCall.report] at hr
  rcases hr with rfl | rfl <;> simp

/-- The averages are 2, 3 and 4 of a total of 9. -/
example : (exTold.run averaging exHistory).dyn.cur.rows = [(10, 2), (20, 3), (30, 3)] ∧ (exTold.run averaging exHistory).step = 3 := by
  decide +kernel

/-- A mixture without any rows for the second key, and ADO. -/
def exLiveAdo : Live Nat (Ado ℚ) := ⟨Dyn.init 1000 true ⟨false, 1000, [(10, 1000), (20, 0)], true⟩, Ado.init [-1], 0⟩

/-- The same after it has learnt the key ids. -/
def exToldAdo : Live Nat (Ado ℚ) := (exLiveAdo.idMap (ado exCfg exOps fun _ => true) [(10, 0), (20, 1)]).1

example : ReadyAdo [(10, 0), (20, 1)] exToldAdo.dyn.told exToldAdo :=
  readyAdo_of_told rfl rfl rfl (by decide) (by decide) (by decide) (by decide +kernel)

/-- Two reports of the first rank; the second domain has samples. -/
def exHistoryAdo : List (FbEv Nat) := [fbCall 0 0 1 [6, 2] [2, 1], fbCall 0 1 1 [6, 2] [2, 1], fbCall 0 0 2 [6, 2] [2, 1]]

/-- The key without rows gets some, because of the minimum probability: the guarantee is `⌊1000 * (0.01 / 1.02)⌋ = 9`. -/
example : (exToldAdo.run (ado exCfg exOps fun _ => true) exHistoryAdo).dyn.cur.rows = [(10, 990), (20, 10)] ∧
    ⌊(1000 : ℚ) * (exCfg.deltaMin / (1 + exCfg.deltaMin * 2))⌋ = 9 := by
  decide +kernel

end Mixtera.Mixing
