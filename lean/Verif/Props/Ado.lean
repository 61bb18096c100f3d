import Mathlib.Tactic.Ring
import Verif.Props.Mixing

/-!
# C50, C54: the mixtures of the dynamic mixing algorithms
-/

set_option linter.unusedSectionVars false

namespace Mixtera.Mixing

variable {F : Type} [Field F] [LinearOrder F] [IsStrictOrderedRing F]

/-- Specification: a probability distribution over the domains. -/
def IsDist (w : List F) : Prop := (∀ x ∈ w, 0 ≤ x) ∧ w.sum = 1

/-- Specification: how many domains have been sampled. -/
def sampled (counts : List Int) : Nat := counts.countP fun c => decide (c > 0)

theorem sum_map_div (v : List F) (t : F) : (v.map (· / t)).sum = v.sum / t := by
  induction v with
  | nil => simp
  | cons x v ih => simp [ih, add_div]

theorem sum_nonneg_of (v : List F) (h : ∀ x ∈ v, 0 ≤ x) : 0 ≤ v.sum := List.sum_nonneg h

theorem dist_div {v : List F} (h : ∀ x ∈ v, 0 ≤ x) (hs : v.sum ≠ 0) : IsDist (v.map (· / v.sum)) := by
  have hpos := sum_nonneg_of v h
  constructor
  · intro x hx
    obtain ⟨y, hy, rfl⟩ := List.mem_map.1 hx
    exact div_nonneg (h y hy) hpos
  · rw [sum_map_div, div_self hs]

theorem mem_zipWith {α β γ : Type} (f : α → β → γ) (P : γ → Prop) (a : List α) : ∀ (b : List β),
    (∀ x ∈ a, ∀ y ∈ b, P (f x y)) → ∀ z ∈ List.zipWith f a b, P z := by
  induction a with
  | nil => intro b _ z hz; simp at hz
  | cons x a ih =>
    intro b h z hz
    cases b with
    | nil => simp at hz
    | cons y b =>
      rcases List.mem_cons.1 hz with rfl | hz
      · exact h x (by simp) y (by simp)
      · exact ih b (fun x hx y hy => h x (by simp [hx]) y (by simp [hy])) z hz

theorem elementwise_ok {α β γ : Type} {f : α → β → γ} {a : List α} {b : List β} {c : List γ}
    (h : elementwise f a b = .ok c) : a.length = b.length ∧ c = List.zipWith f a b := by
  unfold elementwise at h
  split at h
  · injection h with h; exact ⟨by assumption, h.symm⟩
  · cases h

theorem sum_mix (g : F) (a : List F) : ∀ (b : List F), a.length = b.length →
    (List.zipWith (fun x y => g * x + (1 - g) * y) a b).sum = g * a.sum + (1 - g) * b.sum := by
  induction a with
  | nil => intro b h; cases b with
    | nil => simp
    | cons y b => simp at h
  | cons x a ih => intro b h; cases b with
    | nil => simp at h
    | cons y b =>
      simp only [List.length_cons, Nat.add_right_cancel_iff] at h
      simp only [List.zipWith_cons_cons, List.sum_cons, ih b h]
      ring

theorem mix_nonneg {g : F} (h0 : 0 ≤ g) (h1 : g ≤ 1) {a b : List F} (ha : ∀ x ∈ a, 0 ≤ x) (hb : ∀ x ∈ b, 0 ≤ x) :
    ∀ z ∈ List.zipWith (fun x y => g * x + (1 - g) * y) a b, 0 ≤ z := by
  refine mem_zipWith _ (fun z => 0 ≤ z) a b fun x hx y hy => ?_
  have := mul_nonneg h0 (ha x hx)
  have := mul_nonneg (sub_nonneg.2 h1) (hb y hy)
  linarith

theorem normalize_ok {v w : List F} (h : normalize v = .ok w) : v.sum ≠ 0 ∧ w = v.map (· / v.sum) := by
  unfold normalize at h
  split at h
  · cases h
  · injection h with h; exact ⟨by assumption, h.symm⟩

theorem policy_ok {cfg : Cfg F} {r bar p : List F} (h : policy cfg r bar = .ok p) (h0 : 0 ≤ cfg.gamma2)
    (h1 : cfg.gamma2 ≤ 1) (hr : ∀ x ∈ r, 0 ≤ x) (hb : IsDist bar) : IsDist p ∧ p.length = r.length := by
  unfold policy at h
  simp only [bind, Except.bind] at h
  split at h
  · cases h
  rename_i v hv
  obtain ⟨hl, rfl⟩ := elementwise_ok hv
  obtain ⟨hs, rfl⟩ := normalize_ok h
  exact ⟨dist_div (mix_nonneg h0 h1 hr hb.1) hs, by simp [hl]⟩

theorem average_ok {total : Nat} {r bar p : List F} (h : average total r bar = .ok p)
    (hr : ∀ x ∈ r, 0 ≤ x) (hb : IsDist bar) : IsDist p ∧ p.length = r.length := by
  unfold average at h
  simp only [bind, Except.bind] at h
  split at h
  · cases h
  rename_i v hv
  obtain ⟨hl, rfl⟩ := elementwise_ok hv
  obtain ⟨hs, rfl⟩ := normalize_ok h
  have hp : (0 : F) < (total : F) + 1 := by positivity
  refine ⟨dist_div (mix_nonneg (by positivity) ?_ hr hb.1) hs, by simp [hl]⟩
  rw [div_le_one hp]
  have : (0 : F) ≤ total := by positivity
  linarith

theorem rho_ok {cfg : Cfg F} {ops : Ops F} {n : Nat} {h mu dL r : List F} (e : rho cfg ops n h mu dL = .ok r)
    (hm : IsDist mu) : (∀ x ∈ r, 0 ≤ x) ∧ 0 < r.sum ∧ r.length = mu.length := by
  unfold rho at e
  simp only [bind, Except.bind, pure, Except.pure] at e
  split at e
  · cases e
  rename_i a ha
  obtain ⟨hl1, rfl⟩ := elementwise_ok ha
  split at e
  · cases e
  rename_i b hb
  obtain ⟨hl2, rfl⟩ := elementwise_ok hb
  split at e
  · rename_i hpos
    injection e with e
    subst e
    refine ⟨?_, ?_, ?_⟩
    · intro x hx
      obtain ⟨y, hy, rfl⟩ := List.mem_map.1 hx
      obtain ⟨z, _, rfl⟩ := List.mem_map.1 hy
      exact div_nonneg (le_max_right _ _) hpos.le
    · rw [sum_map_div, div_self hpos.ne']; exact one_pos
    · simp only [List.length_map, List.length_zipWith] at hl1 hl2 ⊢; omega
  · split at e
    · cases e
    rename_i hn
    injection e with e
    subst e
    have hn' : (0 : F) < (n : F) := by exact_mod_cast Nat.pos_of_ne_zero hn
    refine ⟨?_, ?_, by simp⟩
    · intro x hx
      obtain ⟨y, hy, rfl⟩ := List.mem_map.1 hx
      exact div_nonneg (hm.1 y hy) hn'.le
    · rw [sum_map_div, hm.2]; positivity

theorem sum_clip (d : F) (hd : 0 ≤ d) (counts : List Int) : ∀ p : List F, counts.length = p.length →
    (∀ x ∈ p, 0 ≤ x) →
    p.sum ≤ (List.zipWith (fun (c : Int) p => if c > 0 then max p d else p) counts p).sum ∧
    (List.zipWith (fun (c : Int) p => if c > 0 then max p d else p) counts p).sum ≤ p.sum + d * (sampled counts : F) := by
  induction counts with
  | nil => intro p h _; cases p with
    | nil => simp [sampled]
    | cons _ _ => simp at h
  | cons c cs ih => intro p h hp; cases p with
    | nil => simp at h
    | cons x p =>
      simp only [List.length_cons, Nat.add_right_cancel_iff] at h
      obtain ⟨h1, h2⟩ := ih p h fun y hy => hp y (List.mem_cons_of_mem _ hy)
      have hx := hp x List.mem_cons_self
      have hs : (sampled (c :: cs) : F) = (sampled cs : F) + if c > 0 then 1 else 0 := by
        unfold sampled
        rw [List.countP_cons]
        split <;> simp_all
      simp only [List.zipWith_cons_cons, List.sum_cons, hs]
      split
      · have := le_max_left x d
        have : max x d ≤ x + d := max_le (by linarith) (by linarith)
        constructor <;> nlinarith
      · constructor <;> linarith

theorem enforceMin_ok {cfg : Cfg F} {counts : List Int} {mu p q : List F} (h : enforceMin cfg counts mu p = .ok q)
    (hd : 0 ≤ cfg.deltaMin) (hp : IsDist p) :
    IsDist q ∧ q.length = counts.length ∧
      ∀ k, 0 < entry counts k → cfg.deltaMin / (1 + cfg.deltaMin * (sampled counts : F)) ≤ entry q k := by
  unfold enforceMin at h
  simp only [bind, Except.bind, pure, Except.pure] at h
  split at h
  · cases h
  rename_i v hv
  obtain ⟨hl, rfl⟩ := elementwise_ok hv
  obtain ⟨s1, s2⟩ := sum_clip cfg.deltaMin hd counts p hl hp.1
  rw [hp.2] at s1 s2
  have hpos : 0 < (List.zipWith (fun (c : Int) p => if c > 0 then max p cfg.deltaMin else p) counts p).sum := by
    linarith
  rw [if_pos hpos] at h
  injection h with h
  subst h
  refine ⟨dist_div ?_ hpos.ne', by simp [hl], ?_⟩
  · refine mem_zipWith _ (fun z => 0 ≤ z) counts p fun c _ x hx => ?_
    have := hp.1 x hx
    split
    · exact le_max_of_le_left this
    · exact this
  · intro k hk
    have hkc : k < counts.length := by
      by_contra hge
      rw [entry, List.getElem?_eq_none (by omega)] at hk
      simp at hk
    have hkp : k < p.length := by omega
    have hk' : 0 < counts[k] := by rw [entry, List.getElem?_eq_getElem hkc] at hk; exact hk
    have e : entry ((List.zipWith (fun (c : Int) p => if c > 0 then max p cfg.deltaMin else p) counts p).map
        (· / (List.zipWith (fun (c : Int) p => if c > 0 then max p cfg.deltaMin else p) counts p).sum)) k =
        max p[k] cfg.deltaMin / (List.zipWith (fun (c : Int) p => if c > 0 then max p cfg.deltaMin else p) counts p).sum := by
      rw [entry, List.getElem?_map, List.getElem?_zipWith, List.getElem?_eq_getElem hkc, List.getElem?_eq_getElem hkp]
      simp only [Option.map_some, Option.getD_some]
      rw [if_pos hk']
    rw [e]
    exact div_le_div₀ (le_trans hd (le_max_right _ _)) (le_max_right _ _) hpos s2

/-- The hypotheses on the configuration: smoothing factors between zero and one, a minimum that is not negative. -/
structure Cfg.Sane (cfg : Cfg F) : Prop where
  g1 : 0 ≤ cfg.gamma1
  g1' : cfg.gamma1 ≤ 1
  g2 : 0 ≤ cfg.gamma2
  g2' : cfg.gamma2 ≤ 1
  d : 0 ≤ cfg.deltaMin

/-- The invariant: all vectors that are set are distributions. -/
structure Inv (a : Ado F) : Prop where
  initial : IsDist a.initial
  mu : ∀ m, a.mu = some m → IsDist m
  bar : ∀ m, a.piBar = some m → IsDist m
  h : ∀ m, a.h = some m → IsDist m
  pi : ∀ m, a.pi = some m → IsDist m

theorem dist_zeros {v : List F} (h : IsDist v) (n : Nat) : IsDist (v ++ List.replicate n 0) := by
  constructor
  · intro x hx
    rcases List.mem_append.1 hx with hx | hx
    · exact h.1 x hx
    · rw [List.mem_replicate] at hx; rw [hx.2]
  · rw [List.sum_append, h.2]; simp

theorem inv_init (initial : List F) (h : IsDist initial) : Inv (Ado.init initial) :=
  ⟨h, fun _ h => (by cases h), fun _ h => (by cases h), fun _ h => (by cases h), fun _ h => (by cases h)⟩

theorem inv_grow {a : Ado F} (h : Inv a) (n : Nat) : Inv (a.grow n) := by
  have key : ∀ (o : Option (List F)), (∀ m, o = some m → IsDist m) →
      ∀ m, o.map (· ++ List.replicate n 0) = some m → IsDist m := by
    intro o ho m hm
    obtain ⟨v, hv, rfl⟩ := Option.map_eq_some_iff.1 hm
    exact dist_zeros (ho v hv) n
  exact ⟨h.initial, key _ h.mu, key _ h.bar, key _ h.h, key _ h.pi⟩

theorem inv_acc {a : Ado F} (h : Inv a) (acc : Acc F) : Inv { a with acc := acc } := ⟨h.initial, h.mu, h.bar, h.h, h.pi⟩

theorem inv_record {a : Ado F} (h : Inv a) (cfg : Cfg F) (l : List F) (c : List Int) : Inv (a.record cfg l c).1 := by
  unfold Ado.record
  simp only
  split
  · split <;> exact ⟨h.initial, h.mu, h.bar, h.h, h.pi⟩
  · exact ⟨h.initial, h.mu, h.bar, h.h, h.pi⟩

theorem inv_update {a : Ado F} (h : Inv a) (cfg : Cfg F) (l : List F) (c : List Int) : Inv (a.update cfg l c).1 := by
  unfold Ado.update
  simp only
  split
  · exact h
  split
  · exact inv_acc h _
  · exact inv_record (inv_grow (inv_acc h _) _) _ _ _

theorem inv_setMu {a : Ado F} (h : Inv a) (close : F → Bool) : Inv (a.setMu close).1 := by
  have key : ∀ m, some (padTo a.acc.counts.length a.initial) = some m → IsDist m := by
    intro m hm
    injection hm with hm
    subst hm
    exact dist_zeros h.initial _
  unfold Ado.setMu
  split
  · exact h
  · simp only
    split
    · exact ⟨h.initial, key, h.bar, h.h, h.pi⟩
    split <;> exact ⟨h.initial, key, h.bar, h.h, h.pi⟩

theorem inv_fit {a : Ado F} (h : Inv a) (ops : Ops F) : Inv (a.fit ops).1 := by
  unfold Ado.fit
  simp only
  split
  · exact ⟨h.initial, h.mu, h.bar, h.h, h.pi⟩
  split
  · exact ⟨h.initial, h.mu, h.bar, h.h, h.pi⟩
  split <;> exact ⟨h.initial, h.mu, h.bar, h.h, h.pi⟩

theorem inv_wait {a : Ado F} (h : Inv a) (cfg : Cfg F) (b u : Bool) : Inv (a.wait cfg b u).1 := by
  unfold Ado.wait
  split
  · simp only
    split
    · exact ⟨h.initial, h.mu, h.bar, h.h, h.pi⟩
    · exact h
  · exact h

theorem gamma_pow {g : F} (h0 : 0 ≤ g) (h1 : g ≤ 1) (n : Nat) : 0 ≤ 1 - (1 - g) ^ n ∧ 1 - (1 - g) ^ n ≤ 1 := by
  have h2 : 0 ≤ 1 - g := by linarith
  have h3 : 1 - g ≤ 1 := by linarith
  have := pow_le_one₀ (n := n) h2 h3
  have := pow_nonneg h2 n
  constructor <;> linarith

theorem inv_updateH {cfg : Cfg F} (hc : cfg.Sane) {a a' : Ado F} (ha : Inv a) {n : Nat} {p h : List F} (hp : IsDist p)
    (hh : IsDist h) (e : a.updateH cfg n p h = .ok a') : Inv a' := by
  obtain ⟨e1, e2, e3, e4⟩ := updateH_acc e
  unfold Ado.updateH at e
  simp only [bind, Except.bind, pure, Except.pure] at e
  split at e
  · cases e
  rename_i v hv
  obtain ⟨hl, rfl⟩ := elementwise_ok hv
  injection e with e
  subst e
  refine ⟨ha.initial, ha.mu, ha.bar, ?_, ha.pi⟩
  intro m hm
  injection hm with hm
  subst hm
  have hg : ∀ g : F, g = (if cfg.variant = Variant.v2 ∧ n > 1 then 1 - (1 - cfg.gamma1) ^ n else cfg.gamma1) →
      0 ≤ g ∧ g ≤ 1 := by
    intro g hg
    subst hg
    split
    · exact gamma_pow hc.g1 hc.g1' n
    · exact ⟨hc.g1, hc.g1'⟩
  obtain ⟨g0, g1⟩ := hg _ rfl
  exact ⟨mix_nonneg g0 g1 hp.1 hh.1, by rw [sum_mix _ _ _ hl, hp.2, hh.2]; ring⟩

theorem inv_credit {cfg : Cfg F} (hc : cfg.Sane) {a a' : Ado F} (ha : Inv a) {b : Bool} {p h : List F} (hp : IsDist p)
    (hh : IsDist h) (e : a.credit cfg b p h = .ok a') : Inv a' := by
  unfold Ado.credit at e
  split at e
  · exact inv_updateH hc ha hp hh e
  · exact inv_updateH hc ha hp hh e
  · split at e
    · exact inv_updateH hc ha hp hh e
    · injection e with e; subst e; exact ha
  · split at e
    · exact inv_updateH hc ha hp hh e
    · injection e with e; subst e; exact ha
  · cases e

/-- What a returned mixture has to be. -/
def GoodMixture (cfg : Cfg F) (counts : List Int) (w : List F) : Prop :=
  IsDist w ∧ w.length = counts.length ∧
    ∀ k, 0 < entry counts k → cfg.deltaMin / (1 + cfg.deltaMin * (sampled counts : F)) ≤ entry w k

theorem inv_compute {cfg : Cfg F} (hc : cfg.Sane) (ops : Ops F) {a : Ado F} (ha : Inv a) (b : Bool) {h mu : List F}
    (hh : IsDist h) (hm : IsDist mu) :
    Inv (a.compute cfg ops b h mu).1 ∧
      ∀ w, (a.compute cfg ops b h mu).2 = .ok (some w) → GoodMixture cfg a.acc.counts w := by
  unfold Ado.compute
  simp only
  split
  · exact ⟨ha, fun w hw => by cases hw⟩
  split
  · exact ⟨ha, fun w hw => by cases hw⟩
  rename_i r hr
  obtain ⟨r1, r2, r3⟩ := rho_ok hr hm
  have hbar : IsDist (a.piBar.getD mu) := by
    cases hb : a.piBar with
    | none => exact hm
    | some v => exact ha.bar v hb
  have ha1 : Inv { a with piBar := some (a.piBar.getD mu) } :=
    ⟨ha.initial, ha.mu, fun m e => by injection e with e; subst e; exact hbar, ha.h, ha.pi⟩
  split
  · exact ⟨ha1, fun w hw => by cases hw⟩
  rename_i p hp
  obtain ⟨p1, p2⟩ := policy_ok hp hc.g2 hc.g2' r1 hbar
  have ha2 : ∀ v, IsDist v → Inv { a with piBar := some (a.piBar.getD mu), pi := some v } := fun v hv =>
    ⟨ha.initial, ha.mu, ha1.bar, ha.h, fun m e => by injection e with e; subst e; exact hv⟩
  split
  · exact ⟨ha2 p p1, fun w hw => by cases hw⟩
  rename_i q hq
  have hgood := enforceMin_ok hq hc.d p1
  split
  · exact ⟨ha2 q hgood.1, fun w hw => by cases hw⟩
  rename_i a4 h4
  have hi4 := inv_credit hc (ha2 q hgood.1) hgood.1 hh h4
  split
  · exact ⟨hi4, fun w hw => by cases hw⟩
  rename_i bar' hbar'
  refine ⟨⟨hi4.initial, hi4.mu, ?_, hi4.h, hi4.pi⟩, ?_⟩
  · intro m e
    injection e with e
    subst e
    exact (average_ok hbar' r1 hbar).1
  · intro w hw
    injection hw with hw
    injection hw with hw
    subst hw
    exact hgood

theorem inv_active {cfg : Cfg F} (hc : cfg.Sane) (ops : Ops F) {a : Ado F} (ha : Inv a) (b : Bool) {mu : List F}
    (hm : IsDist mu) :
    Inv (a.active cfg ops b mu).1 ∧
      ∀ w, (a.active cfg ops b mu).2 = .ok (some w) → GoodMixture cfg a.acc.counts w := by
  have hh : IsDist (a.h.getD mu) := by
    cases hb : a.h with
    | none => exact hm
    | some v => exact ha.h v hb
  have ha1 : Inv { a with h := some (a.h.getD mu) } :=
    ⟨ha.initial, ha.mu, ha.bar, fun m e => by injection e with e; subst e; exact hh, ha.pi⟩
  unfold Ado.active
  simp only
  split
  · exact ⟨ha1, fun w hw => by cases hw⟩
  rename_i due _
  have main : ∀ a' : Ado F, Inv a' → a'.acc = a.acc →
      Inv (if (a'.wait cfg b due).2 = true then (a'.wait cfg b due).1.compute cfg ops b (a.h.getD mu) mu
        else ((a'.wait cfg b due).1, .ok none)).1 ∧
      ∀ w, (if (a'.wait cfg b due).2 = true then (a'.wait cfg b due).1.compute cfg ops b (a.h.getD mu) mu
        else ((a'.wait cfg b due).1, .ok none)).2 = .ok (some w) → GoodMixture cfg a.acc.counts w := by
    intro a' h' hacc
    split
    · have := inv_compute hc ops (inv_wait h' cfg b due) b hh hm
      rw [wait_acc, hacc] at this
      exact this
    · exact ⟨inv_wait h' cfg b due, fun w hw => by cases hw⟩
  cases due
  · simp only [Bool.false_eq_true, if_false]
    exact main _ ha1 rfl
  · simp only [if_true]
    have hf := inv_fit ha1 ops
    have hfa := fit_acc ops { a with h := some (a.h.getD mu) }
    split
    · rename_i h; rw [h] at hf; exact ⟨hf, fun w hw => by cases hw⟩
    · rename_i h; rw [h] at hf hfa
      exact main _ hf hfa

theorem setMu_none {close : F → Bool} {a a' : Ado F} (h : a.setMu close = (a', none)) : ∃ m, a'.mu = some m := by
  unfold Ado.setMu at h
  split at h
  · rename_i m hm
    injection h with h _
    subst h
    exact ⟨m, hm⟩
  · simp only at h
    split at h
    · cases h
    split at h
    · cases h
    · injection h with h _
      subst h
      exact ⟨_, rfl⟩

theorem inv_calc {cfg : Cfg F} (hc : cfg.Sane) (ops : Ops F) (close : F → Bool) {a : Ado F} (ha : Inv a) (b : Bool) :
    Inv (a.calc cfg ops close b).1 ∧
      ∀ w, (a.calc cfg ops close b).2 = .ok (some w) → GoodMixture cfg a.acc.counts w := by
  have hs := inv_setMu (a := { a with total := a.total + 1 }) ⟨ha.initial, ha.mu, ha.bar, ha.h, ha.pi⟩ close
  have hsa := setMu_acc close { a with total := a.total + 1 }
  unfold Ado.calc
  split
  · rename_i h; rw [h] at hs; exact ⟨hs, fun w hw => by cases hw⟩
  · rename_i a' h
    rw [h] at hs hsa
    split
    · exact ⟨hs, fun w hw => by cases hw⟩
    · obtain ⟨m, hm⟩ := setMu_none h
      have hmd : IsDist (a'.mu.getD []) := by rw [hm]; exact hs.mu m hm
      have := inv_active hc ops hs b hmd
      simp only at hsa
      rw [hsa] at this
      exact this

theorem inv_step {cfg : Cfg F} (hc : cfg.Sane) (ops : Ops F) (close : F → Bool) {a : Ado F} (ha : Inv a) (r : Report F) :
    Inv (a.step cfg ops close r.losses r.counts r.mixtureId).1 ∧
      ∀ w, (a.step cfg ops close r.losses r.counts r.mixtureId).2 = .ok (some w) →
        GoodMixture cfg (a.step cfg ops close r.losses r.counts r.mixtureId).1.acc.counts w := by
  unfold Ado.step
  simp only
  have hu := inv_update (inv_acc ha (a.acc.notice r.mixtureId).1) cfg r.losses r.counts
  split
  · rename_i h; rw [h] at hu; exact ⟨hu, fun w hw => by cases hw⟩
  · rename_i h; rw [h] at hu
    have := inv_calc hc ops close hu (a.acc.notice r.mixtureId).2
    rw [calc_acc]
    exact this

theorem inv_run {cfg : Cfg F} (hc : cfg.Sane) (ops : Ops F) (close : F → Bool) (reports : List (Report F)) :
    ∀ a : Ado F, Inv a → Inv (adoRun cfg ops close reports a) := by
  induction reports with
  | nil => intro a h; exact h
  | cons r rs ih => intro a h; exact ih _ (inv_step hc ops close h r).1

/-- **C50**. Whatever was reported before, of whatever lengths and with whatever exceptions, and whatever the scaling laws
say: a mixture that ADO returns has one probability for every domain it has heard of, all non-negative and summing to one,
and every domain with at least one reported sample gets at least `delta_min / (1 + delta_min * n)`, where `n` is the number
of such domains. What is missing from the full statement: this is less than `delta_min`, because the probabilities are
normalised after they were raised to the minimum; `c50_below_minimum` shows that it is attained. -/
theorem c50_mixture_partial {cfg : Cfg F} (hc : cfg.Sane) (ops : Ops F) (close : F → Bool) {initial : List F}
    (hi : IsDist initial) (reports : List (Report F)) (r : Report F) (w : List F) (a' : Ado F)
    (h : (adoRun cfg ops close reports (Ado.init initial)).step cfg ops close r.losses r.counts r.mixtureId =
      (a', .ok (some w))) :
    (∀ x ∈ w, 0 ≤ x) ∧ w.sum = 1 ∧ w.length = a'.acc.counts.length ∧
      ∀ k, 0 < entry a'.acc.counts k →
        cfg.deltaMin / (1 + cfg.deltaMin * (sampled a'.acc.counts : F)) ≤ entry w k := by
  have hs := inv_step hc ops close (inv_run hc ops close reports _ (inv_init initial hi)) r
  rw [h] at hs
  obtain ⟨⟨h1, h2⟩, h3, h4⟩ := hs.2 w rfl
  exact ⟨h1, h2, h3, h4⟩

/-- **C50** (the minimum is not kept). With a minimum of one half, the only sampled domain gets a probability of one
third. -/
theorem c50_below_minimum :
    let cfg : Cfg ℚ := ⟨.vanilla, 1/2, 1/2, 1, 1/2, 1, 1, true, none⟩
    let ops : Ops ℚ := ⟨fun _ => 0, fun _ _ => 0, fun c _ => .ok ((c.headD []).map fun _ => (0, 0, 0))⟩
    ((Ado.init [0, 1]).step cfg ops (fun _ => true) [1, 0] [1, 0] 0).2.toOption.join = some [1/3, 2/3] := by
  decide +kernel

/-! ### When it returns a mixture -/

theorem elementwise_of {α β γ : Type} (f : α → β → γ) {a : List α} {b : List β} (h : a.length = b.length) :
    elementwise f a b = .ok (List.zipWith f a b) := by
  unfold elementwise; rw [if_pos h]

theorem normalize_of {v : List F} (h : v.sum ≠ 0) : normalize v = .ok (v.map (· / v.sum)) := by
  unfold normalize; rw [if_neg h]

theorem rho_of (cfg : Cfg F) (ops : Ops F) {n : Nat} (hn : n ≠ 0) {h mu dL : List F} (h1 : h.length = n)
    (h2 : mu.length = n) (h3 : dL.length = n) : ∃ r, rho cfg ops n h mu dL = .ok r := by
  unfold rho
  rw [elementwise_of _ (by simp [h1, h2])]
  simp only [bind, Except.bind, pure, Except.pure]
  rw [elementwise_of _ (by simp [h1, h2, h3])]
  simp only
  split
  · exact ⟨_, rfl⟩
  · exact ⟨_, rfl⟩

theorem policy_of {cfg : Cfg F} (h0 : 0 ≤ cfg.gamma2) (h1 : cfg.gamma2 ≤ 1) {r bar : List F} (hl : r.length = bar.length)
    (hr : 0 < r.sum) (hb : IsDist bar) : ∃ p, policy cfg r bar = .ok p := by
  unfold policy
  rw [elementwise_of _ hl]
  simp only [bind, Except.bind]
  refine ⟨_, normalize_of ?_⟩
  rw [sum_mix _ _ _ hl, hb.2]
  have := mul_nonneg h0 hr.le
  rcases eq_or_lt_of_le h1 with e | e
  · rw [e]; have := hr.ne'; simpa using this
  · have : 0 < 1 - cfg.gamma2 := by linarith
    apply ne_of_gt
    linarith

theorem average_of (total : Nat) {r bar : List F} (hl : r.length = bar.length) (hr : 0 < r.sum) (hb : IsDist bar) :
    ∃ p, average total r bar = .ok p := by
  unfold average
  simp only [bind, Except.bind]
  rw [elementwise_of _ hl]
  refine ⟨_, normalize_of ?_⟩
  rw [sum_mix _ _ _ hl, hb.2]
  have hp : (0 : F) < (total : F) + 1 := by positivity
  have h1 : 0 < 1 / ((total : F) + 1) := by positivity
  have h2 : 1 / ((total : F) + 1) ≤ 1 := by
    rw [div_le_one hp]
    have : (0 : F) ≤ total := by positivity
    linarith
  have := mul_pos h1 hr
  apply ne_of_gt
  linarith

theorem enforceMin_of {cfg : Cfg F} {counts : List Int} {mu p : List F} (hd : 0 ≤ cfg.deltaMin)
    (hl : counts.length = p.length) (hp : IsDist p) : ∃ q, enforceMin cfg counts mu p = .ok q := by
  unfold enforceMin
  rw [elementwise_of _ hl]
  simp only [bind, Except.bind, pure, Except.pure]
  have := (sum_clip cfg.deltaMin hd counts p hl hp.1).1
  rw [hp.2] at this
  rw [if_pos (by linarith)]
  exact ⟨_, rfl⟩

theorem updateH_of (cfg : Cfg F) (a : Ado F) (n : Nat) {p h : List F} (hl : p.length = h.length) :
    ∃ a', a.updateH cfg n p h = .ok a' ∧ (∀ m, a'.h = some m → m.length = h.length) ∧ a'.total = a.total ∧
      a'.params = a.params ∧ a'.stepCounts = a.stepCounts ∧ a'.stepLosses = a.stepLosses ∧ a'.initial = a.initial := by
  unfold Ado.updateH
  simp only [bind, Except.bind, pure, Except.pure]
  rw [elementwise_of _ hl]
  refine ⟨_, rfl, ?_, rfl, rfl, rfl, rfl, rfl⟩
  intro m hm
  injection hm with hm
  subst hm
  simp [hl]

theorem credit_of {cfg : Cfg F} (hv : cfg.variant ≠ .unknown) (a : Ado F) (b : Bool) {p h : List F}
    (hl : p.length = h.length) (hh : a.h = some h) :
    ∃ a', a.credit cfg b p h = .ok a' ∧ (∀ m, a'.h = some m → m.length = h.length) ∧ a'.total = a.total ∧
      a'.params = a.params ∧ a'.stepCounts = a.stepCounts ∧ a'.stepLosses = a.stepLosses ∧ a'.initial = a.initial := by
  have same : ∃ a', (.ok a : Except Err (Ado F)) = .ok a' ∧ (∀ m, a'.h = some m → m.length = h.length) ∧
      a'.total = a.total ∧ a'.params = a.params ∧ a'.stepCounts = a.stepCounts ∧ a'.stepLosses = a.stepLosses ∧
      a'.initial = a.initial := by
    refine ⟨a, rfl, ?_, rfl, rfl, rfl, rfl, rfl⟩
    intro m hm
    rw [hh] at hm
    injection hm with hm
    rw [hm]
  unfold Ado.credit
  split
  · exact updateH_of _ _ _ hl
  · exact updateH_of _ _ _ hl
  · split
    · exact updateH_of _ _ _ hl
    · exact same
  · split
    · exact updateH_of _ _ _ hl
    · exact same
  · contradiction

/-- All vectors are about the same `n` domains. -/
structure Shape (cfg : Cfg F) (n : Nat) (a : Ado F) : Prop where
  losses : a.acc.losses.length = n
  counts : a.acc.counts.length = n
  initial : a.initial.length ≤ n
  mu : ∀ m, a.mu = some m → m.length = n
  bar : ∀ m, a.piBar = some m → m.length = n
  h : ∀ m, a.h = some m → m.length = n
  params : ∀ m, a.params = some m → m.length = n
  stepCounts : ∀ r ∈ a.stepCounts, r.length = n
  stepLosses : ∀ r ∈ a.stepLosses, r.length = n
  same : a.stepLosses.length = a.stepCounts.length
  steps : a.stepCounts ≠ []
  fitted : cfg.start ≤ a.total → a.params ≠ none

theorem ragged_false {α : Type} {n : Nat} {rows : List (List α)} (h : ∀ r ∈ rows, r.length = n) : ragged rows = false := by
  unfold ragged
  rw [List.any_eq_false]
  intro r hr
  cases rows with
  | nil => cases hr
  | cons x xs => simp [h r hr, h x List.mem_cons_self]

theorem length_sumRows {n : Nat} {rows : List (List Int)} (h : ∀ r ∈ rows, r.length = n) (hne : rows ≠ []) :
    (sumRows rows).length = n := by
  induction rows with
  | nil => exact absurd rfl hne
  | cons r rs ih =>
    cases rs with
    | nil => exact h r List.mem_cons_self
    | cons r' rs' =>
      have e : sumRows (r :: r' :: rs') = List.zipWith (· + ·) r (sumRows (r' :: rs')) := rfl
      rw [e, List.length_zipWith, ih (fun x hx => h x (List.mem_cons_of_mem _ hx)) (by simp), h r List.mem_cons_self]
      simp

theorem length_scaled (m : Option Int) (l : List Int) : (scaled m l : List F).length = l.length := by
  unfold scaled
  split
  · split <;> simp
  · simp

theorem domainCounts_of (cfg : Cfg F) {n : Nat} {a : Ado F} (h : Shape cfg n a) :
    ∃ v, a.domainCounts cfg = .ok v ∧ v.length = n := by
  have ht : ∃ l, a.totals cfg = .ok l ∧ l.length = n := by
    unfold Ado.totals
    rw [ragged_false h.stepCounts]
    split
    · exact ⟨_, rfl, length_sumRows h.stepCounts h.steps⟩
    · exact ⟨_, rfl, h.counts⟩
  obtain ⟨l, h1, h2⟩ := ht
  unfold Ado.domainCounts
  rw [h1]
  exact ⟨_, rfl, by rw [length_scaled, h2]⟩

theorem compute_of {cfg : Cfg F} (hc : cfg.Sane) (hv : cfg.variant ≠ .unknown) (ops : Ops F) {n : Nat} (hn : n ≠ 0)
    {a : Ado F} (ha : Inv a) (hs : Shape cfg n a) (hp : a.params ≠ none) (b : Bool) {h mu : List F}
    (hh : IsDist h) (hm : IsDist mu) (hhl : h.length = n) (hml : mu.length = n) (hah : a.h = some h) :
    ∃ w a', a.compute cfg ops b h mu = (a', .ok (some w)) ∧ Shape cfg n a' ∧ a'.total = a.total := by
  obtain ⟨ps, hps⟩ := Option.ne_none_iff_exists'.1 hp
  obtain ⟨v, hv1, hv2⟩ := domainCounts_of cfg hs
  have hpl := hs.params ps hps
  have hdl : a.lossDerivative cfg ops = .ok (List.zipWith (derivative ops) ps v) := by
    unfold Ado.lossDerivative
    rw [hps]
    simp only [bind, Except.bind, pure, Except.pure, hv1]
    rw [if_neg (by rw [hpl, hv2]; simp)]
  obtain ⟨r, hr⟩ := rho_of cfg ops hn (dL := List.zipWith (derivative ops) ps v) hhl hml (by simp [hpl, hv2])
  obtain ⟨r1, r2, r3⟩ := rho_ok hr hm
  have hbar : IsDist (a.piBar.getD mu) := by
    cases hb : a.piBar with
    | none => exact hm
    | some v => exact ha.bar v hb
  have hbarl : (a.piBar.getD mu).length = n := by
    cases hb : a.piBar with
    | none => exact hml
    | some v => exact hs.bar v hb
  obtain ⟨p, hpo⟩ := policy_of hc.g2 hc.g2' (r := r) (by rw [r3, hml, hbarl]) r2 hbar
  obtain ⟨p1, p2⟩ := policy_ok hpo hc.g2 hc.g2' r1 hbar
  obtain ⟨q, hq⟩ := enforceMin_of (mu := mu) hc.d (counts := a.acc.counts) (p := p) (by rw [p2, r3, hml, hs.counts]) p1
  obtain ⟨q1, q2, _⟩ := enforceMin_ok hq hc.d p1
  obtain ⟨a4, h4, h5, h6, h7, h8, h9, h10⟩ := credit_of hv
    { a with piBar := some (a.piBar.getD mu), pi := some q } b (p := q) (h := h) (by rw [q2, hs.counts, hhl]) hah
  obtain ⟨bar', hbar'⟩ := average_of a.total (r := r) (by rw [r3, hml, hbarl]) r2 hbar
  obtain ⟨c1, c2, c3, c4⟩ := credit_acc h4
  refine ⟨q, { a4 with piBar := some bar', handedOut := true }, ?_, ?_, h6⟩
  · unfold Ado.compute
    rw [hdl]
    simp only
    rw [hs.counts, hr]
    simp only
    rw [hpo]
    simp only
    rw [hq]
    simp only
    rw [h4]
    simp only
    rw [hbar']
  · simp only at c1 c2 h6 h7 h8 h9 h10
    refine ⟨?_, ?_, ?_, ?_, ?_, ?_, ?_, ?_, ?_, ?_, ?_, ?_⟩
    · simp only [c1]; exact hs.losses
    · simp only [c1]; exact hs.counts
    · simp only [h10]; exact hs.initial
    · simp only [c2]; exact hs.mu
    · intro m e; injection e with e; subst e; rw [(average_ok hbar' r1 hbar).2, r3, hml]
    · intro m e; rw [h5 m e, hhl]
    · simp only [h7]; exact hs.params
    · simp only [h8]; exact hs.stepCounts
    · simp only [h9]; exact hs.stepLosses
    · simp only [h9, h8]; exact hs.same
    · simp only [h8]; exact hs.steps
    · simp only [h7]; intro _; exact hp

/-- The fitting succeeds and gives parameters for every domain. -/
def Ops.Fits (ops : Ops F) (n : Nat) : Prop := ∀ c l, (∀ r ∈ c, List.length r = n) → ∃ p, ops.fit c l = .ok p ∧ p.length = n

theorem wait_of (cfg : Cfg F) (a : Ado F) (b u : Bool) {n : Nat} (h : Shape cfg n a) (hi : Inv a) :
    Shape cfg n (a.wait cfg b u).1 ∧ (a.wait cfg b u).1.total = a.total ∧ (a.wait cfg b u).1.params = a.params ∧
      (a.wait cfg b u).1.h = a.h ∧ (cfg.variant ≠ .v3 → (a.wait cfg b u).2 = true) := by
  unfold Ado.wait
  split
  · simp only
    split
    · exact ⟨⟨h.losses, h.counts, h.initial, h.mu, h.bar, h.h, h.params, h.stepCounts, h.stepLosses, h.same, h.steps,
        h.fitted⟩, rfl, rfl, rfl, fun hv => absurd (by tauto) hv⟩
    · exact ⟨h, rfl, rfl, rfl, fun hv => absurd (by tauto) hv⟩
  · exact ⟨h, rfl, rfl, rfl, fun _ => rfl⟩

/-- As `Shape`, before the scaling laws of this step are fitted. -/
structure Shape' (cfg : Cfg F) (n : Nat) (a : Ado F) : Prop where
  losses : a.acc.losses.length = n
  counts : a.acc.counts.length = n
  initial : a.initial.length ≤ n
  mu : ∀ m, a.mu = some m → m.length = n
  bar : ∀ m, a.piBar = some m → m.length = n
  h : ∀ m, a.h = some m → m.length = n
  params : ∀ m, a.params = some m → m.length = n
  stepCounts : ∀ r ∈ a.stepCounts, r.length = n
  stepLosses : ∀ r ∈ a.stepLosses, r.length = n
  same : a.stepLosses.length = a.stepCounts.length
  steps : a.stepCounts ≠ []
  fitted : cfg.start < a.total → a.params ≠ none

theorem active_of {cfg : Cfg F} (hc : cfg.Sane) (hv : cfg.variant ≠ .unknown) (hint : 0 < cfg.interval) (ops : Ops F)
    {n : Nat} (hn : n ≠ 0) (hf : ops.Fits n) {a : Ado F} (ha : Inv a) (hs : Shape' cfg n a) (ht : cfg.start ≤ a.total)
    (b : Bool) {mu : List F} (hm : IsDist mu) (hml : mu.length = n) :
    ∃ out a', a.active cfg ops b mu = (a', .ok out) ∧ Shape cfg n a' ∧ a'.total = a.total ∧
      (cfg.variant ≠ .v3 → out ≠ none) := by
  have hh : IsDist (a.h.getD mu) := by
    cases hb : a.h with
    | none => exact hm
    | some v => exact ha.h v hb
  have hhl : (a.h.getD mu).length = n := by
    cases hb : a.h with
    | none => exact hml
    | some v => exact hs.h v hb
  have ha1 : Inv { a with h := some (a.h.getD mu) } :=
    ⟨ha.initial, ha.mu, ha.bar, fun m e => by injection e with e; subst e; exact hh, ha.pi⟩
  have hdue : ∃ due, fitDue cfg a.total = .ok due ∧ (a.total = cfg.start → due = true) := by
    unfold fitDue
    split
    · exact ⟨true, rfl, fun _ => rfl⟩
    · rw [if_neg (by omega)]
      exact ⟨_, rfl, fun e => absurd e (by assumption)⟩
  obtain ⟨due, hdue, hdue'⟩ := hdue
  have main : ∀ a' : Ado F, Inv a' → Shape cfg n a' → a'.total = a.total → a'.params ≠ none →
      a'.h = some (a.h.getD mu) →
      ∃ out a'', (if (a'.wait cfg b due).2 = true then (a'.wait cfg b due).1.compute cfg ops b (a.h.getD mu) mu
        else ((a'.wait cfg b due).1, .ok none)) = (a'', .ok out) ∧ Shape cfg n a'' ∧ a''.total = a.total ∧
        (cfg.variant ≠ .v3 → out ≠ none) := by
    intro a' hi' hs' ht' hp' hh'
    obtain ⟨w1, w2, w3, w4, w5⟩ := wait_of cfg a' b due hs' hi'
    split
    · obtain ⟨w, a'', h1, h2, h3⟩ := compute_of hc hv ops hn (inv_wait hi' cfg b due) w1 (by rw [w3]; exact hp') b hh hm
        hhl hml (by rw [w4, hh'])
      exact ⟨some w, a'', h1, h2, by rw [h3, w2, ht'], fun _ => by simp⟩
    · rename_i hw
      exact ⟨none, _, rfl, w1, by rw [w2, ht'], fun h => absurd (w5 h) hw⟩
  unfold Ado.active
  simp only
  rw [hdue]
  simp only
  cases due
  · have hlt : cfg.start < a.total := by
      rcases Nat.lt_or_eq_of_le ht with h | h
      · exact h
      · exact absurd (hdue' h.symm) (by simp)
    simp only [Bool.false_eq_true, if_false]
    refine main _ ha1 ⟨hs.losses, hs.counts, hs.initial, hs.mu, hs.bar, ?_, hs.params, hs.stepCounts, hs.stepLosses,
      hs.same, hs.steps, fun _ => hs.fitted hlt⟩ rfl (hs.fitted hlt) rfl
    intro m e
    injection e with e
    subst e
    exact hhl
  · simp only [if_true]
    obtain ⟨ps, hps, hpl⟩ := hf a.stepCounts a.stepLosses hs.stepCounts
    have hfit : ({ a with h := some (a.h.getD mu) } : Ado F).fit ops =
        ({ a with h := some (a.h.getD mu), params := some ps }, none) := by
      unfold Ado.fit
      simp only [ragged_false hs.stepCounts, ragged_false hs.stepLosses, Bool.false_eq_true, or_self, if_false, hps,
        hpl, hs.counts, if_true]
    have hfi := inv_fit ha1 ops
    rw [hfit] at hfi ⊢
    simp only at hfi ⊢
    refine main _ hfi ⟨hs.losses, hs.counts, hs.initial, hs.mu, hs.bar, ?_, ?_, hs.stepCounts, hs.stepLosses,
      hs.same, hs.steps, fun _ => by simp⟩ rfl (by simp) rfl
    · intro m e
      injection e with e
      subst e
      exact hhl
    · intro m e
      injection e with e
      subst e
      exact hpl

theorem calc_of {cfg : Cfg F} (hc : cfg.Sane) (hv : cfg.variant ≠ .unknown) (hint : 0 < cfg.interval) (ops : Ops F)
    {n : Nat} (hn : n ≠ 0) (hf : ops.Fits n) {close : F → Bool} (hcl : close 1 = true) {a : Ado F} (ha : Inv a)
    (hs : Shape cfg n a) (b : Bool) :
    ∃ out a', a.calc cfg ops close b = (a', .ok out) ∧ Shape cfg n a' ∧ a'.total = a.total + 1 ∧
      (a.total + 1 < cfg.start → out = none) ∧ (cfg.start ≤ a.total + 1 → cfg.variant ≠ .v3 → out ≠ none) := by
  have hset : ∃ a1, ({ a with total := a.total + 1 } : Ado F).setMu close = (a1, none) ∧ Shape' cfg n a1 ∧
      a1.total = a.total + 1 ∧ ∃ m, a1.mu = some m ∧ m.length = n := by
    unfold Ado.setMu
    simp only
    cases hmu : a.mu with
    | some m =>
      have hm := hs.mu m hmu
      refine ⟨_, rfl, ⟨hs.losses, hs.counts, hs.initial, fun m' e => by injection e with e; rw [← e]; exact hm, hs.bar, hs.h, hs.params, hs.stepCounts, hs.stepLosses,
        hs.same, hs.steps, fun h => hs.fitted (by simp only at h; omega)⟩, rfl, m, rfl, hm⟩
    | none =>
      simp only
      have h1 : ¬ a.initial.length > a.acc.counts.length := by rw [hs.counts]; have := hs.initial; omega
      have h2 : (padTo a.acc.counts.length a.initial).sum = 1 := (dist_zeros ha.initial _).2
      have h3 : (padTo a.acc.counts.length a.initial).length = n := by
        rw [length_padTo, hs.counts]; have := hs.initial; omega
      rw [if_neg h1, h2, hcl]
      simp only [not_true, if_false]
      refine ⟨_, rfl, ⟨hs.losses, hs.counts, hs.initial, ?_, hs.bar, hs.h, hs.params, hs.stepCounts, hs.stepLosses,
        hs.same, hs.steps, fun h => hs.fitted (by simp only at h; omega)⟩, rfl, _, rfl, h3⟩
      intro m e
      injection e with e
      subst e
      exact h3
  obtain ⟨a1, h1, h2, h3, m, h4, h5⟩ := hset
  have hi1 := inv_setMu (a := { a with total := a.total + 1 }) ⟨ha.initial, ha.mu, ha.bar, ha.h, ha.pi⟩ close
  rw [h1] at hi1
  unfold Ado.calc
  rw [h1]
  simp only
  split
  · rename_i hlt
    refine ⟨none, a1, rfl, ⟨h2.losses, h2.counts, h2.initial, h2.mu, h2.bar, h2.h, h2.params, h2.stepCounts,
      h2.stepLosses, h2.same, h2.steps, fun h => absurd h (by omega)⟩, h3, fun _ => rfl, fun h => absurd h (by omega)⟩
  · rename_i hlt
    obtain ⟨out, a', e1, e2, e3, e4⟩ := active_of hc hv hint ops hn hf hi1 h2 (by simp only; omega) b (mu := a1.mu.getD [])
      (by rw [h4]; exact hi1.mu m h4) (by rw [h4]; exact h5)
    exact ⟨out, a', e1, e2, by rw [e3, h3], fun h => absurd h (by omega), fun _ => e4⟩

/-- The state before the first report. -/
def Fresh (initial : List F) (a : Ado F) : Prop := a = Ado.init initial

theorem length_padLosses {n : Nat} (c : List (List Int)) : ∀ l : List (List F), l.length = c.length →
    (padLosses n c l).length = c.length := by
  intro l h; simp [padLosses, h]

theorem mem_padLosses {n : Nat} {c : List (List Int)} {l : List (List F)} (h : l.length = c.length)
    (hc : ∀ r ∈ c, r.length = n) (hl : ∀ r ∈ l, r.length = n) : ∀ r ∈ padLosses n c l, r.length = n := by
  intro r hr
  rw [padLosses, List.drop_of_length_le (by omega), List.append_nil] at hr
  revert r
  refine mem_zipWith _ (fun r => List.length r = n) c l fun x hx y hy => ?_
  simp [hc x hx, hl y hy]

theorem record_of (cfg : Cfg F) {n : Nat} {a : Ado F} (hs : a.acc.counts.length = n)
    (h1 : ∀ r ∈ a.stepCounts, r.length = n) (h2 : ∀ r ∈ a.stepLosses, r.length = n)
    (h3 : a.stepLosses.length = a.stepCounts.length) (l : List F) (c : List Int) (hl : l.length = n) (hc : c.length = n)
    (hpos : a.acc.counts.any (fun c => decide (c > 0)) = true) :
    ∃ a', a.record cfg l c = (a', none) ∧ (∀ r ∈ a'.stepCounts, r.length = n) ∧ (∀ r ∈ a'.stepLosses, r.length = n) ∧
      a'.stepLosses.length = a'.stepCounts.length ∧ a'.stepCounts ≠ [] ∧ a'.mu = a.mu ∧ a'.h = a.h ∧
      a'.piBar = a.piBar ∧ a'.params = a.params ∧ a'.total = a.total ∧ a'.initial = a.initial ∧ a'.acc = a.acc := by
  have p1 : ∀ r ∈ a.stepCounts.map (padTo l.length), r.length = n := by
    intro r hr
    obtain ⟨x, hx, rfl⟩ := List.mem_map.1 hr
    rw [length_padTo, h1 x hx, hl, max_self]
  have p2 : ∀ r ∈ padLosses l.length a.stepCounts a.stepLosses, r.length = n := by
    rw [hl]; exact mem_padLosses h3 h1 h2
  have p3 : (List.zipWith (fun (l : F) (c : Int) => if c ≠ 0 then l / (c : F) else 0) l c).length = n := by simp [hl, hc]
  have app : ∀ {β : Type} (L : List (List β)) (x : List β), (∀ r ∈ L, r.length = n) → x.length = n →
      ∀ r ∈ L ++ [x], r.length = n := by
    intro β L x hL hx r hr
    rcases List.mem_append.1 hr with hr | hr
    · exact hL r hr
    · rw [List.mem_singleton.1 hr]; exact hx
  have hinc : increment a.acc.counts c = .ok (a.acc.counts.map fun x => if x > 0 then c.sum else 0) := by
    unfold increment
    rw [hpos, if_neg (by simp), if_neg (by rw [hs, hc]; simp)]
  unfold Ado.record
  simp only
  split
  · rw [hinc]
    exact ⟨_, rfl, app _ _ p1 (by simp [hs]), app _ _ p2 p3, by simp [length_padLosses _ _ h3], by simp, rfl, rfl, rfl,
      rfl, rfl, rfl, rfl⟩
  · exact ⟨_, rfl, app _ _ p1 hc, app _ _ p2 p3, by simp [length_padLosses _ _ h3], by simp, rfl, rfl, rfl,
      rfl, rfl, rfl, rfl⟩

/-- A report about `n` domains, with non-negative counts of which one is positive. -/
def Report.Full (n : Nat) (r : Report F) : Prop :=
  r.losses.length = n ∧ r.counts.length = n ∧ (∀ c ∈ r.counts, 0 ≤ c) ∧ ∃ c ∈ r.counts, 0 < c

theorem entry_nonneg {l : List Int} (h : ∀ c ∈ l, 0 ≤ c) (k : Nat) : 0 ≤ entry l k := by
  unfold entry
  cases hk : l[k]? with
  | none => simp
  | some x => exact h x (List.mem_of_getElem? hk)

/-- The steps of an undisturbed run: after the first report all vectors have the same length. -/
theorem step_of {cfg : Cfg F} (hc : cfg.Sane) (hv : cfg.variant ≠ .unknown) (hint : 0 < cfg.interval)
    (ops : Ops F) {n : Nat} (hn : n ≠ 0) (hf : ops.Fits n) {close : F → Bool}
    (hcl : close 1 = true) {initial : List F} (hil : initial.length ≤ n) (hst : 0 < cfg.start) {a : Ado F} (ha : Inv a)
    (hs : (Shape cfg n a ∧ ∀ c ∈ a.acc.counts, 0 ≤ c) ∨ a = Ado.init initial) (r : Report F) (hr : r.Full n) :
    ∃ out a', a.step cfg ops close r.losses r.counts r.mixtureId = (a', .ok out) ∧
      (Shape cfg n a' ∧ ∀ c ∈ a'.acc.counts, 0 ≤ c) ∧ a'.total = a.total + 1 ∧
      (a.total + 1 < cfg.start → out = none) ∧ (cfg.start ≤ a.total + 1 → cfg.variant ≠ .v3 → out ≠ none) := by
  obtain ⟨r1, r2, r3, r4⟩ := hr
  have hval : r.Valid := by unfold Report.Valid; rw [r1, r2]
  have hlen : a.acc.losses.length ≤ n ∧ a.acc.counts.length = a.acc.losses.length ∧ (∀ c ∈ a.acc.counts, 0 ≤ c) := by
    rcases hs with ⟨hs, h0⟩ | rfl
    · exact ⟨hs.losses.le, by rw [hs.losses, hs.counts], h0⟩
    · exact ⟨by simp [Ado.init, Acc.init], rfl, by simp [Ado.init, Acc.init]⟩
  obtain ⟨n1, n2⟩ := notice_same a.acc r.mixtureId
  obtain ⟨acc, u1, u2, u3, u4, u5, u6⟩ := update_ok (a.acc.notice r.mixtureId).1 r hval (by rw [n1, n2]; exact hlen.2.1)
  have hal : acc.losses.length = n := by rw [u3, n1, r1]; omega
  have hac : acc.counts.length = n := by rw [u4, hal]
  have hnn : ∀ c ∈ acc.counts, 0 ≤ c := by
    intro c hcm
    obtain ⟨k, hk, rfl⟩ := List.getElem_of_mem hcm
    have := u6 k
    rw [entry, List.getElem?_eq_getElem hk, Option.getD_some] at this
    rw [this, n2]
    have := entry_nonneg hlen.2.2 k
    have := entry_nonneg r3 k
    omega
  have hpos : acc.counts.any (fun c => decide (c > 0)) = true := by
    obtain ⟨c, hcm, hc0⟩ := r4
    obtain ⟨k, hk, rfl⟩ := List.getElem_of_mem hcm
    have hk' : k < acc.counts.length := by omega
    have e := u6 k
    rw [entry, List.getElem?_eq_getElem hk', Option.getD_some] at e
    rw [List.any_eq_true]
    refine ⟨acc.counts[k], List.getElem_mem hk', ?_⟩
    have e2 : entry r.counts k = r.counts[k] := by rw [entry, List.getElem?_eq_getElem hk, Option.getD_some]
    have := entry_nonneg hlen.2.2 k
    rw [decide_eq_true_eq, e, n2, e2]
    omega
  -- the state before the histories are recorded
  have hgrow : ∀ (o : Option (List F)), (∀ m, o = some m → m.length = n ∧ a.acc.losses.length = n) →
      ∀ m, o.map (· ++ List.replicate (n - a.acc.losses.length) 0) = some m → m.length = n := by
    intro o ho m hm
    obtain ⟨v, hv, rfl⟩ := Option.map_eq_some_iff.1 hm
    have := ho v hv
    simp [this.1, this.2]
  let g : Ado F := ({ ({ a with acc := (a.acc.notice r.mixtureId).1 } : Ado F) with acc := acc } : Ado F).grow
    (r.losses.length - (a.acc.notice r.mixtureId).1.losses.length)
  have hg1 : (∀ x ∈ g.stepCounts, x.length = n) ∧ (∀ x ∈ g.stepLosses, x.length = n) ∧
      g.stepLosses.length = g.stepCounts.length := by
    rcases hs with ⟨hs, _⟩ | rfl
    · exact ⟨hs.stepCounts, hs.stepLosses, hs.same⟩
    · exact ⟨fun x hx => (by cases hx), fun x hx => (by cases hx), rfl⟩
  obtain ⟨a2, v1, v2, v3, v4, v5, v6, v7, v8, v9, v10, v11, v12⟩ := record_of cfg (a := g) (show g.acc.counts.length = n from hac)
    hg1.1 hg1.2.1 hg1.2.2 r.losses r.counts r1 r2 hpos
  have hupd : ({ a with acc := (a.acc.notice r.mixtureId).1 } : Ado F).update cfg r.losses r.counts = (a2, none) := by
    unfold Ado.update
    rw [if_neg (by rw [r1, r2]; simp)]
    simp only
    rw [u1]
    exact v1
  have hsh : Shape cfg n a2 := by
    have hvec : (∀ m, g.mu = some m → m.length = n) ∧ (∀ m, g.h = some m → m.length = n) ∧
        (∀ m, g.piBar = some m → m.length = n) ∧ (∀ m, g.params = some m → m.length = n) ∧ g.initial.length ≤ n ∧
        (cfg.start ≤ g.total → g.params ≠ none) := by
      rcases hs with ⟨hs, _⟩ | rfl
      · refine ⟨?_, ?_, ?_, hs.params, hs.initial, hs.fitted⟩
        · simp only [g, Ado.grow, n1, r1]
          exact hgrow _ fun m hm => ⟨hs.mu m hm, hs.losses⟩
        · simp only [g, Ado.grow, n1, r1]
          exact hgrow _ fun m hm => ⟨hs.h m hm, hs.losses⟩
        · simp only [g, Ado.grow, n1, r1]
          exact hgrow _ fun m hm => ⟨hs.bar m hm, hs.losses⟩
      · refine ⟨fun m hm => (by cases hm), fun m hm => (by cases hm), fun m hm => (by cases hm), fun m hm => (by cases hm),
          hil, fun h => ?_⟩
        simp only [g, Ado.grow, Ado.init] at h
        omega
    refine ⟨by rw [v12]; exact hal, by rw [v12]; exact hac, by rw [v11]; exact hvec.2.2.2.2.1, by rw [v6]; exact hvec.1,
      by rw [v8]; exact hvec.2.2.1, by rw [v7]; exact hvec.2.1, by rw [v9]; exact hvec.2.2.2.1, v2, v3, v4, v5,
      by rw [v9, v10]; exact hvec.2.2.2.2.2⟩
  have hi2 := inv_update (inv_acc ha (a.acc.notice r.mixtureId).1) cfg r.losses r.counts
  rw [hupd] at hi2
  obtain ⟨out, a', c1, c2, c3, c4, c5⟩ := calc_of hc hv hint ops hn hf hcl hi2 hsh (a.acc.notice r.mixtureId).2
  have ht : a2.total = a.total := v10
  have hacc' := calc_acc cfg ops close a2 (a.acc.notice r.mixtureId).2
  rw [c1] at hacc'
  refine ⟨out, a', ?_, ⟨c2, ?_⟩, by rw [c3, ht], by rw [← ht]; exact c4, by rw [← ht]; exact c5⟩
  · unfold Ado.step
    simp only
    rw [hupd]
    exact c1
  · simp only at hacc'
    rw [hacc', v12]
    exact hnn

/-- **C50** (undisturbed runs). If all reports are about the same domains, at least as many as the initial mixture has,
with non-negative counts of which at least one is positive, and the scaling laws can always be fitted, ADO never raises an
exception: it returns no mixture during the warm-up, and after it a mixture at every report (in the variant `adjusted_v3`
only now and then). -/
theorem c50_undisturbed {cfg : Cfg F} (hc : cfg.Sane) (hv : cfg.variant ≠ .unknown) (hint : 0 < cfg.interval)
    (hst : 0 < cfg.start) (ops : Ops F) {n : Nat} (hn : n ≠ 0) (hf : ops.Fits n) {close : F → Bool}
    (hcl : close 1 = true) {initial : List F} (hi : IsDist initial) (hil : initial.length ≤ n)
    (reports : List (Report F)) (hr : ∀ r ∈ reports, r.Full n) (r : Report F) (hr' : r.Full n) :
    ∃ out a', (adoRun cfg ops close reports (Ado.init initial)).step cfg ops close r.losses r.counts r.mixtureId =
        (a', .ok out) ∧
      (reports.length + 1 < cfg.start → out = none) ∧
      (cfg.start ≤ reports.length + 1 → cfg.variant ≠ .v3 → out ≠ none) := by
  have key : ∀ (rs : List (Report F)) (a : Ado F), (∀ r ∈ rs, r.Full n) → Inv a →
      ((Shape cfg n a ∧ ∀ c ∈ a.acc.counts, 0 ≤ c) ∨ a = Ado.init initial) →
      ((Shape cfg n (adoRun cfg ops close rs a) ∧ ∀ c ∈ (adoRun cfg ops close rs a).acc.counts, 0 ≤ c) ∨
        adoRun cfg ops close rs a = Ado.init initial) ∧ (adoRun cfg ops close rs a).total = a.total + rs.length := by
    intro rs
    induction rs with
    | nil => intro a _ _ h; exact ⟨h, rfl⟩
    | cons r rs ih =>
      intro a hrs hia hsa
      obtain ⟨out, a', e1, e2, e3, _⟩ := step_of hc hv hint ops hn hf hcl hil hst hia hsa r (hrs r List.mem_cons_self)
      have hi' := (inv_step hc ops close hia r).1
      have e : adoRun cfg ops close (r :: rs) a = adoRun cfg ops close rs a' := by
        show adoRun cfg ops close rs (a.step cfg ops close r.losses r.counts r.mixtureId).1 = _
        rw [e1]
      rw [e1] at hi'
      have := ih a' (fun x hx => hrs x (List.mem_cons_of_mem _ hx)) hi' (Or.inl e2)
      rw [e]
      refine ⟨this.1, ?_⟩
      rw [this.2, e3, List.length_cons]
      omega
  obtain ⟨k1, k2⟩ := key reports (Ado.init initial) hr (inv_init initial hi) (Or.inr rfl)
  obtain ⟨out, a', e1, _, _, e4, e5⟩ := step_of hc hv hint ops hn hf hcl hil hst
    (inv_run hc ops close reports _ (inv_init initial hi)) k1 r hr'
  have ht : (adoRun cfg ops close reports (Ado.init initial)).total = reports.length := by
    rw [k2]; show 0 + _ = _; omega
  rw [ht] at e4 e5
  exact ⟨out, a', e1, e4, e5⟩

/-- A configuration for the examples. -/
def exCfg : Cfg ℚ := ⟨.vanilla, 1/2, 1/2, 1, 1/100, 10, 2, true, none⟩

/-- Parameters for the examples. -/
def exOps : Ops ℚ := ⟨fun _ => 1, fun _ _ => 1, fun c _ => .ok ((c.headD []).map fun _ => (1, 1, 1/2))⟩

/-- **C50** (new domains). A domain that is reported for the first time between two fittings of the scaling laws makes ADO
raise an `IndexError`. -/
theorem c50_new_domain_fails :
    ((adoRun exCfg exOps (fun _ => true) [⟨[1, 2], [1, 1], 0⟩, ⟨[1, 2], [1, 1], 0⟩] (Ado.init [1/2, 1/2])).step exCfg exOps
      (fun _ => true) [1, 2, 3] [1, 1, 1] 0).2 = .error .indexError := by decide +kernel

/-- **C50** (short reports). A report about fewer domains than the ones before makes ADO raise an `IndexError`. -/
theorem c50_short_report_fails :
    ((adoRun exCfg exOps (fun _ => true) [⟨[1, 2], [1, 1], 0⟩, ⟨[1, 2], [1, 1], 0⟩] (Ado.init [1/2, 1/2])).step exCfg exOps
      (fun _ => true) [1] [1] 0).2 = .error .indexError := by decide +kernel

/-- The hypotheses of `c50_undisturbed` and `c50_mixture_partial` can be met. -/
example : ((adoRun exCfg exOps (fun _ => true) [⟨[1, 2], [1, 1], 0⟩] (Ado.init [1/2, 1/2])).step exCfg exOps
      (fun _ => true) [3, 1] [1, 3] 0).2.toOption.join = some [1/2, 1/2] := by decide +kernel

example : exCfg.Sane := ⟨by decide +kernel, by decide +kernel, by decide +kernel, by decide +kernel, by decide +kernel⟩

/-! ## C54: averaging -/

theorem entry_eq {α : Type} [Zero α] {l : List α} {k : Nat} (h : k < l.length) : entry l k = l[k] := by
  rw [entry, List.getElem?_eq_getElem h, Option.getD_some]

theorem entry_beyond {α : Type} [Zero α] {l : List α} {k : Nat} (h : l.length ≤ k) : entry l k = 0 := by
  rw [entry, List.getElem?_eq_none h, Option.getD_none]

theorem entry_avg (a : Acc F) (ha : a.counts.length = a.losses.length) (k : Nat) :
    entry (avgLosses a) k = if 0 < entry a.counts k then entry a.losses k / ((entry a.counts k : Int) : F) else 0 := by
  rcases lt_or_ge k a.counts.length with h | h
  · have h' : k < a.losses.length := by omega
    rw [entry_eq (by simp [avgLosses]; omega), entry_eq h, entry_eq h']
    simp [avgLosses]
  · rw [entry_beyond (by simp [avgLosses, ha]; omega), entry_beyond h]
    simp

theorem sum_zero_entry {l : List F} (h : ∀ x ∈ l, 0 ≤ x) (hs : l.sum = 0) (k : Nat) : entry l k = 0 := by
  have : ∀ x ∈ l, x = 0 := by
    intro x hx
    have h1 := List.single_le_sum h x hx
    have h2 := h x hx
    rw [hs] at h1
    exact le_antisymm h1 h2
  rcases lt_or_ge k l.length with hk | hk
  · rw [entry_eq hk]; exact this _ (List.getElem_mem hk)
  · exact entry_beyond hk

theorem uniform_sum (N : F) (counts : List Int) :
    (counts.map fun c => if c > 0 then 1 / N else 0).sum = (sampled counts : F) * (1 / N) := by
  induction counts with
  | nil => simp [sampled]
  | cons c cs ih =>
    have hs : (sampled (c :: cs) : F) = (sampled cs : F) + if c > 0 then 1 else 0 := by
      unfold sampled
      rw [List.countP_cons]
      split <;> simp_all
    rw [List.map_cons, List.sum_cons, ih, hs]
    split <;> ring

theorem sampled_pos {counts : List Int} (h : counts.any (fun c => decide (c > 0)) = true) : 0 < sampled counts := by
  unfold sampled
  rw [List.countP_pos_iff]
  rw [List.any_eq_true] at h
  exact h

theorem entry_raw (a : Acc F) (k : Nat) : entry (rawMixture a) k =
    if (avgLosses a).sum = 0 then (if 0 < entry a.counts k then 1 / (sampled a.counts : F) else 0)
    else entry (avgLosses a) k / (avgLosses a).sum := by
  unfold rawMixture
  split
  · rcases lt_or_ge k a.counts.length with h | h
    · rw [entry_eq (by simp; omega), entry_eq h, List.getElem_map]; rfl
    · rw [entry_beyond (by simp; omega), entry_beyond h]; simp
  · rcases lt_or_ge k (avgLosses a).length with h | h
    · rw [entry_eq (by simp; omega), entry_eq h, List.getElem_map]
    · rw [entry_beyond (by simp; omega), entry_beyond h]; simp

theorem averageMixture_spec (a : Acc F) (ha : a.counts.length = a.losses.length) (hl : ∀ k, 0 ≤ entry a.losses k) :
    (averageMixture a = none ↔ ∀ k, entry a.counts k ≤ 0) ∧
    ∀ w, averageMixture a = some w →
      IsDist w ∧ w.length = a.counts.length ∧ (∀ k, entry a.counts k ≤ 0 → entry w k = 0) ∧
      ((∀ k, 0 < entry a.counts k → entry a.losses k = 0 ∧ entry w k = 1 / (sampled a.counts : F)) ∨
        ∃ t : F, 0 < t ∧ ∀ k, 0 < entry a.counts k → entry w k * t = entry a.losses k / ((entry a.counts k : Int) : F)) := by
  have hany : a.counts.any (fun c => decide (c > 0)) = true ↔ ∃ k, 0 < entry a.counts k := by
    rw [List.any_eq_true]
    constructor
    · rintro ⟨c, hc, h0⟩
      obtain ⟨k, hk, rfl⟩ := List.getElem_of_mem hc
      exact ⟨k, by rw [entry_eq hk]; simpa using h0⟩
    · rintro ⟨k, hk⟩
      have hlt : k < a.counts.length := by
        by_contra h
        rw [entry_beyond (by omega)] at hk
        exact absurd hk (by simp)
      rw [entry_eq hlt] at hk
      exact ⟨_, List.getElem_mem hlt, by simpa using hk⟩
  have havg : ∀ x ∈ avgLosses a, 0 ≤ x := by
    intro x hx
    obtain ⟨k, hk, rfl⟩ := List.getElem_of_mem hx
    rw [← entry_eq hk, entry_avg a ha]
    split
    · rename_i h
      have : (0 : F) < ((entry a.counts k : Int) : F) := by exact_mod_cast h
      exact div_nonneg (hl k) this.le
    · exact le_rfl
  have hsum0 : 0 ≤ (avgLosses a).sum := List.sum_nonneg havg
  have hrawl : (rawMixture a).length = a.counts.length := by
    unfold rawMixture
    split
    · simp
    · simp [avgLosses, ha]
  have hrawn : ∀ x ∈ rawMixture a, 0 ≤ x := by
    intro x hx
    obtain ⟨k, hk, rfl⟩ := List.getElem_of_mem hx
    rw [← entry_eq hk, entry_raw]
    split
    · split
      · positivity
      · exact le_rfl
    · refine div_nonneg ?_ hsum0
      rcases lt_or_ge k (avgLosses a).length with h | h
      · rw [entry_eq h]; exact havg _ (List.getElem_mem h)
      · rw [entry_beyond h]
  constructor
  · unfold averageMixture
    split
    · rename_i h
      obtain ⟨k, hk⟩ := hany.1 h
      constructor
      · intro e; split at e <;> cases e
      · intro e; exact absurd (e k) (by omega)
    · rename_i h
      refine ⟨fun _ k => ?_, fun _ => rfl⟩
      by_contra hk
      exact h (hany.2 ⟨k, by omega⟩)
  · intro w hw
    unfold averageMixture at hw
    split at hw
    swap
    · cases hw
    rename_i hpos
    have hN := sampled_pos hpos
    have hN' : (sampled a.counts : F) ≠ 0 := by exact_mod_cast hN.ne'
    have hraw1 : (rawMixture a).sum = 1 := by
      unfold rawMixture
      split
      · have := uniform_sum (sampled a.counts : F) a.counts
        unfold sampled at this hN'
        rw [this]
        field_simp
      · rename_i h
        rw [sum_map_div, div_self h]
    have hw' : w = rawMixture a := by
      rw [hraw1] at hw
      simp only [ne_eq, one_ne_zero, not_false_eq_true, if_true, div_one, List.map_id', Option.some.injEq] at hw
      exact hw.symm
    subst hw'
    refine ⟨⟨hrawn, hraw1⟩, hrawl, ?_, ?_⟩
    · intro k hk
      have hk' : ¬ 0 < entry a.counts k := by omega
      rw [entry_raw, entry_avg a ha, if_neg hk', if_neg hk']
      simp
    · by_cases h0 : (avgLosses a).sum = 0
      · left
        intro k hk
        rw [entry_raw, if_pos h0, if_pos hk]
        refine ⟨?_, rfl⟩
        have := sum_zero_entry havg h0 k
        rw [entry_avg a ha, if_pos hk] at this
        have hc : ((entry a.counts k : Int) : F) ≠ 0 := by exact_mod_cast hk.ne'
        rcases div_eq_zero_iff.1 this with h | h
        · exact h
        · exact absurd h hc
      · right
        refine ⟨(avgLosses a).sum, lt_of_le_of_ne hsum0 (Ne.symm h0), ?_⟩
        intro k hk
        rw [entry_raw, if_neg h0, div_mul_cancel₀ _ h0, entry_avg a ha, if_pos hk]

/-- **C54**. For any sequence of reports without negative losses, the averaging algorithm returns no mixture as
long as no domain has samples, and otherwise a distribution over the domains in which a domain without samples has
probability zero and the others have probabilities proportional to their average losses, or all the same if all their
losses are zero. -/
theorem c54_average (reports : List (Report F)) (hv : ∀ r ∈ reports, r.Valid)
    (hl : ∀ r ∈ reports, ∀ x ∈ r.losses, 0 ≤ x) :
    let a := averageRun reports Acc.init
    (averageMixture a = none ↔ ∀ k, entry a.counts k ≤ 0) ∧
    ∀ w, averageMixture a = some w →
      IsDist w ∧ w.length = a.counts.length ∧ (∀ k, entry a.counts k ≤ 0 → entry w k = 0) ∧
      ((∀ k, 0 < entry a.counts k → entry a.losses k = 0 ∧ entry w k = 1 / (sampled a.counts : F)) ∨
        ∃ t : F, 0 < t ∧ ∀ k, 0 < entry a.counts k → entry w k * t = entry a.losses k / ((entry a.counts k : Int) : F)) := by
  intro a
  have ha : a = accAfter reports Acc.init := averageRun_acc reports _
  obtain ⟨h1, _, h3, _⟩ := accAfter_spec reports (Acc.init : Acc F) hv rfl
  rw [← ha] at h1 h3
  refine averageMixture_spec a h3 fun k => ?_
  rw [h1]
  have h0 : entry (Acc.init : Acc F).losses k = 0 := rfl
  rw [h0, zero_add]
  refine List.sum_nonneg fun x hx => ?_
  obtain ⟨r, hr, rfl⟩ := List.mem_map.1 hx
  rcases lt_or_ge k r.losses.length with hk | hk
  · rw [entry_eq hk]; exact hl r hr _ (List.getElem_mem hk)
  · rw [entry_beyond hk]

/-- **C54** (the returned value). This is what `process_losses` returns for a report after the ones before it. -/
theorem c54_returned (reports : List (Report F)) (hv : ∀ r ∈ reports, r.Valid) (r : Report F) (hr : r.Valid) :
    (averageStep (averageRun reports Acc.init) r.losses r.counts r.mixtureId).2 =
      .ok (averageMixture (averageRun (reports ++ [r]) (Acc.init : Acc F))) := by
  obtain ⟨_, _, h3, _⟩ := accAfter_spec reports (Acc.init : Acc F) hv rfl
  obtain ⟨n1, n2⟩ := notice_same (averageRun reports (Acc.init : Acc F)) r.mixtureId
  obtain ⟨a', h1, _⟩ := update_ok ((averageRun reports (Acc.init : Acc F)).notice r.mixtureId).1 r hr
    (by rw [n1, n2, averageRun_acc]; exact h3)
  have e : averageRun (reports ++ [r]) (Acc.init : Acc F) = a' := by
    rw [averageRun, List.foldl_append]
    show (averageStep (averageRun reports Acc.init) r.losses r.counts r.mixtureId).1 = a'
    rw [averageStep_acc, h1]
  rw [e]
  unfold averageStep
  rw [h1]

example : (averageStep (F := ℚ) (averageRun [⟨[2, 0, 4], [1, 0, 1], 0⟩] Acc.init) [2, 0] [1, 0] 0).2.toOption.join =
    some [1/3, 0, 2/3] := by decide +kernel

end Mixtera.Mixing
