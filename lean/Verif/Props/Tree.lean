import Verif.Spec.Tree
import Verif.Props.Mixture
import Verif.Props.MixtureKey

/-!
# C22: hierarchical mixtures
-/

set_option linter.unusedSectionVars false

namespace Mixtera

instance : DecidableEq RawKey := inferInstance

instance : DecidableEq (Dict RawKey Nat) := inferInstance

theorem normKey_eq (a : RawKey) : normKey a = a.canon := rfl

theorem keys_normKey (a : RawKey) (ha : a.keys.Nodup) : (normKey a).keys.Nodup := by
  rw [normKey_eq, keys_canon]; exact (sortStr_perm _).nodup_iff.mpr ha

theorem sameContents_normKey (a : RawKey) (ha : a.keys.Nodup) : SameContents a (normKey a) := by
  obtain ⟨c, h1, _⟩ := c26_canonical_form a ha
  have : a.canon = c.1.canon := (RawKey.canon_eq_iff ha c.2.1).mpr h1
  rw [c.2.2] at this
  rw [normKey_eq, this]; exact h1

theorem SameContents.symm {a b : RawKey} (h : SameContents a b) : SameContents b a := by
  intro k
  have := h k
  cases h1 : a.get? k <;> cases h2 : b.get? k <;> simp [h1, h2] at this ⊢
  exact this.symm

theorem SameContents.trans {a b c : RawKey} (h : SameContents a b) (h' : SameContents b c) : SameContents a c := by
  intro k
  have h := h k
  have h' := h' k
  cases h1 : a.get? k <;> cases h2 : b.get? k <;> cases h3 : c.get? k <;> simp [h1, h2, h3] at h h' ⊢
  exact h.trans h'

/-- The key the code builds for a path. -/
def pathKey : RawKey → RawKey
  | [] => []
  | (n, v) :: p => normKey (Dict.set (pathKey p) n v)

theorem pathKey_nodup (p : RawKey) : (pathKey p).keys.Nodup := by
  cases p with
  | nil => simp [pathKey, Dict.keys]
  | cons x p =>
    have := pathKey_nodup p
    exact keys_normKey _ (Dict.nodup_keys_upsert this _ _)

theorem pathKey_contents (p : RawKey) : SameContents (pathKey p) p := by
  induction p with
  | nil => intro k; simp [pathKey, Dict.get?]
  | cons x p ih =>
    obtain ⟨n, v⟩ := x
    refine (sameContents_normKey _ (Dict.nodup_keys_upsert (pathKey_nodup p) _ _)).symm.trans ?_
    intro k
    have := ih k
    show match Dict.get? (Dict.set (pathKey p) n v) k, Dict.get? ((n, v) :: p) k with
      | none, none => True | some v, some w => v.Perm w | _, _ => False
    rw [Dict.get?_set, Dict.get?_cons]
    by_cases h : n = k
    · simp [h]
    · simp only [h, if_false]; exact this

theorem pathKey_canon (p : RawKey) : RawKey.canon (pathKey p) = pathKey p := by
  cases p with
  | nil => rfl
  | cons x p =>
    obtain ⟨n, v⟩ := x
    have hnd := Dict.nodup_keys_upsert (pathKey_nodup p) n (fun _ => v)
    have h1 := sameContents_normKey (Dict.set (pathKey p) n v) hnd
    have := (RawKey.canon_eq_iff hnd (keys_normKey _ hnd)).mpr h1
    exact this.symm

theorem pathKey_inj {p p' : RawKey} (h : pathKey p = pathKey p') : SameContents p p' := by
  have h1 := pathKey_contents p
  have h2 := pathKey_contents p'
  rw [h] at h1
  exact h1.symm.trans h2

theorem Dict.set_of_not_mem {α β : Type} [DecidableEq α] (d : Dict α β) (k : α) (v : β) (h : k ∉ d.keys) : d.set k v = d ++ [(k, v)] := by
  induction d with
  | nil => rfl
  | cons y d ih =>
    obtain ⟨a, b⟩ := y
    simp only [Dict.keys, List.map_cons, List.mem_cons, not_or] at h
    have := ih h.2
    unfold Dict.set at this ⊢
    rw [Dict.upsert, if_neg (Ne.symm h.1), this]
    rfl

theorem foldl_set_append {α β γ : Type} [DecidableEq α] (f : γ → α) (g : γ → β) (l : List γ) (acc : Dict α β)
    (hnd : (acc.keys ++ l.map f).Nodup) :
    l.foldl (fun acc x => acc.set (f x) (g x)) acc = acc ++ l.map fun x => (f x, g x) := by
  induction l generalizing acc with
  | nil => simp
  | cons x l ih =>
    have hx : f x ∉ acc.keys := by
      intro hc
      have := List.nodup_append.mp hnd
      exact this.2.2 _ hc _ (by simp) rfl
    rw [List.foldl_cons, Dict.set_of_not_mem acc (f x) (g x) hx, ih]
    · simp
    · simpa [Dict.keys, List.append_assoc] using hnd

/-- The dictionary entries of a list of leaves. -/
def leafEntries (l : List (RawKey × ℚ)) : Dict RawKey ℚ := l.map fun pq => (pathKey pq.1, pq.2)

theorem convert_eq (comps : MComps) : ∀ (name : PyStr) (acc : Dict RawKey ℚ),
    (acc.keys ++ (leafEntries (leaves name comps)).keys).Nodup →
    convert name comps acc = acc ++ leafEntries (leaves name comps) := by
  induction comps with
  | nil => intro name acc _; simp [convert, leaves, leafEntries]
  | leaf values weight rest ih =>
    intro name acc hnd
    have hk : pathKey [(name, values)] = normKey [(name, values)] := rfl
    simp only [leaves, leafEntries, List.map_cons, Dict.keys] at hnd
    rw [convert, Dict.set_of_not_mem, ih]
    · simp [leaves, leafEntries, hk]
    · simpa [Dict.keys, leafEntries, List.append_assoc, hk] using hnd
    · intro hc
      exact (List.nodup_append.mp hnd).2.2 _ hc _ (by simp) hk.symm
  | sub values weight sname comps rest ihc ihr =>
    intro name acc hnd
    have hsub : ((leafEntries (leaves sname comps)).keys).Nodup := by
      have h1 : ((leaves sname comps).map fun pq => pathKey ((name, values) :: pq.1)).Nodup := by
        have := (List.nodup_append.mp hnd).2.1
        simp only [leaves, leafEntries, List.map_append, List.map_map, Dict.keys, Function.comp_def] at this
        exact (List.nodup_append.mp this).1
      have h2 : (leafEntries (leaves sname comps)).keys = (leaves sname comps).map fun pq => pathKey pq.1 := by
        simp [leafEntries, Dict.keys, List.map_map, Function.comp_def]
      rw [h2]
      have h3 : ((leaves sname comps).map fun pq => pathKey ((name, values) :: pq.1)) =
          (((leaves sname comps).map fun pq => pathKey pq.1).map fun k => normKey (Dict.set k name values)) := by
        simp [List.map_map, Function.comp_def, pathKey]
      rw [h3] at h1
      exact h1.of_map
    have e1 := ihc sname [] (by simpa [Dict.keys] using hsub)
    rw [convert, e1, List.nil_append]
    have e2 : addProperty name values weight (leafEntries (leaves sname comps)) acc =
        acc ++ leafEntries ((leaves sname comps).map fun leaf => ((name, values) :: leaf.1, weight * leaf.2)) := by
      unfold addProperty
      rw [foldl_set_append (fun kv : RawKey × ℚ => normKey (Dict.set kv.1 name values)) (fun kv => kv.2 * weight)]
      · simp [leafEntries, List.map_map, Function.comp_def, pathKey, mul_comm]
      · have : (leafEntries (leaves sname comps)).map (fun kv => normKey (Dict.set kv.1 name values)) =
            (leafEntries ((leaves sname comps).map fun leaf => ((name, values) :: leaf.1, weight * leaf.2))).keys := by
          simp [leafEntries, Dict.keys, List.map_map, Function.comp_def, pathKey]
        rw [this]
        have h := hnd
        simp only [leaves, leafEntries, List.map_append, Dict.keys] at h
        rw [← List.append_assoc] at h
        exact (List.nodup_append.mp h).1
    rw [e2, ihr]
    · simp [leaves, leafEntries]
    · have h := hnd
      simp only [leaves, leafEntries, List.map_append, Dict.keys] at h ⊢
      rw [List.append_assoc]
      exact h

theorem leafEntries_nodup {l : List (RawKey × ℚ)} (hd : l.Pairwise fun a b => ¬ SameContents a.1 b.1) :
    (leafEntries l).keys.Nodup := by
  unfold leafEntries Dict.keys
  rw [List.map_map]
  rw [List.Nodup, List.pairwise_map]
  exact hd.imp fun h e => h (pathKey_inj e)

/-- C22. For a tree whose leaves have pairwise different properties, the mixture before rounding has exactly one entry
per leaf, in order: its key has the properties on the leaf's path (where a property occurs twice, the one nearer to the
root counts), its weight is the product of the weights on the path. -/
theorem c22_leaf_weights (node : MNode) (hd : (leaves node.name node.comps).Pairwise fun a b => ¬ SameContents a.1 b.1) :
    List.Forall₂ (fun entry leaf => SameContents entry.1 leaf.1 ∧ entry.2 = leaf.2)
      (convert node.name node.comps []) (leaves node.name node.comps) := by
  rw [convert_eq _ _ _ (by simpa [Dict.keys] using leafEntries_nodup hd), List.nil_append, leafEntries,
    List.forall₂_map_left_iff]
  rw [List.forall₂_same]
  intro x _
  exact ⟨pathKey_contents x.1, rfl⟩

theorem leaves_sum (comps : MComps) (hs : SubsNormalised comps) : ∀ name, ((leaves name comps).map Prod.snd).sum = weightSum comps := by
  induction comps with
  | nil => intro; simp [leaves, weightSum]
  | leaf values weight rest ih => intro name; simp [leaves, weightSum, ih hs name]
  | sub values weight sname comps rest ihc ihr =>
    intro name
    obtain ⟨h1, h2, h3⟩ := hs
    have := ihc h2 sname
    simp only [leaves, weightSum, List.map_append, List.map_map, Function.comp_def, List.sum_append, ihr h3 name]
    have e : ((leaves sname comps).map fun x => weight * x.2).sum = weight * ((leaves sname comps).map Prod.snd).sum := by
      rw [← sum_map_const_mul, List.map_map]; rfl
    rw [e, this, h1, mul_one]

theorem leaves_nonneg (comps : MComps) (hs : WeightsNonneg comps) : ∀ name, ∀ x ∈ leaves name comps, 0 ≤ x.2 := by
  induction comps with
  | nil => intro name x hx; simp [leaves] at hx
  | leaf values weight rest ih =>
    intro name x hx
    rw [leaves] at hx
    rcases List.mem_cons.mp hx with rfl | hx
    · exact hs.1
    · exact ih hs.2 name x hx
  | sub values weight sname comps rest ihc ihr =>
    intro name x hx
    rw [leaves] at hx
    rcases List.mem_append.mp hx with hx | hx
    · obtain ⟨y, hy, rfl⟩ := List.mem_map.mp hx
      exact mul_nonneg hs.1 (ihc hs.2.1 sname y hy)
    · exact ihr hs.2.2 name x hx

/-- C22. If moreover no weight is negative and the weights of every node sum to 1, the rows sum to exactly the chunk
size; the rows belong to the leaves, in order, and every leaf but the first gets the floor of `chunk * weight`; the first
gets at least that. -/
theorem c22_rows (chunk : Nat) (node : MNode) (hd : (leaves node.name node.comps).Pairwise fun a b => ¬ SameContents a.1 b.1)
    (hnn : WeightsNonneg node.comps) (hsum : weightSum node.comps = 1) (hsub : SubsNormalised node.comps) :
    ∃ rows, hierarchicalMixture chunk node = .ok rows ∧ rows.values.sum = chunk ∧
      List.Forall₂ (fun row leaf => SameContents row.1 leaf.1 ∧ ⌊(chunk : ℚ) * leaf.2⌋ ≤ row.2) rows (leaves node.name node.comps) ∧
      List.Forall₂ (fun row leaf => (row.2 : Int) = ⌊(chunk : ℚ) * leaf.2⌋) rows.tail (leaves node.name node.comps).tail := by
  have hm : convert node.name node.comps [] = leafEntries (leaves node.name node.comps) := by
    rw [convert_eq _ _ _ (by simpa [Dict.keys] using leafEntries_nodup hd), List.nil_append]
  have hls := leaves_sum node.comps hsub node.name
  have hln := leaves_nonneg node.comps hnn node.name
  rw [hsum] at hls
  generalize leaves node.name node.comps = L at hm hls hln
  have hvals : (leafEntries L).values = L.map Prod.snd := by simp [leafEntries, Dict.values, List.map_map, Function.comp_def]
  have hnn' : ∀ kv ∈ leafEntries L, 0 ≤ kv.2 := by
    intro kv hkv
    obtain ⟨x, hx, rfl⟩ := List.mem_map.mp hkv
    exact hln x hx
  have hS : (floorCounts chunk (leafEntries L)).values.sum ≤ chunk := by
    have h0 : ∀ x ∈ (leafEntries L).values.map ((chunk : ℚ) * ·), 0 ≤ x := by
      intro x hx
      rw [hvals] at hx
      simp only [List.mem_map] at hx
      obtain ⟨q, ⟨y, hy, rfl⟩, rfl⟩ := hx
      exact mul_nonneg (by positivity) (hln y hy)
    have b1 := (sum_floor_bounds _ h0).1
    rw [sum_map_const_mul, ← floorCounts_sum chunk _ hnn', hvals, hls, mul_one] at b1
    exact_mod_cast b1
  have hfl : floorCounts chunk (leafEntries L) = L.map fun x => (pathKey x.1, (pyInt (chunk * x.2)).toNat) := by
    simp [floorCounts, leafEntries, List.map_map, Function.comp_def]
  have hcast : ∀ x ∈ L, ((pyInt ((chunk : ℚ) * x.2)).toNat : Int) = ⌊(chunk : ℚ) * x.2⌋ := by
    intro x hx
    have h0 : 0 ≤ (chunk : ℚ) * x.2 := mul_nonneg (by positivity) (hln x hx)
    rw [pyInt_nonneg_eq h0, Int.toNat_of_nonneg (Int.floor_nonneg.mpr h0)]
  unfold hierarchicalMixture
  rw [hm]
  dsimp only
  rw [any_neg_false hnn', if_neg (by simp)]
  have hbase : ∀ L' : List (RawKey × ℚ), (∀ x ∈ L', x ∈ L) →
      List.Forall₂ (fun (row : RawKey × Nat) (leaf : RawKey × ℚ) => SameContents row.1 leaf.1 ∧ ⌊(chunk : ℚ) * leaf.2⌋ ≤ row.2)
        (L'.map fun x => (pathKey x.1, (pyInt (chunk * x.2)).toNat)) L' ∧
      List.Forall₂ (fun (row : RawKey × Nat) (leaf : RawKey × ℚ) => (row.2 : Int) = ⌊(chunk : ℚ) * leaf.2⌋)
        (L'.map fun x => (pathKey x.1, (pyInt (chunk * x.2)).toNat)) L' := by
    intro L' hL'
    constructor
    · rw [List.forall₂_map_left_iff, List.forall₂_same]
      intro x hx
      exact ⟨pathKey_contents x.1, (hcast x (hL' x hx)).ge⟩
    · rw [List.forall₂_map_left_iff, List.forall₂_same]
      intro x hx
      exact hcast x (hL' x hx)
  cases L with
  | nil => simp at hls
  | cons x L' =>
    by_cases hdiff : chunk - (floorCounts chunk (leafEntries (x :: L'))).values.sum > 0
    · rw [if_pos hdiff]
      generalize hD : chunk - (floorCounts chunk (leafEntries (x :: L'))).values.sum = D at hdiff
      have hsumD : (floorCounts chunk (leafEntries (x :: L'))).values.sum + D = chunk := by omega
      rw [hfl, List.map_cons] at hsumD ⊢
      dsimp only
      obtain ⟨b1, b2⟩ := hbase L' (fun y hy => by simp [hy])
      refine ⟨_, rfl, ?_, ?_, ?_⟩
      · simp only [Dict.values, List.map_cons, List.sum_cons] at hsumD ⊢; omega
      · refine List.Forall₂.cons ⟨pathKey_contents x.1, ?_⟩ b1
        have := hcast x (by simp)
        push_cast
        omega
      · exact b2
    · rw [if_neg hdiff]
      obtain ⟨b1, b2⟩ := hbase (x :: L') (fun y hy => hy)
      refine ⟨_, rfl, by omega, ?_, ?_⟩
      · rw [hfl]; exact b1
      · rw [hfl]
        cases b2 with
        | cons _ h => exact h

/-- Finding: nothing checks that the weights sum to 1: here the rows sum to twice the chunk size. -/
theorem c22_unnormalised_overfull :
    hierarchicalMixture 10 ⟨['t'], .leaf [['a']] 1 (.leaf [['b']] 1 .nil)⟩ =
      .ok [([(['t'], [['a']])], 10), ([(['t'], [['b']])], 10)] := by decide +kernel

/-- Finding: two leaves with the same properties share one entry, the later weight replaces the earlier one, and the
difference goes to the first key: here "b" should get 8 of 10 rows and "a" 2, but "b" gets 4 and "a" 6. -/
theorem c22_same_leaf_twice :
    hierarchicalMixture 10 ⟨['t'], .leaf [['a']] (1 / 5) (.leaf [['b']] (2 / 5) (.leaf [['b']] (2 / 5) .nil))⟩ =
      .ok [([(['t'], [['a']])], 6), ([(['t'], [['b']])], 4)] := by decide +kernel

/-- A mixture without components is an `IndexError` (for a positive chunk size). -/
theorem c22_no_components (chunk : Nat) (name : PyStr) :
    hierarchicalMixture chunk ⟨name, .nil⟩ = if chunk > 0 then .error .indexError else .ok [] := by
  unfold hierarchicalMixture
  simp [convert, floorCounts, Dict.values]

/-- The hypotheses of C22 are met by a tree of depth two. -/
example : let tree : MComps := .sub [['l']] (1 / 2) ['g'] (.leaf [['e']] (1 / 3) (.leaf [['f']] (2 / 3) .nil)) (.leaf [['m']] (1 / 2) .nil)
    (leaves ['t'] tree).Pairwise (fun a b => ¬ SameContents a.1 b.1) ∧ WeightsNonneg tree ∧ weightSum tree = 1 ∧
    SubsNormalised tree ∧
    hierarchicalMixture 10 ⟨['t'], tree⟩ = .ok [([(['g'], [['e']]), (['t'], [['l']])], 2),
      ([(['g'], [['f']]), (['t'], [['l']])], 3), ([(['t'], [['m']])], 5)] := by
  refine ⟨?_, ?_, ?_, ?_, by decide +kernel⟩
  · simp only [leaves, List.map_cons, List.map_nil, List.cons_append, List.nil_append, List.pairwise_cons]
    refine ⟨?_, ?_, by simp, List.Pairwise.nil⟩
    · intro a ha
      simp only [List.mem_cons, List.not_mem_nil, or_false] at ha
      rcases ha with rfl | rfl
      · intro h; have := h ['g']; simp [Dict.get?] at this
      · intro h; have := h ['g']; simp [Dict.get?] at this
    · intro a ha
      simp only [List.mem_cons, List.not_mem_nil, or_false] at ha
      subst ha
      intro h; have := h ['g']; simp [Dict.get?] at this
  · simp only [WeightsNonneg]; norm_num
  · simp only [weightSum]; norm_num
  · simp only [SubsNormalised, weightSum]; norm_num

end Mixtera
