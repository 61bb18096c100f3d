import Verif.Lemmas.History

/-!
# C01: one property combination is handed out exactly once, in order, in the requested sizes
-/

namespace Mixtera

/-- A whole life of one component coroutine: the answers to a list of requests.
`StopIteration` is `none`; Python generators stay exhausted, i.e. the state becomes `[]`. -/
def serve : List Nat → List Seg → List (Option (List Seg))
  | [], _ => []
  | n :: ns, st =>
    match send n st with
    | none => none :: serve ns []
    | some (out, rest) => some out :: serve ns rest

/-- C01. For every data and every sequence of request sizes the coroutine behaves like cutting the
ordered list of the component's samples into consecutive pieces of the requested sizes. -/
theorem c01_serve_refines (reqs : List Nat) (st : List Seg) :
    (serve reqs st).map (Option.map samples) = specServe reqs (samples st) := by
  induction reqs generalizing st with
  | nil => simp [serve, specServe]
  | cons n ns ih =>
    rw [serve, specServe]
    match h : send n st with
    | none =>
      have h0 := send_none h
      simp [h0, ih]
    | some (out, rest) =>
      obtain ⟨h1, h2, h3⟩ := send_some h
      simp [h1, h2, h3, ih]

example : (serve [3, 0, 4, 9, 1] [⟨0, 0, 0, 2⟩, ⟨0, 1, 5, 5⟩, ⟨1, 7, 10, 16⟩]).map (Option.map samples) =
    [some [(0,0,0),(0,0,1),(1,7,10)], some [], some [(1,7,11),(1,7,12),(1,7,13),(1,7,14)],
     some [(1,7,15)], none] := by decide

/-- C01. Everything returned, concatenated, is a prefix of the component's data; when a request has been
refused, it is all of it. -/
theorem c01_concatenation (reqs : List Nat) (st : List Seg) :
    ((serve reqs st).flatMap fun o => samples (o.getD [])) <+: samples st ∧
    (none ∈ serve reqs st → ((serve reqs st).flatMap fun o => samples (o.getD [])) = samples st) := by
  induction reqs generalizing st with
  | nil => simp [serve]
  | cons n ns ih =>
    rw [serve]
    match h : send n st with
    | none =>
      have h0 := send_none h
      obtain ⟨h1, -⟩ := ih []
      have h2 : ((serve ns []).flatMap fun o => samples (o.getD [])) = [] := List.prefix_nil.mp h1
      simp only [List.flatMap_cons, h2, h0, Option.getD_none]
      simp [samples]
    | some (out, rest) =>
      obtain ⟨h1, h2, h3⟩ := send_some h
      obtain ⟨i1, i2⟩ := ih rest
      simp only [List.flatMap_cons, Option.getD_some, List.mem_cons, reduceCtorEq, false_or]
      have e : samples st = samples out ++ samples rest := by rw [h2, h3, List.take_append_drop]
      rw [e]
      exact ⟨(List.prefix_append_right_inj _).mpr i1, fun hn => by rw [i2 hn]⟩

/-- Positions are ordered by data set, then file, then sample number. -/
def PosLt (a b : Pos) : Prop := a.1 < b.1 ∨ a.1 = b.1 ∧ (a.2.1 < b.2.1 ∨ a.2.1 = b.2.1 ∧ a.2.2 < b.2.2)

theorem sortBy_keys_strict {β : Type} (l : Dict Nat β) (hn : l.keys.Nodup) :
    (sortBy (fun a b : Nat × β => decide (a.1 ≤ b.1)) l).Pairwise (fun a b => a.1 < b.1) := by
  have h1 := sortBy_sorted (fun a b : Nat × β => decide (a.1 ≤ b.1)) (by intro a b; simp; omega)
    (by intro a b c; simp; omega) l
  have h2 : ((sortBy (fun a b : Nat × β => decide (a.1 ≤ b.1)) l).map Prod.fst).Nodup :=
    ((sortBy_perm _ l).map Prod.fst).nodup_iff.mpr hn
  rw [List.nodup_iff_pairwise_ne, List.pairwise_map] at h2
  refine (h1.and h2).imp ?_
  intro a b h
  have := h.1
  simp at this
  omega

/-- C01. The data of a property combination is handed out in (data set, file, position) order, every
position of the combination exactly once. -/
theorem c01_order (e : Entries) (hd : e.keys.Nodup) (hf : ∀ d fs, (d, fs) ∈ e → fs.keys.Nodup)
    (hr : ∀ d fs, (d, fs) ∈ e → ∀ f rs, (f, rs) ∈ fs → rs.Pairwise (fun a b => a.2 ≤ b.1) ∧ ∀ r ∈ rs, r.1 ≤ r.2) :
    (samples (flattenSorted e)).Pairwise PosLt ∧ (samples (flattenSorted e)).Perm (entriesSamples e) := by
  refine ⟨?_, flattenSorted_perm e⟩
  unfold samples flattenSorted
  rw [List.flatMap_assoc, List.pairwise_flatMap]
  have memF : ∀ (d : Nat) (fs : Dict Nat (List Rng)) (p : Pos),
      p ∈ ((sortBy (fun a b => decide (a.1 ≤ b.1)) fs).flatMap fun (f, rs) => rs.map fun r =>
        (⟨d, f, r.1, r.2⟩ : Seg)).flatMap Seg.samples → p.1 = d := by
    intro d fs p hp
    simp only [List.mem_flatMap, List.mem_map] at hp
    obtain ⟨s, ⟨x, hx, r, hr, rfl⟩, hp⟩ := hp
    simp only [Seg.samples, List.mem_map] at hp
    obtain ⟨i, _, rfl⟩ := hp
    rfl
  constructor
  · rintro ⟨d, fs⟩ hm
    have hm' := (sortBy_perm _ e).mem_iff.mp hm
    rw [List.flatMap_assoc, List.pairwise_flatMap]
    constructor
    · rintro ⟨f, rs⟩ hfm
      have hfm' := (sortBy_perm _ fs).mem_iff.mp hfm
      obtain ⟨h1, h2⟩ := hr d fs hm' f rs hfm'
      rw [List.flatMap_map, List.pairwise_flatMap]
      constructor
      · intro r _
        simp only [Seg.samples]
        rw [List.pairwise_map]
        refine (List.pairwise_lt_range' (s := r.1) (n := r.2 - r.1)).imp ?_
        intro a b h
        exact Or.inr ⟨rfl, Or.inr ⟨rfl, h⟩⟩
      · refine h1.imp ?_
        intro a b hab p hp q hq
        simp only [Seg.samples, List.mem_map, List.mem_range'_1] at hp hq
        obtain ⟨i, hi, rfl⟩ := hp
        obtain ⟨j, hj, rfl⟩ := hq
        exact Or.inr ⟨rfl, Or.inr ⟨rfl, by dsimp only; omega⟩⟩
    · refine (sortBy_keys_strict fs (hf d fs hm')).imp ?_
      rintro ⟨f1, r1⟩ ⟨f2, r2⟩ hlt p hp q hq
      simp only [List.mem_flatMap, List.mem_map, Seg.samples] at hp hq
      obtain ⟨s, ⟨r, _, rfl⟩, i, _, rfl⟩ := hp
      obtain ⟨s, ⟨r, _, rfl⟩, j, _, rfl⟩ := hq
      exact Or.inr ⟨rfl, Or.inl hlt⟩
  · refine (sortBy_keys_strict e hd).imp ?_
    rintro ⟨d1, f1⟩ ⟨d2, f2⟩ hlt p hp q hq
    have h1 := memF d1 f1 p hp
    have h2 := memF d2 f2 q hq
    exact Or.inl (by rw [h1, h2]; exact hlt)

example : samples (flattenSorted [(1, [(5, [(0, 2)]), (3, [(4, 6), (7, 8)])]), (0, [(9, [(1, 2)])])]) =
    [(0, 9, 1), (1, 3, 4), (1, 3, 5), (1, 3, 7), (1, 5, 0), (1, 5, 1)] := by decide +kernel

end Mixtera
