import Verif.Props.Chunker

/-!
# C34: exactly which property combinations survive the chunker's text form
-/

namespace Mixtera

/-! ## What `getline` delivers -/

theorem getlines_free (d : Char) : ∀ (s : PyStr), ∀ p ∈ getlines d s, d ∉ p
  | [], p, hp => by simp [getlines] at hp
  | c :: s, p, hp => by
    have ih := getlines_free d s
    rw [getlines] at hp
    by_cases hc : c = d
    · rw [if_pos hc, List.mem_cons] at hp
      rcases hp with rfl | hp
      · simp
      · exact ih p hp
    · rw [if_neg hc] at hp
      cases hg : getlines d s with
      | nil =>
        rw [hg] at hp
        simp only [List.mem_singleton] at hp
        rw [hp]
        simpa using Ne.symm hc
      | cons q qs =>
        rw [hg] at hp ih
        simp only [List.mem_cons] at hp
        rcases hp with rfl | hp
        · rw [List.mem_cons, not_or]
          exact ⟨Ne.symm hc, ih q (by simp)⟩
        · exact ih p (by simp [hp])

theorem getlines_sub (d : Char) : ∀ (s : PyStr), ∀ p ∈ getlines d s, ∀ c ∈ p, c ∈ s
  | [], p, hp => by simp [getlines] at hp
  | a :: s, p, hp => by
    have ih := getlines_sub d s
    rw [getlines] at hp
    intro c hcp
    by_cases ha : a = d
    · rw [if_pos ha, List.mem_cons] at hp
      rcases hp with rfl | hp
      · simp at hcp
      · exact List.mem_cons_of_mem _ (ih p hp c hcp)
    · rw [if_neg ha] at hp
      cases hg : getlines d s with
      | nil =>
        rw [hg] at hp
        simp only [List.mem_singleton] at hp
        rw [hp] at hcp
        simp only [List.mem_singleton] at hcp
        rw [hcp]
        simp
      | cons q qs =>
        rw [hg] at hp ih
        simp only [List.mem_cons] at hp
        rcases hp with rfl | hp
        · rcases List.mem_cons.mp hcp with rfl | h
          · simp
          · exact List.mem_cons_of_mem _ (ih q (by simp) c h)
        · exact List.mem_cons_of_mem _ (ih p (by simp [hp]) c hcp)

theorem getlines_end (d : Char) (vs : List PyStr) (hne : vs ≠ []) (hd : ∀ v ∈ vs, d ∉ v) :
    getlines d (joinStr [d] vs ++ [d]) = vs := by
  induction vs with
  | nil => exact absurd rfl hne
  | cons v vs ih =>
    cases vs with
    | nil =>
      show getlines d (v ++ [d]) = _
      rw [getlines_cons d v [] (hd v (by simp))]
      rfl
    | cons w vs =>
      have e : joinStr [d] (v :: w :: vs) ++ [d] = v ++ d :: (joinStr [d] (w :: vs) ++ [d]) := by
        show v ++ [d] ++ joinStr [d] (w :: vs) ++ [d] = _
        simp
      rw [e, getlines_cons d v _ (hd v (by simp)), ih (by simp) fun x hx => hd x (by simp [hx])]

/-- Joining and splitting gives the pieces back iff none contains the delimiter and the last one is not empty. -/
theorem getlines_join_iff (d : Char) (vs : List PyStr) :
    getlines d (joinStr [d] vs) = vs ↔ (∀ v ∈ vs, d ∉ v) ∧ vs.getLast? ≠ some [] := by
  refine ⟨fun h => ?_, fun h => getlines_join d vs h.1 h.2⟩
  have hf : ∀ v ∈ vs, d ∉ v := fun v hv => getlines_free d _ v (h ▸ hv)
  refine ⟨hf, fun hl => ?_⟩
  obtain ⟨ws, rfl⟩ : ∃ ws, vs = ws ++ [[]] := by
    have hne : vs ≠ [] := by rintro rfl; simp at hl
    refine ⟨vs.dropLast, ?_⟩
    conv_lhs => rw [← List.dropLast_append_getLast hne]
    rw [List.getLast?_eq_getLast_of_ne_nil hne] at hl
    simp only [Option.some.injEq] at hl
    rw [hl]
  by_cases hw : ws = []
  · subst hw
    simp [joinStr, getlines] at h
  · rw [joinStr_append [d] ws [[]] hw (by simp)] at h
    simp only [joinStr, List.append_nil] at h
    rw [getlines_end d ws hw fun v hv => hf v (by simp [hv])] at h
    have := congrArg List.length h
    simp at this

/-! ## What the parser returns -/

/-- What a property can look like after parsing. -/
def Parsed (nv : PyStr × List PyStr) : Prop :=
  (':' ∉ nv.1 ∧ ';' ∉ nv.1) ∧ ∀ v ∈ nv.2, ',' ∉ v ∧ ';' ∉ v

theorem splitColon_spec {p : PyStr} {nv : PyStr × PyStr} (h : splitColon p = some nv) :
    ':' ∉ nv.1 ∧ (∀ c ∈ nv.1, c ∈ p) ∧ ∀ c ∈ nv.2, c ∈ p := by
  unfold splitColon at h
  cases hd : p.dropWhile (fun c => decide (c ≠ ':')) with
  | nil => rw [hd] at h; cases h
  | cons x vs =>
    rw [hd] at h
    simp only [Option.some.injEq] at h
    subst h
    refine ⟨fun hc => ?_, fun c hc => (List.takeWhile_sublist _).subset hc, fun c hc => ?_⟩
    · have := List.all_eq_true.mp (List.all_takeWhile (l := p) (p := fun c => decide (c ≠ ':'))) _ hc
      simp at this
    · exact (List.dropWhile_sublist _).subset (hd ▸ List.mem_cons_of_mem _ hc)

theorem mem_dict_set {d : RawKey} {k : PyStr} {v : List PyStr} {x : PyStr × List PyStr} (h : x ∈ d.set k v) :
    x ∈ d ∨ x = (k, v) := by
  induction d with
  | nil => right; simpa [Dict.set, Dict.upsert] using h
  | cons y d ih =>
    simp only [Dict.set, Dict.upsert] at h ih
    split at h
    · rename_i e
      rcases List.mem_cons.mp h with h | h
      · right
        rw [h, e]
      · left; exact List.mem_cons_of_mem _ h
    · rcases List.mem_cons.mp h with h | h
      · left; rw [h]; simp
      · rcases ih h with h | h
        · left; exact List.mem_cons_of_mem _ h
        · right; exact h

theorem parseKey_parsed (s : PyStr) : ∀ nv ∈ parseKey s, Parsed nv := by
  unfold parseKey
  have : ∀ (l : List PyStr) (d : RawKey), (∀ p ∈ l, ';' ∉ p) → (∀ nv ∈ d, Parsed nv) → ∀ nv ∈ l.foldl parsePiece d, Parsed nv := by
    intro l
    induction l with
    | nil => intro d _ hd; exact hd
    | cons p l ih =>
      intro d hl hd
      refine ih _ (fun q hq => hl q (by simp [hq])) fun nv hnv => ?_
      unfold parsePiece at hnv
      cases hs : splitColon p with
      | none => rw [hs] at hnv; exact hd nv hnv
      | some x =>
        rw [hs] at hnv
        rcases mem_dict_set hnv with h | rfl
        · exact hd nv h
        · obtain ⟨h1, h2, h3⟩ := splitColon_spec hs
          have hp := hl p (by simp)
          exact ⟨⟨h1, fun hc => hp (h2 _ hc)⟩, fun v hv => ⟨getlines_free ',' _ v hv,
            fun hc => hp (h3 _ (getlines_sub ',' _ v hv _ hc))⟩⟩
  exact this _ _ (getlines_free ';' s) (by intro nv h; cases h)

/-- **C34**, exactly: the text the chunker builds for a row gives back the row's property combination iff the names of the row's
properties are distinct and free of `:` and `;`, the values are free of `,` and `;`, and no property ends with an empty value. -/
theorem c34_round_trip_iff (cells : List (PyStr × Cell)) :
    parseKey (keyText cells) = rowProps cells ↔
      ((rowProps cells).map Prod.fst).Nodup ∧ ∀ nv ∈ rowProps cells,
        (':' ∉ nv.1 ∧ ';' ∉ nv.1) ∧ (∀ v ∈ nv.2, ',' ∉ v ∧ ';' ∉ v) ∧ nv.2.getLast? ≠ some [] := by
  -- the pieces of the text, for properties whose names and values are free of separators
  have key : ∀ (hk : (rowProps cells).keys.Nodup) (hp : ∀ nv ∈ rowProps cells, Parsed nv),
      parseKey (keyText cells) = (rowProps cells).map fun nv => (nv.1, getlines ',' (joinStr [','] nv.2)) := by
    intro hk hp
    rw [parseKey, keyText_eq, getlines_join]
    · rw [List.foldl_map]
      have this : ∀ nv ∈ rowProps cells, ∀ d : RawKey,
          parsePiece d (propText nv) = d.set nv.1 (getlines ',' (joinStr [','] nv.2)) := by
        intro nv hnv d
        rw [parsePiece, propText, splitColon_pair _ _ (hp nv hnv).1.1]
      have h2 : ∀ (l : RawKey), (∀ nv ∈ l, nv ∈ rowProps cells) → ∀ d : RawKey,
          l.foldl (fun (d : RawKey) nv => parsePiece d (propText nv)) d =
            l.foldl (fun (d : RawKey) nv => d.set nv.1 (getlines ',' (joinStr [','] nv.2))) d := by
        intro l
        induction l with
        | nil => intros; rfl
        | cons nv l ih =>
          intro hl d
          rw [List.foldl_cons, List.foldl_cons, this nv (hl nv (by simp)), ih fun x hx => hl x (by simp [hx])]
      rw [h2 _ (fun _ hx => hx)]
      have := foldl_set_append Prod.fst (fun nv => getlines ',' (joinStr [','] nv.2)) (rowProps cells) []
        (by simpa [Dict.keys] using hk)
      simpa using this
    · intro v hv
      obtain ⟨nv, hnv, rfl⟩ := List.mem_map.mp hv
      unfold propText
      rw [List.mem_append, List.mem_cons, not_or, not_or]
      refine ⟨(hp nv hnv).1.2, by decide, ?_⟩
      intro hc
      rcases mem_joinStr hc with hc | ⟨x, hx, hc⟩
      · simp at hc
      · exact ((hp nv hnv).2 x hx).2 hc
    · intro hl
      have := List.mem_of_getLast? hl
      obtain ⟨nv, _, e⟩ := List.mem_map.mp this
      unfold propText at e
      simp at e
  constructor
  · intro h
    have hp : ∀ nv ∈ rowProps cells, Parsed nv := fun nv hnv => parseKey_parsed _ nv (h ▸ hnv)
    have hk : (rowProps cells).keys.Nodup := h ▸ parseKey_nodup _
    have e := (key hk hp).symm.trans h
    refine ⟨hk, fun nv hnv => ⟨(hp nv hnv).1, (hp nv hnv).2, ?_⟩⟩
    have e' : ∀ x ∈ rowProps cells, (x.1, getlines ',' (joinStr [','] x.2)) = x := by
      have : (rowProps cells).map (fun nv => (nv.1, getlines ',' (joinStr [','] nv.2))) = (rowProps cells).map id := by
        rw [List.map_id]; exact e
      exact List.map_inj_left.mp this
    have := congrArg Prod.snd (e' nv hnv)
    exact ((getlines_join_iff ',' nv.2).mp this).2
  · rintro ⟨hk, hp⟩
    rw [key hk fun nv hnv => ⟨(hp nv hnv).1, (hp nv hnv).2.1⟩]
    conv_rhs => rw [← List.map_id (rowProps cells)]
    rw [List.map_inj_left]
    intro nv hnv
    rw [getlines_join ',' nv.2 (fun v hv => ((hp nv hnv).2.1 v hv).1) (hp nv hnv).2.2]
    rfl

/-- Both sides occur: a URL and a list survive, a comma does not. -/
example : parseKey (keyText [("url".toList, .str "a://b".toList), ("l".toList, .list [some "de".toList, some "en".toList])]) =
      rowProps [("url".toList, .str "a://b".toList), ("l".toList, .list [some "de".toList, some "en".toList])] ∧
    parseKey (keyText [("l".toList, .list [some "de".toList, some []])]) ≠
      rowProps [("l".toList, .list [some "de".toList, some []])] := by decide

end Mixtera
