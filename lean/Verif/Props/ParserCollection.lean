import Verif.Model.ParserCollection
import Verif.Props.Parser
import Mathlib.Data.List.Induction

/-!
# C73: the built-in metadata parsers and the factory
-/

set_option linter.unusedSectionVars false

namespace Mixtera.Meta

/-! ## Specification -/

/-- Specification: the value of a payload at a path of names. -/
inductive At : Json → List PyStr → Json → Prop
  | here (v : Json) : At v [] v
  | there (d : List (PyStr × Json)) (k : PyStr) (path : List PyStr) (v w : Json) :
      (∃ d1 d2, d = d1 ++ (k, v) :: d2 ∧ ∀ e ∈ d1, e.1 ≠ k) → At v path w → At (.obj d) (k :: path) w

/-- Specification: the payload has no value under the name. -/
def Lacks (payload : Json) (k : PyStr) : Prop := ∃ d, payload = .obj d ∧ ∀ e ∈ d, e.1 ≠ k

/-- Specification: the values that count as nothing. -/
def Empty (v : Json) : Prop :=
  v = .null ∨ v = .bool false ∨ v = .num 0 ∨ v = .str [] ∨ v = .arr [] ∨ v = .obj []

theorem lookup_some (d : List (PyStr × Json)) (k : PyStr) (v : Json) :
    lookup d k = some v ↔ ∃ d1 d2, d = d1 ++ (k, v) :: d2 ∧ ∀ e ∈ d1, e.1 ≠ k := by
  induction d with
  | nil => simp [lookup]
  | cons x d ih =>
    obtain ⟨a, w⟩ := x
    unfold lookup
    split
    · rename_i h
      subst h
      constructor
      · intro e
        cases e
        exact ⟨[], d, rfl, by simp⟩
      · rintro ⟨d1, d2, h1, h2⟩
        cases d1 with
        | nil => cases h1; rfl
        | cons y d1 =>
          simp only [List.cons_append, List.cons.injEq] at h1
          exact absurd (by rw [← h1.1]) (h2 y List.mem_cons_self)
    · rename_i h
      rw [ih]
      constructor
      · rintro ⟨d1, d2, rfl, h2⟩
        refine ⟨(a, w) :: d1, d2, rfl, fun e he => ?_⟩
        rcases List.mem_cons.1 he with rfl | he
        · exact h
        · exact h2 e he
      · rintro ⟨d1, d2, h1, h2⟩
        cases d1 with
        | nil => cases h1; exact absurd rfl h
        | cons y d1 =>
          simp only [List.cons_append, List.cons.injEq] at h1
          exact ⟨d1, d2, h1.2, fun e he => h2 e (List.mem_cons_of_mem _ he)⟩

theorem lookup_none (d : List (PyStr × Json)) (k : PyStr) : lookup d k = none ↔ ∀ e ∈ d, e.1 ≠ k := by
  induction d with
  | nil => simp [lookup]
  | cons x d ih =>
    obtain ⟨a, w⟩ := x
    unfold lookup
    split
    · rename_i h
      subst h
      constructor
      · intro e; cases e
      · intro e; exact absurd rfl (e (a, w) List.mem_cons_self)
    · rename_i h
      rw [ih]
      simp [h]

theorem at_one (payload : Json) (k : PyStr) (v : Json) :
    At payload [k] v ↔ ∃ d, payload = .obj d ∧ lookup d k = some v := by
  constructor
  · intro h
    cases h with
    | there d k path v w h1 h2 =>
      cases h2
      exact ⟨d, rfl, (lookup_some d k v).2 h1⟩
  · rintro ⟨d, rfl, h⟩
    exact .there d k [] v v ((lookup_some d k v).1 h) (.here v)

theorem at_two (payload : Json) (j k : PyStr) (v : Json) :
    At payload [j, k] v ↔ ∃ d d', payload = .obj d ∧ lookup d j = some (.obj d') ∧ lookup d' k = some v := by
  constructor
  · intro h
    cases h with
    | there d k path u w h1 h2 =>
      obtain ⟨d', rfl, h3⟩ := (at_one _ _ _).1 h2
      exact ⟨d, d', rfl, (lookup_some _ _ _).2 h1, h3⟩
  · rintro ⟨d, d', rfl, h1, h2⟩
    exact .there d j [k] _ v ((lookup_some d j _).1 h1) ((at_one _ _ _).2 ⟨d', rfl, h2⟩)

theorem not_truthy (v : Json) : truthy v = false ↔ Empty v := by
  unfold Empty
  cases v <;> simp [truthy]

/-- All built-in schemas have distinct, unreserved names. -/
theorem builtin_names (p : Builtin) : (p.props.map MProp.name).Nodup ∧ ∀ q ∈ p.props, q.name ∉ reservedNames := by
  have aux : ∀ l : List (MProp Json), (l.map MProp.name).Nodup → (∀ n ∈ l.map MProp.name, n ∉ reservedNames) →
      (l.map MProp.name).Nodup ∧ ∀ q ∈ l, q.name ∉ reservedNames :=
    fun l h1 h2 => ⟨h1, fun q hq => h2 _ (List.mem_map_of_mem hq)⟩
  cases p
  · exact aux redProps (by show ["language".toList, "publication_date".toList].Nodup; decide +kernel)
      (by show ∀ n ∈ ["language".toList, "publication_date".toList], n ∉ reservedNames; decide +kernel)
  · exact aux (enumProps slimName slimOptions) (by show [slimName].Nodup; decide +kernel)
      (by show ∀ n ∈ [slimName], n ∉ reservedNames; decide +kernel)
  · exact aux fineProps (by show ["dump".toList, "language".toList].Nodup; decide +kernel)
      (by show ∀ n ∈ ["dump".toList, "language".toList], n ∉ reservedNames; decide +kernel)
  · exact aux cocoProps (by show ["parity".toList].Nodup; decide +kernel)
      (by show ∀ n ∈ ["parity".toList], n ∉ reservedNames; decide +kernel)
  · exact aux (enumProps pileName pileOptions) (by show [pileName].Nodup; decide +kernel)
      (by show ∀ n ∈ [pileName], n ∉ reservedNames; decide +kernel)

theorem builtin_parse (p : Builtin) (n : Nat) (payload : Json) (r : Record Json) :
    p.parse n payload = .ok r ↔ ∃ kw, p.extract n payload = .ok kw ∧ (∀ q ∈ p.props, Allowed q (given kw q.name)) ∧
      r = (sampleId, .num n) :: p.props.map fun q => (q.name, .val (stored q (given kw q.name))) := by
  obtain ⟨hn, hr⟩ := builtin_names p
  unfold Builtin.parse
  cases hx : p.extract n payload with
  | error e =>
    obtain ⟨schema, h1, _⟩ := c51_accepts_partial p.props hn hr n []
    rw [h1]
    constructor
    · intro h; cases h
    · rintro ⟨kw, h, _⟩; cases h
  | ok kw =>
    obtain ⟨schema, h1, h2⟩ := c51_accepts_partial p.props hn hr n kw
    rw [h1]
    show addMetadata schema n kw = .ok r ↔ _
    rw [h2]
    constructor
    · intro h; exact ⟨kw, rfl, h⟩
    · rintro ⟨kw', h, h3⟩
      cases h
      exact h3

theorem metaOf_ok (payload : Json) (m : List (PyStr × Json)) : metaOf payload = .ok m ↔
    ∃ d, payload = .obj d ∧ (lookup d "meta".toList = some (.obj m) ∨ (lookup d "meta".toList = none ∧ m = [])) := by
  cases payload with
  | obj d =>
    simp only [metaOf]
    cases h : lookup d "meta".toList with
    | none =>
      simp only [Option.getD_none]
      constructor
      · intro e; cases e; exact ⟨d, rfl, Or.inr ⟨h, rfl⟩⟩
      · rintro ⟨d', e, h1 | ⟨_, rfl⟩⟩
        · cases e; rw [h] at h1; cases h1
        · rfl
    | some v =>
      simp only [Option.getD_some]
      constructor
      · intro e
        cases v <;> first | (cases e; exact ⟨d, rfl, Or.inl h⟩) | (cases e; done)
      · rintro ⟨d', e, h1 | ⟨h1, rfl⟩⟩
        · cases e; rw [h] at h1; cases h1; rfl
        · cases e; rw [h] at h1; cases h1
  | _ =>
    simp only [metaOf]
    constructor
    · intro h; cases h
    · rintro ⟨d', e, _⟩; cases e

theorem at_meta (payload : Json) (k : PyStr) (v : Json) :
    At payload ["meta".toList, k] v ↔ ∃ m, metaOf payload = .ok m ∧ lookup m k = some v := by
  rw [at_two]
  constructor
  · rintro ⟨d, d', rfl, h1, h2⟩
    exact ⟨d', (metaOf_ok _ _).2 ⟨d, rfl, Or.inl h1⟩, h2⟩
  · rintro ⟨m, h1, h2⟩
    obtain ⟨d, rfl, h3 | ⟨h3, rfl⟩⟩ := (metaOf_ok _ _).1 h1
    · exact ⟨d, m, rfl, h3, h2⟩
    · cases h2

theorem metaExtract_ok (name : PyStr) (n : Nat) (payload : Json) (kw : Dict PyStr (MVal Json)) :
    metaExtract name n payload = .ok kw ↔
      ∃ v, At payload ["meta".toList, name] v ∧ v ≠ .null ∧ kw = [(name, toVal v)] := by
  unfold metaExtract
  simp only [at_meta]
  cases hm : metaOf payload with
  | error e =>
    constructor
    · intro h; cases h
    · rintro ⟨v, ⟨m, h, _⟩, _⟩; cases h
  | ok m =>
    dsimp only
    cases hv : lookup m name with
    | none =>
      constructor
      · intro h; cases h
      · rintro ⟨v, ⟨m', h, h1⟩, _⟩; cases h; rw [hv] at h1; cases h1
    | some v =>
      simp only [Option.getD_some]
      constructor
      · intro h
        refine ⟨v, ⟨m, rfl, hv⟩, ?_⟩
        cases v <;> first | (cases h; done) | (injection h with h; exact ⟨(fun e => by cases e), h.symm⟩)
      · rintro ⟨w, ⟨m', h, h1⟩, hw, rfl⟩
        cases h
        rw [hv] at h1
        cases h1
        cases v <;> first | exact absurd rfl hw | rfl

theorem given_self (name : PyStr) (v : MVal Json) (d : Dict PyStr (MVal Json)) : given ((name, v) :: d) name = v := by
  unfold given
  rw [Dict.get?_cons, if_pos rfl]
  rfl

theorem enum_parse (p : Builtin) (name : PyStr) (options : List PyStr) (hp : p.props = enumProps name options)
    (hx : p.extract = metaExtract name) (n : Nat) (payload : Json) (r : Record Json) :
    p.parse n payload = .ok r ↔ ∃ s ∈ options, At payload ["meta".toList, name] (.str s) ∧
      r = [("sample_id".toList, .num n), (name, .val (.one (.str s)))] := by
  rw [builtin_parse, hp, hx]
  constructor
  · rintro ⟨kw, h1, h2, rfl⟩
    obtain ⟨v, h3, h4, rfl⟩ := (metaExtract_ok _ _ _ _).1 h1
    have h5 := h2 _ List.mem_cons_self
    have hg : given [(name, toVal v)] name = toVal v := given_self _ _ _
    dsimp only at h5
    rw [hg] at h5
    cases v with
    | null => exact absurd rfl h4
    | arr l => exact absurd (h5.2.1 ⟨l, rfl⟩) (by simp)
    | str s =>
      obtain ⟨opts, h6, h7⟩ := h5.2.2 (by simp [toVal]) rfl
      cases h6
      have h8 := h7 (.str s) (by simp [toVal, MVal.elems])
      obtain ⟨s', hs', e⟩ := List.mem_map.1 h8
      cases e
      refine ⟨s, hs', h3, ?_⟩
      simp only [enumProps, List.map_cons, List.map_nil, hg]
      rfl
    | bool b =>
      obtain ⟨opts, h6, h7⟩ := h5.2.2 (by simp [toVal]) rfl
      cases h6
      have h8 := h7 (.bool b) (by simp [toVal, MVal.elems])
      simp at h8
    | num b =>
      obtain ⟨opts, h6, h7⟩ := h5.2.2 (by simp [toVal]) rfl
      cases h6
      have h8 := h7 (.num b) (by simp [toVal, MVal.elems])
      simp at h8
    | obj b =>
      obtain ⟨opts, h6, h7⟩ := h5.2.2 (by simp [toVal]) rfl
      cases h6
      have h8 := h7 (.obj b) (by simp [toVal, MVal.elems])
      simp at h8
  · rintro ⟨s, hs, h, rfl⟩
    refine ⟨[(name, toVal (.str s))], (metaExtract_ok _ _ _ _).2 ⟨_, h, by simp, rfl⟩, ?_, ?_⟩
    · intro q hq
      simp only [enumProps, List.mem_singleton] at hq
      subst hq
      have hg : given [(name, toVal (.str s))] name = toVal (.str s) := given_self _ _ _
      dsimp only
      rw [hg]
      refine ⟨by simp [toVal], by simp [toVal], fun _ _ => ⟨_, rfl, ?_⟩⟩
      simpa [toVal, MVal.elems] using hs
    · simp only [enumProps, List.map_cons, List.map_nil, given_self]
      rfl

/-- Specification: the names of the parts of SlimPajama. -/
def slimNames : List String :=
  ["RedPajamaArXiv", "RedPajamaBook", "RedPajamaC4", "RedPajamaCommonCrawl", "RedPajamaGithub", "RedPajamaStackExchange",
    "RedPajamaWikipedia"]

/-- Specification: the names of the 22 parts of The Pile. -/
def pileNames : List String :=
  ["ArXiv", "BookCorpus2", "Books3", "DM Mathematics", "Enron Emails", "EuroParl", "FreeLaw", "Github", "Gutenberg (PG-19)",
    "HackerNews", "NIH ExPorter", "OpenSubtitles", "OpenWebText2", "PhilPapers", "Pile-CC", "PubMed Abstracts",
    "PubMed Central", "StackExchange", "USPTO Backgrounds", "Ubuntu IRC", "Wikipedia (en)", "YoutubeSubtitles"]

theorem slim_names (s : PyStr) : s ∈ slimOptions ↔ ∃ x ∈ slimNames, x.toList = s := by
  rw [← List.mem_map]
  have h1 : ∀ x ∈ slimOptions, x ∈ slimNames.map String.toList := by decide +kernel
  have h2 : ∀ x ∈ slimNames.map String.toList, x ∈ slimOptions := by decide +kernel
  exact ⟨h1 s, h2 s⟩

theorem pile_names (s : PyStr) : s ∈ pileOptions ↔ ∃ x ∈ pileNames, x.toList = s := by
  rw [← List.mem_map]
  have h1 : ∀ x ∈ pileOptions, x ∈ pileNames.map String.toList := by decide +kernel
  have h2 : ∀ x ∈ pileNames.map String.toList, x ∈ pileOptions := by decide +kernel
  exact ⟨h1 s, h2 s⟩

/-- **C73, SlimPajama**: a line is accepted exactly if `meta.redpajama_set_name` is one of the seven names, and then that
string and the number of the line are recorded. -/
theorem c73_slim (n : Nat) (payload : Json) (r : Record Json) :
    Builtin.slim.parse n payload = .ok r ↔ ∃ x ∈ slimNames,
      At payload ["meta".toList, "redpajama_set_name".toList] (.str x.toList) ∧
      r = [("sample_id".toList, .num n), ("redpajama_set_name".toList, .val (.one (.str x.toList)))] := by
  rw [enum_parse .slim slimName slimOptions rfl rfl n payload r]
  constructor
  · rintro ⟨s, hs, h⟩
    obtain ⟨x, hx, rfl⟩ := (slim_names s).1 hs
    exact ⟨x, hx, h⟩
  · rintro ⟨x, hx, h⟩
    exact ⟨_, (slim_names _).2 ⟨x, hx, rfl⟩, h⟩

/-- **C73, The Pile**: a line is accepted exactly if `meta.pile_set_name` is one of the 22 names, and then that string
and the number of the line are recorded. -/
theorem c73_pile (n : Nat) (payload : Json) (r : Record Json) :
    Builtin.pile.parse n payload = .ok r ↔ ∃ x ∈ pileNames,
      At payload ["meta".toList, "pile_set_name".toList] (.str x.toList) ∧
      r = [("sample_id".toList, .num n), ("pile_set_name".toList, .val (.one (.str x.toList)))] := by
  rw [enum_parse .pile pileName pileOptions rfl rfl n payload r]
  constructor
  · rintro ⟨s, hs, h⟩
    obtain ⟨x, hx, rfl⟩ := (pile_names s).1 hs
    exact ⟨x, hx, h⟩
  · rintro ⟨x, hx, h⟩
    exact ⟨_, (pile_names _).2 ⟨x, hx, rfl⟩, h⟩

/-- **C73, FineWeb**: a line is accepted exactly if its language is the string `en` and `dump` is a value other than `None`
and lists (it need not be a string), and then both are recorded. -/
theorem c73_fineweb (n : Nat) (payload : Json) (r : Record Json) :
    Builtin.fine.parse n payload = .ok r ↔ ∃ dump, At payload ["dump".toList] dump ∧ dump ≠ .null ∧ (∀ l, dump ≠ .arr l) ∧
      At payload ["language".toList] (.str "en".toList) ∧
      r = [("sample_id".toList, .num n), ("dump".toList, .val (.one dump)),
        ("language".toList, .val (.one (.str "en".toList)))] := by
  rw [builtin_parse]
  show (∃ kw, fineExtract n payload = .ok kw ∧ (∀ q ∈ fineProps, _) ∧ r = _ :: fineProps.map _) ↔ _
  have hg1 : ∀ a b : MVal Json, given [("dump".toList, a), ("language".toList, b)] "dump".toList = a := by
    intro a b; exact given_self _ _ _
  have hg2 : ∀ a b : MVal Json, given [("dump".toList, a), ("language".toList, b)] "language".toList = b := by
    intro a b
    unfold given
    rw [Dict.get?_cons, if_neg (by decide +kernel), Dict.get?_cons, if_pos rfl]
    rfl
  constructor
  · rintro ⟨kw, h1, h2, rfl⟩
    cases payload with
    | obj d =>
      simp only [fineExtract] at h1
      injection h1 with h1
      subst h1
      have ha := h2 _ List.mem_cons_self
      have hb := h2 _ (List.mem_cons_of_mem _ List.mem_cons_self)
      dsimp only at ha hb
      rw [hg1] at ha
      rw [hg2] at hb
      have hl : lookup d "language".toList = some (.str "en".toList) := by
        cases hl : lookup d "language".toList with
        | none => rw [hl] at hb; exact absurd (hb.1 rfl) (by simp)
        | some v =>
          rw [hl] at hb
          simp only [Option.getD_some] at hb
          cases v with
          | null => exact absurd (hb.1 rfl) (by simp)
          | arr l => exact absurd (hb.2.1 ⟨l, rfl⟩) (by simp)
          | _ =>
            obtain ⟨opts, h6, h7⟩ := hb.2.2 (by simp [toVal]) rfl
            cases h6
            have h8 := h7 _ (by simp only [toVal, MVal.elems]; exact List.mem_singleton_self _)
            simp only [List.mem_singleton] at h8
            first | (rw [h8]) | (cases h8)
      cases hd : lookup d "dump".toList with
      | none => rw [hd] at ha; exact absurd (ha.1 rfl) (by simp)
      | some v =>
        rw [hd] at ha
        simp only [Option.getD_some] at ha
        have hv1 : v ≠ .null := by rintro rfl; exact absurd (ha.1 rfl) (by simp)
        have hv2 : ∀ l, v ≠ .arr l := by rintro l rfl; exact absurd (ha.2.1 ⟨l, rfl⟩) (by simp)
        refine ⟨v, (at_one _ _ _).2 ⟨d, rfl, hd⟩, hv1, hv2, (at_one _ _ _).2 ⟨d, rfl, hl⟩, ?_⟩
        have hto : toVal v = .one v := by
          cases v <;> first | exact absurd rfl hv1 | exact absurd rfl (hv2 _) | rfl
        simp only [fineProps, List.map_cons, List.map_nil, hg1, hg2, hd, hl, Option.getD_some, hto]
        rfl
    | _ => cases h1
  · rintro ⟨v, h1, hv1, hv2, h2, rfl⟩
    obtain ⟨d, rfl, hd⟩ := (at_one _ _ _).1 h1
    obtain ⟨d', e, hl⟩ := (at_one _ _ _).1 h2
    cases e
    have hto : toVal v = .one v := by
      cases v <;> first | exact absurd rfl hv1 | exact absurd rfl (hv2 _) | rfl
    refine ⟨[("dump".toList, .one v), ("language".toList, .one (.str "en".toList))], ?_, ?_, ?_⟩
    · simp only [fineExtract, hl, hd, Option.getD_some, hto]
      rfl
    · intro q hq
      simp only [fineProps, List.mem_cons, List.not_mem_nil, or_false] at hq
      rcases hq with rfl | rfl
      · dsimp only
        rw [hg1]
        exact ⟨by simp, by simp, by simp⟩
      · dsimp only
        rw [hg2]
        exact ⟨by simp, by simp, fun _ _ => ⟨_, rfl, by simp [MVal.elems]⟩⟩
    · simp only [fineProps, List.map_cons, List.map_nil, hg1, hg2]
      rfl

/-- **C73, MS COCO**: every sample is accepted, and its `parity` is the remainder of its number by three. -/
theorem c73_coco (n : Nat) (payload : Json) :
    Builtin.coco.parse n payload = .ok [("sample_id".toList, .num n),
      ("parity".toList, .val (.one (.str (toString (n % 3)).toList)))] := by
  rw [builtin_parse]
  refine ⟨_, rfl, ?_, ?_⟩
  · intro q hq
    obtain rfl : q = ⟨"parity".toList, false, false, false, none⟩ := List.mem_singleton.1 hq
    dsimp only
    rw [given_self]
    exact ⟨by simp, by simp, by simp⟩
  · simp only [Builtin.props, cocoProps, List.map_cons, List.map_nil, given_self]
    rfl

/-- Specification: what RedPajama records as languages: nothing if there is no `meta` or no (non-empty) `meta.language`, and
otherwise the names of the listed languages. -/
inductive Languages (payload : Json) : MVal Json → Prop
  | noMeta : Lacks payload "meta".toList → Languages payload .null
  | noLanguage (m : Json) : At payload ["meta".toList] m → Lacks m "language".toList → Languages payload .null
  | empty (v : Json) : At payload ["meta".toList, "language".toList] v → Empty v → Languages payload .null
  | names (ls ns : List Json) : At payload ["meta".toList, "language".toList] (.arr ls) → ls ≠ [] →
      List.Forall₂ (fun l n => At l ["name".toList] n) ls ns → Languages payload (.many ns)

/-- Specification: what RedPajama records as publication date: nothing if there is none or an empty one, and otherwise the
value itself, which must not be a list. -/
inductive Date (payload : Json) : MVal Json → Prop
  | noMeta : Lacks payload "meta".toList → Date payload .null
  | noDate (m : Json) : At payload ["meta".toList] m → Lacks m "publication_date".toList → Date payload .null
  | empty (v : Json) : At payload ["meta".toList, "publication_date".toList] v → Empty v → Date payload .null
  | date (v : Json) : At payload ["meta".toList, "publication_date".toList] v → ¬ Empty v → (∀ l, v ≠ .arr l) →
      Date payload (.one v)

theorem nameOf_ok (l n : Json) : nameOf l = .ok n ↔ At l ["name".toList] n := by
  rw [at_one]
  cases l with
  | obj d =>
    simp only [nameOf]
    cases h : lookup d "name".toList with
    | none =>
      constructor
      · intro h; cases h
      · rintro ⟨d', e, h'⟩; cases e; rw [h] at h'; cases h'
    | some v =>
      constructor
      · intro e; cases e; exact ⟨d, rfl, h⟩
      · rintro ⟨d', e, h'⟩; cases e; rw [h] at h'; cases h'; rfl
  | _ =>
    constructor
    · intro h; cases h
    · rintro ⟨d', e, h'⟩; cases e

theorem mapM_nameOf (ls ns : List Json) : ls.mapM nameOf = .ok ns ↔ List.Forall₂ (fun l n => At l ["name".toList] n) ls ns := by
  induction ls generalizing ns with
  | nil =>
    constructor
    · intro h; cases h; exact .nil
    · intro h; cases h; rfl
  | cons l ls ih =>
    rw [List.mapM_cons]
    cases h : nameOf l with
    | error e =>
      constructor
      · intro h; cases h
      · intro h'
        cases h' with
        | cons h1 h2 => rw [(nameOf_ok _ _).2 h1] at h; cases h
    | ok n =>
      cases h2 : ls.mapM nameOf with
      | error e =>
        constructor
        · intro h; cases h
        · intro h'
          cases h' with
          | cons h3 h4 => rw [(ih _).2 h4] at h2; cases h2
      | ok ns' =>
        constructor
        · intro e
          cases e
          exact .cons ((nameOf_ok _ _).1 h) ((ih _).1 h2)
        · intro h'
          cases h' with
          | cons h3 h4 =>
            rw [(nameOf_ok _ _).2 h3] at h
            rw [(ih _).2 h4] at h2
            cases h
            cases h2
            rfl

theorem namesOf_ok (v : Json) (ns : List Json) : namesOf v = .ok ns ↔
    ∃ ls, v = .arr ls ∧ List.Forall₂ (fun l n => At l ["name".toList] n) ls ns := by
  cases v with
  | arr ls =>
    simp only [namesOf]
    rw [mapM_nameOf]
    constructor
    · intro h; exact ⟨ls, rfl, h⟩
    · rintro ⟨ls', e, h⟩; cases e; exact h
  | _ =>
    simp only [namesOf]
    constructor
    · intro h; cases h
    · rintro ⟨ls', e, h⟩; cases e

/-- What the specification says, in terms of `meta`. -/
theorem lacks_or_at (payload : Json) (k : PyStr) (m : List (PyStr × Json)) (hm : metaOf payload = .ok m)
    (hk : lookup m k = none) : Lacks payload "meta".toList ∨ ∃ m', At payload ["meta".toList] m' ∧ Lacks m' k := by
  obtain ⟨d, rfl, h | ⟨h, rfl⟩⟩ := (metaOf_ok _ _).1 hm
  · exact Or.inr ⟨.obj m, (at_one _ _ _).2 ⟨d, rfl, h⟩, m, rfl, (lookup_none _ _).1 hk⟩
  · exact Or.inl ⟨d, rfl, (lookup_none _ _).1 h⟩

theorem metaOf_lacks {payload : Json} (h : Lacks payload "meta".toList) : metaOf payload = .ok [] := by
  obtain ⟨d, rfl, h⟩ := h
  exact (metaOf_ok _ _).2 ⟨d, rfl, Or.inr ⟨(lookup_none _ _).2 h, rfl⟩⟩

theorem metaOf_at {payload m' : Json} {k : PyStr} (h : At payload ["meta".toList] m') (hl : Lacks m' k) :
    ∃ m, metaOf payload = .ok m ∧ lookup m k = none := by
  obtain ⟨m, rfl, h2⟩ := hl
  obtain ⟨d, rfl, h1⟩ := (at_one _ _ _).1 h
  exact ⟨m, (metaOf_ok _ _).2 ⟨d, rfl, Or.inl h1⟩, (lookup_none _ _).2 h2⟩

/-- The arguments of `add_metadata` as the specification sees them. -/
theorem redLanguages_ok (payload : Json) (m : List (PyStr × Json)) (hm : metaOf payload = .ok m)
    (l : Dict PyStr (MVal Json)) : redLanguages m = .ok l ↔
      ∃ L, Languages payload L ∧ ((L = .null ∧ l = []) ∨ ∃ ns, L = .many ns ∧ l = [("language".toList, .many ns)]) := by
  unfold redLanguages
  have inv : ∀ L, Languages payload L → (L = .null ∧ truthy ((lookup m "language".toList).getD (.arr [])) = false) ∨
      ∃ ls ns, lookup m "language".toList = some (.arr ls) ∧ ls ≠ [] ∧ L = .many ns ∧
        List.Forall₂ (fun l n => At l ["name".toList] n) ls ns := by
    intro L h
    cases h with
    | noMeta h1 =>
      left
      rw [metaOf_lacks h1] at hm
      cases hm
      exact ⟨rfl, rfl⟩
    | noLanguage m' h1 h2 =>
      left
      obtain ⟨m'', h3, h4⟩ := metaOf_at h1 h2
      rw [hm] at h3
      cases h3
      rw [h4]
      exact ⟨rfl, rfl⟩
    | empty v h1 h2 =>
      left
      obtain ⟨m'', h3, h4⟩ := (at_meta _ _ _).1 h1
      rw [hm] at h3
      cases h3
      rw [h4]
      exact ⟨rfl, (not_truthy v).2 h2⟩
    | names ls ns h1 h2 h3 =>
      right
      obtain ⟨m'', h4, h5⟩ := (at_meta _ _ _).1 h1
      rw [hm] at h4
      cases h4
      exact ⟨ls, ns, h5, h2, rfl, h3⟩
  cases ht : truthy ((lookup m "language".toList).getD (.arr [])) with
  | false =>
    simp only [Bool.false_eq_true, if_false]
    constructor
    · intro h
      cases h
      refine ⟨.null, ?_, Or.inl ⟨rfl, rfl⟩⟩
      cases hl : lookup m "language".toList with
      | none =>
        rcases lacks_or_at payload _ m hm hl with h | ⟨m', h1, h2⟩
        · exact .noMeta h
        · exact .noLanguage m' h1 h2
      | some v =>
        rw [hl] at ht
        exact .empty v ((at_meta _ _ _).2 ⟨m, hm, hl⟩) ((not_truthy v).1 ht)
    · rintro ⟨L, h1, ⟨_, rfl⟩ | ⟨ns, rfl, _⟩⟩
      · rfl
      · rcases inv _ h1 with ⟨e, _⟩ | ⟨ls, ns', h2, h3, _⟩
        · cases e
        · rw [h2] at ht
          cases ls with
          | nil => exact absurd rfl h3
          | cons _ _ => cases ht
  | true =>
    simp only [if_true]
    cases hl : lookup m "language".toList with
    | none => rw [hl] at ht; cases ht
    | some v =>
      simp only [Option.getD_some]
      rw [hl] at ht
      simp only [Option.getD_some] at ht
      constructor
      · intro h
        cases hn : namesOf v with
        | error e => rw [hn] at h; cases h
        | ok ns =>
          rw [hn] at h
          cases h
          obtain ⟨ls, rfl, h1⟩ := (namesOf_ok _ _).1 hn
          refine ⟨.many ns, .names ls ns ((at_meta _ _ _).2 ⟨m, hm, hl⟩) ?_ h1, Or.inr ⟨ns, rfl, rfl⟩⟩
          rintro rfl
          cases ht
      · rintro ⟨L, h1, h2⟩
        rcases inv _ h1 with ⟨_, h3⟩ | ⟨ls, ns, h3, h4, rfl, h5⟩
        · rw [hl, Option.getD_some, ht] at h3; cases h3
        · rw [hl] at h3
          cases h3
          rcases h2 with ⟨e, _⟩ | ⟨ns', e, rfl⟩
          · cases e
          · cases e
            rw [(namesOf_ok _ _).2 ⟨ls, rfl, h5⟩]
            rfl

theorem redDate_ok (payload : Json) (m : List (PyStr × Json)) (hm : metaOf payload = .ok m) :
    (∃ l, redDate m = [("publication_date".toList, .many l)] ∧ ∀ D, ¬ Date payload D) ∨
      ∃ D, (∀ D', Date payload D' ↔ D' = D) ∧
        ((D = .null ∧ redDate m = []) ∨ ∃ v, D = .one v ∧ redDate m = [("publication_date".toList, .one v)]) := by
  unfold redDate
  have inv : ∀ D, Date payload D → (D = .null ∧ truthy ((lookup m "publication_date".toList).getD .null) = false) ∨
      ∃ v, lookup m "publication_date".toList = some v ∧ D = .one v ∧ truthy v = true ∧ ∀ l, v ≠ .arr l := by
    intro D h
    cases h with
    | noMeta h1 =>
      left
      rw [metaOf_lacks h1] at hm
      cases hm
      exact ⟨rfl, rfl⟩
    | noDate m' h1 h2 =>
      left
      obtain ⟨m'', h3, h4⟩ := metaOf_at h1 h2
      rw [hm] at h3
      cases h3
      rw [h4]
      exact ⟨rfl, rfl⟩
    | empty v h1 h2 =>
      left
      obtain ⟨m'', h3, h4⟩ := (at_meta _ _ _).1 h1
      rw [hm] at h3
      cases h3
      rw [h4]
      exact ⟨rfl, (not_truthy v).2 h2⟩
    | date v h1 h2 h3 =>
      right
      obtain ⟨m'', h4, h5⟩ := (at_meta _ _ _).1 h1
      rw [hm] at h4
      cases h4
      refine ⟨v, h5, rfl, ?_, h3⟩
      cases ht : truthy v with
      | true => rfl
      | false => exact absurd ((not_truthy v).1 ht) h2
  cases ht : truthy ((lookup m "publication_date".toList).getD .null) with
  | false =>
    right
    simp only [Bool.false_eq_true, if_false]
    refine ⟨.null, fun D' => ⟨fun h => ?_, ?_⟩, Or.inl ⟨rfl, trivial⟩⟩
    · rcases inv _ h with ⟨e, _⟩ | ⟨v, h1, _, h2, _⟩
      · exact e
      · rw [h1, Option.getD_some, h2] at ht; cases ht
    · rintro rfl
      cases hl : lookup m "publication_date".toList with
      | none =>
        rcases lacks_or_at payload _ m hm hl with h | ⟨m', h1, h2⟩
        · exact .noMeta h
        · exact .noDate m' h1 h2
      | some v =>
        rw [hl] at ht
        exact .empty v ((at_meta _ _ _).2 ⟨m, hm, hl⟩) ((not_truthy v).1 ht)
  | true =>
    simp only [if_true]
    cases hl : lookup m "publication_date".toList with
    | none => rw [hl] at ht; cases ht
    | some v =>
      rw [hl] at ht
      simp only [Option.getD_some] at ht ⊢
      have hat : At payload ["meta".toList, "publication_date".toList] v := (at_meta _ _ _).2 ⟨m, hm, hl⟩
      have hne : ¬ Empty v := fun h => by rw [(not_truthy v).2 h] at ht; cases ht
      by_cases hv : ∃ l, v = .arr l
      · left
        obtain ⟨l, rfl⟩ := hv
        refine ⟨l, rfl, fun D h => ?_⟩
        rcases inv D h with ⟨_, h2⟩ | ⟨v, h1, _, _, h2⟩
        · rw [hl, Option.getD_some, ht] at h2; cases h2
        · rw [hl] at h1
          cases h1
          exact h2 l rfl
      · right
        have hv' : ∀ l, v ≠ .arr l := fun l e => hv ⟨l, e⟩
        refine ⟨.one v, fun D' => ⟨fun h => ?_, ?_⟩, Or.inr ⟨v, rfl, ?_⟩⟩
        · rcases inv _ h with ⟨_, h2⟩ | ⟨w, h1, h2, _⟩
          · rw [hl, Option.getD_some, ht] at h2; cases h2
          · rw [hl] at h1
            cases h1
            exact h2
        · rintro rfl
          exact .date v hat hne hv'
        · cases v <;> first | rfl | (cases ht; done) | exact absurd rfl (hv' _)

/-- **C73, RedPajama**: a line is accepted exactly if its languages and its publication date are as specified, and then both
are recorded. (So a line whose `meta` is there but is not an object, such as `"meta": null`, is not accepted, and nor is one
with a language without a name.) -/
theorem c73_redpajama (n : Nat) (payload : Json) (r : Record Json) :
    Builtin.red.parse n payload = .ok r ↔ ∃ L D, Languages payload L ∧ Date payload D ∧
      r = [("sample_id".toList, .num n), ("language".toList, .val L), ("publication_date".toList, .val D)] := by
  rw [builtin_parse]
  show (∃ kw, redExtract n payload = .ok kw ∧ (∀ q ∈ redProps, _) ∧ r = _ :: redProps.map _) ↔ _
  have hne : ("publication_date".toList : PyStr) ≠ "language".toList := by decide +kernel
  have hne' : ("language".toList : PyStr) ≠ "publication_date".toList := by decide +kernel
  cases hm : metaOf payload with
  | error e =>
    constructor
    · rintro ⟨kw, h, _⟩
      unfold redExtract at h
      rw [hm] at h
      cases h
    · rintro ⟨L, D, h, _⟩
      exfalso
      have no : ∀ m, metaOf payload ≠ .ok m := fun m h => by rw [hm] at h; cases h
      cases h with
      | noMeta h => exact no _ (metaOf_lacks h)
      | noLanguage m' h1 h2 => obtain ⟨m, h3, _⟩ := metaOf_at h1 h2; exact no _ h3
      | empty v h1 h2 => obtain ⟨m, h3, _⟩ := (at_meta _ _ _).1 h1; exact no _ h3
      | names ls ns h1 _ _ => obtain ⟨m, h3, _⟩ := (at_meta _ _ _).1 h1; exact no _ h3
  | ok m =>
    -- what the two values are for given arguments
    have hlang : ∀ (L : MVal Json) (l dd : Dict PyStr (MVal Json)),
        ((L = .null ∧ l = []) ∨ ∃ ns, L = .many ns ∧ l = [("language".toList, .many ns)]) →
        (∀ e ∈ dd, e.1 = "publication_date".toList) → given (l ++ dd) "language".toList = L ∧
          given (l ++ dd) "publication_date".toList = given dd "publication_date".toList := by
      intro L l dd h hd
      have hdd : Dict.get? dd "language".toList = none := by
        rw [Dict.get?_eq_none_iff]
        intro hk
        obtain ⟨e, he, hek⟩ := List.mem_map.1 hk
        rw [hd e he] at hek
        exact hne hek
      rcases h with ⟨rfl, rfl⟩ | ⟨ns, rfl, rfl⟩
      · refine ⟨?_, rfl⟩
        unfold given
        rw [List.nil_append, hdd]
        rfl
      · refine ⟨given_self _ _ _, ?_⟩
        unfold given
        rw [List.singleton_append, Dict.get?_cons, if_neg hne']
    have hext : ∀ kw, redExtract n payload = .ok kw ↔ ∃ l, redLanguages m = .ok l ∧ kw = l ++ redDate m := by
      intro kw
      unfold redExtract
      rw [hm]
      dsimp only
      cases redLanguages m with
      | error e =>
        constructor
        · intro h; cases h
        · rintro ⟨l, h, _⟩; cases h
      | ok l =>
        constructor
        · intro h; cases h; exact ⟨l, rfl, rfl⟩
        · rintro ⟨l', h, rfl⟩; cases h; rfl
    have allowedL : ∀ L : MVal Json, (L = .null ∨ ∃ ns, L = .many ns) →
        Allowed ⟨"language".toList, false, true, true, none⟩ L ∧
          stored (⟨"language".toList, false, true, true, none⟩ : MProp Json) L = L := by
      rintro L (rfl | ⟨ns, rfl⟩)
      · exact ⟨⟨fun _ => rfl, fun _ => rfl, fun _ h => by cases h⟩, rfl⟩
      · exact ⟨⟨fun _ => rfl, fun _ => rfl, fun _ h => by cases h⟩, rfl⟩
    rcases redDate_ok payload m hm with ⟨l', h1, h2⟩ | ⟨D, h1, h2⟩
    · constructor
      · rintro ⟨kw, h3, h4, _⟩
        exfalso
        obtain ⟨l, h5, rfl⟩ := (hext kw).1 h3
        obtain ⟨L, h6, h7⟩ := (redLanguages_ok payload m hm l).1 h5
        have h8 := (h4 ⟨"publication_date".toList, false, false, true, none⟩ (List.mem_cons_of_mem _ List.mem_cons_self)).2.1
        rw [h1] at h8
        dsimp only at h8
        rw [(hlang L l _ h7 (by simp)).2, given_self] at h8
        exact absurd (h8 ⟨l', rfl⟩) (by simp)
      · rintro ⟨L, D, _, h, _⟩
        exact absurd h (h2 D)
    · have hdd : ∀ e ∈ redDate m, e.1 = "publication_date".toList := by
        rcases h2 with ⟨_, e⟩ | ⟨v, _, e⟩ <;> rw [e] <;> simp
      have hgd : given (redDate m) "publication_date".toList = D := by
        rcases h2 with ⟨rfl, e⟩ | ⟨v, rfl, e⟩
        · rw [e]; rfl
        · rw [e]; exact given_self _ _ _
      have allowedD : Allowed ⟨"publication_date".toList, false, false, true, none⟩ D ∧
          stored (⟨"publication_date".toList, false, false, true, none⟩ : MProp Json) D = D := by
        rcases h2 with ⟨rfl, _⟩ | ⟨v, rfl, _⟩
        · exact ⟨⟨fun _ => rfl, (by rintro ⟨l, h⟩; cases h), fun _ h => by cases h⟩, rfl⟩
        · exact ⟨⟨fun _ => rfl, (by rintro ⟨l, h⟩; cases h), fun _ h => by cases h⟩, rfl⟩
      constructor
      · rintro ⟨kw, h3, h4, rfl⟩
        obtain ⟨l, h5, rfl⟩ := (hext kw).1 h3
        obtain ⟨L, h6, h7⟩ := (redLanguages_ok payload m hm l).1 h5
        obtain ⟨g1, g2⟩ := hlang L l _ h7 hdd
        refine ⟨L, D, h6, (h1 D).2 rfl, ?_⟩
        have hL : L = .null ∨ ∃ ns, L = .many ns := by
          rcases h7 with ⟨e, _⟩ | ⟨ns, e, _⟩
          · exact Or.inl e
          · exact Or.inr ⟨ns, e⟩
        simp only [redProps, List.map_cons, List.map_nil, g1, g2, hgd, (allowedL L hL).2, allowedD.2]
        rfl
      · rintro ⟨L, D', h3, h4, rfl⟩
        obtain rfl := (h1 D').1 h4
        obtain ⟨l, hl⟩ : ∃ l : Dict PyStr (MVal Json), ((L = .null ∧ l = []) ∨ ∃ ns, L = .many ns ∧ l = [("language".toList, .many ns)]) := by
          cases h3 with
          | names ls ns _ _ _ => exact ⟨_, Or.inr ⟨ns, rfl, rfl⟩⟩
          | _ => exact ⟨[], Or.inl ⟨rfl, rfl⟩⟩
        have h5 := (redLanguages_ok payload m hm l).2 ⟨L, h3, hl⟩
        obtain ⟨g1, g2⟩ := hlang L l _ hl hdd
        have hL : L = .null ∨ ∃ ns, L = .many ns := by
          rcases hl with ⟨e, _⟩ | ⟨ns, e, _⟩
          · exact Or.inl e
          · exact Or.inr ⟨ns, e⟩
        refine ⟨l ++ redDate m, (hext _).2 ⟨l, h5, rfl⟩, ?_, ?_⟩
        · intro q hq
          simp only [redProps, List.mem_cons, List.not_mem_nil, or_false] at hq
          rcases hq with rfl | rfl
          · dsimp only
            rw [g1]
            exact (allowedL L hL).1
          · dsimp only
            rw [g2, hgd]
            exact allowedD.1
        · simp only [redProps, List.map_cons, List.map_nil, g1, g2, hgd, (allowedL L hL).2, allowedD.2]
          rfl

/-- **C73 fails for `"meta": null`**: RedPajama's properties are optional, and a line without `meta` is accepted, but a line
whose `meta` is `null` raises, and with it the whole registration. -/
theorem c73_null_meta (n : Nat) :
    (∃ r, Builtin.red.parse n (.obj []) = .ok r) ∧ ∀ r, Builtin.red.parse n (.obj [("meta".toList, .null)]) ≠ .ok r := by
  have hl : Lacks (.obj []) "meta".toList := ⟨[], rfl, by simp⟩
  refine ⟨⟨_, (c73_redpajama n _ _).2 ⟨.null, .null, .noMeta hl, .noMeta hl, rfl⟩⟩, fun r h => ?_⟩
  obtain ⟨kw, h1, _⟩ := (builtin_parse _ _ _ _).1 h
  cases h1

/-! ## The factory -/

/-- Specification: the class registered under a name after a history of calls, most recent call first: a removal leaves none,
an addition takes effect if it overwrites or if there was none. -/
def registered {γ : Type} (initial : PyStr → Option γ) (name : PyStr) : List (FOp γ) → Option γ
  | [] => initial name
  | .remove n :: ops => if n = name then none else registered initial name ops
  | .add n c overwrite :: ops =>
    if n = name then
      (if overwrite then some c else match registered initial name ops with
        | some c' => some c'
        | none => some c)
    else registered initial name ops

theorem runFactory_spec {γ : Type} (r : Registry γ) (hn : r.keys.Nodup) (ops : List (FOp γ)) :
    (runFactory r ops).keys.Nodup ∧ ∀ name, (runFactory r ops).get? name = registered (r.get? ·) name ops.reverse := by
  induction ops using List.reverseRecOn with
  | nil => exact ⟨hn, fun _ => rfl⟩
  | append_singleton ops op ih =>
    obtain ⟨ih1, ih2⟩ := ih
    have hrun : runFactory r (ops ++ [op]) = FOp.step (runFactory r ops) op := by simp [runFactory]
    rw [hrun, List.reverse_append]
    simp only [List.reverse_singleton, List.singleton_append]
    generalize runFactory r ops = s at ih1 ih2 ⊢
    cases op with
    | add n c o =>
      simp only [FOp.step, addParser]
      constructor
      · split
        · exact Dict.nodup_keys_upsert ih1 _ _
        · exact ih1
      · intro name
        simp only [registered]
        split
        · rename_i h
          rw [Dict.get?_set]
          split
          · rename_i hname
            subst hname
            cases o with
            | true => rfl
            | false =>
              simp only [Bool.or_false, Bool.not_eq_true', Dict.has] at h
              rw [← ih2]
              cases hg : s.get? n with
              | none => rfl
              | some c' => rw [hg] at h; cases h
          · exact ih2 name
        · rename_i h
          split
          · rename_i hname
            subst hname
            cases o with
            | true => simp at h
            | false =>
              simp only [Bool.or_false, Bool.not_eq_true', Dict.has, Bool.not_eq_false] at h
              rw [← ih2]
              cases hg : s.get? n with
              | none => rw [hg] at h; cases h
              | some c' => simp
          · exact ih2 name
    | remove n =>
      simp only [FOp.step, removeParser]
      constructor
      · split
        · exact Dict.nodup_keys_pop ih1 _
        · exact ih1
      · intro name
        simp only [registered]
        split
        · rw [Dict.get?_pop ih1]
          split
          · rfl
          · exact ih2 name
        · rename_i h
          split
          · rename_i hname
            subst hname
            simp only [Dict.has, Bool.not_eq_true, Option.isSome_eq_false_iff, Option.isNone_iff_eq_none] at h
            exact h
          · exact ih2 name

/-- **C73, the factory**: after any history of additions and removals, `create_metadata_parser` creates an instance of the
class that was registered last and raises exactly if there is none; and `add_parser` reports success exactly if the class
it was given is now the one registered by this call. -/
theorem c73_factory {γ : Type} (r : Registry γ) (hn : r.keys.Nodup) (ops : List (FOp γ)) (name : PyStr) :
    (∀ c, createParser (runFactory r ops) name = .ok c ↔ registered (r.get? ·) name ops.reverse = some c) ∧
      ∀ c o, (addParser (runFactory r ops) name c o).2 = true ↔ registered (r.get? ·) name ops.reverse = none ∨ o = true := by
  obtain ⟨_, h⟩ := runFactory_spec r hn ops
  rw [← h name]
  constructor
  · intro c
    unfold createParser
    cases (runFactory r ops).get? name with
    | none =>
      constructor
      · intro e; cases e
      · intro e; cases e
    | some c' =>
      constructor
      · intro e; cases e; rfl
      · intro e; cases e; rfl
  · intro c o
    unfold addParser Dict.has
    cases (runFactory r ops).get? name <;> cases o <;> simp

/-! ### Concrete cases -/

/-- A line of RedPajama with two languages. -/
def exampleLine : Json :=
  .obj [("text".toList, .str "abc".toList), ("meta".toList, .obj [("language".toList, .arr
    [.obj [("name".toList, .str "C".toList), ("bytes".toList, .num 10)], .obj [("name".toList, .str "Make".toList)]]),
    ("publication_date".toList, .str "2020".toList)])]

example : Builtin.red.parse 7 exampleLine = .ok [("sample_id".toList, .num 7),
    ("language".toList, .val (.many [.str "C".toList, .str "Make".toList])),
    ("publication_date".toList, .val (.one (.str "2020".toList)))] := by
  rw [c73_redpajama]
  refine ⟨_, _, .names _ _ ((at_meta _ _ _).2 ⟨_, rfl, rfl⟩) (by simp) (.cons ((at_one _ _ _).2 ⟨_, rfl, rfl⟩)
    (.cons ((at_one _ _ _).2 ⟨_, rfl, rfl⟩) .nil)), .date _ ((at_meta _ _ _).2 ⟨_, rfl, rfl⟩) ?_ (by simp), rfl⟩
  rw [← not_truthy]
  exact (by simp [truthy])

example : ∃ r, Builtin.slim.parse 3 (.obj [("meta".toList, .obj [("redpajama_set_name".toList,
    .str "RedPajamaC4".toList)])]) = .ok r :=
  ⟨_, (c73_slim _ _ _).2 ⟨"RedPajamaC4", by decide +kernel, (at_meta _ _ _).2 ⟨_, rfl, rfl⟩, rfl⟩⟩

example : createParser (runFactory [("PILE".toList, 1)] [.add "PILE".toList 2 false, .add "MY".toList 3 false,
    .remove "PILE".toList, .add "PILE".toList 4 false]) "PILE".toList = .ok 4 := by decide +kernel

end Mixtera.Meta
