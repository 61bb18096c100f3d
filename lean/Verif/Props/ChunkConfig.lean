import Verif.Props.Chunks
import Verif.Props.Mixture
import Verif.Props.Window
import Verif.Props.Readers
import Verif.Lemmas.Listed
import Verif.Model.ChunkConfig

/-!
# C76: a delivered chunk can be configured and read

`configureChunk` is `configure_result_streaming`; `iterateChunk` is the iteration over the configured chunk.
-/

set_option linter.unusedSectionVars false

namespace Mixtera

variable {K : Type} [DecidableEq K]

/-! ## Specification -/

/-- The arguments the documentation allows: one of the three kinds of mixture; tunnelling only from a client of a server;
for tokens a sequence length, a batch size, and the name of a tokenizer that can be loaded in one of five attempts. -/
structure ValidArgs (isStub : Bool) (loads : Nat → Bool) (args : StreamArgs) : Prop where
  kind : args.mixtureType = "simple" ∨ args.mixtureType = "window" ∨ args.mixtureType = "token"
  tunnel : args.tunnel = true → isStub = true
  token : args.mixtureType = "token" →
    1 ≤ args.sequenceLen ∧ args.tokenizer ≠ "" ∧ (∃ i < 5, loads i = true) ∧ 1 ≤ args.tokenizationBs

/-- The requested mixture names no key with zero rows; a request without mixture asks for chunks that are not empty. -/
structure SoundRequest (v : MixView K) : Prop where
  rows : ∀ kv ∈ v.rows, kv.2 ≠ 0
  size : v.rows = [] → 0 < v.chunkSize

/-! ## Proofs -/

theorem sameKeys_iff {a b : List K} (ha : a.Nodup) (hb : b.Nodup) : sameKeys a b = true ↔ ∀ k, k ∈ a ↔ k ∈ b := by
  unfold sameKeys
  simp only [Bool.and_eq_true, beq_iff_eq, List.all_eq_true, decide_eq_true_eq]
  constructor
  · rintro ⟨h1, h2⟩ k
    have hp : a.Perm b := (List.subperm_of_subset ha h2).perm_of_length_le (by omega)
    exact hp.mem_iff
  · intro h
    exact ⟨((List.perm_ext_iff_of_nodup ha hb).mpr h).length_eq, fun k hk => (h k).mp hk⟩

theorem dropZeros_keys {m : Dict K Nat} (hn : m.keys.Nodup) :
    (dropZeros m).keys.Nodup ∧ ∀ k, k ∈ (dropZeros m).keys ↔ ∃ n, 0 < n ∧ m.get? k = some n := by
  have key : ∀ k, (∃ n, 0 < n ∧ m.get? k = some n) ↔ ∃ n, 0 < n ∧ (k, n) ∈ m := fun k =>
    ⟨fun ⟨n, h, hg⟩ => ⟨n, h, Dict.mem_of_get? hg⟩, fun ⟨n, h, hg⟩ => ⟨n, h, Dict.get?_of_mem hn hg⟩⟩
  unfold dropZeros
  split
  · refine ⟨hn.sublist (List.filter_sublist.map _), fun k => ?_⟩
    rw [key]
    simp only [Dict.keys, List.mem_map, List.mem_filter, decide_eq_true_eq]
    constructor
    · rintro ⟨⟨a, n⟩, ⟨h1, h2⟩, rfl⟩; exact ⟨n, h2, h1⟩
    · rintro ⟨n, h1, h2⟩; exact ⟨(k, n), ⟨h2, h1⟩, rfl⟩
  · rename_i h
    rw [Bool.not_eq_true, List.any_eq_false] at h
    refine ⟨hn, fun k => ?_⟩
    rw [key]
    simp only [Dict.keys, List.mem_map]
    constructor
    · rintro ⟨⟨a, n⟩, h1, rfl⟩
      have := h n (List.mem_map_of_mem (f := Prod.snd) h1)
      simp only [beq_iff_eq] at this
      exact ⟨n, by omega, h1⟩
    · rintro ⟨n, h1, h2⟩; exact ⟨(k, n), h2, rfl⟩

theorem mixtureInUse_some {kind : String} {degree : Int} {c : RChunk K} {m : Dict K Nat} (h : c.mixture = some m)
    (hne : m ≠ []) : mixtureInUse kind degree c = .ok (some m) := by
  unfold mixtureInUse needsMixture
  rw [h]
  have : m.isEmpty = false := by cases m with
    | nil => exact absurd rfl hne
    | cons => rfl
  simp [this]

/-- The facts about a chunk delivered under a mixture that matter here. -/
theorem mix_listed {ops : KeyOps K} {iters iters' : Dict K (List Seg)} {v : MixView K} {c : RChunk K}
    (hn : v.rows.keys.Nodup) (h : MixChunk ops iters v c iters') :
    ∃ m, c.mixture = some m ∧ m ≠ [] ∧ m.keys.Nodup ∧ c.content.keys.Nodup ∧
      (∀ k, (keySamples c.content k).length = (m.get? k).getD 0) ∧
      m.values.sum = v.rows.values.sum ∧ (∀ k ∈ m.keys, k ∈ v.rows.keys) ∧
      (∀ k, k ∈ c.content.keys → k ∈ v.rows.keys) ∧
      (∀ k, v.rows.get? k ≠ some 0 → (k ∈ m.keys → 0 < (m.get? k).getD 0) ∧
        (k ∈ c.content.keys → 0 < (keySamples c.content k).length)) ∧
      ((∃ x ∈ v.rows.values, x ≠ 0) → ∀ k ∈ m.keys, k ∈ c.content.keys ∨
        ∀ comp ∈ iters'.keys, ops.isMatch k comp = true → samples (itOf iters' comp) = []) := by
  obtain ⟨att, hsp, hc, hmx, hit, hatt⟩ := h.ex
  have hlen : ∀ k, (keySamples c.content k).length = entW sizeW (att.ce k) := by
    intro k
    rw [keySamples, length_entriesSamples]
    simp only [Att.ce, hc]
  refine ⟨att.mixture, hmx, ?_, hsp.inv.mixNodup, hc ▸ hsp.inv.chunkNodup, ?_, hsp.inv.sum (hsp.ne rfl), hsp.inv.mixSub,
    fun k hk => hsp.inv.chunkSub k (hc ▸ hk), ?_, ?_⟩
  · intro h0
    obtain ⟨⟨k, x⟩, l, hl⟩ := List.exists_cons_of_ne_nil (hsp.ne rfl)
    have := hsp.inv.remMix k (by rw [hl]; simp [Dict.keys])
    rw [h0] at this
    simp [Dict.keys] at this
  · intro k
    have := hsp.inv.bal k
    rw [hsp.done rfl k] at this
    rw [hlen]
    simpa [Att.mix] using this
  · intro k hk
    have hok := attempt_keyOk ops iters v hn att true hatt k hk
    exact ⟨hok.mix, fun h => by rw [hlen]; exact hok.chunk (hc ▸ h)⟩
  · intro hx k hk
    by_cases hr : k ∈ att.remaining.keys
    · rcases attempt_visits ops iters v att true hatt hx k hr with h1 | h1
      · exact .inl (hc ▸ h1)
      · exact .inr (by rw [← hit]; exact h1)
    · exact .inr (by rw [← hit]; exact hsp.inv.popped k (hsp.inv.mixSub k hk) hr)

theorem content_of_pos {content : Dict K Entries} {k : K} (h : 0 < (keySamples content k).length) : k ∈ content.keys := by
  by_contra hk
  rw [keySamples, (Dict.get?_eq_none_iff _ _).mpr hk] at h
  simp [entriesSamples] at h

/-- **C76** (what is listed). A delivered chunk lists every key to which the reported mixture gives samples; and it lists a
key that was not requested with zero rows only if the reported mixture gives it samples. -/
theorem c76_listed (ops : KeyOps K) (replay : Bool) (index : Dict K Entries) (order : List K)
    (hi : IndexOk index order) (history : List (Req K)) (hh : ∀ r ∈ history, HeapOk r.heap)
    (r : Req K) (hr : HeapOk r.heap) (g g' : Gen K) (c : RChunk K)
    (hg : g = after ops replay index order history)
    (h : g.send ops r.fuel replay r.heap r.mix r.target = (g', .chunk c))
    (hne : (g.eff r).rows ≠ []) :
    ∃ m, c.mixture = some m ∧
      (∀ k n, m.get? k = some n → 0 < n → k ∈ c.content.keys) ∧
      ∀ k ∈ c.content.keys, (g.eff r).rows.get? k ≠ some 0 → ∃ n, 0 < n ∧ m.get? k = some n := by
  have hgi : GenInv g := hg ▸ after_inv ops replay hi history hh
  obtain ⟨g1, _, _, ⟨_, hm⟩ | ⟨h0, _⟩⟩ := chunk_facts ops replay hgi r hr h
  · obtain ⟨m, h1, -, h3, -, h5, -, -, -, h8, -⟩ := mix_listed (hr _) hm
    refine ⟨m, h1, ?_, ?_⟩
    · intro k n hk hn
      refine content_of_pos ?_
      rw [h5 k, hk]; exact hn
    · intro k hk hk0
      have h9 := (h8 k hk0).2 hk
      rw [h5 k] at h9
      cases hg2 : m.get? k with
      | none => rw [hg2] at h9; simp at h9
      | some n => rw [hg2] at h9; exact ⟨n, h9, rfl⟩
  · exact absurd h0 hne

theorem parse_single (key : K) (n : Nat) : parseUserMixture n [(key, (1 : ℚ))] = .ok [(key, n)] := by
  have hf : floorCounts n [(key, (1 : ℚ))] = [(key, n)] := by
    have hp : pyInt ((n : Nat) : ℚ) = (n : Int) := by
      rw [pyInt, if_pos (Nat.cast_nonneg n)]
      exact Int.floor_natCast n
    simp [floorCounts, hp]
  unfold parseUserMixture
  rw [hf]
  simp [Dict.values, addRemainder]

theorem infer_single (key : K) (e : Entries) (h : 0 < entriesSize e) :
    inferChunkMixture [(key, e)] = .ok [(key, entriesSize e)] := by
  have hq : ((entriesSize e : Nat) : ℚ) ≠ 0 := by exact_mod_cast h.ne'
  have h1 : inferMixture [(key, e)] = .ok (entriesSize e, [(key, (1 : ℚ))]) := by
    unfold inferMixture
    simp [Dict.values, h.ne']
  unfold inferChunkMixture
  rw [h1]
  show staticMixture _ _ = _
  unfold staticMixture
  have hc : closeToOne (Dict.values [(key, (1 : ℚ))]).sum := by
    simp [Dict.values, closeToOne]
  rw [if_neg (not_not.mpr hc)]
  have hm : ([(key, (1 : ℚ))].map fun kv => (kv.1, kv.2 / (Dict.values [(key, (1 : ℚ))]).sum)) = [(key, (1 : ℚ))] := by
    simp [Dict.values]
  rw [hm]
  exact parse_single key _

/-- The mixture `mm` describes the content: the same keys, and as many samples of each as the chunk lists, at least one. -/
structure DescribesChunk (mm : Dict K Nat) (content : Dict K Entries) : Prop where
  nodup : mm.keys.Nodup
  keys : ∀ k, k ∈ mm.keys ↔ k ∈ content.keys
  pos : ∀ kv ∈ mm, 0 < kv.2
  counts : ∀ k, (keySamples content k).length = (mm.get? k).getD 0

theorem dropZeros_of_pos {m : Dict K Nat} (h : ∀ kv ∈ m, 0 < kv.2) : dropZeros m = m := by
  unfold dropZeros
  rw [if_neg]
  rw [Bool.not_eq_true, List.any_eq_false]
  intro x hx
  obtain ⟨kv, hkv, rfl⟩ := List.mem_map.mp hx
  have := h kv hkv
  simp only [beq_iff_eq]; omega

theorem checked_of_describes {mm : Dict K Nat} {content : Dict K Entries} (hn : content.keys.Nodup)
    (h : DescribesChunk mm content) : checkedMixture content (some mm) = .ok (some mm) := by
  unfold checkedMixture
  simp only [dropZeros_of_pos h.pos]
  rw [if_pos ((sameKeys_iff h.nodup hn).mpr h.keys)]

/-- What a delivered chunk of a sound request is read with. -/
theorem delivered_reads (ops : KeyOps K) (replay : Bool) {index : Dict K Entries} {order : List K}
    (hi : IndexOk index order) {history : List (Req K)} (hh : ∀ r ∈ history, HeapOk r.heap)
    {r : Req K} (hr : HeapOk r.heap) {g g' : Gen K} {c : RChunk K}
    (hg : g = after ops replay index order history)
    (h : g.send ops r.fuel replay r.heap r.mix r.target = (g', .chunk c)) (hs : SoundRequest (g.eff r))
    (kind : String) (degree : Int) :
    c.content.keys.Nodup ∧ c.chunkSize = (g.eff r).chunkSize ∧
    ∃ m, mixtureInUse kind degree c = .ok m ∧ checkedMixture c.content m = .ok m ∧
      (kind = "window" ∨ kind = "token" → m ≠ none) ∧
      ∀ mm, m = some mm → mm ≠ [] ∧ DescribesChunk mm c.content ∧
        ((g.eff r).rows.values.sum ≤ (g.eff r).chunkSize → mm.values.sum ≤ (g.eff r).chunkSize) := by
  have hgi : GenInv g := hg ▸ after_inv ops replay hi history hh
  obtain ⟨g1, _, _, ⟨_, hm⟩ | ⟨h0, hm⟩⟩ := chunk_facts ops replay hgi r hr h
  · obtain ⟨m, h1, h2, h3, h4, h5, h6, h7, h8, h9, -⟩ := mix_listed (hr _) hm
    have hk0 : ∀ k, (g.eff r).rows.get? k ≠ some 0 := fun k hk => hs.rows _ (Dict.mem_of_get? hk) rfl
    have hd : DescribesChunk m c.content := by
      refine ⟨h3, fun k => ⟨fun hk => ?_, fun hk => ?_⟩, ?_, h5⟩
      · refine content_of_pos ?_
        rw [h5]; exact (h9 k (hk0 k)).1 hk
      · have := (h9 k (hk0 k)).2 hk
        rw [h5] at this
        by_contra hno
        rw [(Dict.get?_eq_none_iff _ _).mpr hno] at this
        simp at this
      · rintro ⟨k, n⟩ hkn
        have := (h9 k (hk0 k)).1 (List.mem_map_of_mem (f := Prod.fst) hkn)
        rw [Dict.get?_of_mem h3 hkn] at this
        exact this
    refine ⟨h4, hm.size, some m, mixtureInUse_some h1 h2, checked_of_describes h4 hd, by simp, ?_⟩
    rintro mm ⟨rfl⟩
    exact ⟨h2, hd, fun hle => by rw [h6]; exact hle⟩
  · obtain ⟨key, out, hc, -, -, hout, -, hne, -⟩ := hm.ex
    have hsz : entriesSize (nestSegs out) = (samples out).length := entriesSize_nestSegs out
    have hle : (samples out).length ≤ (g.eff r).chunkSize := by
      rw [hout, List.length_take]; omega
    have hpos : 0 < entriesSize (nestSegs out) := by
      rw [hsz, hout, List.length_take]
      have := List.length_pos_iff.mpr hne
      have := hs.size h0
      omega
    have hnd : c.content.keys.Nodup := by rw [hc]; simp [Dict.keys]
    refine ⟨hnd, hm.size, ?_⟩
    unfold mixtureInUse
    by_cases hneed : needsMixture kind degree c.mixture = true
    · rw [if_pos hneed, hc, infer_single key _ hpos]
      have hd : DescribesChunk [(key, entriesSize (nestSegs out))] c.content := by
        refine ⟨by simp [Dict.keys], fun k => by rw [hc]; simp [Dict.keys], ?_, ?_⟩
        · intro kv hkv
          simp only [List.mem_singleton] at hkv
          subst hkv; exact hpos
        · intro k
          rw [keySamples, hc, Dict.get?_cons, Dict.get?_cons]
          split
          · simp only [Option.getD_some]
            rw [length_entriesSamples, entriesSize_eq]
          · simp [entriesSamples]
      refine ⟨some [(key, entriesSize (nestSegs out))], rfl, ?_, by simp, ?_⟩
      · rw [← hc]; exact checked_of_describes hnd hd
      · rintro mm ⟨rfl⟩
        refine ⟨by simp, hc ▸ hd, fun _ => ?_⟩
        simp [Dict.values, hsz]; exact hle
    · rw [if_neg hneed, hm.mixture]
      refine ⟨none, rfl, rfl, ?_, by simp⟩
      intro hk
      exfalso
      apply hneed
      unfold needsMixture
      rw [hm.mixture]
      rcases hk with rfl | rfl <;> simp

/-- What `configureChunk` does once the mixture is accepted. -/
theorem configure_ok_iff (isStub : Bool) (loads : Nat → Bool) (args : StreamArgs) (c : RChunk K) (cfg : Configured K) :
    configureChunk isStub loads args c = .ok cfg ↔
      ValidArgs isStub loads args ∧ ∃ m0 m, mixtureInUse args.mixtureType (max 1 args.degree) c = .ok m0 ∧
        checkedMixture c.content m0 = .ok m ∧
        cfg = { viaServer := args.tunnel, degree := max 1 args.degree, mixtureType := args.mixtureType
                window := if args.mixtureType = "token" then (c.chunkSize : Int)
                  else if args.mixtureType = "window" then chosenWindow args.window c.chunkSize else args.window
                bestEffort := if args.mixtureType = "token" then false else args.bestEffort
                mixture := m
                sequenceLen := if args.mixtureType = "token" then args.sequenceLen else -1
                tokenizationBs := if args.mixtureType = "token" then args.tokenizationBs else -1 } := by
  have hdeg : (if args.degree < 1 then 1 else args.degree) = max 1 args.degree := by
    split <;> omega
  unfold configureChunk
  simp only [hdeg]
  by_cases hk : args.mixtureType = "simple" ∨ args.mixtureType = "window" ∨ args.mixtureType = "token"
  · rw [if_neg (not_not.mpr hk)]
    by_cases ht : args.tunnel = true ∧ isStub = false
    · rw [if_pos ht]
      constructor
      · intro h; cases h
      · rintro ⟨hv, -⟩
        have := hv.tunnel ht.1
        rw [ht.2] at this; cases this
    · rw [if_neg ht]
      have ht' : args.tunnel = true → isStub = true := fun h1 => by
        cases h2 : isStub with
        | true => rfl
        | false => exact absurd ⟨h1, h2⟩ ht
      cases hm : mixtureInUse args.mixtureType (max 1 args.degree) c with
      | error e =>
        constructor
        · intro h; cases h
        · rintro ⟨-, m0, m, h, -⟩; cases h
      | ok m0 =>
        dsimp only
        cases hc : checkedMixture c.content m0 with
        | error e =>
          constructor
          · intro h; cases h
          · rintro ⟨-, m0', m, h, h2, -⟩
            cases h
            rw [hc] at h2; cases h2
        | ok m =>
          dsimp only
          by_cases htok : args.mixtureType = "token"
          · simp only [if_pos htok]
            have hwin : ¬ args.mixtureType = "window" := by rw [htok]; decide
            unfold tokenOptions
            by_cases h1 : args.sequenceLen < 1
            · rw [if_pos h1]
              exact ⟨fun h => by (cases h), fun ⟨hv, _⟩ => absurd (hv.token htok).1 (by omega)⟩
            · rw [if_neg h1]
              by_cases h2 : args.tokenizer = ""
              · rw [if_pos h2]
                exact ⟨fun h => by (cases h), fun ⟨hv, _⟩ => absurd h2 (hv.token htok).2.1⟩
              · rw [if_neg h2]
                by_cases h3 : tokenizerLoads loads = false
                · rw [if_pos h3]
                  refine ⟨fun h => by (cases h), fun ⟨hv, _⟩ => ?_⟩
                  obtain ⟨i, hi, hl⟩ := (hv.token htok).2.2.1
                  unfold tokenizerLoads at h3
                  rw [List.any_eq_false] at h3
                  exact absurd hl (h3 i (List.mem_range.mpr hi))
                · rw [if_neg h3]
                  by_cases h4 : args.tokenizationBs < 1
                  · rw [if_pos h4]
                    exact ⟨fun h => by (cases h), fun ⟨hv, _⟩ => absurd (hv.token htok).2.2.2 (by omega)⟩
                  · rw [if_neg h4]
                    simp only [Bool.not_eq_false] at h3
                    unfold tokenizerLoads at h3
                    obtain ⟨i, hi, hl⟩ := List.any_eq_true.mp h3
                    constructor
                    · intro h
                      injection h with h
                      subst h
                      exact ⟨⟨hk, ht', fun _ => ⟨by omega, h2, ⟨i, List.mem_range.mp hi, hl⟩, by omega⟩⟩, m0, m, rfl, hc, rfl⟩
                    · rintro ⟨-, m0', m', e1, e2, rfl⟩
                      cases e1
                      rw [hc] at e2; cases e2
                      rfl
          · simp only [if_neg htok]
            constructor
            · intro h
              injection h with h
              subst h
              exact ⟨⟨hk, ht', fun h => absurd h htok⟩, m0, m, rfl, hc, rfl⟩
            · rintro ⟨-, m0', m', e1, e2, rfl⟩
              cases e1
              rw [hc] at e2; cases e2
              rfl
  · rw [if_pos hk]
    constructor
    · intro h; cases h
    · rintro ⟨hv, -⟩; exact absurd hv.kind hk

/-- **C76** (configuring). For every query result, every history of requests and every delivered chunk whose request names
no key with zero rows: configuring the chunk for streaming succeeds exactly if the arguments are valid.

Partial: mixtures with zero-valued keys; see `c76_zero_row_fails`. -/
theorem c76_configures_partial (ops : KeyOps K) (replay : Bool) (index : Dict K Entries) (order : List K)
    (hi : IndexOk index order) (history : List (Req K)) (hh : ∀ r ∈ history, HeapOk r.heap)
    (r : Req K) (hr : HeapOk r.heap) (g g' : Gen K) (c : RChunk K)
    (hg : g = after ops replay index order history)
    (h : g.send ops r.fuel replay r.heap r.mix r.target = (g', .chunk c)) (hs : SoundRequest (g.eff r))
    (isStub : Bool) (loads : Nat → Bool) (args : StreamArgs) :
    (∃ cfg, configureChunk isStub loads args c = .ok cfg) ↔ ValidArgs isStub loads args := by
  obtain ⟨-, -, m, h1, h2, -⟩ := delivered_reads ops replay hi hh hr hg h hs args.mixtureType (max 1 args.degree)
  constructor
  · rintro ⟨cfg, h⟩
    exact ((configure_ok_iff ..).mp h).1
  · intro hv
    exact ⟨_, (configure_ok_iff ..).mpr ⟨hv, m, m, h1, h2, rfl⟩⟩

/-- **C76** (settings). Whatever the chunk, a successful configuration uses at least one process, and otherwise the
requested number; by windows, the requested size if it is positive and at most the size of the chunk, the size of the
chunk if more was requested, and 128 if what was requested is not positive; for tokens one window of the size of the
chunk, without best effort. -/
theorem c76_settings (isStub : Bool) (loads : Nat → Bool) (args : StreamArgs) (c : RChunk K) (cfg : Configured K)
    (h : configureChunk isStub loads args c = .ok cfg) :
    cfg.mixtureType = args.mixtureType ∧ cfg.viaServer = args.tunnel ∧
    (1 ≤ args.degree → cfg.degree = args.degree) ∧ (args.degree < 1 → cfg.degree = 1) ∧
    (args.mixtureType = "window" → cfg.bestEffort = args.bestEffort ∧ 1 ≤ cfg.window ∧
      (1 ≤ args.window → args.window ≤ c.chunkSize → cfg.window = args.window) ∧
      (1 ≤ c.chunkSize → (c.chunkSize : Int) < args.window → cfg.window = c.chunkSize) ∧
      (args.window < 1 → cfg.window = 128)) ∧
    (args.mixtureType = "token" → cfg.bestEffort = false ∧ cfg.window = c.chunkSize ∧
      cfg.sequenceLen = args.sequenceLen ∧ cfg.tokenizationBs = args.tokenizationBs) := by
  obtain ⟨-, m0, m, -, -, rfl⟩ := (configure_ok_iff ..).mp h
  refine ⟨rfl, rfl, fun h => ?_, fun h => ?_, fun hw => ?_, fun ht => ?_⟩
  · show max 1 args.degree = _; omega
  · show max 1 args.degree = _; omega
  · have ht : ¬ args.mixtureType = "token" := by rw [hw]; decide
    simp only [if_neg ht, if_pos hw, chosenWindow]
    refine ⟨trivial, ?_, fun h1 h2 => ?_, fun h1 h2 => ?_, fun h1 => ?_⟩ <;> split <;> (try split) <;> (try split at *) <;>
      omega
  · simp only [if_pos ht]
    exact ⟨trivial, trivial, trivial, trivial⟩

theorem dropZeros_eq (m : Dict K Nat) : dropZeros m = m.filter fun kv => decide (0 < kv.2) := by
  unfold dropZeros
  split
  · rfl
  · rename_i h
    rw [Bool.not_eq_true, List.any_eq_false] at h
    refine (List.filter_eq_self.mpr ?_).symm
    intro kv hkv
    have := h kv.2 (List.mem_map_of_mem hkv)
    simp only [beq_iff_eq] at this
    exact decide_eq_true (by omega)

theorem dict_ext_of_keys {V : Type} : ∀ {a b : Dict K V}, a.keys = b.keys → a.keys.Nodup →
    (∀ k x y, a.get? k = some x → b.get? k = some y → x = y) → a = b := by
  intro a
  induction a with
  | nil => intro b h _ _; cases b with
    | nil => rfl
    | cons => cases h
  | cons p a ih =>
    intro b h hn hg
    cases b with
    | nil => cases h
    | cons q b =>
      obtain ⟨k, x⟩ := p
      obtain ⟨k', y⟩ := q
      simp only [Dict.keys, List.map_cons, List.cons.injEq] at h
      obtain ⟨rfl, h⟩ := h
      simp only [Dict.keys, List.map_cons, List.nodup_cons] at hn
      have h0 := hg k x y (by simp [Dict.get?]) (by simp [Dict.get?])
      subst h0
      congr 1
      refine ih h hn.2 ?_
      intro j u v hu hv
      by_cases hj : k = j
      · subst hj
        exact absurd ((Dict.mem_keys_iff _ _).mpr ⟨u, hu⟩) hn.1
      · exact hg j u v (by simp [Dict.get?, hj, hu]) (by simp [Dict.get?, hj, hv])

/-- The number of samples of every key, in the order of the chunk. -/
def sampleCounts (content : Dict K Entries) : Dict K Nat := content.map fun kv => (kv.1, (entriesSamples kv.2).length)

/-- Inferring a mixture from the chunk's contents gives exactly the number of samples of every key. -/
theorem inferChunk_exact {content : Dict K Entries} (hnd : content.keys.Nodup) {m : Dict K Nat}
    (h : inferChunkMixture content = .ok m) : m = sampleCounts content := by
  by_cases hne : contentSamples content = []
  · exfalso
    have h0 := masses_sum content
    rw [hne, List.length_nil] at h0
    unfold inferChunkMixture inferMixture at h
    simp only [h0, and_true] at h
    by_cases hc : content = []
    · subst hc
      simp only [ne_eq, not_true_eq_false, if_false, List.map_nil, staticMixture] at h
      rw [if_pos (by unfold closeToOne; simp [Dict.values]; norm_num)] at h
      cases h
    · rw [if_pos hc] at h; cases h
  · have hpos : 0 < (contentSamples content).length := List.length_pos_of_ne_nil hne
    have hposq : (0 : ℚ) < (contentSamples content).length := by exact_mod_cast hpos
    have hkeys : (shareOf content).keys = content.keys :=
      Dict.keys_mapVal (fun e => ((entriesSamples e).length : ℚ) / (contentSamples content).length) content
    obtain ⟨rows, h1, h2, h3⟩ := c21_static (contentSamples content).length (shareOf content) (by rw [hkeys]; exact hnd)
      (by
        intro kv hkv
        obtain ⟨x, _, rfl⟩ := List.mem_map.mp hkv
        positivity) (shareOf_sum content hpos)
    have hm : m = rows := by
      unfold inferChunkMixture at h
      rw [inferMixture_eq content hpos] at h
      simp only [h1] at h
      injection h with h; exact h.symm
    subst hm
    refine dict_ext_of_keys (by rw [h2.keys, hkeys]; simp [sampleCounts, Dict.keys]) (by rw [h2.keys, hkeys]; exact hnd) ?_
    intro k r r' hr hr'
    rw [sampleCounts, Dict.get?_mapVal (fun e => (entriesSamples e).length)] at hr'
    obtain ⟨e, he, rfl⟩ := Option.map_eq_some_iff.mp hr'
    refine h3 k _ r _ ?_ hr (mul_div_cancel₀ _ hposq.ne')
    unfold shareOf
    rw [Dict.get?_mapVal (fun e => ((entriesSamples e).length : ℚ) / (contentSamples content).length), he]
    rfl

/-- **C76** (the mixture). With which mixture a configured chunk is read: the one reported with the chunk, if there is one and it
is not empty, without its zero-valued keys; otherwise, if the chunk is read by windows or tokens or by several processes, the
numbers of samples of its keys; otherwise none (or the empty one). -/
theorem c76_mixture (isStub : Bool) (loads : Nat → Bool) (args : StreamArgs) (c : RChunk K) (hn : c.content.keys.Nodup)
    (cfg : Configured K) (h : configureChunk isStub loads args c = .ok cfg) :
    (∀ m, c.mixture = some m → m ≠ [] → cfg.mixture = some (m.filter fun kv => decide (0 < kv.2))) ∧
    ((c.mixture = none ∨ c.mixture = some []) →
      (args.mixtureType = "window" ∨ args.mixtureType = "token" ∨ 1 < args.degree →
        cfg.mixture = some (sampleCounts c.content)) ∧
      (args.mixtureType = "simple" → args.degree ≤ 1 → cfg.mixture = c.mixture)) := by
  obtain ⟨hv, m0, m, h1, h2, rfl⟩ := (configure_ok_iff ..).mp h
  have hchk : ∀ m', m0 = some m' → m = some (m'.filter fun kv => decide (0 < kv.2)) ∧
      sameKeys (dropZeros m').keys c.content.keys = true := by
    rintro m' rfl
    simp only [checkedMixture] at h2
    split at h2
    · rename_i hs
      injection h2 with h2
      exact ⟨by rw [← h2, dropZeros_eq], hs⟩
    · cases h2
  refine ⟨?_, ?_⟩
  · intro own hown hne
    have : m0 = some own := by
      rw [mixtureInUse_some hown hne] at h1
      injection h1 with h1; exact h1.symm
    exact (hchk own this).1
  · intro hempty
    refine ⟨?_, ?_⟩
    · intro hneed
      have hnm : needsMixture args.mixtureType (max 1 args.degree) c.mixture = true := by
        unfold needsMixture
        rw [Bool.and_eq_true]
        refine ⟨?_, by rcases hempty with h | h <;> simp [h]⟩
        rcases hneed with h | h | h
        · simp [h]
        · simp [h]
        · simp only [Bool.or_eq_true, decide_eq_true_eq]; right; omega
      unfold mixtureInUse at h1
      rw [if_pos hnm] at h1
      cases hi : inferChunkMixture c.content with
      | error e => rw [hi] at h1; cases h1
      | ok mi =>
        rw [hi] at h1
        injection h1 with h1
        obtain ⟨h3, h4⟩ := hchk mi h1.symm
        have hx := inferChunk_exact hn hi
        rw [dropZeros_eq] at h4
        show m = _
        rw [h3, ← hx]
        congr 1
        have hl : (mi.filter fun kv => decide (0 < kv.2)).length = mi.length := by
          unfold sameKeys at h4
          rw [Bool.and_eq_true, beq_iff_eq] at h4
          have h5 := h4.1
          rw [Dict.keys, List.length_map] at h5
          rw [h5, hx]
          simp [sampleCounts, Dict.keys]
        exact List.filter_eq_self.mpr (List.length_filter_eq_length_iff.mp hl)
    · intro hs hd
      have hnm : needsMixture args.mixtureType (max 1 args.degree) c.mixture = false := by
        unfold needsMixture
        rw [hs, show max 1 args.degree = 1 by omega]
        rfl
      unfold mixtureInUse at h1
      rw [if_neg (by rw [hnm]; decide)] at h1
      injection h1 with h1
      subst h1
      show m = _
      rcases hempty with h | h
      · rw [h] at h2; injection h2 with h2; rw [h, h2]
      · rw [(hchk [] h).1, h]; rfl

/-- **C76** (zero-valued keys). The full statement is false of the code: if the mixture reported with a delivered chunk
gives a key zero samples, although the query still has samples that match this key, then the chunk cannot be configured,
whatever the (valid) arguments: the client raises an error. Such mixtures come from small weights and small chunks. -/
theorem c76_zero_row_fails (ops : KeyOps K) (replay : Bool) (index : Dict K Entries) (order : List K)
    (hi : IndexOk index order) (history : List (Req K)) (hh : ∀ r ∈ history, HeapOk r.heap)
    (r : Req K) (hr : HeapOk r.heap) (g g' : Gen K) (c : RChunk K)
    (hg : g = after ops replay index order history)
    (h : g.send ops r.fuel replay r.heap r.mix r.target = (g', .chunk c))
    (hrow : ∃ x ∈ (g.eff r).rows.values, x ≠ 0)
    (m : Dict K Nat) (hm : c.mixture = some m) (k : K) (hk : m.get? k = some 0)
    (comp : K) (hcomp : comp ∈ g'.iters.keys) (hmatch : ops.isMatch k comp = true) (hleft : samples (itOf g'.iters comp) ≠ [])
    (isStub : Bool) (loads : Nat → Bool) (args : StreamArgs) (hv : ValidArgs isStub loads args) :
    configureChunk isStub loads args c = .error .runtimeError := by
  have hgi : GenInv g := hg ▸ after_inv ops replay hi history hh
  obtain ⟨g1, _, _, ⟨_, hmx⟩ | ⟨h0, -⟩⟩ := chunk_facts ops replay hgi r hr h
  · obtain ⟨m', h1, h2, h3, h4, -, -, -, -, -, h10⟩ := mix_listed (hr _) hmx
    rw [hm] at h1; cases h1
    have hin : k ∈ c.content.keys := by
      rcases h10 hrow k ((Dict.mem_keys_iff _ _).mpr ⟨_, hk⟩) with h | h
      · exact h
      · exact absurd (h comp hcomp hmatch) hleft
    have hno : ¬ sameKeys (dropZeros m).keys c.content.keys = true := by
      obtain ⟨d1, d2⟩ := dropZeros_keys h3
      rw [sameKeys_iff d1 h4]
      intro hall
      obtain ⟨n, hn, hgn⟩ := (d2 k).mp ((hall k).mpr hin)
      rw [hk] at hgn
      cases hgn
      omega
    have hmi : ∀ d : Int, mixtureInUse args.mixtureType d c = .ok (some m) := fun d => mixtureInUse_some hm h2
    have hck : checkedMixture c.content (some m) = .error .runtimeError := by
      unfold checkedMixture
      exact if_neg hno
    unfold configureChunk
    rw [if_neg (not_not.mpr hv.kind), if_neg (by
      rintro ⟨h1, h2⟩
      have := hv.tunnel h1
      rw [h2] at this; cases this)]
    simp only [hmi, hck]
  · rw [h0] at hrow
    simp [Dict.values] at hrow

/-! ## Reading -/

section read
variable {α : Type}

/-- `it` gives, for every key of the chunk, its samples in some order: this is what a single process
(`c76_single_process`) and what reader processes (`c41_chunk_samples_partial`) make of a key's files. -/
def Streams (line : Pos → α) (content : Dict K Entries) (it : K → List α) : Prop :=
  ∀ k ∈ content.keys, (it k).Perm ((keySamples content k).map line)

/-- **C76** (one process). Without reader processes, the stream of a key has exactly the samples at the positions that the
chunk lists under the key. -/
theorem c76_single_process (shuffle : K → List (Nat × Nat × List Rng) → List (Nat × Nat × List Rng))
    (hsh : ∀ k l, (shuffle k l).Perm l) (line : Pos → α) (content : Dict K Entries) :
    Streams line content (keyStream shuffle line content) := by
  intro k _
  have h := (c41_workload (shuffle k) (hsh k) ((content.get? k).getD [])).map line
  rw [List.map_flatMap] at h
  refine List.Perm.trans (List.Perm.of_eq ?_) h
  unfold keyStream
  apply List.flatMap_congr
  intro w _
  unfold readRanges Seg.samples
  rw [List.map_flatMap]
  apply List.flatMap_congr
  intro r _
  simp only [List.map_map, Function.comp_def]

theorem content_perm {line : Pos → α} {content : Dict K Entries} (hn : content.keys.Nodup) {it : K → List α}
    (hst : Streams line content it) {out : List (K × α)} (h1 : ∀ k ∈ content.keys, samplesOf k out = it k)
    (h2 : ∀ q ∈ out, q.1 ∈ content.keys) : (out.map Prod.snd).Perm ((contentSamples content).map line) := by
  refine (perm_by_keys content.keys hn out h2).trans ?_
  have h3 : (contentSamples content).map line = content.keys.flatMap fun k => (keySamples content k).map line := by
    unfold contentSamples Dict.keys
    rw [List.map_flatMap, List.flatMap_map]
    apply List.flatMap_congr
    rintro ⟨k, e⟩ hke
    rw [keySamples, Dict.get?_of_mem hn hke]
    rfl
  rw [h3, List.flatMap_congr h1]
  exact List.Perm.flatMap_left _ hst

/-- **C76** (reading a chunk). For every delivered chunk of a sound request, every shuffle and every valid arguments
without windows: the chunk can be configured, iterating it ends, every key's samples come in the order of its stream, and
altogether exactly the samples that the chunk lists are yielded, each once. -/
theorem c76_read_partial (ops : KeyOps K) (replay : Bool) (index : Dict K Entries) (order : List K)
    (hi : IndexOk index order) (history : List (Req K)) (hh : ∀ r ∈ history, HeapOk r.heap)
    (r : Req K) (hr : HeapOk r.heap) (g g' : Gen K) (c : RChunk K)
    (hg : g = after ops replay index order history)
    (h : g.send ops r.fuel replay r.heap r.mix r.target = (g', .chunk c)) (hs : SoundRequest (g.eff r))
    (isStub : Bool) (loads : Nat → Bool) (args : StreamArgs) (hv : ValidArgs isStub loads args)
    (hkind : args.mixtureType = "simple")
    (mixKeys : List K → List K) (hmk : ∀ l, (mixKeys l).Perm l) (mixCounts : List (K × Int) → List (K × Int))
    (line : Pos → α) (it : K → List α) (hst : Streams line c.content it) :
    ∃ cfg out n, configureChunk isStub loads args c = .ok cfg ∧
      (∀ fuel, n ≤ fuel → iterateChunk mixKeys mixCounts cfg c it fuel = .ok out) ∧
      (∀ k ∈ c.content.keys, samplesOf k out = it k) ∧
      (out.map Prod.snd).Perm ((contentSamples c.content).map line) := by
  obtain ⟨hnd, -, -⟩ := delivered_reads ops replay hi hh hr hg h hs args.mixtureType (max 1 args.degree)
  obtain ⟨cfg, hcfg⟩ := (c76_configures_partial ops replay index order hi history hh r hr g g' c hg h hs isStub loads args).mpr hv
  obtain ⟨out, n, h1, h2, h3⟩ := c38_every_sample_once (mixKeys c.content.keys) it ((hmk _).nodup_iff.mpr hnd)
  have h2' : ∀ k ∈ c.content.keys, samplesOf k out = it k := fun k hk => h2 k ((hmk _).mem_iff.mpr hk)
  refine ⟨cfg, out, n, hcfg, ?_, h2', content_perm hnd hst h2' fun q hq => (hmk _).mem_iff.mp (h3 q hq)⟩
  intro fuel hf
  have hk := (c76_settings isStub loads args c cfg hcfg).1
  unfold iterateChunk
  rw [if_neg (by rw [hk, hkind]; decide), h1 fuel hf]

/-- The element counts of a delivered chunk that is read by windows. -/
theorem chunk_counts {mm : Dict K Nat} {content : Dict K Entries} (W chunk : Nat) (hc : 0 < chunk) (hne : mm ≠ [])
    (hd : DescribesChunk mm content) (hsum : mm.values.sum ≤ chunk) (cs : List (K × Int))
    (hcs : cs.Perm (elementCounts W chunk mm)) :
    (cs.map Prod.fst).Perm mm.keys ∧ (cs.map Prod.snd).sum = (W : Int) ∧ (∀ p ∈ cs, 0 ≤ p.2) ∧
      ((∀ kv ∈ mm, chunk ≤ W * kv.2) → ∀ p ∈ cs, 1 ≤ p.2) ∧
      (∀ p ∈ cs, ∃ v, (p.1, v) ∈ mm ∧ ((W * v / chunk : Nat) : Int) ≤ p.2) := by
  obtain ⟨⟨k, v⟩, l, rfl⟩ := List.exists_cons_of_ne_nil hne
  obtain ⟨h1, h2, h3, h4, n, h5, h6⟩ := c39_counts W chunk hc k v l hsum
  have hform : elementCounts W chunk ((k, v) :: l) = (k, n) :: l.map (fun kv => (kv.1, ((W * kv.2 / chunk : Nat) : Int))) := by
    rw [← List.cons_head?_tail h5, h4]
  have hshare : ∀ p ∈ cs, ∃ v', (p.1, v') ∈ (k, v) :: l ∧ ((W * v' / chunk : Nat) : Int) ≤ p.2 := by
    intro p hp
    have hp' := hcs.mem_iff.mp hp
    rw [hform] at hp'
    rcases List.mem_cons.mp hp' with rfl | hp'
    · exact ⟨v, by simp, h6⟩
    · obtain ⟨kv, hkv, rfl⟩ := List.mem_map.mp hp'
      exact ⟨kv.2, by simp [hkv], le_rfl⟩
  refine ⟨(hcs.map _).trans (List.Perm.of_eq h1), ?_, fun p hp => h3 p (hcs.mem_iff.mp hp), ?_, hshare⟩
  · rw [(hcs.map Prod.snd).sum_eq]; exact h2
  · intro hall p hp
    obtain ⟨v', hv', hle⟩ := hshare p hp
    have h7 : 1 ≤ W * v' / chunk := (Nat.one_le_div_iff hc).mpr (hall _ hv')
    omega

/-- What a delivered chunk of a sound request is configured with. -/
theorem configured_mixture (ops : KeyOps K) (replay : Bool) {index : Dict K Entries} {order : List K}
    (hi : IndexOk index order) {history : List (Req K)} (hh : ∀ r ∈ history, HeapOk r.heap)
    {r : Req K} (hr : HeapOk r.heap) {g g' : Gen K} {c : RChunk K}
    (hg : g = after ops replay index order history)
    (h : g.send ops r.fuel replay r.heap r.mix r.target = (g', .chunk c)) (hs : SoundRequest (g.eff r))
    {isStub : Bool} {loads : Nat → Bool} {args : StreamArgs} {cfg : Configured K}
    (hcfg : configureChunk isStub loads args c = .ok cfg)
    (hkind : args.mixtureType = "window" ∨ args.mixtureType = "token") :
    c.content.keys.Nodup ∧ c.chunkSize = (g.eff r).chunkSize ∧ ∃ mm, cfg.mixture = some mm ∧ mm ≠ [] ∧
      DescribesChunk mm c.content ∧
      ((g.eff r).rows.values.sum ≤ (g.eff r).chunkSize → mm.values.sum ≤ (g.eff r).chunkSize) := by
  obtain ⟨hnd, hsz, m, h1, h2, h3, h4⟩ := delivered_reads ops replay hi hh hr hg h hs args.mixtureType (max 1 args.degree)
  obtain ⟨-, m0, m', e1, e2, rfl⟩ := (configure_ok_iff ..).mp hcfg
  rw [h1] at e1; cases e1
  rw [h2] at e2; cases e2
  cases m with
  | none => exact absurd rfl (h3 hkind)
  | some mm =>
    obtain ⟨h5, h6, h7⟩ := h4 mm rfl
    exact ⟨hnd, hsz, mm, rfl, h5, h6, h7⟩

open Classical in
/-- **C76** (reading by windows). For every delivered chunk of a sound request that does not ask for more rows than the
size of its chunks, and valid arguments with windows: the chunk can be configured with the mixture that it truly has, and
in the order in which the counts are shuffled
- with best effort, if every key's share of a window is at least one sample, iterating ends and yields exactly the samples
  that the chunk lists, each once, key by key in order;
- without best effort, iterating ends and yields complete windows, each with the counted number of samples of every key,
  and then at most one more; of every key a prefix of its stream is yielded.

Partial: see `c39_best_effort_stuck` for smaller shares. -/
theorem c76_windows_partial (ops : KeyOps K) (replay : Bool) (index : Dict K Entries) (order : List K)
    (hi : IndexOk index order) (history : List (Req K)) (hh : ∀ r ∈ history, HeapOk r.heap)
    (r : Req K) (hr : HeapOk r.heap) (g g' : Gen K) (c : RChunk K)
    (hg : g = after ops replay index order history)
    (h : g.send ops r.fuel replay r.heap r.mix r.target = (g', .chunk c)) (hs : SoundRequest (g.eff r))
    (hsize : 0 < (g.eff r).chunkSize) (hrows : (g.eff r).rows.values.sum ≤ (g.eff r).chunkSize)
    (isStub : Bool) (loads : Nat → Bool) (args : StreamArgs) (hv : ValidArgs isStub loads args)
    (hkind : args.mixtureType = "window")
    (mixKeys : List K → List K) (mixCounts : List (K × Int) → List (K × Int)) (hmc : ∀ l, (mixCounts l).Perm l)
    (line : Pos → α) (it : K → List α) (hst : Streams line c.content it) :
    ∃ cfg mm W cs, configureChunk isStub loads args c = .ok cfg ∧ cfg.mixture = some mm ∧ cfg.window = ((W : Nat) : Int) ∧
      0 < W ∧ DescribesChunk mm c.content ∧ cs = mixCounts (elementCounts W c.chunkSize mm) ∧
      (cfg.bestEffort = true → (∀ kv ∈ mm, c.chunkSize ≤ W * kv.2) → ∃ out n,
        (∀ fuel, n ≤ fuel → iterateChunk mixKeys mixCounts cfg c it fuel = .ok out) ∧
        (∀ k ∈ c.content.keys, samplesOf k out = it k) ∧ (out.map Prod.snd).Perm ((contentSamples c.content).map line)) ∧
      (cfg.bestEffort = false → ∃ n,
        (∀ fuel, n + 1 ≤ fuel →
          iterateChunk mixKeys mixCounts cfg c it fuel = .ok ((List.range (n + 1)).flatMap (windowAt W cs it))) ∧
        (∀ w < n, (windowAt W cs it w).length = W ∧
          ∀ p ∈ cs, ((samplesOf p.1 (windowAt W cs it w)).length : Int) = p.2) ∧
        ∀ k ∈ c.content.keys, samplesOf k ((List.range (n + 1)).flatMap (windowAt W cs it)) <+: it k) := by
  obtain ⟨cfg, hcfg⟩ := (c76_configures_partial ops replay index order hi history hh r hr g g' c hg h hs isStub loads args).mpr hv
  obtain ⟨hnd, hsz, mm, hmm, hne, hd, hsum⟩ := configured_mixture ops replay hi hh hr hg h hs hcfg (.inl hkind)
  obtain ⟨hk, -, -, -, hw, -⟩ := c76_settings isStub loads args c cfg hcfg
  have hW1 := (hw hkind).2.1
  obtain ⟨W, hW⟩ : ∃ W : Nat, cfg.window = (W : Int) := ⟨cfg.window.toNat, by omega⟩
  have hWn : cfg.window.toNat = W := by omega
  have hW0 : 0 < W := by omega
  have hsz0 : 0 < c.chunkSize := by omega
  obtain ⟨p1, p2, p3, p4, -⟩ := chunk_counts W c.chunkSize hsz0 hne hd (by rw [hsz]; exact hsum hrows)
    (mixCounts (elementCounts W c.chunkSize mm)) (hmc _)
  generalize hcs : mixCounts (elementCounts W c.chunkSize mm) = cs at p1 p2 p3 p4
  have hndc : (cs.map Prod.fst).Nodup := p1.nodup_iff.mpr hd.nodup
  have hkeys : ∀ k, k ∈ cs.map Prod.fst ↔ k ∈ c.content.keys := fun k => p1.mem_iff.trans (hd.keys k)
  have hsame : sameKeys (cs.map Prod.fst) c.content.keys = true := (sameKeys_iff hndc hnd).mpr hkeys
  have hiter : ∀ fuel out, iterateWindows W cfg.bestEffort cs it fuel = some out →
      iterateChunk mixKeys mixCounts cfg c it fuel = .ok out := by
    intro fuel out ho
    unfold iterateChunk
    rw [if_pos (by rw [hk]; exact .inr hkind), hmm]
    simp only [hWn, hcs]
    rw [if_pos hsame, ho]
  refine ⟨cfg, mm, W, cs, hcfg, hmm, hW, hW0, hd, hcs.symm, ?_, ?_⟩
  · intro hbe hall
    obtain ⟨N, out, q1, -, q3, q4⟩ := c39_best_effort_partial hndc (p4 hall) p2 it
    have q3' : ∀ k ∈ c.content.keys, samplesOf k out = it k := by
      intro k hk
      obtain ⟨p, hp, rfl⟩ := List.mem_map.mp ((hkeys k).mpr hk)
      exact q3 p hp
    refine ⟨out, N, fun fuel hf => hiter fuel out (by rw [hbe]; exact q1 fuel hf), q3', ?_⟩
    exact content_perm hnd hst q3' fun q hq => (hkeys _).mp (q4 q hq)
  · intro hbe
    obtain ⟨n, q1, q2, -⟩ := c39_strict hW0 hndc p3 p2 it
    refine ⟨n, fun fuel hf => hiter fuel _ (by rw [hbe]; exact q1 fuel hf), q2, ?_⟩
    intro k hk
    obtain ⟨⟨k', cnt⟩, hp, rfl⟩ := List.mem_map.mp ((hkeys k).mpr hk)
    rw [c39_no_repeats hndc p3 p2 it (n + 1) hp]
    exact List.take_prefix _ _

end read

/-! ## Examples -/

namespace Ex

/-- Valid arguments: windows of four samples. -/
def winArgs : StreamArgs := ⟨false, 0, "window", 4, true, "", -1, 100⟩

def simpleArgs : StreamArgs := ⟨false, 1, "simple", 128, true, "", -1, 100⟩

def twoArgs : StreamArgs := ⟨false, 2, "simple", 128, true, "", -1, 100⟩

example : ValidArgs false (fun _ => false) winArgs ∧ ValidArgs false (fun _ => false) simpleArgs := by
  constructor <;> exact ⟨by decide, by decide, by decide⟩

example : SoundRequest strictMix ∧ SoundRequest bestMix ∧ SoundRequest arbMix := by
  refine ⟨⟨by decide, by decide⟩, ⟨by decide, by decide⟩, ⟨by decide, by decide⟩⟩

instance : DecidableEq (Int × Int × Option (List (Nat × Nat))) := instDecidableEqProd

/-- The settings and the mixture of a configured chunk, for comparison. -/
def seeCfg (o : Out Nat) (args : StreamArgs) : Option (Int × Int × Option (List (Nat × Nat))) :=
  match o with
  | .chunk c => match configureChunk false (fun _ => false) args c with
    | .ok cfg => some (cfg.degree, cfg.window, cfg.mixture)
    | .error _ => none
  | _ => none

/-- The three kinds of chunk, configured for windows: the mixture of the chunk without mixture is inferred. -/
example : ((Gen.init index order).play ops false [req strictMix 0, req strictMix 1, req bestMix 2, req arbMix 3]).2.map
      (fun o => seeCfg o winArgs) =
    [some (1, 4, some [(1, 3), (2, 2)]), some (1, 4, some [(1, 3), (2, 2)]), some (1, 4, some [(2, 4), (1, 1)]),
     some (1, 4, some [(2, 2)])] := by
  decide +kernel

/-- `c76_mixture`: the arbitrary mixture's chunk has no mixture of its own; read by one process as `"simple"` it gets none, by two
processes it gets its numbers of samples. -/
example : ((Gen.init index order).play ops false [req arbMix 0]).2.map (fun o => seeCfg o simpleArgs) = [some (1, 128, none)] ∧
    ((Gen.init index order).play ops false [req arbMix 0]).2.map (fun o => seeCfg o twoArgs) = [some (2, 128, some [(11, 4)])] := by
  decide +kernel

/-- A mixture with a key whose share of a chunk of ten is less than half a sample. -/
example : staticMixture 3 [(1, (9 : ℚ) / 10), (2, 1 / 10)] = .ok [(1, 3), (2, 0)] := by decide +kernel

def zeroMix : MixView Nat := ⟨[(1, 3), (2, 0)], true, 3⟩

/-- `c76_zero_row_fails`: the chunk of this mixture lists key 2, with an empty range, and cannot be configured. -/
example : ((Gen.init index order).play ops false [req zeroMix 0]).2.map see =
      [some [(1, [(0, 0, 0), (0, 0, 3), (0, 0, 4)]), (2, [])]] ∧
    ((Gen.init index order).play ops false [req zeroMix 0]).2.map (fun o => seeCfg o simpleArgs) = [none] ∧
    samples (itOf ((Gen.init index order).play ops false [req zeroMix 0]).1.iters 2) ≠ [] ∧ ops.isMatch 2 2 = true := by
  decide +kernel

end Ex

end Mixtera
