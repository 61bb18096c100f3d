import Verif.Props.Training
import Verif.Props.EndToEndAny

/-!
# C79 for arbitrary property values

`c79_database_partial` assumes property names and values without separators, and value lists in one order. None of that is
needed for what a training run must never do.
-/

set_option linter.unusedSectionVars false

namespace Mixtera.Torch

/-- **C79** (database, any values). For every database content - with arbitrary property names and values -, query,
mixtures, and history of the loaders: executing the query gives a query result with which no loader hands over a sample
twice, loaders of different groups or worker numbers hand over different samples, every sample that is handed over is
registered and satisfies the query, and the key that its number stands for describes the key of the sample's text. -/
theorem c79_database_any_values (db : Db) (hwf : db.WF) (ht : ∀ r ∈ db.samples, Conforms db.columns r.sqlRow)
    (sels : List (List Cond)) (hq : GoodQuery db sels)
    (q : Sel) (hb : buildQuery sels = some q) (leG : Group → Group → Bool) (hle : TotalOrder leG)
    (split : List TRow → List (List TRow)) (hsplit : ∀ l, (split l).flatten = l)
    (reorder : CppIndex → CppIndex) (hre : ∀ i xs, Describes i xs → SameIndex i (reorder i))
    (threads : Int) (hth : 0 ≤ threads) :
    ∃ idx, queryIndex leG split reorder ckeyOf threads db q = .ok idx ∧
      ∀ (order : List CKey), order.Perm idx.keys → ∀ (fuel : Nat) (read : RChunk CKey → List (CKey × Pos)),
        (∀ c, Deliverable ckeyOps idx order c → ReadsSome read c) →
        ∀ (v : MixView CKey), UsableMix v → ∀ (stopOnNone : Bool) (ref groups nodes workers : Nat)
          (d : Dist (Sess CKey) (Parcel CKey Pos)),
        Dist.init groups nodes workers (Sess.fresh ckeyOps idx order stopOnNone ref v) = .ok d →
        ∀ es : List (TEv (MixOp CKey)), (∀ e ∈ es, e.Valid groups nodes (effWorkers workers)) →
        UsableOps (idx.keys ++ v.rows.keys) (mixOps es) →
        ∀ t : Train (Sess CKey) CKey Pos, t = ((Train.start d).run (resultSource ckeyOps fuel read) es).1 →
        (∀ r, ((t.loaders r).out.map Prod.snd).Nodup) ∧
        (∀ r r', r.group ≠ r'.group ∨ r.worker ≠ r'.worker →
          ∀ p, p ∈ (t.loaders r).out.map Prod.snd → p ∉ (t.loaders r').out.map Prod.snd) ∧
        ∀ r, ∀ x ∈ (t.loaders r).out, ∃ row ∈ db.samples, (row.dataset, row.file, row.sample) = x.2 ∧ row.Wanted sels ∧
          ∃ k : CKey, t.dist.src.keyIds.get? k = some x.1 ∧ ∀ n vs, k.1.get? n = some vs →
            ∃ ws, (ckeyOf (row.text db)).1.get? n = some ws ∧ ((∃ u, u ∈ vs ∧ u ∈ ws) ∨ (vs = [] ∧ ws = [])) := by
  obtain ⟨idx, kept, h1, hok, hnd, _, _, hks⟩ := c63_index_any_values db hwf ht sels hq q hb leG hle split hsplit reorder
    hre threads hth
  refine ⟨idx, h1, ?_⟩
  intro order ho fuel read hr v hv b ref G N W d hd es he hu t ht
  have hi := hok order ho
  obtain ⟨a1, a2, a3⟩ := c79_once ckeyOps fuel idx order hi hnd read hr v hv b ref G N W d hd es he hu t ht
  refine ⟨a1, a2, ?_⟩
  rintro r ⟨i, p⟩ hx
  obtain ⟨k, hk, _, comp, e, hmem, hpe, hmatch⟩ := c79_key_ids ckeyOps fuel idx order hi read hr v hv b ref G N W d hd es he hu
    t ht r i p hx
  have hpc : p ∈ keySamples idx comp := by
    unfold keySamples; rw [Dict.get?_of_mem hi.keys hmem]; exact hpe
  obtain ⟨row, hrow, er, hw, hcomp, _⟩ := (hks comp p).mp hpc
  refine ⟨row, hrow, er, hw, k, hk, ?_⟩
  rw [hcomp]
  intro n vs hvs
  rcases hmatch with rfl | hmatch
  · refine ⟨vs, hvs, ?_⟩
    cases vs with
    | nil => exact Or.inr ⟨rfl, rfl⟩
    | cons u us => exact Or.inl ⟨u, by simp, by simp⟩
  · exact (c28_match_iff k.1 comp.1 k.2.1).mp hmatch n vs hvs

/-- **C79** (database, completeness, any values). With ArbitraryMixture: when the stream is over, no request failed and all
received samples were handed over, every registered sample that satisfies the query was handed over by some loader -
provided that no two texts of wanted samples have the same Python key. -/
theorem c79_database_complete_any_values (db : Db) (hwf : db.WF) (ht : ∀ r ∈ db.samples, Conforms db.columns r.sqlRow)
    (sels : List (List Cond)) (hq : GoodQuery db sels) (hdist : TextsDistinct db sels)
    (q : Sel) (hb : buildQuery sels = some q) (leG : Group → Group → Bool) (hle : TotalOrder leG)
    (split : List TRow → List (List TRow)) (hsplit : ∀ l, (split l).flatten = l)
    (reorder : CppIndex → CppIndex) (hre : ∀ i xs, Describes i xs → SameIndex i (reorder i))
    (threads : Int) (hth : 0 ≤ threads) :
    ∃ idx, queryIndex leG split reorder ckeyOf threads db q = .ok idx ∧
      ∀ (order : List CKey), order.Perm idx.keys → ∀ (fuel : Nat) (read : RChunk CKey → List (CKey × Pos)),
        (∀ c, Deliverable ckeyOps idx order c → ReadsOnce read c) →
        ∀ (size : Nat), 0 < size → ∀ (stopOnNone : Bool) (groups nodes workers : Nat)
          (d : Dist (Sess CKey) (Parcel CKey Pos)),
        Dist.init groups nodes workers (Sess.fresh ckeyOps idx order stopOnNone 0 (arbView size)) = .ok d →
        ∀ es : List (TEv (MixOp CKey)), (∀ e ∈ es, e.Valid groups nodes (effWorkers workers)) → mixOps es = [] →
        ∀ (t : Train (Sess CKey) CKey Pos) (as : List (DReq × Ans (Parcel CKey Pos))),
        (Train.start d).run (resultSource ckeyOps fuel read) es = (t, as) →
        (∃ r, (r, Ans.stop) ∈ as) → (∀ r e, (r, Ans.raised e) ∉ as) → (∀ r, (t.loaders r).pending = []) →
        ∀ row ∈ db.samples, row.Wanted sels → ∃ r, (row.dataset, row.file, row.sample) ∈ (t.loaders r).out.map Prod.snd := by
  obtain ⟨idx, kept, h1, hok, hnd, hkeys, hch, hks⟩ := c63_index_any_values db hwf ht sels hq q hb leG hle split hsplit reorder
    hre threads hth
  refine ⟨idx, h1, ?_⟩
  intro order ho fuel read hr size hs b G N W d hd es he hu t as ht hstop hno hend row hrow hw
  have hi := hok order ho
  refine c79_complete ckeyOps fuel idx order hi read hr size hs b G N W d hd es he hu t as ht hstop hno hend _ ?_
  rw [mem_contentSamples hi.keys]
  obtain ⟨h2, r', hr', hw', h3⟩ := hch _ ((hkeys _).mpr ⟨row, hrow, hw, rfl⟩)
  refine ⟨_, (hks _ _).mpr ⟨row, hrow, rfl, hw, rfl, ?_⟩⟩
  rw [← h3]
  exact hdist row hrow r' hr' hw hw' (by rw [h3, h2])

/-- **C79** (database, value orders). Samples may list the same values in different orders. For every database content, query, mixtures, and history of the loaders: executing the query gives a
query result with which no loader hands over a sample twice, loaders of different groups or worker numbers hand over different
samples, every sample that is handed over is registered and satisfies the query, and the key that its number stands for
describes it: of every property of the key the sample has one of the values (or both have none). -/
theorem c79_database_value_orders (db : Db) (hwf : db.WF) (hp : ReadableDb db) (sels : List (List Cond))
    (hq : GoodQuery db sels)
    (q : Sel) (hb : buildQuery sels = some q) (leG : Group → Group → Bool) (hle : TotalOrder leG)
    (split : List TRow → List (List TRow)) (hsplit : ∀ l, (split l).flatten = l)
    (reorder : CppIndex → CppIndex) (hre : ∀ i xs, Describes i xs → SameIndex i (reorder i))
    (threads : Int) (hth : 0 ≤ threads) :
    ∃ idx, queryIndex leG split reorder ckeyOf threads db q = .ok idx ∧
      ∀ (order : List CKey), order.Perm idx.keys → ∀ (fuel : Nat) (read : RChunk CKey → List (CKey × Pos)),
        (∀ c, Deliverable ckeyOps idx order c → ReadsSome read c) →
        ∀ (v : MixView CKey), UsableMix v → ∀ (stopOnNone : Bool) (ref groups nodes workers : Nat)
          (d : Dist (Sess CKey) (Parcel CKey Pos)),
        Dist.init groups nodes workers (Sess.fresh ckeyOps idx order stopOnNone ref v) = .ok d →
        ∀ es : List (TEv (MixOp CKey)), (∀ e ∈ es, e.Valid groups nodes (effWorkers workers)) →
        UsableOps (idx.keys ++ v.rows.keys) (mixOps es) →
        ∀ t : Train (Sess CKey) CKey Pos, t = ((Train.start d).run (resultSource ckeyOps fuel read) es).1 →
        (∀ r, ((t.loaders r).out.map Prod.snd).Nodup) ∧
        (∀ r r', r.group ≠ r'.group ∨ r.worker ≠ r'.worker →
          ∀ p, p ∈ (t.loaders r).out.map Prod.snd → p ∉ (t.loaders r').out.map Prod.snd) ∧
        ∀ r, ∀ x ∈ (t.loaders r).out, ∃ row ∈ db.samples, (row.dataset, row.file, row.sample) = x.2 ∧ row.Wanted sels ∧
          ∃ k : CKey, t.dist.src.keyIds.get? k = some x.1 ∧ ∀ n vs, k.1.get? n = some vs → ∃ ws, row.prop db n = some ws ∧
            ((∃ u, u ∈ vs ∧ u ∈ ws) ∨ (vs = [] ∧ ws = [])) := by
  obtain ⟨idx, kept, h1, hok, _, hnd, _, hks⟩ := c63_index_value_orders db hwf hp sels hq q hb leG hle split hsplit reorder hre threads
    hth
  refine ⟨idx, h1, ?_⟩
  intro order ho fuel read hr v hv b ref G N W d hd es he hu t ht
  have hi := hok order ho
  obtain ⟨a1, a2, a3⟩ := c79_once ckeyOps fuel idx order hi hnd read hr v hv b ref G N W d hd es he hu t ht
  refine ⟨a1, a2, ?_⟩
  rintro r ⟨i, p⟩ hx
  obtain ⟨k, hk, _, comp, e, hmem, hpe, hmatch⟩ := c79_key_ids ckeyOps fuel idx order hi read hr v hv b ref G N W d hd es he hu
    t ht r i p hx
  have hpc : p ∈ keySamples idx comp := by
    unfold keySamples; rw [Dict.get?_of_mem hi.keys hmem]; exact hpe
  obtain ⟨row, hrow, er, hw, hhas, _⟩ := (hks comp p).mp hpc
  exact ⟨row, hrow, er, hw, k, hk, described hhas hmatch⟩

/-- Non-vacuity: the databases, queries and orders of the examples of C63 (arbitrary values), and the loaders of C79. -/
example : e2eOddDb.samples.length = 9 ∧ (buildQuery e2eDeSels).isSome = true ∧
    (∀ c, Deliverable Ex.ops Ex.index Ex.order c → ReadsOnce exRead c) := ⟨rfl, by decide, exRead_ok⟩

end Mixtera.Torch
